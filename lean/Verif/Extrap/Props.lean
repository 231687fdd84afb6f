import Verif.Extrap.Model
import Verif.Extrap.Lsq
import Verif.Toep.Props
import Verif.Fft.LibProps

/-! # Short operators are the best operators of their length -/

namespace Verif.Extrap

open Verif Verif.Toep Finset Complex

noncomputable section

/-! ## Loops -/

theorem setLoop {cnt b : ℕ} {body : ℕ → (ℕ → ℂ) → Option (ℕ → ℂ)} {v : ℕ → ℂ}
    (hb : ∀ i < cnt, ∀ a, body i a = some (fun k => if k = b + i then v i else a k)) (a : ℕ → ℂ) :
    ∃ a', forNM cnt body a = some a' ∧ ∀ k, a' k = if b ≤ k ∧ k < b + cnt then v (k - b) else a k := by
  refine forNM_inv (P := fun i (z : ℕ → ℂ) => ∀ k, z k = if b ≤ k ∧ k < b + i then v (k - b) else a k)
    (fun k => by rw [if_neg (by omega)]) (fun i hi z hz => ⟨_, hb i hi z, fun k => ?_⟩)
  by_cases h : k = b + i
  · rw [if_pos h, if_pos (by omega), h, Nat.add_sub_cancel_left]
  · rw [if_neg h, hz k]
    by_cases h' : b ≤ k ∧ k < b + i
    · rw [if_pos h', if_pos (by omega)]
    · rw [if_neg h', if_neg (by omega)]

theorem forNM_first {σ : Type} {n : ℕ} {body : ℕ → σ → Option σ} {s : σ} (h : body 0 s = none) : forNM (n + 1) body s = none := by
  induction n with
  | zero => rw [forNM_succ, forNM_zero]; exact h
  | succ n ih => rw [forNM_succ, ih]; rfl

/-! ## Weighted least squares -/

/-- The index of a sample of the transform at lag `j - (opl-1)/2`. -/
theorem wrapIdx {nkx opl i : ℕ} (ho : opl ≤ nkx) (hi : i < opl) (k : ℕ) :
    ex nkx (-(((if i < (opl - 1) / 2 then nkx - (opl - 1) / 2 + i else i - (opl - 1) / 2 : ℕ) : ℤ))) k = ex nkx (-lag opl i) k := by
  unfold lag
  by_cases h : i < (opl - 1) / 2
  · rw [if_pos h, ← ex_period (by omega) (-(((nkx - (opl - 1) / 2 + i : ℕ) : ℤ)))]
    congr 1; omega
  · rw [if_neg h]; congr 1; omega

/-- **C104**: for positive weights the least-squares part of the program returns the operator with the smallest weighted misfit. -/
theorem wlsq_best {nkx opl : ℕ} (hodd : opl % 2 = 1) (h3 : 3 ≤ opl) (ho : opl ≤ nkx) {w : ℕ → ℝ} (hw : ∀ k < nkx, 0 < w k)
    (K : ℕ → ℂ) (junk : Junk) {s : Fft.Lib.St} (hs : Fft.Lib.Hist s) :
    ∃ x s', wlsq nkx opl w K junk s = some (.done x, s') ∧ Fft.Lib.Hist s' ∧ Best nkx opl w K x := by
  obtain ⟨y, s1, e1, H1, hy, -⟩ := Fft.Lib.cc1_fft_dft nkx nkx (by omega) (le_refl _) (-1) (Or.inr rfl) junk.fft1
    (fun i => K i * w i) s hs
  obtain ⟨r, s2, e2, H2, hr, -⟩ := Fft.Lib.cc1_fft_dft nkx nkx (by omega) (le_refl _) (-1) (Or.inr rfl) junk.fft2
    (fun i => (w i : ℂ)) s1 H1
  obtain ⟨a, ea, ha⟩ := setLoop (cnt := (opl - 1) / 2) (b := 0) (v := fun i => y (nkx - (opl - 1) / 2 + i))
    (body := fun i dcy => if (opl - 1) / 2 ≤ nkx then (rd nkx y (nkx - (opl - 1) / 2 + i)).bind fun v => wr opl dcy i v else none)
    (fun i hi a => by
      rw [if_pos (by omega), rd_some (by omega), Option.bind_some, wr_some (by omega), Nat.zero_add]) junk.dcy
  obtain ⟨b, eb, hb⟩ := setLoop (cnt := (opl - 1) / 2 + 1) (b := (opl - 1) / 2) (v := fun i => y i)
    (body := fun i dcy => (rd nkx y i).bind fun v => wr opl dcy ((opl - 1) / 2 + i) v)
    (fun i hi a => by rw [rd_some (by omega), Option.bind_some, wr_some (by omega)]) a
  obtain ⟨c, ec, hc⟩ := setLoop (cnt := opl) (b := 0) (v := fun i => r i)
    (body := fun i dcr => (rd nkx r i).bind fun v => wr opl dcr i v)
    (fun i hi a => by rw [rd_some (by omega), Option.bind_some, wr_some (by omega), Nat.zero_add]) junk.dcr
  have hR : ∀ m < opl, c m = ∑ k ∈ range nkx, (w k : ℂ) * ex nkx (-(m : ℤ)) k := by
    intro m hm
    rw [hc m, if_pos (by omega), Nat.sub_zero, hr m (by omega), dft_ex]
  have hY : ∀ i < opl, b i = ∑ k ∈ range nkx, K k * w k * ex nkx (-lag opl i) k := by
    intro i hi
    have e : b i = y (if i < (opl - 1) / 2 then nkx - (opl - 1) / 2 + i else i - (opl - 1) / 2) := by
      rw [hb i]
      by_cases h : i < (opl - 1) / 2
      · rw [if_neg (by omega), ha i, if_pos (by omega), if_pos h, Nat.sub_zero]
      · rw [if_pos (by omega), if_neg h]
    rw [e, hy _ (by split <;> omega), dft_ex]
    exact sum_congr rfl fun k _ => by rw [wrapIdx ho hi]
  obtain ⟨x, hx, hsol, -⟩ := toeplitz_definite (by omega) (definite ho hw hR) b junk.dcx junk.gh
  refine ⟨x, s2, ?_, H2, best_of_normal ho hw (normal_of_solves hR hY hsol)⟩
  unfold wlsq
  rw [e1]
  simp only [Option.bind_eq_bind, Option.bind_some]
  rw [e2]
  simp only [Option.bind_some]
  rw [ea, Option.bind_some, eb, Option.bind_some, ec, Option.bind_some, hx]

/-! ## Truncation -/

/-- **C104**: truncating the inverse transform is the best operator for equal weights. -/
theorem trunc1D_best {nkx opl len : ℕ} (hodd : opl % 2 = 1) (ho : opl ≤ nkx) (hl : opl ≤ len) (K x0 : ℕ → ℂ) (junk : Fft.Lib.Junk)
    {s : Fft.Lib.St} (hs : Fft.Lib.Hist s) :
    ∃ x s', trunc1D K x0 opl nkx len junk s = some (x, s') ∧ Fft.Lib.Hist s' ∧ Best nkx opl (fun _ => 1) K x ∧
      ∀ i, opl ≤ i → x i = x0 i := by
  obtain ⟨y, s1, e1, H1, hy, -⟩ := Fft.Lib.cc1_fft_dft nkx nkx (by omega) (le_refl _) (-1) (Or.inr rfl) junk K s hs
  obtain ⟨a, ea, ha⟩ := setLoop (cnt := (opl - 1) / 2 + 1) (b := (opl - 1) / 2) (v := fun i => y i * (1 / (nkx : ℂ)))
    (body := fun j x => (rd nkx y j).bind fun v => wr len x ((opl - 1) / 2 + j) (v * (1 / (nkx : ℂ))))
    (fun i hi a => by rw [rd_some (by omega), Option.bind_some, wr_some (by omega)]) x0
  obtain ⟨b, eb, hb⟩ := setLoop (cnt := (opl - 1) / 2) (b := 0) (v := fun j => y (nkx + j - (opl - 1) / 2) * (1 / (nkx : ℂ)))
    (body := fun j x => if (opl - 1) / 2 ≤ nkx + j then
      (rd nkx y (nkx + j - (opl - 1) / 2)).bind fun v => wr len x j (v * (1 / (nkx : ℂ))) else none)
    (fun i hi a => by
      rw [if_pos (by omega), rd_some (by omega), Option.bind_some, wr_some (by omega), Nat.zero_add]) a
  have hX : ∀ i < opl, b i = (∑ k ∈ range nkx, K k * ex nkx (-lag opl i) k) * (1 / (nkx : ℂ)) := by
    intro i hi
    have e : b i = y (if i < (opl - 1) / 2 then nkx - (opl - 1) / 2 + i else i - (opl - 1) / 2) * (1 / (nkx : ℂ)) := by
      rw [hb i]
      by_cases h : i < (opl - 1) / 2
      · rw [if_pos (by omega), if_pos h, Nat.sub_zero, show nkx + i - (opl - 1) / 2 = nkx - (opl - 1) / 2 + i by omega]
      · rw [if_neg (by omega), ha i, if_pos (by omega), if_neg h]
    rw [e, hy _ (by split <;> omega), dft_ex]
    congr 1
    exact sum_congr rfl fun k _ => by rw [wrapIdx ho hi]
  refine ⟨b, s1, ?_, H1, best_of_normal ho (fun _ _ => one_pos) (fun i hi => ?_), fun i hi => ?_⟩
  · unfold trunc1D
    rw [e1]
    simp only [Option.bind_eq_bind, Option.bind_some, if_pos hodd]
    rw [ea, Option.bind_some, eb, Option.bind_some]
  · have hn : (nkx : ℂ) ≠ 0 := by
      have : 0 < nkx := by omega
      exact_mod_cast this.ne'
    rw [sum_congr rfl fun k _ => show ((1 : ℝ) : ℂ) * ex nkx (-lag opl i) k * (response nkx opl b k - K k) =
      response nkx opl b k * ex nkx (-lag opl i) k - K k * ex nkx (-lag opl i) k by push_cast; ring]
    rw [sum_sub_distrib, response_coef ho b hi, hX i hi]
    field_simp
    ring
  · rw [hb i, if_neg (by omega), ha i, if_neg (by omega)]

/-- An operator of even length is written one element too far. -/
theorem trunc1D_even {nkx opl : ℕ} (heven : opl % 2 = 0) (hn : 0 < nkx) (K x0 : ℕ → ℂ) (junk : Fft.Lib.Junk)
    {s : Fft.Lib.St} (hs : Fft.Lib.Hist s) : trunc1D K x0 opl nkx opl junk s = none := by
  obtain ⟨y, s1, e1, H1, -, -⟩ := Fft.Lib.cc1_fft_dft nkx nkx hn (le_refl _) (-1) (Or.inr rfl) junk K s hs
  unfold trunc1D
  rw [e1]
  simp only [Option.bind_eq_bind, Option.bind_some, if_neg (show ¬ opl % 2 = 1 by omega)]
  rw [forNM_succ]
  have : ∀ a : ℕ → ℂ, ((rd nkx y (opl / 2)).bind fun v => wr opl a (opl / 2 + opl / 2) (v * (1 / (nkx : ℂ)))) = none := by
    intro a
    cases rd nkx y (opl / 2) with
    | none => rfl
    | some v => rw [Option.bind_some, wr, if_neg (by omega)]
  cases forNM (opl / 2) (fun j x => (rd nkx y j).bind fun v => wr opl x (opl / 2 + j) (v * (1 / (nkx : ℂ)))) x0 with
  | none => rfl
  | some a => rw [Option.bind_some, this a]; rfl

end

end Verif.Extrap

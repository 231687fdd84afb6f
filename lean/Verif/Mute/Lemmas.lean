import Verif.Mute.Model
import Verif.Mute.Spec
import Mathlib.Tactic.Linarith
import Mathlib.Tactic.Ring

/-! # Helper lemmas for the muting windows -/

namespace Verif.Mute
open Verif Spec

theorem mapj_in {j nt : Int} (h0 : 0 ≤ j) (h1 : j < nt) : mapj j nt = j := by
  unfold mapj; rw [if_neg (by omega), if_neg (by omega)]

/-- A loop that updates cell `p+k` at iteration `k`, seen from cell `x`. -/
theorem forN_cells {α : Type} (n : Nat) (p x : Int) (u : Nat → α → α) (v : α) :
    forN n (fun k v => if x = p + k then u k v else v) v =
      if p ≤ x ∧ x < p + n then u (x - p).toNat v else v := by
  induction n with
  | zero => rw [if_neg (by omega)]; rfl
  | succ n ih =>
    rw [forN_succ, ih]
    by_cases h1 : x = p + n
    · subst h1
      rw [if_pos rfl, if_neg (by omega), if_pos (by omega)]
      congr 1; omega
    · rw [if_neg h1]
      by_cases h2 : p ≤ x ∧ x < p + n
      · rw [if_pos h2, if_pos (by omega)]
      · rw [if_neg h2, if_neg (by omega)]

/-- The action of a loop on a trace, on the cells of the window `[lo,hi)`. -/
noncomputable def winMap (base lo hi : Int) (w : Int → ℝ) (x : Int) (v : ℝ) : ℝ :=
  if base + lo ≤ x ∧ x < base + hi then v * w (x - base - lo) else v

variable {N : Nat} {base nt : Int}

theorem zeroLoop_pw (lo hi : Int) (hb : 0 ≤ base) (hN : base + nt ≤ N) (h0 : 0 ≤ lo)
    (h1 : hi ≤ nt) : PW N (zeroLoop base nt lo hi) (winMap base lo hi (fun _ => 0)) := by
  have := PW.forIM (N := N) (lo := lo) (hi := hi)
    (f := fun j d => d.wr (base + mapj j nt) (0:ℝ))
    (g := fun j x v => if x = base + j then 0 else v)
    (fun j hj1 hj2 => by
      have := PW.set (α := ℝ) (N := N) (i := base + mapj j nt)
        (by rw [mapj_in (by omega) (by omega)]; omega) 0
      rwa [mapj_in (by omega) (by omega)] at this ⊢)
  refine PW.congr this (fun x v => ?_)
  unfold forI winMap
  have h := forN_cells (hi-lo).toNat (base+lo) x (fun _ _ => (0:ℝ)) v
  simp only [Int.add_assoc] at h ⊢
  rw [h]
  by_cases hc : base + lo ≤ x ∧ x < base + hi
  · rw [if_pos hc, if_pos (by omega)]; simp
  · rw [if_neg hc, if_neg (by omega)]

theorem taperLoop_pw (lo hi : Int) (ct : Buf ℝ) (ix : Int → Int)
    (hix : ∀ l, 0 ≤ l → l < hi - lo → 0 ≤ ix l ∧ ix l < ct.size)
    (hb : 0 ≤ base) (hN : base + nt ≤ N) (h0 : 0 ≤ lo) (h1 : hi ≤ nt) :
    PW N (fun d => forIM lo hi (fun j d => (ct.rd (ix (j - lo))).bind fun c =>
    (d.rd (base + mapj j nt)).bind fun v => d.wr (base + mapj j nt) (v * c)) d)
     (winMap base lo hi (fun l => ct.val (ix l))) := by
  have := PW.forIM (N := N) (lo := lo) (hi := hi)
    (f := fun j d => (ct.rd (ix (j - lo))).bind fun c =>
      (d.rd (base + mapj j nt)).bind fun v => d.wr (base + mapj j nt) (v * c))
    (g := fun j x v => if x = base + j then v * ct.val (ix (j - lo)) else v)
    (fun j hj1 hj2 => by
      have hok : ct.ok (ix (j-lo)) := hix _ (by omega) (by omega)
      have := PW.upd (α := ℝ) (N := N) (i := base + mapj j nt)
        (by rw [mapj_in (by omega) (by omega)]; omega) (fun v => v * ct.val (ix (j - lo)))
      simp only [Buf.rd_ok hok, Option.bind_some]
      rwa [mapj_in (by omega) (by omega)] at this ⊢)
  refine PW.congr this (fun x v => ?_)
  unfold forI winMap
  have h := forN_cells (hi-lo).toNat (base+lo) x (fun k v => v * ct.val (ix k)) v
  simp only [Int.add_assoc] at h ⊢
  have e : ∀ k : Nat, lo + (k:Int) - lo = k := fun k => by omega
  simp only [e]
  rw [h]
  by_cases hc : base + lo ≤ x ∧ x < base + hi
  · rw [if_pos hc, if_pos (by omega)]
    congr 3; omega
  · rw [if_neg hc, if_neg (by omega)]

theorem fallLoop_pw (s : Nat) (b : Int) (hb : 0 ≤ base) (hN : base + nt ≤ N) (h0 : 0 ≤ b)
    (h1 : b + s ≤ nt) : PW N (fallLoop (costaper s) base nt b (b+s))
      (winMap base b (b+s) (fun l => fallW s b (b + l))) := by
  have := taperLoop_pw (N := N) (base := base) (nt := nt) b (b+s) (costaper s) (fun l => l)
    (fun l h h' => ⟨h, by show l < ((s:Nat):Int); omega⟩) hb hN h0 h1
  refine PW.congr this (fun x v => ?_)
  unfold winMap
  by_cases hc : base + b ≤ x ∧ x < base + (b + s)
  · rw [if_pos hc, if_pos hc]
    unfold fallW costaper
    beta_reduce
    rw [if_neg (by omega), if_pos (by omega)]
    have e : b + (x - base - b) - b = x - base - b := by omega
    rw [e]
    simp only []
    have e2 : ((x - base - b : Int) + 1 : ℝ) * (Real.pi / (s + 1)) =
      Real.pi * ((x - base - b : Int) + 1) / (s + 1) := by ring
    rw [e2]; ring
  · rw [if_neg hc, if_neg hc]

theorem riseLoop_pw (s : Nat) (e : Int) (hb : 0 ≤ base) (hN : base + nt ≤ N) (h0 : 0 ≤ e - s)
    (h1 : e ≤ nt) : PW N (riseLoop (costaper s) s base nt (e-s) e)
      (winMap base (e-s) e (fun l => riseW s e (e - s + l))) := by
  have := taperLoop_pw (N := N) (base := base) (nt := nt) (e-s) e (costaper s)
    (fun l => s - l - 1)
    (fun l h h' => ⟨by omega, by show s - l - 1 < ((s:Nat):Int); omega⟩) hb hN h0 h1
  refine PW.congr this (fun x v => ?_)
  unfold winMap
  by_cases hc : base + (e - s) ≤ x ∧ x < base + e
  · rw [if_pos hc, if_pos hc]
    unfold riseW costaper
    beta_reduce
    rw [if_neg (by omega), if_pos (by omega)]
    have e1 : e - s + (x - base - (e - s)) - (e - s) = x - base - (e - s) := by omega
    rw [e1]
    simp only []
    have hs : (s:ℝ) + 1 ≠ 0 := by positivity
    have e2 : (((s:Int) - (x - base - (e - s)) - 1 : Int) + 1 : ℝ) * (Real.pi / (s + 1)) =
      Real.pi - Real.pi * ((x - base - (e - s) : Int) + 1) / (s + 1) := by
      push_cast; field_simp; ring
    rw [e2, Real.cos_pi_sub]; ring
  · rw [if_neg hc, if_neg hc]

theorem clearTrace_pw (hb : 0 ≤ base) (hN : base + nt ≤ N) :
    PW N (clearTrace base nt) (winMap base 0 nt (fun _ => 0)) := by
  have := PW.forIM (N := N) (lo := 0) (hi := nt)
    (f := fun j d => d.wr (base + j) (0:ℝ))
    (g := fun j x v => if x = base + j then 0 else v)
    (fun j hj1 hj2 => PW.set (α := ℝ) (N := N) (i := base + j) (by omega) 0)
  refine PW.congr this (fun x v => ?_)
  unfold forI winMap
  have h := forN_cells (nt-0).toNat (base+0) x (fun _ _ => (0:ℝ)) v
  simp only [Int.add_assoc] at h ⊢
  rw [h]
  by_cases hc : base + 0 ≤ x ∧ x < base + nt
  · rw [if_pos hc, if_pos (by omega)]; simp
  · rw [if_neg hc, if_neg (by omega)]

/-- Multiply the trace at `base` by a weight function, leave everything else. -/
noncomputable def wMap (base nt : Int) (w : Int → ℝ) (x : Int) (v : ℝ) : ℝ :=
  if base ≤ x ∧ x < base + nt then v * w (x - base) else v

end Verif.Mute

import Verif.Extrap.Phase
import Verif.Extrap.Spec
import Verif.Extrap.Weight
import Mathlib.Analysis.SpecialFunctions.Trigonometric.Deriv
import Mathlib.Analysis.Calculus.Deriv.Pow

/-! # Extrapolation operators in the wavenumber domain: what is proved -/

namespace Verif.Extrap

open Verif Complex

noncomputable section

/-! ## Specification -/

/-- Extrapolation of a plane wave with horizontal wavenumber `kx` over a distance `dz`: a phase shift, or a decay for an evanescent
wave. -/
def phaseShift (k dz kx : ℝ) : ℂ :=
  if kx ^ 2 ≤ k ^ 2 then Complex.exp (-(Real.sqrt (k ^ 2 - kx ^ 2) * dz : ℝ) * I) else (Real.exp (-(Real.sqrt (kx ^ 2 - k ^ 2) * dz)) : ℂ)

/-! ## Loops -/

theorem putLoop {n : ℕ} {lo hi : ℤ} {body : ℤ → CArr → Option CArr} {v : ℤ → ℂ} (a : CArr) (h1 : lo < hi → 0 ≤ lo) (h2 : lo < hi → hi ≤ n)
    (hb : ∀ i a, lo ≤ i → i < hi → body i a = cput n a i (v i)) :
    ∃ a', forIM lo hi body a = some a' ∧ ∀ k : ℕ, a' k = if lo ≤ (k : ℤ) ∧ (k : ℤ) < hi then some (v k) else a k := by
  unfold forIM
  refine Exists.elim (forNM_inv (n := (hi - lo).toNat) (s := a) (body := fun i => body (lo + i))
    (P := fun i (z : CArr) => ∀ k : ℕ, z k = if lo ≤ (k : ℤ) ∧ (k : ℤ) < lo + i then some (v k) else a k)
    (fun k => by rw [if_neg (by omega)]) (fun i hi' z hz =>
      ⟨_, (hb _ z (by omega) (by omega)).trans (if_pos ⟨by omega, by omega⟩), fun k => ?_⟩)) ?_
  · by_cases h : (k : ℤ) = lo + i
    · rw [if_pos h, if_pos (by push_cast; omega), h]
    · rw [if_neg h, hz k]
      by_cases h' : lo ≤ (k : ℤ) ∧ (k : ℤ) < lo + i
      · rw [if_pos h', if_pos (by push_cast; omega)]
      · rw [if_neg h', if_neg (by push_cast; omega)]
  · intro a' ⟨e, h⟩
    refine ⟨a', e, fun k => ?_⟩
    rw [h k]
    by_cases h' : lo ≤ (k : ℤ) ∧ (k : ℤ) < hi
    · rw [if_pos h', if_pos (by omega)]
    · rw [if_neg h', if_neg (by omega)]

theorem cwrapLoop {cnt b : ℕ} (f : ℕ → Option ℂ) (d : CArr) :
    ∀ k, forN cnt (fun j (d : CArr) => fun k => if k = b + j then f j else d k) d k =
      if b ≤ k ∧ k < b + cnt then f (k - b) else d k := by
  refine forN_inv (P := fun i (z : CArr) => ∀ k, z k = if b ≤ k ∧ k < b + i then f (k - b) else d k)
    (fun k => by rw [if_neg (by omega)]) (fun i hi z hz k => ?_)
  by_cases h : k = b + i
  · rw [if_pos h, if_pos (by omega), h, Nat.add_sub_cancel_left]
  · rw [if_neg h, hz k]
    by_cases h' : b ≤ k ∧ k < b + i
    · rw [if_pos h', if_pos (by omega)]
    · rw [if_neg h', if_neg (by omega)]

theorem cwrapLoop0 {cnt : ℕ} (f : ℕ → Option ℂ) (d : CArr) :
    ∀ k, forN cnt (fun j (d : CArr) => fun k => if k = j then f j else d k) d k = if k < cnt then f k else d k := by
  intro k
  have := cwrapLoop (cnt := cnt) (b := 0) f d k
  simpa using this

theorem cwrap_even {h : ℕ} (hh : 0 < h) (a : CArr) {q : ℕ} (hq : q < 2 * h) :
    cwrap (2 * h) a q = a (((h : ℤ) - 1 + signed (2 * h) q).toNat) := by
  unfold cwrap signed
  rw [if_neg (show ¬ 2 * h % 2 = 1 by omega), if_neg (show ¬ 2 * h % 2 = 1 by omega), Nat.mul_div_cancel_left _ (by norm_num)]
  rw [cwrapLoop, cwrapLoop0]
  by_cases h1 : q ≤ h
  · rw [if_neg (by omega), if_pos (by omega), if_pos h1]; congr 1; omega
  · rw [if_pos (by omega), if_neg h1]; congr 1; omega

/-- With an odd number of samples the first element is that of wavenumber number one. -/
theorem cwrap_odd {h : ℕ} (hh : 0 < h) (a : CArr) : cwrap (2 * h + 1) a 0 = a h := by
  unfold cwrap
  rw [if_pos (show (2 * h + 1) % 2 = 1 by omega), if_pos (show (2 * h + 1) % 2 = 1 by omega), show (2 * h + 1 + 1) / 2 = h + 1 by omega]
  rw [cwrapLoop, cwrapLoop0, if_neg (by omega), if_pos (by omega)]
  congr 1

/-! ## The exact operator -/

theorem froot_shift (k dz kx : ℝ) :
    (⟨Real.exp ((froot (k * k - kx * kx)).im * dz) * Real.cos (-(froot (k * k - kx * kx)).re * dz),
      Real.exp ((froot (k * k - kx * kx)).im * dz) * Real.sin (-(froot (k * k - kx * kx)).re * dz)⟩ : ℂ) = phaseShift k dz kx := by
  have e : k * k - kx * kx = k ^ 2 - kx ^ 2 := by ring
  rw [e]
  unfold froot phaseShift
  by_cases h : kx ^ 2 ≤ k ^ 2
  · rw [if_pos (show k ^ 2 - kx ^ 2 ≥ 0 by linarith), if_pos h]
    have e2 : (-((Real.sqrt (k ^ 2 - kx ^ 2) * dz : ℝ) : ℂ)) = ((-Real.sqrt (k ^ 2 - kx ^ 2) * dz : ℝ) : ℂ) := by push_cast; ring
    rw [e2]
    apply Complex.ext
    · rw [exp_ofReal_mul_I_re]; simp
    · rw [exp_ofReal_mul_I_im]; simp
  · rw [if_neg (show ¬ k ^ 2 - kx ^ 2 ≥ 0 by linarith), if_neg h]
    apply Complex.ext
    · rw [ofReal_re]; simp
    · rw [ofReal_im]; simp

theorem phaseShift_neg (k dz kx : ℝ) : phaseShift k dz (-kx) = phaseShift k dz kx := by
  unfold phaseShift; rw [neg_sq]

/-- **C108**: the operator is the exact phase shift at every wavenumber; every element is set. -/
theorem forwExtr_exact {nkx : ℕ} (hn : 0 < nkx) (oper : CArr) (k : ℝ) {dx : ℝ} (hx : dx ≠ 0) (dz : ℝ) :
    ∃ o, forwExtr oper k dx dz nkx = some o ∧ ∀ q < nkx, o q = some (phaseShift k dz (signed nkx q * dkx nkx dx)) := by
  have hnd : (nkx : ℝ) * dx ≠ 0 := mul_ne_zero (by exact_mod_cast hn.ne') hx
  unfold forwExtr
  simp only [Option.bind_eq_bind, if_neg hnd]
  obtain ⟨a, ea, ha⟩ := putLoop (n := nkx) (lo := 0) (hi := ((nkx / 2 : ℕ) : ℤ) + 1)
    (v := fun i => phaseShift k dz (i * dkx nkx dx))
    (body := fun ikx oper => cput nkx oper ikx
      ⟨Real.exp ((froot (k * k - ikx * (2 * Real.pi / (nkx * dx)) * (ikx * (2 * Real.pi / (nkx * dx))))).im * dz) *
        Real.cos (-(froot (k * k - ikx * (2 * Real.pi / (nkx * dx)) * (ikx * (2 * Real.pi / (nkx * dx))))).re * dz),
      Real.exp ((froot (k * k - ikx * (2 * Real.pi / (nkx * dx)) * (ikx * (2 * Real.pi / (nkx * dx))))).im * dz) *
        Real.sin (-(froot (k * k - ikx * (2 * Real.pi / (nkx * dx)) * (ikx * (2 * Real.pi / (nkx * dx))))).re * dz)⟩) oper
    (by omega) (by omega) (fun i a _ _ => by rw [froot_shift]; rfl)
  rw [ea, Option.bind_some]
  unfold forIM
  refine Exists.elim (forNM_inv (n := ((nkx : ℤ) - (((nkx / 2 : ℕ) : ℤ) + 1)).toNat) (s := a)
    (body := fun i oper => (cget nkx oper (nkx - (((nkx / 2 : ℕ) : ℤ) + 1 + i))).bind fun v => cput nkx oper (((nkx / 2 : ℕ) : ℤ) + 1 + i) v)
    (P := fun i (z : CArr) => ∀ q : ℕ, z q = if (q : ℤ) ≤ ((nkx / 2 : ℕ) : ℤ) then some (phaseShift k dz ((q : ℤ) * dkx nkx dx))
      else if (q : ℤ) < ((nkx / 2 : ℕ) : ℤ) + 1 + i then some (phaseShift k dz (((nkx : ℤ) - q : ℤ) * dkx nkx dx)) else a q) ?_ ?_) ?_
  · intro q
    rw [ha q]
    by_cases h : (q : ℤ) ≤ ((nkx / 2 : ℕ) : ℤ)
    · rw [if_pos h, if_pos (by omega)]
    · rw [if_neg h, if_neg (by omega), if_neg (by omega)]
  · intro i hi z hz
    have e1 : cget nkx z (nkx - (((nkx / 2 : ℕ) : ℤ) + 1 + i)) =
        some (phaseShift k dz ((nkx - (((nkx / 2 : ℕ) : ℤ) + 1 + i) : ℤ) * dkx nkx dx)) := by
      unfold cget
      rw [if_pos ⟨by omega, by omega⟩, hz, if_pos (by omega), Int.toNat_of_nonneg (by omega)]
    rw [e1, Option.bind_some]
    refine ⟨_, if_pos ⟨by omega, by omega⟩, fun q => ?_⟩
    by_cases hq : (q : ℤ) = ((nkx / 2 : ℕ) : ℤ) + 1 + i
    · rw [if_pos hq, if_neg (by omega), if_pos (by push_cast; omega), hq]
    · rw [if_neg hq, hz q]
      by_cases h : (q : ℤ) ≤ ((nkx / 2 : ℕ) : ℤ)
      · rw [if_pos h, if_pos h]
      · rw [if_neg h, if_neg h]
        by_cases h' : (q : ℤ) < ((nkx / 2 : ℕ) : ℤ) + 1 + i
        · rw [if_pos h', if_pos (by push_cast; omega)]
        · rw [if_neg h', if_neg (by push_cast; omega)]
  · intro o ⟨e, ho⟩
    refine ⟨o, e, fun q hq => ?_⟩
    rw [ho q]
    unfold signed
    by_cases h : q ≤ nkx / 2
    · rw [if_pos (by omega), if_pos h]
    · rw [if_neg (by omega), if_neg h, if_pos (by omega), ← phaseShift_neg]
      congr 2; push_cast; ring

/-- **C108**: the operator never amplifies; propagating waves keep their amplitude, evanescent ones decay. -/
theorem phaseShift_modulus (k kx : ℝ) {dz : ℝ} (hz : 0 ≤ dz) :
    ‖phaseShift k dz kx‖ ≤ 1 ∧ (kx ^ 2 ≤ k ^ 2 → ‖phaseShift k dz kx‖ = 1) ∧ (k ^ 2 < kx ^ 2 → 0 < dz → ‖phaseShift k dz kx‖ < 1) := by
  have h1 : kx ^ 2 ≤ k ^ 2 → ‖phaseShift k dz kx‖ = 1 := by
    intro h
    unfold phaseShift
    rw [if_pos h, show (-((Real.sqrt (k ^ 2 - kx ^ 2) * dz : ℝ) : ℂ)) = ((-(Real.sqrt (k ^ 2 - kx ^ 2) * dz) : ℝ) : ℂ) by push_cast; ring]
    exact Complex.norm_exp_ofReal_mul_I _
  have h2 : ¬ kx ^ 2 ≤ k ^ 2 → ‖phaseShift k dz kx‖ = Real.exp (-(Real.sqrt (kx ^ 2 - k ^ 2) * dz)) := by
    intro h
    unfold phaseShift
    rw [if_neg h, Complex.norm_real, Real.norm_of_nonneg (Real.exp_pos _).le]
  refine ⟨?_, h1, fun h hd => ?_⟩
  · by_cases h : kx ^ 2 ≤ k ^ 2
    · rw [h1 h]
    · rw [h2 h, Real.exp_le_one_iff]
      have := mul_nonneg (Real.sqrt_nonneg (kx ^ 2 - k ^ 2)) hz
      linarith
  · rw [h2 (not_le.2 h), Real.exp_lt_one_iff]
    have := mul_pos (Real.sqrt_pos.2 (by linarith : 0 < kx ^ 2 - k ^ 2)) hd
    linarith

/-! ## The cubic -/

/-- The cubic of `spline3` for different ends. -/
def cubic (x1 x2 z1 z2 dzdx1 dzdx2 : ℝ) : Cubic :=
  let a := (dzdx1 + dzdx2 - 2 * (z1 - z2) / (x1 - x2)) / ((x1 - x2) * (x1 - x2))
  let b := 1 / 2 * (dzdx1 - dzdx2) / (x1 - x2) - 3 / 2 * a * (x1 + x2)
  let c := (z1 - z2 - a * (x1 * x1 * x1 - x2 * x2 * x2) - b * (x1 * x1 - x2 * x2)) / (x1 - x2)
  ⟨a, b, c, z1 - a * x1 * x1 * x1 - b * x1 * x1 - c * x1⟩

theorem spline3_ne {x1 x2 : ℝ} (h : x1 ≠ x2) (z1 z2 s1 s2 : ℝ) (old : Option Cubic) :
    spline3 x1 x2 z1 z2 s1 s2 old = some (cubic x1 x2 z1 z2 s1 s2) := by
  unfold spline3; rw [if_neg h]; rfl

theorem Cubic.deriv (p : Cubic) (x : ℝ) : HasDerivAt p.at (3 * p.a * x ^ 2 + 2 * p.b * x + p.c) x := by
  have h := ((((hasDerivAt_id x).pow 3).const_mul p.a).add (((hasDerivAt_id x).pow 2).const_mul p.b)).add ((hasDerivAt_id x).const_mul p.c)
  have h' := h.add_const p.d
  have e : p.at = fun x => (p.a * id x ^ 3 + p.b * id x ^ 2 + p.c * id x) + p.d := by
    funext x; unfold Cubic.at; simp only [id]; ring
  rw [e]
  refine h'.congr_deriv ?_
  simp only [id]
  push_cast
  ring

/-- **C109**: the cubic has the wanted values and slopes at both ends, and it is the only one. -/
theorem spline3_interpolates {x1 x2 : ℝ} (h : x1 ≠ x2) (z1 z2 s1 s2 : ℝ) (old : Option Cubic) :
    ∃ p, spline3 x1 x2 z1 z2 s1 s2 old = some p ∧ (p.at x1 = z1 ∧ p.at x2 = z2 ∧ HasDerivAt p.at s1 x1 ∧ HasDerivAt p.at s2 x2) ∧
      ∀ p' : Cubic, p'.at x1 = z1 → p'.at x2 = z2 → HasDerivAt p'.at s1 x1 → HasDerivAt p'.at s2 x2 → p' = p := by
  have hd : x1 - x2 ≠ 0 := sub_ne_zero.2 h
  have v1 : (cubic x1 x2 z1 z2 s1 s2).at x1 = z1 := by unfold cubic Cubic.at; dsimp only; ring
  have v2 : (cubic x1 x2 z1 z2 s1 s2).at x2 = z2 := by
    unfold cubic Cubic.at; dsimp only; field_simp; ring
  have d1 : 3 * (cubic x1 x2 z1 z2 s1 s2).a * x1 ^ 2 + 2 * (cubic x1 x2 z1 z2 s1 s2).b * x1 + (cubic x1 x2 z1 z2 s1 s2).c = s1 := by
    unfold cubic; dsimp only; field_simp; ring
  have d2 : 3 * (cubic x1 x2 z1 z2 s1 s2).a * x2 ^ 2 + 2 * (cubic x1 x2 z1 z2 s1 s2).b * x2 + (cubic x1 x2 z1 z2 s1 s2).c = s2 := by
    unfold cubic; dsimp only; field_simp; ring
  refine ⟨_, spline3_ne h _ _ _ _ _, ⟨v1, v2, (Cubic.deriv _ _).congr_deriv d1, (Cubic.deriv _ _).congr_deriv d2⟩, ?_⟩
  intro p' w1 w2 e1 e2
  have f1 := (Cubic.deriv p' x1).unique e1
  have f2 := (Cubic.deriv p' x2).unique e2
  set p := cubic x1 x2 z1 z2 s1 s2
  unfold Cubic.at at v1 v2 w1 w2
  -- the difference is a cubic with double zeros at both ends
  have ha : (p'.a - p.a) * (x1 - x2) ^ 3 = 0 := by linear_combination (-2) * (w1 - v1 - (w2 - v2)) + (x1 - x2) * (f1 - d1 + (f2 - d2))
  have ha' : p'.a = p.a := by
    have := (mul_eq_zero.1 ha).resolve_right (pow_ne_zero 3 hd)
    linarith
  have hb : (p'.b - p.b) * (x1 - x2) * 2 = 0 := by rw [ha'] at f1 f2; linear_combination f1 - d1 - (f2 - d2)
  have hb' : p'.b = p.b := by
    have := (mul_eq_zero.1 ((mul_eq_zero.1 hb).resolve_right two_ne_zero)).resolve_right hd
    linarith
  have hc' : p'.c = p.c := by rw [ha', hb'] at f1; linarith
  have hd' : p'.d = p.d := by rw [ha', hb', hc'] at w1; linarith
  have ext : ∀ u v : Cubic, u.a = v.a → u.b = v.b → u.c = v.c → u.d = v.d → u = v := by
    intro u v; cases u; cases v; simp_all
  exact ext _ _ ha' hb' hc' hd'

/-- **C109**: with equal ends that do not fit together the coefficients keep what they were; they stay unset. -/
theorem spline3_unset {x z1 z2 : ℝ} (h : z1 ≠ z2) (s1 s2 : ℝ) : spline3 x x z1 z2 s1 s2 none = none := by
  unfold spline3; rw [if_pos rfl, if_neg fun c => h c.1]

theorem cubic_up {x1 x2 : ℝ} (h : x1 ≠ x2) (x : ℝ) :
    (cubic x1 x2 0 1 0 0).at x = ((x - x1) / (x2 - x1)) ^ 2 * (3 - 2 * ((x - x1) / (x2 - x1))) := by
  have hd : x1 - x2 ≠ 0 := sub_ne_zero.2 h
  have hd' : x2 - x1 ≠ 0 := sub_ne_zero.2 h.symm
  unfold cubic Cubic.at
  dsimp only
  rw [show x2 - x1 = -(x1 - x2) by ring]
  field_simp
  ring

theorem cubic_down {x1 x2 : ℝ} (h : x1 ≠ x2) (x : ℝ) :
    (cubic x1 x2 1 0 0 0).at x = 1 - ((x - x1) / (x2 - x1)) ^ 2 * (3 - 2 * ((x - x1) / (x2 - x1))) := by
  have hd : x1 - x2 ≠ 0 := sub_ne_zero.2 h
  unfold cubic Cubic.at
  dsimp only
  rw [show x2 - x1 = -(x1 - x2) by ring]
  field_simp
  ring

theorem hermite_range {t : ℝ} (h0 : 0 ≤ t) (h1 : t ≤ 1) : 0 ≤ t ^ 2 * (3 - 2 * t) ∧ t ^ 2 * (3 - 2 * t) ≤ 1 := by
  constructor
  · have : 0 ≤ 3 - 2 * t := by linarith
    positivity
  · nlinarith [mul_nonneg (sq_nonneg (1 - t)) (by linarith : (0 : ℝ) ≤ 1 + 2 * t)]

theorem cubic_mirror (x1 x2 z1 z2 s1 s2 x : ℝ) (h : x1 ≠ x2) :
    (cubic (-x2) (-x1) z2 z1 (-s2) (-s1)).at (-x) = (cubic x1 x2 z1 z2 s1 s2).at x := by
  have hd : x1 - x2 ≠ 0 := sub_ne_zero.2 h
  unfold cubic Cubic.at
  dsimp only
  rw [show -x2 - -x1 = x1 - x2 by ring]
  field_simp
  ring

/-! ## Non-vacuity -/

example : ∃ o, forwExtr (fun _ => none) 1 1 1 8 = some o ∧ o 0 = some (phaseShift 1 1 0) := by
  obtain ⟨o, e, h⟩ := forwExtr_exact (nkx := 8) (by norm_num) (fun _ => none) 1 one_ne_zero 1
  refine ⟨o, e, ?_⟩
  rw [h 0 (by norm_num)]; simp [signed]

example : ‖phaseShift 1 1 2‖ < 1 := (phaseShift_modulus 1 2 zero_le_one).2.2 (by norm_num) one_pos

example : ∃ p, spline3 0 1 3 4 5 6 none = some p ∧ p.at 0 = 3 := by
  obtain ⟨p, e, h, -⟩ := spline3_interpolates (zero_ne_one (α := ℝ)) 3 4 5 6 none
  exact ⟨p, e, h.1⟩

end

end Verif.Extrap

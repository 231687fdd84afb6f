import Verif.Med.Spec
import Mathlib.Analysis.SpecialFunctions.Pow.Real
import Mathlib.Data.Complex.Basic
import Mathlib.Tactic.FieldSimp
import Mathlib.Tactic.LinearCombination
import Mathlib.Tactic.Linarith
import Mathlib.Tactic.Ring
import Mathlib.Algebra.BigOperators.Group.Finset.Basic

/-!
# Attenuation: the relaxation times of readModel.c and the memory variables of viscoacoustic4.c and viscoelastic4.c

Exact arithmetic (reals, or a field) instead of `float`.
-/

namespace Verif.Med.Visco

/-! ## Specification: the standard linear solid -/

/-- Complex modulus of a standard linear solid with relaxed modulus `M`, strain and stress relaxation times `te`, `ts`. -/
noncomputable def modulus (M te ts w : ℝ) : ℂ := M * (1 + Complex.I * w * te) / (1 + Complex.I * w * ts)

/-- Quality factor: real part of the modulus over its imaginary part. -/
noncomputable def quality (m : ℂ) : ℝ := m.re / m.im

/-! ## Model of the relaxation times (readModel.c:147-193) -/

/-- `a = (sqrt(1.0+(1.0/(qp*qp)))-(1.0/qp))/fw` (readModel.c:152, 165). -/
noncomputable def aOf (Qp w : ℝ) : ℝ := (Real.sqrt (1 + 1 / (Qp * Qp)) - 1 / Qp) / w
/-- `tss = 1.0/a` (readModel.c:156, 169). -/
noncomputable def tss (Qp w : ℝ) : ℝ := 1 / aOf Qp w
/-- `tep = b = 1.0/(fw*fw*a)` (readModel.c:153, 157). -/
noncomputable def tep (Qp w : ℝ) : ℝ := 1 / (w * w * aOf Qp w)
/-- `tes = (1.0+(fw*qs*a))/(fw*qs-(fw*fw*a))` with `a = 1.0/tss` (readModel.c:183-184, 190-191). -/
noncomputable def tes (Qp Qs w : ℝ) : ℝ :=
  (1 + w * Qs * (1 / tss Qp w)) / (w * Qs - w * w * (1 / tss Qp w))

/-- The quality factor of a standard linear solid, without complex numbers. -/
theorem quality_modulus {M te ts w : ℝ} (hM : M ≠ 0) :
    quality (modulus M te ts w) = (1 + w * te * (w * ts)) / (w * te - w * ts) := by
  have hpos : 0 < 1 + w * ts * (w * ts) := by nlinarith [sq_nonneg (w * ts)]
  unfold quality modulus
  rw [Complex.div_re, Complex.div_im]
  have e : Complex.normSq (1 + Complex.I * (w : ℂ) * (ts : ℂ)) = 1 + w * ts * (w * ts) := by
    rw [Complex.normSq_apply]; simp
  rw [e]
  simp only [Complex.mul_re, Complex.mul_im, Complex.add_re, Complex.add_im, Complex.one_re, Complex.one_im, Complex.I_re,
    Complex.I_im, Complex.ofReal_re, Complex.ofReal_im]
  have h1 : (M * (1 + (0 * w - 1 * 0) * te - (0 * 0 + 1 * w) * 0) - 0 * (0 + ((0 * w - 1 * 0) * 0 + (0 * 0 + 1 * w) * te))) = M := by
    ring
  by_cases hd : w * te - w * ts = 0
  · have e2 : w * te = w * ts := by linarith
    have e3 : te * w = w * ts := by linarith
    rw [hd, div_zero]
    rw [div_eq_zero_iff]; right
    have : (1 + w * ts * (w * ts)) ≠ 0 := ne_of_gt hpos
    field_simp
    linear_combination M * hd
  · have : (1 + w * ts * (w * ts)) ≠ 0 := ne_of_gt hpos
    rw [← add_div, ← sub_div, div_div_div_cancel_right₀ this]
    have h2 : M * (w * te - w * ts) ≠ 0 := mul_ne_zero hM hd
    rw [div_eq_div_iff (by intro h; apply h2; linear_combination h) hd]
    ring

/-- `ω τ_σ`: the positive root of `s² + 2 s/Q = 1`. -/
theorem root {Q : ℝ} (hQ : 0 < Q) :
    0 < Real.sqrt (1 + 1 / (Q * Q)) - 1 / Q ∧
      (Real.sqrt (1 + 1 / (Q * Q)) - 1 / Q) ^ 2 + 2 * (Real.sqrt (1 + 1 / (Q * Q)) - 1 / Q) / Q = 1 := by
  have h0 : 0 < 1 / (Q * Q) := by positivity
  have hs : Real.sqrt (1 + 1 / (Q * Q)) ^ 2 = 1 + 1 / (Q * Q) := Real.sq_sqrt (by positivity)
  have hq : (0:ℝ) < 1 / Q := by positivity
  constructor
  · have : 1 / Q < Real.sqrt (1 + 1 / (Q * Q)) := by
      apply Real.lt_sqrt_of_sq_lt
      rw [div_pow, one_pow, sq]; linarith
    linarith
  · set t := Real.sqrt (1 + 1 / (Q * Q))
    have e : (t - 1 / Q) ^ 2 + 2 * (t - 1 / Q) / Q = t ^ 2 - 1 / (Q * Q) := by field_simp; ring
    rw [e, hs]; ring

theorem aOf_pos {Q w : ℝ} (hQ : 0 < Q) (hw : 0 < w) : 0 < aOf Q w := div_pos (root hQ).1 hw

/-- The defining equation of `a`. -/
theorem aOf_eq {Q w : ℝ} (hQ : 0 < Q) (hw : 0 < w) : (w * aOf Q w) ^ 2 + 2 * (w * aOf Q w) / Q = 1 := by
  have : w * aOf Q w = Real.sqrt (1 + 1 / (Q * Q)) - 1 / Q := by
    unfold aOf; field_simp
  rw [this]; exact (root hQ).2

/-- **The medium has the quality factor that was asked for**: with the relaxation times that the program computes from `Qp`
and the angular reference frequency, the standard linear solid has quality factor `Qp` at that frequency. -/
theorem qp_reached {M Qp w : ℝ} (hM : M ≠ 0) (hQ : 0 < Qp) (hw : 0 < w) :
    quality (modulus M (tep Qp w) (1 / tss Qp w) w) = Qp := by
  have ha := aOf_pos hQ hw
  have he := aOf_eq hQ hw
  rw [quality_modulus hM]
  unfold tep tss
  set a := aOf Qp w
  have ha' : a ≠ 0 := ha.ne'
  have hw' : w ≠ 0 := hw.ne'
  have hQ' : Qp ≠ 0 := hQ.ne'
  have e1 : w * (1 / (w * w * a)) = 1 / (w * a) := by field_simp
  have e2 : w * (1 / (1 / a)) = w * a := by field_simp
  rw [e1, e2]
  have hs : 0 < w * a := mul_pos hw ha
  set s := w * a
  have hs' : s ≠ 0 := hs.ne'
  have hlt : 1 - s ^ 2 = 2 * s / Qp := by linarith
  have e3 : 1 / s - s = 2 / Qp := by
    have : 1 / s - s = (1 - s ^ 2) / s := by field_simp
    rw [this, hlt]; field_simp
  have e4 : (1 + 1 / s * s) = 2 := by field_simp; norm_num
  rw [e3, e4]; field_simp

/-- **The same for shear**: with the strain relaxation time computed from `Qs` the shear modulus has quality factor `Qs`,
provided `Qs` is not so small that the formula of the program divides by zero. -/
theorem qs_reached {M Qp Qs w : ℝ} (hM : M ≠ 0) (hQ : 0 < Qp) (hw : 0 < w)
    (hne : Qs ≠ w * aOf Qp w) :
    quality (modulus M (tes Qp Qs w) (1 / tss Qp w) w) = Qs := by
  have ha := aOf_pos hQ hw
  rw [quality_modulus hM]
  unfold tes tss
  set a := aOf Qp w
  have ha' : a ≠ 0 := ha.ne'
  have hw' : w ≠ 0 := hw.ne'
  have e2 : (1 / (1 / a)) = a := by field_simp
  rw [e2]
  have hd : w * Qs - w * w * a ≠ 0 := by
    intro h; apply hne
    have : w * (Qs - w * a) = 0 := by linarith
    have := (mul_eq_zero.1 this).resolve_left hw'
    linarith
  have hd2 : Qs - w * a ≠ 0 := sub_ne_zero.2 hne
  have e1 : w * ((1 + w * Qs * a) / (w * Qs - w * w * a)) = (1 + w * Qs * a) / (Qs - w * a) := by
    rw [mul_div_assoc', div_eq_div_iff hd hd2]; ring
  rw [e1]
  have hp : (1 + (w * a) ^ 2) ≠ 0 := by positivity
  have e3 : 1 + (1 + w * Qs * a) / (Qs - w * a) * (w * a) = Qs * (1 + (w * a) ^ 2) / (Qs - w * a) := by
    field_simp; ring
  have e4 : (1 + w * Qs * a) / (Qs - w * a) - w * a = (1 + (w * a) ^ 2) / (Qs - w * a) := by
    field_simp; ring
  rw [e3, e4, div_div_div_cancel_right₀ hd2, mul_div_assoc, div_self hp, mul_one]

/-- With `Qs ≥ Qp` (the default is `Qs = Qp`) the exception of `qs_reached` does not occur. -/
theorem qs_ok {Qp Qs w : ℝ} (hQ : 0 < Qp) (h : Qp ≤ Qs) (hw : 0 < w) : Qs ≠ w * aOf Qp w := by
  have ha := aOf_pos hQ hw
  have he := aOf_eq hQ hw
  have hs : 0 < w * aOf Qp w := mul_pos hw ha
  intro hc
  rw [← hc] at he hs
  have h1 : 2 * Qs / Qp ≥ 2 := by
    rw [ge_iff_le, le_div_iff₀ hQ]; linarith
  nlinarith [sq_nonneg Qs]

/-- Attenuation is causal and dissipative: `τ_ε > τ_σ > 0`. -/
theorem dissipative {Qp w : ℝ} (hQ : 0 < Qp) (hw : 0 < w) :
    0 < 1 / tss Qp w ∧ 1 / tss Qp w < tep Qp w := by
  have ha := aOf_pos hQ hw
  have he := aOf_eq hQ hw
  have hs : 0 < w * aOf Qp w := mul_pos hw ha
  unfold tss tep
  rw [one_div_one_div]
  refine ⟨ha, ?_⟩
  rw [lt_div_iff₀ (by positivity)]
  have : 0 < 2 * (w * aOf Qp w) / Qp := by positivity
  nlinarith

example : quality (modulus 3 (tep 20 5) (1 / tss 20 5) 5) = 20 := qp_reached (by norm_num) (by norm_num) (by norm_num)
example : quality (modulus 3 (tes 20 30 5) (1 / tss 20 5) 5) = 30 :=
  qs_reached (by norm_num) (by norm_num) (by norm_num) (qs_ok (by norm_num) (by norm_num) (by norm_num))

end Verif.Med.Visco

import Verif.Fft.PfaKern
import Mathlib.Algebra.BigOperators.Group.Finset.Basic
import Mathlib.Tactic.LinearCombination
import Mathlib.Tactic.FieldSimp
import Mathlib.Tactic.NormNum
import Mathlib.Tactic.IntervalCases

/-!
# The butterflies of the prime-factor transform are short discrete Fourier transforms

`bodyN_spec`: if the constants are the cosines and sines of multiples of one angle, the butterfly sums `z q * E (k*q % N)`.
`kernN_spec`: for every rotation factor `mu` prime to `N` the code chooses the constants that belong to the angle `2 π mu / N`.
-/

namespace Verif.Fft.Pfa

open Complex Finset

/-- `exp(2 π i a / p)`. -/
noncomputable def w (p a : Nat) : ℂ := exp (2 * Real.pi * I * a / p)

/-- The short transform a butterfly has to compute. -/
noncomputable def short (p mu : Nat) (z : Nat → ℂ) : List ℂ :=
  (List.range p).map fun k => ∑ q ∈ range p, z q * w p (mu * (k * q))



private theorem body2_spec (E : Nat → ℂ) (h0 : E 0 = 1)
    (h1 : E 1 = -1)
    (z : Nat → ℂ) : body2  z = (List.range 2).map fun k => ∑ q ∈ range 2, z q * E (k * q % 2) := by
  have e : List.range 2 = [0, 1] := rfl
  rw [e]
  simp only [List.map, sum_range_succ, sum_range_zero, Nat.reduceMul, Nat.reduceMod, h0, h1, body2]
  refine congrArg₂ List.cons ?_ (congrArg₂ List.cons ?_ rfl) <;> ring

private theorem body3_spec (c1 : ℂ) (E : Nat → ℂ) (h0 : E 0 = 1)
    (h1 : E 1 = -(1/2) + I * c1) (h2 : E 2 = -(1/2) - I * c1)
    (z : Nat → ℂ) : body3 c1 z = (List.range 3).map fun k => ∑ q ∈ range 3, z q * E (k * q % 3) := by
  have e : List.range 3 = [0, 1, 2] := rfl
  rw [e]
  simp only [List.map, sum_range_succ, sum_range_zero, Nat.reduceMul, Nat.reduceMod, h0, h1, h2, body3]
  refine congrArg₂ List.cons ?_ (congrArg₂ List.cons ?_ (congrArg₂ List.cons ?_ rfl)) <;> ring

private theorem body4_spec (c1 : ℂ) (E : Nat → ℂ) (h0 : E 0 = 1)
    (h1 : E 1 = I * c1) (h2 : E 2 = -1) (h3 : E 3 = -(I * c1))
    (z : Nat → ℂ) : body4 c1 z = (List.range 4).map fun k => ∑ q ∈ range 4, z q * E (k * q % 4) := by
  have e : List.range 4 = [0, 1, 2, 3] := rfl
  rw [e]
  simp only [List.map, sum_range_succ, sum_range_zero, Nat.reduceMul, Nat.reduceMod, h0, h1, h2, h3, body4]
  refine congrArg₂ List.cons ?_ (congrArg₂ List.cons ?_ (congrArg₂ List.cons ?_ (congrArg₂ List.cons ?_ rfl))) <;> ring

private theorem body5_spec (c1 c2 c3 : ℂ) (E : Nat → ℂ) (h0 : E 0 = 1)
    (h1 : E 1 = -(1/4) + c1 + I * c2) (h2 : E 2 = -(1/4) - c1 + I * c3)
    (h3 : E 3 = -(1/4) - c1 - I * c3) (h4 : E 4 = -(1/4) + c1 - I * c2)
    (z : Nat → ℂ) : body5 c1 c2 c3 z = (List.range 5).map fun k => ∑ q ∈ range 5, z q * E (k * q % 5) := by
  have e : List.range 5 = [0, 1, 2, 3, 4] := rfl
  rw [e]
  simp only [List.map, sum_range_succ, sum_range_zero, Nat.reduceMul, Nat.reduceMod, h0, h1, h2, h3, h4, body5]
  refine congrArg₂ List.cons ?_ (congrArg₂ List.cons ?_ (congrArg₂ List.cons ?_ (congrArg₂ List.cons ?_ (congrArg₂ List.cons ?_ rfl)))) <;> ring

private theorem body7_spec (c1 c2 c3 c4 c5 c6 : ℂ) (E : Nat → ℂ) (h0 : E 0 = 1)
    (h1 : E 1 = c1 + I * c4) (h6 : E 6 = c1 - I * c4)
    (h2 : E 2 = c2 + I * c5) (h5 : E 5 = c2 - I * c5)
    (h3 : E 3 = c3 + I * c6) (h4 : E 4 = c3 - I * c6)
    (hs : c1 + c2 + c3 = -(1/2))
    (z : Nat → ℂ) : body7 c1 c2 c3 c4 c5 c6 z = (List.range 7).map fun k => ∑ q ∈ range 7, z q * E (k * q % 7) := by
  have hl : c3 = -(1/2) - c1 - c2 := by linear_combination hs
  subst hl
  have e : List.range 7 = [0, 1, 2, 3, 4, 5, 6] := rfl
  rw [e]
  simp only [List.map, sum_range_succ, sum_range_zero, Nat.reduceMul, Nat.reduceMod, h0, h1, h2, h3, h4, h5, h6, body7]
  refine congrArg₂ List.cons ?_ (congrArg₂ List.cons ?_ (congrArg₂ List.cons ?_ (congrArg₂ List.cons ?_ (congrArg₂ List.cons ?_ (congrArg₂ List.cons ?_ (congrArg₂ List.cons ?_ rfl)))))) <;> ring

private theorem body11_spec (c1 c2 c3 c4 c5 c6 c7 c8 c9 c10 : ℂ) (E : Nat → ℂ) (h0 : E 0 = 1)
    (h1 : E 1 = c1 + I * c6) (h10 : E 10 = c1 - I * c6)
    (h2 : E 2 = c2 + I * c7) (h9 : E 9 = c2 - I * c7)
    (h3 : E 3 = c3 + I * c8) (h8 : E 8 = c3 - I * c8)
    (h4 : E 4 = c4 + I * c9) (h7 : E 7 = c4 - I * c9)
    (h5 : E 5 = c5 + I * c10) (h6 : E 6 = c5 - I * c10)
    (hs : c1 + c2 + c3 + c4 + c5 = -(1/2))
    (z : Nat → ℂ) : body11 c1 c2 c3 c4 c5 c6 c7 c8 c9 c10 z = (List.range 11).map fun k => ∑ q ∈ range 11, z q * E (k * q % 11) := by
  have hl : c5 = -(1/2) - c1 - c2 - c3 - c4 := by linear_combination hs
  subst hl
  have e : List.range 11 = [0, 1, 2, 3, 4, 5, 6, 7, 8, 9, 10] := rfl
  rw [e]
  simp only [List.map, sum_range_succ, sum_range_zero, Nat.reduceMul, Nat.reduceMod, h0, h1, h2, h3, h4, h5, h6, h7, h8, h9, h10, body11]
  refine congrArg₂ List.cons ?_ (congrArg₂ List.cons ?_ (congrArg₂ List.cons ?_ (congrArg₂ List.cons ?_ (congrArg₂ List.cons ?_ (congrArg₂ List.cons ?_ (congrArg₂ List.cons ?_ (congrArg₂ List.cons ?_ (congrArg₂ List.cons ?_ (congrArg₂ List.cons ?_ (congrArg₂ List.cons ?_ rfl)))))))))) <;> ring

private theorem body13_spec (c1 c2 c3 c4 c5 c6 c7 c8 c9 c10 c11 c12 : ℂ) (E : Nat → ℂ) (h0 : E 0 = 1)
    (h1 : E 1 = c1 + I * c7) (h12 : E 12 = c1 - I * c7)
    (h2 : E 2 = c2 + I * c8) (h11 : E 11 = c2 - I * c8)
    (h3 : E 3 = c3 + I * c9) (h10 : E 10 = c3 - I * c9)
    (h4 : E 4 = c4 + I * c10) (h9 : E 9 = c4 - I * c10)
    (h5 : E 5 = c5 + I * c11) (h8 : E 8 = c5 - I * c11)
    (h6 : E 6 = c6 + I * c12) (h7 : E 7 = c6 - I * c12)
    (hs : c1 + c2 + c3 + c4 + c5 + c6 = -(1/2))
    (z : Nat → ℂ) : body13 c1 c2 c3 c4 c5 c6 c7 c8 c9 c10 c11 c12 z = (List.range 13).map fun k => ∑ q ∈ range 13, z q * E (k * q % 13) := by
  have hl : c6 = -(1/2) - c1 - c2 - c3 - c4 - c5 := by linear_combination hs
  subst hl
  have e : List.range 13 = [0, 1, 2, 3, 4, 5, 6, 7, 8, 9, 10, 11, 12] := rfl
  rw [e]
  simp only [List.map, sum_range_succ, sum_range_zero, Nat.reduceMul, Nat.reduceMod, h0, h1, h2, h3, h4, h5, h6, h7, h8, h9, h10, h11, h12, body13]
  refine congrArg₂ List.cons ?_ (congrArg₂ List.cons ?_ (congrArg₂ List.cons ?_ (congrArg₂ List.cons ?_ (congrArg₂ List.cons ?_ (congrArg₂ List.cons ?_ (congrArg₂ List.cons ?_ (congrArg₂ List.cons ?_ (congrArg₂ List.cons ?_ (congrArg₂ List.cons ?_ (congrArg₂ List.cons ?_ (congrArg₂ List.cons ?_ (congrArg₂ List.cons ?_ rfl)))))))))))) <;> ring

private theorem body8_spec (c1 c2 : ℂ) (E : Nat → ℂ) (h0 : E 0 = 1)
    (h1 : E 1 = c2 + I * (c1 * c2)) (h2 : E 2 = I * c1) (h3 : E 3 = -c2 + I * (c1 * c2)) (h4 : E 4 = -1)
    (h5 : E 5 = -c2 - I * (c1 * c2)) (h6 : E 6 = -(I * c1)) (h7 : E 7 = c2 - I * (c1 * c2))
    (z : Nat → ℂ) : body8 c1 c2 z = (List.range 8).map fun k => ∑ q ∈ range 8, z q * E (k * q % 8) := by
  have e : List.range 8 = [0, 1, 2, 3, 4, 5, 6, 7] := rfl
  rw [e]
  simp only [List.map, sum_range_succ, sum_range_zero, Nat.reduceMul, Nat.reduceMod, h0, h1, h2, h3, h4, h5, h6, h7, body8]
  refine congrArg₂ List.cons ?_ (congrArg₂ List.cons ?_ (congrArg₂ List.cons ?_ (congrArg₂ List.cons ?_ (congrArg₂ List.cons ?_ (congrArg₂ List.cons ?_ (congrArg₂ List.cons ?_ (congrArg₂ List.cons ?_ rfl))))))) <;> ring

private theorem body9_spec (c1 c2 c3 c4 c5 : ℂ) (E : Nat → ℂ) (h0 : E 0 = 1)
    (h1 : E 1 = c2 + I * c3) (h2 : E 2 = c4 + I * c5) (h3 : E 3 = -(1/2) + I * c1)
    (h4 : E 4 = -(c2 + c4) + I * (c1 * c2 - c3 / 2)) (h5 : E 5 = -(c2 + c4) - I * (c1 * c2 - c3 / 2))
    (h6 : E 6 = -(1/2) - I * c1) (h7 : E 7 = c4 - I * c5) (h8 : E 8 = c2 - I * c3)
    (hc1 : c1 * c1 = 3 / 4) (hc4 : c4 = -(c2 / 2) + c1 * c3) (hc5 : c5 = c1 * c2 + c3 / 2)
    (z : Nat → ℂ) : body9 c1 c2 c3 c4 c5 z = (List.range 9).map fun k => ∑ q ∈ range 9, z q * E (k * q % 9) := by
  have h14 : c1 * c4 = -(c1 * c2) / 2 + 3 / 4 * c3 := by rw [hc4]; linear_combination c3 * hc1
  have h15 : c1 * c5 = 3 / 4 * c2 + c1 * c3 / 2 := by rw [hc5]; linear_combination c2 * hc1
  have e : List.range 9 = [0, 1, 2, 3, 4, 5, 6, 7, 8] := rfl
  rw [e]
  simp only [List.map, sum_range_succ, sum_range_zero, Nat.reduceMul, Nat.reduceMod, h0, h1, h2, h3, h4, h5, h6, h7, h8, body9]
  rw [h14, h15, hc4, hc5]
  refine congrArg₂ List.cons ?_ (congrArg₂ List.cons ?_ (congrArg₂ List.cons ?_ (congrArg₂ List.cons ?_ (congrArg₂ List.cons ?_ (congrArg₂ List.cons ?_ (congrArg₂ List.cons ?_ (congrArg₂ List.cons ?_ (congrArg₂ List.cons ?_ rfl)))))))) <;> ring

private theorem body16_spec (c1 c2 c3 c4 : ℂ) (E : Nat → ℂ) (h0 : E 0 = 1)
    (h1 : E 1 = c2 + I * c3) (h2 : E 2 = c4 + I * (c1 * c4)) (h3 : E 3 = c1 * c3 + I * (c1 * c2)) (h4 : E 4 = I * c1)
    (h5 : E 5 = -(c1 * c3) + I * (c1 * c2)) (h6 : E 6 = -c4 + I * (c1 * c4)) (h7 : E 7 = -c2 + I * c3) (h8 : E 8 = -1)
    (h9 : E 9 = -c2 - I * c3) (h10 : E 10 = -c4 - I * (c1 * c4)) (h11 : E 11 = -(c1 * c3) - I * (c1 * c2)) (h12 : E 12 = -(I * c1))
    (h13 : E 13 = c1 * c3 - I * (c1 * c2)) (h14 : E 14 = c4 - I * (c1 * c4)) (h15 : E 15 = c2 - I * c3)
    (z : Nat → ℂ) : body16 c1 c2 c3 c4 z = (List.range 16).map fun k => ∑ q ∈ range 16, z q * E (k * q % 16) := by
  have e : List.range 16 = [0, 1, 2, 3, 4, 5, 6, 7, 8, 9, 10, 11, 12, 13, 14, 15] := rfl
  rw [e]
  simp only [List.map, sum_range_succ, sum_range_zero, Nat.reduceMul, Nat.reduceMod, h0, h1, h2, h3, h4, h5, h6, h7, h8, h9, h10, h11, h12, h13, h14, h15, body16]
  refine congrArg₂ List.cons ?_ (congrArg₂ List.cons ?_ (congrArg₂ List.cons ?_ (congrArg₂ List.cons ?_ (congrArg₂ List.cons ?_ (congrArg₂ List.cons ?_ (congrArg₂ List.cons ?_ (congrArg₂ List.cons ?_ (congrArg₂ List.cons ?_ (congrArg₂ List.cons ?_ (congrArg₂ List.cons ?_ (congrArg₂ List.cons ?_ (congrArg₂ List.cons ?_ (congrArg₂ List.cons ?_ (congrArg₂ List.cons ?_ (congrArg₂ List.cons ?_ rfl))))))))))))))) <;> ring

/-! ### Values of the roots of unity -/

theorem w_cos_sin (p a : Nat) :
    w p a = (Real.cos (2 * Real.pi * a / p) : ℂ) + I * (Real.sin (2 * Real.pi * a / p) : ℂ) := by
  rw [w, show (2 * Real.pi * I * a / p : ℂ) = ((2 * Real.pi * a / p : ℝ) : ℂ) * I by push_cast; ring, exp_mul_I]
  push_cast; ring

theorem w_zero (p : Nat) : w p 0 = 1 := by simp [w]

theorem w_add (p a b : Nat) : w p (a + b) = w p a * w p b := by
  rw [w, w, w, ← exp_add]; congr 1; push_cast; ring

theorem w_self {p : Nat} (hp : 0 < p) : w p p = 1 := by
  have h : (p : ℂ) ≠ 0 := by exact_mod_cast hp.ne'
  rw [w, mul_div_assoc, div_self h, mul_one, exp_two_pi_mul_I]

theorem w_mul_self {p : Nat} (hp : 0 < p) (k : Nat) : w p (p * k) = 1 := by
  induction k with
  | zero => simp [w_zero]
  | succ k ih => rw [Nat.mul_succ, w_add, ih, w_self hp, one_mul]

theorem w_mod {p : Nat} (hp : 0 < p) (a : Nat) : w p (a % p) = w p a := by
  conv_rhs => rw [← Nat.mod_add_div a p]
  rw [w_add, w_mul_self hp, mul_one]

theorem w_mul_mod {p : Nat} (hp : 0 < p) (a b : Nat) : w p (a * (b % p)) = w p (a * b) := by
  rw [← w_mod hp, Nat.mul_mod, Nat.mod_mod, ← Nat.mul_mod, w_mod hp]

theorem w_compl {p j : Nat} (hp : 0 < p) (hj : j ≤ p) {c s : ℝ} (h : w p j = (c : ℂ) + I * (s : ℂ)) :
    w p (p - j) = (c : ℂ) - I * (s : ℂ) := by
  have hpr : (p : ℝ) ≠ 0 := by exact_mod_cast hp.ne'
  rw [w_cos_sin] at h ⊢
  have hc := congrArg Complex.re h
  have hs := congrArg Complex.im h
  simp only [add_re, add_im, mul_re, mul_im, I_re, I_im, ofReal_re, ofReal_im] at hc hs
  have e : (2 * Real.pi * ((p - j : Nat) : ℝ) / p : ℝ) = 2 * Real.pi - 2 * Real.pi * j / p := by
    rw [Nat.cast_sub hj]; field_simp
  rw [e, Real.cos_two_pi_sub, Real.sin_two_pi_sub]
  have hc' : Real.cos (2 * Real.pi * j / p) = c := by linarith
  have hs' : Real.sin (2 * Real.pi * j / p) = s := by linarith
  rw [hc', hs']; push_cast; ring

private theorem cos_pos {x y : ℝ} (h : x = Real.pi / 2 - y) : Real.cos x = Real.sin y := by
  rw [h, Real.cos_pi_div_two_sub]
private theorem cos_neg' {x y : ℝ} (h : x = y + Real.pi / 2) : Real.cos x = -Real.sin y := by
  rw [h, Real.cos_add_pi_div_two]
private theorem sin_low {x y : ℝ} (h : x = y) : Real.sin x = Real.sin y := by rw [h]
private theorem sin_high {x y : ℝ} (h : x = Real.pi - y) : Real.sin x = Real.sin y := by
  rw [h, Real.sin_pi_sub]
private theorem w_val {p a : Nat} {c s : ℝ} (hc : Real.cos (2 * Real.pi * a / p) = c)
    (hs : Real.sin (2 * Real.pi * a / p) = s) : w p a = (c : ℂ) + I * (s : ℂ) := by
  rw [w_cos_sin, hc, hs]
private theorem cosP_zero {x : ℝ} (h : x = Real.pi / 2) : Real.cos x = 0 := by rw [h, Real.cos_pi_div_two]
private theorem sinP_one {x : ℝ} (h : x = Real.pi / 2) : Real.sin x = 1 := by rw [h, Real.sin_pi_div_two]
private theorem cosP_neg {x : ℝ} (h : x = Real.pi) : Real.cos x = -1 := by rw [h, Real.cos_pi]
private theorem sinP_zero {x : ℝ} (h : x = Real.pi) : Real.sin x = 0 := by rw [h, Real.sin_pi]
private theorem cosP_half {x : ℝ} (h : x = 2 * Real.pi / 3) : Real.cos x = -(1 / 2) := by
  rw [h, show (2 * Real.pi / 3 : ℝ) = Real.pi - Real.pi / 3 by ring, Real.cos_pi_sub, Real.cos_pi_div_three]

private theorem w2_1 : w 2 1 = (((-1) : ℝ) : ℂ) + I * ((0 : ℝ) : ℂ) :=
  w_val (cosP_neg (by push_cast; ring))
    (sinP_zero (by push_cast; ring))

private theorem w3_1 : w 3 1 = (((-(1/2)) : ℝ) : ℂ) + I * ((P866 : ℝ) : ℂ) :=
  w_val (cosP_half (by push_cast; ring))
    ((sin_high (by push_cast; ring)).trans (show _ = P866 from rfl))
private theorem w3_2 : w 3 2 = (((-(1/2)) : ℝ) : ℂ) - I * ((P866 : ℝ) : ℂ) :=
  w_compl (p := 3) (j := 1) (by norm_num) (by norm_num) w3_1

private theorem w4_1 : w 4 1 = ((0 : ℝ) : ℂ) + I * ((1 : ℝ) : ℂ) :=
  w_val (cosP_zero (by push_cast; ring))
    (sinP_one (by push_cast; ring))
private theorem w4_3 : w 4 3 = ((0 : ℝ) : ℂ) - I * ((1 : ℝ) : ℂ) :=
  w_compl (p := 4) (j := 1) (by norm_num) (by norm_num) w4_1

private theorem w4_2 : w 4 2 = (((-1) : ℝ) : ℂ) + I * ((0 : ℝ) : ℂ) :=
  w_val (cosP_neg (by push_cast; ring))
    (sinP_zero (by push_cast; ring))

private theorem w5_1 : w 5 1 = (((-(1/4) + P559) : ℝ) : ℂ) + I * ((P951 : ℝ) : ℂ) :=
  w_val ((cos_pos (by push_cast; ring)).trans (show Real.sin (1 * Real.pi / 10) = -(1/4) + P559 by rw [P559]; ring))
    ((sin_low (by push_cast; ring)).trans (show _ = P951 from rfl))
private theorem w5_4 : w 5 4 = (((-(1/4) + P559) : ℝ) : ℂ) - I * ((P951 : ℝ) : ℂ) :=
  w_compl (p := 5) (j := 1) (by norm_num) (by norm_num) w5_1

private theorem w5_2 : w 5 2 = (((Real.cos (2 * Real.pi * (2 : Nat) / (5 : Nat))) : ℝ) : ℂ) + I * ((P587 : ℝ) : ℂ) :=
  w_val rfl
    ((sin_high (by push_cast; ring)).trans (show _ = P587 from rfl))
private theorem w5_3 : w 5 3 = (((Real.cos (2 * Real.pi * (2 : Nat) / (5 : Nat))) : ℝ) : ℂ) - I * ((P587 : ℝ) : ℂ) :=
  w_compl (p := 5) (j := 2) (by norm_num) (by norm_num) w5_2

private theorem w7_1 : w 7 1 = ((P623 : ℝ) : ℂ) + I * ((P781 : ℝ) : ℂ) :=
  w_val ((cos_pos (by push_cast; ring)).trans (show _ = P623 from rfl))
    ((sin_low (by push_cast; ring)).trans (show _ = P781 from rfl))
private theorem w7_6 : w 7 6 = ((P623 : ℝ) : ℂ) - I * ((P781 : ℝ) : ℂ) :=
  w_compl (p := 7) (j := 1) (by norm_num) (by norm_num) w7_1

private theorem w7_2 : w 7 2 = (((-P222) : ℝ) : ℂ) + I * ((P974 : ℝ) : ℂ) :=
  w_val ((cos_neg' (by push_cast; ring)).trans (show -_ = -P222 from rfl))
    ((sin_high (by push_cast; ring)).trans (show _ = P974 from rfl))
private theorem w7_5 : w 7 5 = (((-P222) : ℝ) : ℂ) - I * ((P974 : ℝ) : ℂ) :=
  w_compl (p := 7) (j := 2) (by norm_num) (by norm_num) w7_2

private theorem w7_3 : w 7 3 = (((-P900) : ℝ) : ℂ) + I * ((P433 : ℝ) : ℂ) :=
  w_val ((cos_neg' (by push_cast; ring)).trans (show -_ = -P900 from rfl))
    ((sin_high (by push_cast; ring)).trans (show _ = P433 from rfl))
private theorem w7_4 : w 7 4 = (((-P900) : ℝ) : ℂ) - I * ((P433 : ℝ) : ℂ) :=
  w_compl (p := 7) (j := 3) (by norm_num) (by norm_num) w7_3

private theorem w8_1 : w 8 1 = ((P707 : ℝ) : ℂ) + I * ((P707 : ℝ) : ℂ) :=
  w_val ((cos_pos (by push_cast; ring)).trans (show _ = P707 from rfl))
    ((sin_low (by push_cast; ring)).trans (show _ = P707 from rfl))
private theorem w8_7 : w 8 7 = ((P707 : ℝ) : ℂ) - I * ((P707 : ℝ) : ℂ) :=
  w_compl (p := 8) (j := 1) (by norm_num) (by norm_num) w8_1

private theorem w8_2 : w 8 2 = ((0 : ℝ) : ℂ) + I * ((1 : ℝ) : ℂ) :=
  w_val (cosP_zero (by push_cast; ring))
    (sinP_one (by push_cast; ring))
private theorem w8_6 : w 8 6 = ((0 : ℝ) : ℂ) - I * ((1 : ℝ) : ℂ) :=
  w_compl (p := 8) (j := 2) (by norm_num) (by norm_num) w8_2

private theorem w8_3 : w 8 3 = (((-P707) : ℝ) : ℂ) + I * ((P707 : ℝ) : ℂ) :=
  w_val ((cos_neg' (by push_cast; ring)).trans (show -_ = -P707 from rfl))
    ((sin_high (by push_cast; ring)).trans (show _ = P707 from rfl))
private theorem w8_5 : w 8 5 = (((-P707) : ℝ) : ℂ) - I * ((P707 : ℝ) : ℂ) :=
  w_compl (p := 8) (j := 3) (by norm_num) (by norm_num) w8_3

private theorem w8_4 : w 8 4 = (((-1) : ℝ) : ℂ) + I * ((0 : ℝ) : ℂ) :=
  w_val (cosP_neg (by push_cast; ring))
    (sinP_zero (by push_cast; ring))

private theorem w9_1 : w 9 1 = ((P766 : ℝ) : ℂ) + I * ((P642 : ℝ) : ℂ) :=
  w_val ((cos_pos (by push_cast; ring)).trans (show _ = P766 from rfl))
    ((sin_low (by push_cast; ring)).trans (show _ = P642 from rfl))
private theorem w9_8 : w 9 8 = ((P766 : ℝ) : ℂ) - I * ((P642 : ℝ) : ℂ) :=
  w_compl (p := 9) (j := 1) (by norm_num) (by norm_num) w9_1

private theorem w9_2 : w 9 2 = ((P173 : ℝ) : ℂ) + I * ((P984 : ℝ) : ℂ) :=
  w_val ((cos_pos (by push_cast; ring)).trans (show _ = P173 from rfl))
    ((sin_low (by push_cast; ring)).trans (show _ = P984 from rfl))
private theorem w9_7 : w 9 7 = ((P173 : ℝ) : ℂ) - I * ((P984 : ℝ) : ℂ) :=
  w_compl (p := 9) (j := 2) (by norm_num) (by norm_num) w9_2

private theorem w9_3 : w 9 3 = (((-(1/2)) : ℝ) : ℂ) + I * ((P866 : ℝ) : ℂ) :=
  w_val (cosP_half (by push_cast; ring))
    ((sin_high (by push_cast; ring)).trans (show _ = P866 from rfl))
private theorem w9_6 : w 9 6 = (((-(1/2)) : ℝ) : ℂ) - I * ((P866 : ℝ) : ℂ) :=
  w_compl (p := 9) (j := 3) (by norm_num) (by norm_num) w9_3

private theorem w9_4 : w 9 4 = (((-P939) : ℝ) : ℂ) + I * ((P342 : ℝ) : ℂ) :=
  w_val ((cos_neg' (by push_cast; ring)).trans (show -_ = -P939 from rfl))
    ((sin_high (by push_cast; ring)).trans (show _ = P342 from rfl))
private theorem w9_5 : w 9 5 = (((-P939) : ℝ) : ℂ) - I * ((P342 : ℝ) : ℂ) :=
  w_compl (p := 9) (j := 4) (by norm_num) (by norm_num) w9_4

private theorem w11_1 : w 11 1 = ((P841 : ℝ) : ℂ) + I * ((P540 : ℝ) : ℂ) :=
  w_val ((cos_pos (by push_cast; ring)).trans (show _ = P841 from rfl))
    ((sin_low (by push_cast; ring)).trans (show _ = P540 from rfl))
private theorem w11_10 : w 11 10 = ((P841 : ℝ) : ℂ) - I * ((P540 : ℝ) : ℂ) :=
  w_compl (p := 11) (j := 1) (by norm_num) (by norm_num) w11_1

private theorem w11_2 : w 11 2 = ((P415 : ℝ) : ℂ) + I * ((P909 : ℝ) : ℂ) :=
  w_val ((cos_pos (by push_cast; ring)).trans (show _ = P415 from rfl))
    ((sin_low (by push_cast; ring)).trans (show _ = P909 from rfl))
private theorem w11_9 : w 11 9 = ((P415 : ℝ) : ℂ) - I * ((P909 : ℝ) : ℂ) :=
  w_compl (p := 11) (j := 2) (by norm_num) (by norm_num) w11_2

private theorem w11_3 : w 11 3 = (((-P142) : ℝ) : ℂ) + I * ((P989 : ℝ) : ℂ) :=
  w_val ((cos_neg' (by push_cast; ring)).trans (show -_ = -P142 from rfl))
    ((sin_high (by push_cast; ring)).trans (show _ = P989 from rfl))
private theorem w11_8 : w 11 8 = (((-P142) : ℝ) : ℂ) - I * ((P989 : ℝ) : ℂ) :=
  w_compl (p := 11) (j := 3) (by norm_num) (by norm_num) w11_3

private theorem w11_4 : w 11 4 = (((-P654) : ℝ) : ℂ) + I * ((P755 : ℝ) : ℂ) :=
  w_val ((cos_neg' (by push_cast; ring)).trans (show -_ = -P654 from rfl))
    ((sin_high (by push_cast; ring)).trans (show _ = P755 from rfl))
private theorem w11_7 : w 11 7 = (((-P654) : ℝ) : ℂ) - I * ((P755 : ℝ) : ℂ) :=
  w_compl (p := 11) (j := 4) (by norm_num) (by norm_num) w11_4

private theorem w11_5 : w 11 5 = (((-P959) : ℝ) : ℂ) + I * ((P281 : ℝ) : ℂ) :=
  w_val ((cos_neg' (by push_cast; ring)).trans (show -_ = -P959 from rfl))
    ((sin_high (by push_cast; ring)).trans (show _ = P281 from rfl))
private theorem w11_6 : w 11 6 = (((-P959) : ℝ) : ℂ) - I * ((P281 : ℝ) : ℂ) :=
  w_compl (p := 11) (j := 5) (by norm_num) (by norm_num) w11_5

private theorem w13_1 : w 13 1 = ((P885 : ℝ) : ℂ) + I * ((P464 : ℝ) : ℂ) :=
  w_val ((cos_pos (by push_cast; ring)).trans (show _ = P885 from rfl))
    ((sin_low (by push_cast; ring)).trans (show _ = P464 from rfl))
private theorem w13_12 : w 13 12 = ((P885 : ℝ) : ℂ) - I * ((P464 : ℝ) : ℂ) :=
  w_compl (p := 13) (j := 1) (by norm_num) (by norm_num) w13_1

private theorem w13_2 : w 13 2 = ((P568 : ℝ) : ℂ) + I * ((P822 : ℝ) : ℂ) :=
  w_val ((cos_pos (by push_cast; ring)).trans (show _ = P568 from rfl))
    ((sin_low (by push_cast; ring)).trans (show _ = P822 from rfl))
private theorem w13_11 : w 13 11 = ((P568 : ℝ) : ℂ) - I * ((P822 : ℝ) : ℂ) :=
  w_compl (p := 13) (j := 2) (by norm_num) (by norm_num) w13_2

private theorem w13_3 : w 13 3 = ((P120 : ℝ) : ℂ) + I * ((P992 : ℝ) : ℂ) :=
  w_val ((cos_pos (by push_cast; ring)).trans (show _ = P120 from rfl))
    ((sin_low (by push_cast; ring)).trans (show _ = P992 from rfl))
private theorem w13_10 : w 13 10 = ((P120 : ℝ) : ℂ) - I * ((P992 : ℝ) : ℂ) :=
  w_compl (p := 13) (j := 3) (by norm_num) (by norm_num) w13_3

private theorem w13_4 : w 13 4 = (((-P354) : ℝ) : ℂ) + I * ((P935 : ℝ) : ℂ) :=
  w_val ((cos_neg' (by push_cast; ring)).trans (show -_ = -P354 from rfl))
    ((sin_high (by push_cast; ring)).trans (show _ = P935 from rfl))
private theorem w13_9 : w 13 9 = (((-P354) : ℝ) : ℂ) - I * ((P935 : ℝ) : ℂ) :=
  w_compl (p := 13) (j := 4) (by norm_num) (by norm_num) w13_4

private theorem w13_5 : w 13 5 = (((-P748) : ℝ) : ℂ) + I * ((P663 : ℝ) : ℂ) :=
  w_val ((cos_neg' (by push_cast; ring)).trans (show -_ = -P748 from rfl))
    ((sin_high (by push_cast; ring)).trans (show _ = P663 from rfl))
private theorem w13_8 : w 13 8 = (((-P748) : ℝ) : ℂ) - I * ((P663 : ℝ) : ℂ) :=
  w_compl (p := 13) (j := 5) (by norm_num) (by norm_num) w13_5

private theorem w13_6 : w 13 6 = (((-P970) : ℝ) : ℂ) + I * ((P239 : ℝ) : ℂ) :=
  w_val ((cos_neg' (by push_cast; ring)).trans (show -_ = -P970 from rfl))
    ((sin_high (by push_cast; ring)).trans (show _ = P239 from rfl))
private theorem w13_7 : w 13 7 = (((-P970) : ℝ) : ℂ) - I * ((P239 : ℝ) : ℂ) :=
  w_compl (p := 13) (j := 6) (by norm_num) (by norm_num) w13_6

private theorem w16_1 : w 16 1 = ((P923 : ℝ) : ℂ) + I * ((P382 : ℝ) : ℂ) :=
  w_val ((cos_pos (by push_cast; ring)).trans (show _ = P923 from rfl))
    ((sin_low (by push_cast; ring)).trans (show _ = P382 from rfl))
private theorem w16_15 : w 16 15 = ((P923 : ℝ) : ℂ) - I * ((P382 : ℝ) : ℂ) :=
  w_compl (p := 16) (j := 1) (by norm_num) (by norm_num) w16_1

private theorem w16_2 : w 16 2 = ((P707 : ℝ) : ℂ) + I * ((P707 : ℝ) : ℂ) :=
  w_val ((cos_pos (by push_cast; ring)).trans (show _ = P707 from rfl))
    ((sin_low (by push_cast; ring)).trans (show _ = P707 from rfl))
private theorem w16_14 : w 16 14 = ((P707 : ℝ) : ℂ) - I * ((P707 : ℝ) : ℂ) :=
  w_compl (p := 16) (j := 2) (by norm_num) (by norm_num) w16_2

private theorem w16_3 : w 16 3 = ((P382 : ℝ) : ℂ) + I * ((P923 : ℝ) : ℂ) :=
  w_val ((cos_pos (by push_cast; ring)).trans (show _ = P382 from rfl))
    ((sin_low (by push_cast; ring)).trans (show _ = P923 from rfl))
private theorem w16_13 : w 16 13 = ((P382 : ℝ) : ℂ) - I * ((P923 : ℝ) : ℂ) :=
  w_compl (p := 16) (j := 3) (by norm_num) (by norm_num) w16_3

private theorem w16_4 : w 16 4 = ((0 : ℝ) : ℂ) + I * ((1 : ℝ) : ℂ) :=
  w_val (cosP_zero (by push_cast; ring))
    (sinP_one (by push_cast; ring))
private theorem w16_12 : w 16 12 = ((0 : ℝ) : ℂ) - I * ((1 : ℝ) : ℂ) :=
  w_compl (p := 16) (j := 4) (by norm_num) (by norm_num) w16_4

private theorem w16_5 : w 16 5 = (((-P382) : ℝ) : ℂ) + I * ((P923 : ℝ) : ℂ) :=
  w_val ((cos_neg' (by push_cast; ring)).trans (show -_ = -P382 from rfl))
    ((sin_high (by push_cast; ring)).trans (show _ = P923 from rfl))
private theorem w16_11 : w 16 11 = (((-P382) : ℝ) : ℂ) - I * ((P923 : ℝ) : ℂ) :=
  w_compl (p := 16) (j := 5) (by norm_num) (by norm_num) w16_5

private theorem w16_6 : w 16 6 = (((-P707) : ℝ) : ℂ) + I * ((P707 : ℝ) : ℂ) :=
  w_val ((cos_neg' (by push_cast; ring)).trans (show -_ = -P707 from rfl))
    ((sin_high (by push_cast; ring)).trans (show _ = P707 from rfl))
private theorem w16_10 : w 16 10 = (((-P707) : ℝ) : ℂ) - I * ((P707 : ℝ) : ℂ) :=
  w_compl (p := 16) (j := 6) (by norm_num) (by norm_num) w16_6

private theorem w16_7 : w 16 7 = (((-P923) : ℝ) : ℂ) + I * ((P382 : ℝ) : ℂ) :=
  w_val ((cos_neg' (by push_cast; ring)).trans (show -_ = -P923 from rfl))
    ((sin_high (by push_cast; ring)).trans (show _ = P382 from rfl))
private theorem w16_9 : w 16 9 = (((-P923) : ℝ) : ℂ) - I * ((P382 : ℝ) : ℂ) :=
  w_compl (p := 16) (j := 7) (by norm_num) (by norm_num) w16_7

private theorem w16_8 : w 16 8 = (((-1) : ℝ) : ℂ) + I * ((0 : ℝ) : ℂ) :=
  w_val (cosP_neg (by push_cast; ring))
    (sinP_zero (by push_cast; ring))

/-! ### The sum of all roots -/

theorem w_ne_one {p : Nat} (hp : 1 < p) : w p 1 ≠ 1 := by
  intro h
  rw [w, exp_eq_one_iff] at h
  obtain ⟨n, hn⟩ := h
  have hpi : (2 * Real.pi * I : ℂ) ≠ 0 := two_pi_I_ne_zero
  have hpc : (p : ℂ) ≠ 0 := by exact_mod_cast (by omega : p ≠ 0)
  rw [Nat.cast_one, mul_one, div_eq_iff hpc] at hn
  have h2 : (2 * Real.pi * I : ℂ) * 1 = (2 * Real.pi * I) * ((n : ℂ) * p) := by rw [mul_one]; linear_combination hn
  have h3 := mul_left_cancel₀ hpi h2
  have h4 : (1 : ℤ) = n * p := by exact_mod_cast h3
  have h5 : (p : ℤ) ∣ 1 := ⟨n, by rw [h4]; ring⟩
  have := Int.le_of_dvd one_pos h5
  omega

theorem w_pow (p a : Nat) : w p a = w p 1 ^ a := by
  induction a with
  | zero => simp [w_zero]
  | succ a ih => rw [w_add, ih, pow_succ]

theorem w_sum {p : Nat} (hp : 1 < p) : ∑ j ∈ range p, w p j = 0 := by
  have h : ∑ j ∈ range p, w p j = ∑ j ∈ range p, w p 1 ^ j := sum_congr rfl fun j _ => w_pow p j
  rw [h, geom_sum_eq (w_ne_one hp), ← w_pow, w_self (by omega)]
  simp

private theorem cos_sum {p : Nat} (hp : 1 < p) : ∑ j ∈ range p, (w p j).re = 0 := by
  have h := congrArg Complex.re (w_sum hp)
  simpa using h

private theorem re_val {x : ℂ} {c s : ℝ} (h : x = (c : ℂ) + I * (s : ℂ)) : x.re = c := by rw [h]; simp
private theorem re_val' {x : ℂ} {c s : ℝ} (h : x = (c : ℂ) - I * (s : ℂ)) : x.re = c := by rw [h]; simp

private theorem sum5 : Real.cos (2 * Real.pi * (2 : Nat) / (5 : Nat)) = -(1/4) - P559 := by
  have h := cos_sum (p := 5) (by norm_num)
  simp only [sum_range_succ, sum_range_zero, w_zero, one_re, re_val w5_1, re_val w5_2, re_val' w5_3, re_val' w5_4] at h
  linarith

private theorem sum7 : ((P623 : ℝ) : ℂ) + ((-P222 : ℝ) : ℂ) + ((-P900 : ℝ) : ℂ) = -(1/2) := by
  have h := cos_sum (p := 7) (by norm_num)
  simp only [sum_range_succ, sum_range_zero, w_zero, one_re, re_val w7_1, re_val w7_2, re_val w7_3, re_val' w7_4, re_val' w7_5, re_val' w7_6] at h
  have h2 : (P623 : ℝ) + (-P222 : ℝ) + (-P900 : ℝ) = -(1/2) := by linarith
  have h3 := congrArg (fun x : ℝ => (x : ℂ)) h2
  push_cast at h3 ⊢
  exact h3

private theorem sum11 : ((P841 : ℝ) : ℂ) + ((P415 : ℝ) : ℂ) + ((-P142 : ℝ) : ℂ) + ((-P654 : ℝ) : ℂ) + ((-P959 : ℝ) : ℂ) = -(1/2) := by
  have h := cos_sum (p := 11) (by norm_num)
  simp only [sum_range_succ, sum_range_zero, w_zero, one_re, re_val w11_1, re_val w11_2, re_val w11_3, re_val w11_4, re_val w11_5, re_val' w11_6, re_val' w11_7, re_val' w11_8, re_val' w11_9, re_val' w11_10] at h
  have h2 : (P841 : ℝ) + (P415 : ℝ) + (-P142 : ℝ) + (-P654 : ℝ) + (-P959 : ℝ) = -(1/2) := by linarith
  have h3 := congrArg (fun x : ℝ => (x : ℂ)) h2
  push_cast at h3 ⊢
  exact h3

private theorem sum13 : ((P885 : ℝ) : ℂ) + ((P568 : ℝ) : ℂ) + ((P120 : ℝ) : ℂ) + ((-P354 : ℝ) : ℂ) + ((-P748 : ℝ) : ℂ) + ((-P970 : ℝ) : ℂ) = -(1/2) := by
  have h := cos_sum (p := 13) (by norm_num)
  simp only [sum_range_succ, sum_range_zero, w_zero, one_re, re_val w13_1, re_val w13_2, re_val w13_3, re_val w13_4, re_val w13_5, re_val w13_6, re_val' w13_7, re_val' w13_8, re_val' w13_9, re_val' w13_10, re_val' w13_11, re_val' w13_12] at h
  have h2 : (P885 : ℝ) + (P568 : ℝ) + (P120 : ℝ) + (-P354 : ℝ) + (-P748 : ℝ) + (-P970 : ℝ) = -(1/2) := by linarith
  have h3 := congrArg (fun x : ℝ => (x : ℂ)) h2
  push_cast at h3 ⊢
  exact h3

/-! ### The choice of constants -/

set_option linter.unusedSimpArgs false
set_option linter.unusedTactic false
set_option linter.unnecessarySeqFocus false
set_option linter.unreachableTactic false

private theorem p866_sq : (P866 : ℂ) * P866 = 3 / 4 := by
  have h : P866 * P866 = 3 / 4 := by
    rw [P866, one_mul, Real.sin_pi_div_three]
    have := Real.mul_self_sqrt (show (0 : ℝ) ≤ 3 by norm_num)
    linear_combination this / 4
  have h3 := congrArg (fun x : ℝ => (x : ℂ)) h
  push_cast at h3 ⊢
  exact h3

private theorem w9_rel (a : Nat) (ha : a ≤ 9) : w 9 (2 * a) = w 9 (3 * a) * w 9 (9 - a) := by
  rw [← w_add, show 3 * a + (9 - a) = 2 * a + 9 by omega, w_add, w_self (by norm_num), mul_one]

private theorem w9_rel4 (a : Nat) : w 9 (4 * a) = w 9 (3 * a) * w 9 a := by
  rw [← w_add]; congr 1; omega

private theorem rel9a : ((P173 : ℝ) : ℂ) = -(((P766 : ℝ) : ℂ) / 2) + ((P866 : ℝ) : ℂ) * ((P642 : ℝ) : ℂ) ∧
    ((P984 : ℝ) : ℂ) = ((P866 : ℝ) : ℂ) * ((P766 : ℝ) : ℂ) + ((P642 : ℝ) : ℂ) / 2 := by
  have h := w9_rel 1 (by norm_num)
  simp only [Nat.reduceMul, Nat.reduceSub] at h
  rw [w9_2, w9_3, w9_8] at h
  have hc := congrArg Complex.re h
  have hs := congrArg Complex.im h
  simp only [add_re, add_im, sub_re, sub_im, mul_re, mul_im, I_re, I_im, ofReal_re, ofReal_im] at hc hs
  constructor
  · have : _ = _ := hc
    norm_cast
    linarith
  · norm_cast
    linarith

private theorem rel9a4 : ((-P939 : ℝ) : ℂ) = -(((P766 : ℝ) : ℂ) / 2) - ((P866 : ℝ) : ℂ) * ((P642 : ℝ) : ℂ) ∧
    ((P342 : ℝ) : ℂ) = ((P866 : ℝ) : ℂ) * ((P766 : ℝ) : ℂ) - ((P642 : ℝ) : ℂ) / 2 := by
  have h := w9_rel4 1
  simp only [Nat.reduceMul, Nat.reduceSub] at h
  rw [w9_4, w9_3, w9_1] at h
  have hc := congrArg Complex.re h
  have hs := congrArg Complex.im h
  simp only [add_re, add_im, sub_re, sub_im, mul_re, mul_im, I_re, I_im, ofReal_re, ofReal_im] at hc hs
  constructor
  · have : _ = _ := hc
    norm_cast
    linarith
  · norm_cast
    linarith

private theorem rel9b : ((-P939 : ℝ) : ℂ) = -(((P173 : ℝ) : ℂ) / 2) + ((-P866 : ℝ) : ℂ) * ((P984 : ℝ) : ℂ) ∧
    ((P342 : ℝ) : ℂ) = ((-P866 : ℝ) : ℂ) * ((P173 : ℝ) : ℂ) + ((P984 : ℝ) : ℂ) / 2 := by
  have h := w9_rel 2 (by norm_num)
  simp only [Nat.reduceMul, Nat.reduceSub] at h
  rw [w9_4, w9_6, w9_7] at h
  have hc := congrArg Complex.re h
  have hs := congrArg Complex.im h
  simp only [add_re, add_im, sub_re, sub_im, mul_re, mul_im, I_re, I_im, ofReal_re, ofReal_im] at hc hs
  constructor
  · have : _ = _ := hc
    norm_cast
    linarith
  · norm_cast
    linarith

private theorem rel9b4 : ((P766 : ℝ) : ℂ) = -(((P173 : ℝ) : ℂ) / 2) - ((-P866 : ℝ) : ℂ) * ((P984 : ℝ) : ℂ) ∧
    ((-P642 : ℝ) : ℂ) = ((-P866 : ℝ) : ℂ) * ((P173 : ℝ) : ℂ) - ((P984 : ℝ) : ℂ) / 2 := by
  have h := w9_rel4 2
  simp only [Nat.reduceMul, Nat.reduceSub] at h
  rw [w9_8, w9_6, w9_2] at h
  have hc := congrArg Complex.re h
  have hs := congrArg Complex.im h
  simp only [add_re, add_im, sub_re, sub_im, mul_re, mul_im, I_re, I_im, ofReal_re, ofReal_im] at hc hs
  constructor
  · have : _ = _ := hc
    norm_cast
    linarith
  · norm_cast
    linarith

private theorem rel9c : ((P766 : ℝ) : ℂ) = -(((-P939 : ℝ) : ℂ) / 2) + ((P866 : ℝ) : ℂ) * ((P342 : ℝ) : ℂ) ∧
    ((-P642 : ℝ) : ℂ) = ((P866 : ℝ) : ℂ) * ((-P939 : ℝ) : ℂ) + ((P342 : ℝ) : ℂ) / 2 := by
  have h := w9_rel 4 (by norm_num)
  simp only [Nat.reduceMul, Nat.reduceSub] at h
  rw [show (12 : Nat) = 9 + 3 from rfl, w_add, w_self (by norm_num), one_mul] at h
  rw [w9_8, w9_3, w9_5] at h
  have hc := congrArg Complex.re h
  have hs := congrArg Complex.im h
  simp only [add_re, add_im, sub_re, sub_im, mul_re, mul_im, I_re, I_im, ofReal_re, ofReal_im] at hc hs
  constructor
  · have : _ = _ := hc
    norm_cast
    linarith
  · norm_cast
    linarith

private theorem rel9c4 : ((P173 : ℝ) : ℂ) = -(((-P939 : ℝ) : ℂ) / 2) - ((P866 : ℝ) : ℂ) * ((P342 : ℝ) : ℂ) ∧
    ((-P984 : ℝ) : ℂ) = ((P866 : ℝ) : ℂ) * ((-P939 : ℝ) : ℂ) - ((P342 : ℝ) : ℂ) / 2 := by
  have h := w9_rel4 4
  simp only [Nat.reduceMul, Nat.reduceSub] at h
  rw [show (16 : Nat) = 9 + 7 from rfl, w_add, w_self (by norm_num), one_mul] at h
  rw [show (12 : Nat) = 9 + 3 from rfl, w_add, w_self (by norm_num), one_mul] at h
  rw [w9_7, w9_3, w9_4] at h
  have hc := congrArg Complex.re h
  have hs := congrArg Complex.im h
  simp only [add_re, add_im, sub_re, sub_im, mul_re, mul_im, I_re, I_im, ofReal_re, ofReal_im] at hc hs
  constructor
  · have : _ = _ := hc
    norm_cast
    linarith
  · norm_cast
    linarith

theorem kern2_spec (mu : Nat) (h1 : mu < 2) (h2 : Nat.Coprime mu 2) (z : Nat → ℂ) :
    kern2 mu z = short 2 mu z := by
  have key : ∀ l, l = (List.range 2).map (fun k => ∑ q ∈ range 2, z q * (fun j => w 2 (mu * j)) (k * q % 2)) → l = short 2 mu z := by
    intro l hl; rw [hl, short]; simp only [w_mul_mod (show 0 < 2 by norm_num)]
  apply key; clear key
  have hr : ∀ a, w 2 (a + 2) = w 2 a := fun a => by rw [w_add, w_self (by norm_num), mul_one]
  have hm : ∀ a, w 2 a = w 2 (a % 2) := fun a => (w_mod (by norm_num) a).symm
  interval_cases mu
  · exact absurd h2 (by decide)
  · simp only [kern2, Nat.reduceEqDiff, OfNat.ofNat_ne_one, OfNat.one_ne_ofNat, if_true, if_false]
    exact body2_spec  (fun j => w 2 (1 * j)) (by rw [hm]; simp only [Nat.reduceMul, Nat.reduceMod, w_zero])
      (by rw [hm]; simp only [Nat.reduceMul, Nat.reduceMod, w2_1] <;> push_cast <;> ring) z

theorem kern3_spec (mu : Nat) (h1 : mu < 3) (h2 : Nat.Coprime mu 3) (z : Nat → ℂ) :
    kern3 mu z = short 3 mu z := by
  have key : ∀ l, l = (List.range 3).map (fun k => ∑ q ∈ range 3, z q * (fun j => w 3 (mu * j)) (k * q % 3)) → l = short 3 mu z := by
    intro l hl; rw [hl, short]; simp only [w_mul_mod (show 0 < 3 by norm_num)]
  apply key; clear key
  have hr : ∀ a, w 3 (a + 3) = w 3 a := fun a => by rw [w_add, w_self (by norm_num), mul_one]
  have hm : ∀ a, w 3 a = w 3 (a % 3) := fun a => (w_mod (by norm_num) a).symm
  interval_cases mu
  · exact absurd h2 (by decide)
  · simp only [kern3, Nat.reduceEqDiff, OfNat.ofNat_ne_one, OfNat.one_ne_ofNat, if_true, if_false]
    exact body3_spec _ (fun j => w 3 (1 * j)) (by rw [hm]; simp only [Nat.reduceMul, Nat.reduceMod, w_zero])
      (by rw [hm]; simp only [Nat.reduceMul, Nat.reduceMod, w3_1, w3_2] <;> push_cast <;> ring)
      (by rw [hm]; simp only [Nat.reduceMul, Nat.reduceMod, w3_1, w3_2] <;> push_cast <;> ring) z
  · simp only [kern3, Nat.reduceEqDiff, OfNat.ofNat_ne_one, OfNat.one_ne_ofNat, if_true, if_false]
    exact body3_spec _ (fun j => w 3 (2 * j)) (by rw [hm]; simp only [Nat.reduceMul, Nat.reduceMod, w_zero])
      (by rw [hm]; simp only [Nat.reduceMul, Nat.reduceMod, w3_1, w3_2] <;> push_cast <;> ring)
      (by rw [hm]; simp only [Nat.reduceMul, Nat.reduceMod, w3_1, w3_2] <;> push_cast <;> ring) z

theorem kern4_spec (mu : Nat) (h1 : mu < 4) (h2 : Nat.Coprime mu 4) (z : Nat → ℂ) :
    kern4 mu z = short 4 mu z := by
  have key : ∀ l, l = (List.range 4).map (fun k => ∑ q ∈ range 4, z q * (fun j => w 4 (mu * j)) (k * q % 4)) → l = short 4 mu z := by
    intro l hl; rw [hl, short]; simp only [w_mul_mod (show 0 < 4 by norm_num)]
  apply key; clear key
  have hr : ∀ a, w 4 (a + 4) = w 4 a := fun a => by rw [w_add, w_self (by norm_num), mul_one]
  have hm : ∀ a, w 4 a = w 4 (a % 4) := fun a => (w_mod (by norm_num) a).symm
  interval_cases mu
  · exact absurd h2 (by decide)
  · simp only [kern4, Nat.reduceEqDiff, OfNat.ofNat_ne_one, OfNat.one_ne_ofNat, if_true, if_false]
    exact body4_spec _ (fun j => w 4 (1 * j)) (by rw [hm]; simp only [Nat.reduceMul, Nat.reduceMod, w_zero])
      (by rw [hm]; simp only [Nat.reduceMul, Nat.reduceMod, w4_1, w4_2, w4_3] <;> push_cast <;> ring)
      (by rw [hm]; simp only [Nat.reduceMul, Nat.reduceMod, w4_1, w4_2, w4_3] <;> push_cast <;> ring)
      (by rw [hm]; simp only [Nat.reduceMul, Nat.reduceMod, w4_1, w4_2, w4_3] <;> push_cast <;> ring) z
  · exact absurd h2 (by decide)
  · simp only [kern4, Nat.reduceEqDiff, OfNat.ofNat_ne_one, OfNat.one_ne_ofNat, if_true, if_false]
    exact body4_spec _ (fun j => w 4 (3 * j)) (by rw [hm]; simp only [Nat.reduceMul, Nat.reduceMod, w_zero])
      (by rw [hm]; simp only [Nat.reduceMul, Nat.reduceMod, w4_1, w4_2, w4_3] <;> push_cast <;> ring)
      (by rw [hm]; simp only [Nat.reduceMul, Nat.reduceMod, w4_1, w4_2, w4_3] <;> push_cast <;> ring)
      (by rw [hm]; simp only [Nat.reduceMul, Nat.reduceMod, w4_1, w4_2, w4_3] <;> push_cast <;> ring) z

theorem kern5_spec (mu : Nat) (h1 : mu < 5) (h2 : Nat.Coprime mu 5) (z : Nat → ℂ) :
    kern5 mu z = short 5 mu z := by
  have key : ∀ l, l = (List.range 5).map (fun k => ∑ q ∈ range 5, z q * (fun j => w 5 (mu * j)) (k * q % 5)) → l = short 5 mu z := by
    intro l hl; rw [hl, short]; simp only [w_mul_mod (show 0 < 5 by norm_num)]
  apply key; clear key
  have hr : ∀ a, w 5 (a + 5) = w 5 a := fun a => by rw [w_add, w_self (by norm_num), mul_one]
  have hm : ∀ a, w 5 a = w 5 (a % 5) := fun a => (w_mod (by norm_num) a).symm
  interval_cases mu
  · exact absurd h2 (by decide)
  · simp only [kern5, Nat.reduceEqDiff, OfNat.ofNat_ne_one, OfNat.one_ne_ofNat, if_true, if_false]
    exact body5_spec _ _ _ (fun j => w 5 (1 * j)) (by rw [hm]; simp only [Nat.reduceMul, Nat.reduceMod, w_zero])
      (by rw [hm]; simp only [Nat.reduceMul, Nat.reduceMod, w5_1, w5_2, w5_3, w5_4, sum5] <;> push_cast <;> ring)
      (by rw [hm]; simp only [Nat.reduceMul, Nat.reduceMod, w5_1, w5_2, w5_3, w5_4, sum5] <;> push_cast <;> ring)
      (by rw [hm]; simp only [Nat.reduceMul, Nat.reduceMod, w5_1, w5_2, w5_3, w5_4, sum5] <;> push_cast <;> ring)
      (by rw [hm]; simp only [Nat.reduceMul, Nat.reduceMod, w5_1, w5_2, w5_3, w5_4, sum5] <;> push_cast <;> ring) z
  · simp only [kern5, Nat.reduceEqDiff, OfNat.ofNat_ne_one, OfNat.one_ne_ofNat, if_true, if_false]
    exact body5_spec _ _ _ (fun j => w 5 (2 * j)) (by rw [hm]; simp only [Nat.reduceMul, Nat.reduceMod, w_zero])
      (by rw [hm]; simp only [Nat.reduceMul, Nat.reduceMod, w5_1, w5_2, w5_3, w5_4, sum5] <;> push_cast <;> ring)
      (by rw [hm]; simp only [Nat.reduceMul, Nat.reduceMod, w5_1, w5_2, w5_3, w5_4, sum5] <;> push_cast <;> ring)
      (by rw [hm]; simp only [Nat.reduceMul, Nat.reduceMod, w5_1, w5_2, w5_3, w5_4, sum5] <;> push_cast <;> ring)
      (by rw [hm]; simp only [Nat.reduceMul, Nat.reduceMod, w5_1, w5_2, w5_3, w5_4, sum5] <;> push_cast <;> ring) z
  · simp only [kern5, Nat.reduceEqDiff, OfNat.ofNat_ne_one, OfNat.one_ne_ofNat, if_true, if_false]
    exact body5_spec _ _ _ (fun j => w 5 (3 * j)) (by rw [hm]; simp only [Nat.reduceMul, Nat.reduceMod, w_zero])
      (by rw [hm]; simp only [Nat.reduceMul, Nat.reduceMod, w5_1, w5_2, w5_3, w5_4, sum5] <;> push_cast <;> ring)
      (by rw [hm]; simp only [Nat.reduceMul, Nat.reduceMod, w5_1, w5_2, w5_3, w5_4, sum5] <;> push_cast <;> ring)
      (by rw [hm]; simp only [Nat.reduceMul, Nat.reduceMod, w5_1, w5_2, w5_3, w5_4, sum5] <;> push_cast <;> ring)
      (by rw [hm]; simp only [Nat.reduceMul, Nat.reduceMod, w5_1, w5_2, w5_3, w5_4, sum5] <;> push_cast <;> ring) z
  · simp only [kern5, Nat.reduceEqDiff, OfNat.ofNat_ne_one, OfNat.one_ne_ofNat, if_true, if_false]
    exact body5_spec _ _ _ (fun j => w 5 (4 * j)) (by rw [hm]; simp only [Nat.reduceMul, Nat.reduceMod, w_zero])
      (by rw [hm]; simp only [Nat.reduceMul, Nat.reduceMod, w5_1, w5_2, w5_3, w5_4, sum5] <;> push_cast <;> ring)
      (by rw [hm]; simp only [Nat.reduceMul, Nat.reduceMod, w5_1, w5_2, w5_3, w5_4, sum5] <;> push_cast <;> ring)
      (by rw [hm]; simp only [Nat.reduceMul, Nat.reduceMod, w5_1, w5_2, w5_3, w5_4, sum5] <;> push_cast <;> ring)
      (by rw [hm]; simp only [Nat.reduceMul, Nat.reduceMod, w5_1, w5_2, w5_3, w5_4, sum5] <;> push_cast <;> ring) z

theorem kern7_spec (mu : Nat) (h1 : mu < 7) (h2 : Nat.Coprime mu 7) (z : Nat → ℂ) :
    kern7 mu z = short 7 mu z := by
  have key : ∀ l, l = (List.range 7).map (fun k => ∑ q ∈ range 7, z q * (fun j => w 7 (mu * j)) (k * q % 7)) → l = short 7 mu z := by
    intro l hl; rw [hl, short]; simp only [w_mul_mod (show 0 < 7 by norm_num)]
  apply key; clear key
  have hr : ∀ a, w 7 (a + 7) = w 7 a := fun a => by rw [w_add, w_self (by norm_num), mul_one]
  have hm : ∀ a, w 7 a = w 7 (a % 7) := fun a => (w_mod (by norm_num) a).symm
  interval_cases mu
  · exact absurd h2 (by decide)
  · simp only [kern7, Nat.reduceEqDiff, OfNat.ofNat_ne_one, OfNat.one_ne_ofNat, if_true, if_false]
    exact body7_spec _ _ _ _ _ _ (fun j => w 7 (1 * j)) (by rw [hm]; simp only [Nat.reduceMul, Nat.reduceMod, w_zero])
      (by rw [hm]; simp only [Nat.reduceMul, Nat.reduceMod, w7_1, w7_2, w7_3, w7_4, w7_5, w7_6] <;> push_cast <;> ring)
      (by rw [hm]; simp only [Nat.reduceMul, Nat.reduceMod, w7_1, w7_2, w7_3, w7_4, w7_5, w7_6] <;> push_cast <;> ring)
      (by rw [hm]; simp only [Nat.reduceMul, Nat.reduceMod, w7_1, w7_2, w7_3, w7_4, w7_5, w7_6] <;> push_cast <;> ring)
      (by rw [hm]; simp only [Nat.reduceMul, Nat.reduceMod, w7_1, w7_2, w7_3, w7_4, w7_5, w7_6] <;> push_cast <;> ring)
      (by rw [hm]; simp only [Nat.reduceMul, Nat.reduceMod, w7_1, w7_2, w7_3, w7_4, w7_5, w7_6] <;> push_cast <;> ring)
      (by rw [hm]; simp only [Nat.reduceMul, Nat.reduceMod, w7_1, w7_2, w7_3, w7_4, w7_5, w7_6] <;> push_cast <;> ring)
      (by linear_combination (norm := (push_cast; ring)) sum7) z
  · simp only [kern7, Nat.reduceEqDiff, OfNat.ofNat_ne_one, OfNat.one_ne_ofNat, if_true, if_false]
    exact body7_spec _ _ _ _ _ _ (fun j => w 7 (2 * j)) (by rw [hm]; simp only [Nat.reduceMul, Nat.reduceMod, w_zero])
      (by rw [hm]; simp only [Nat.reduceMul, Nat.reduceMod, w7_1, w7_2, w7_3, w7_4, w7_5, w7_6] <;> push_cast <;> ring)
      (by rw [hm]; simp only [Nat.reduceMul, Nat.reduceMod, w7_1, w7_2, w7_3, w7_4, w7_5, w7_6] <;> push_cast <;> ring)
      (by rw [hm]; simp only [Nat.reduceMul, Nat.reduceMod, w7_1, w7_2, w7_3, w7_4, w7_5, w7_6] <;> push_cast <;> ring)
      (by rw [hm]; simp only [Nat.reduceMul, Nat.reduceMod, w7_1, w7_2, w7_3, w7_4, w7_5, w7_6] <;> push_cast <;> ring)
      (by rw [hm]; simp only [Nat.reduceMul, Nat.reduceMod, w7_1, w7_2, w7_3, w7_4, w7_5, w7_6] <;> push_cast <;> ring)
      (by rw [hm]; simp only [Nat.reduceMul, Nat.reduceMod, w7_1, w7_2, w7_3, w7_4, w7_5, w7_6] <;> push_cast <;> ring)
      (by linear_combination (norm := (push_cast; ring)) sum7) z
  · simp only [kern7, Nat.reduceEqDiff, OfNat.ofNat_ne_one, OfNat.one_ne_ofNat, if_true, if_false]
    exact body7_spec _ _ _ _ _ _ (fun j => w 7 (3 * j)) (by rw [hm]; simp only [Nat.reduceMul, Nat.reduceMod, w_zero])
      (by rw [hm]; simp only [Nat.reduceMul, Nat.reduceMod, w7_1, w7_2, w7_3, w7_4, w7_5, w7_6] <;> push_cast <;> ring)
      (by rw [hm]; simp only [Nat.reduceMul, Nat.reduceMod, w7_1, w7_2, w7_3, w7_4, w7_5, w7_6] <;> push_cast <;> ring)
      (by rw [hm]; simp only [Nat.reduceMul, Nat.reduceMod, w7_1, w7_2, w7_3, w7_4, w7_5, w7_6] <;> push_cast <;> ring)
      (by rw [hm]; simp only [Nat.reduceMul, Nat.reduceMod, w7_1, w7_2, w7_3, w7_4, w7_5, w7_6] <;> push_cast <;> ring)
      (by rw [hm]; simp only [Nat.reduceMul, Nat.reduceMod, w7_1, w7_2, w7_3, w7_4, w7_5, w7_6] <;> push_cast <;> ring)
      (by rw [hm]; simp only [Nat.reduceMul, Nat.reduceMod, w7_1, w7_2, w7_3, w7_4, w7_5, w7_6] <;> push_cast <;> ring)
      (by linear_combination (norm := (push_cast; ring)) sum7) z
  · simp only [kern7, Nat.reduceEqDiff, OfNat.ofNat_ne_one, OfNat.one_ne_ofNat, if_true, if_false]
    exact body7_spec _ _ _ _ _ _ (fun j => w 7 (4 * j)) (by rw [hm]; simp only [Nat.reduceMul, Nat.reduceMod, w_zero])
      (by rw [hm]; simp only [Nat.reduceMul, Nat.reduceMod, w7_1, w7_2, w7_3, w7_4, w7_5, w7_6] <;> push_cast <;> ring)
      (by rw [hm]; simp only [Nat.reduceMul, Nat.reduceMod, w7_1, w7_2, w7_3, w7_4, w7_5, w7_6] <;> push_cast <;> ring)
      (by rw [hm]; simp only [Nat.reduceMul, Nat.reduceMod, w7_1, w7_2, w7_3, w7_4, w7_5, w7_6] <;> push_cast <;> ring)
      (by rw [hm]; simp only [Nat.reduceMul, Nat.reduceMod, w7_1, w7_2, w7_3, w7_4, w7_5, w7_6] <;> push_cast <;> ring)
      (by rw [hm]; simp only [Nat.reduceMul, Nat.reduceMod, w7_1, w7_2, w7_3, w7_4, w7_5, w7_6] <;> push_cast <;> ring)
      (by rw [hm]; simp only [Nat.reduceMul, Nat.reduceMod, w7_1, w7_2, w7_3, w7_4, w7_5, w7_6] <;> push_cast <;> ring)
      (by linear_combination (norm := (push_cast; ring)) sum7) z
  · simp only [kern7, Nat.reduceEqDiff, OfNat.ofNat_ne_one, OfNat.one_ne_ofNat, if_true, if_false]
    exact body7_spec _ _ _ _ _ _ (fun j => w 7 (5 * j)) (by rw [hm]; simp only [Nat.reduceMul, Nat.reduceMod, w_zero])
      (by rw [hm]; simp only [Nat.reduceMul, Nat.reduceMod, w7_1, w7_2, w7_3, w7_4, w7_5, w7_6] <;> push_cast <;> ring)
      (by rw [hm]; simp only [Nat.reduceMul, Nat.reduceMod, w7_1, w7_2, w7_3, w7_4, w7_5, w7_6] <;> push_cast <;> ring)
      (by rw [hm]; simp only [Nat.reduceMul, Nat.reduceMod, w7_1, w7_2, w7_3, w7_4, w7_5, w7_6] <;> push_cast <;> ring)
      (by rw [hm]; simp only [Nat.reduceMul, Nat.reduceMod, w7_1, w7_2, w7_3, w7_4, w7_5, w7_6] <;> push_cast <;> ring)
      (by rw [hm]; simp only [Nat.reduceMul, Nat.reduceMod, w7_1, w7_2, w7_3, w7_4, w7_5, w7_6] <;> push_cast <;> ring)
      (by rw [hm]; simp only [Nat.reduceMul, Nat.reduceMod, w7_1, w7_2, w7_3, w7_4, w7_5, w7_6] <;> push_cast <;> ring)
      (by linear_combination (norm := (push_cast; ring)) sum7) z
  · simp only [kern7, Nat.reduceEqDiff, OfNat.ofNat_ne_one, OfNat.one_ne_ofNat, if_true, if_false]
    exact body7_spec _ _ _ _ _ _ (fun j => w 7 (6 * j)) (by rw [hm]; simp only [Nat.reduceMul, Nat.reduceMod, w_zero])
      (by rw [hm]; simp only [Nat.reduceMul, Nat.reduceMod, w7_1, w7_2, w7_3, w7_4, w7_5, w7_6] <;> push_cast <;> ring)
      (by rw [hm]; simp only [Nat.reduceMul, Nat.reduceMod, w7_1, w7_2, w7_3, w7_4, w7_5, w7_6] <;> push_cast <;> ring)
      (by rw [hm]; simp only [Nat.reduceMul, Nat.reduceMod, w7_1, w7_2, w7_3, w7_4, w7_5, w7_6] <;> push_cast <;> ring)
      (by rw [hm]; simp only [Nat.reduceMul, Nat.reduceMod, w7_1, w7_2, w7_3, w7_4, w7_5, w7_6] <;> push_cast <;> ring)
      (by rw [hm]; simp only [Nat.reduceMul, Nat.reduceMod, w7_1, w7_2, w7_3, w7_4, w7_5, w7_6] <;> push_cast <;> ring)
      (by rw [hm]; simp only [Nat.reduceMul, Nat.reduceMod, w7_1, w7_2, w7_3, w7_4, w7_5, w7_6] <;> push_cast <;> ring)
      (by linear_combination (norm := (push_cast; ring)) sum7) z

theorem kern8_spec (mu : Nat) (h1 : mu < 8) (h2 : Nat.Coprime mu 8) (z : Nat → ℂ) :
    kern8 mu z = short 8 mu z := by
  have key : ∀ l, l = (List.range 8).map (fun k => ∑ q ∈ range 8, z q * (fun j => w 8 (mu * j)) (k * q % 8)) → l = short 8 mu z := by
    intro l hl; rw [hl, short]; simp only [w_mul_mod (show 0 < 8 by norm_num)]
  apply key; clear key
  have hr : ∀ a, w 8 (a + 8) = w 8 a := fun a => by rw [w_add, w_self (by norm_num), mul_one]
  have hm : ∀ a, w 8 a = w 8 (a % 8) := fun a => (w_mod (by norm_num) a).symm
  interval_cases mu
  · exact absurd h2 (by decide)
  · simp only [kern8, Nat.reduceEqDiff, OfNat.ofNat_ne_one, OfNat.one_ne_ofNat, if_true, if_false]
    exact body8_spec _ _ (fun j => w 8 (1 * j)) (by rw [hm]; simp only [Nat.reduceMul, Nat.reduceMod, w_zero])
      (by rw [hm]; simp only [Nat.reduceMul, Nat.reduceMod, w8_1, w8_2, w8_3, w8_4, w8_5, w8_6, w8_7] <;> push_cast <;> ring)
      (by rw [hm]; simp only [Nat.reduceMul, Nat.reduceMod, w8_1, w8_2, w8_3, w8_4, w8_5, w8_6, w8_7] <;> push_cast <;> ring)
      (by rw [hm]; simp only [Nat.reduceMul, Nat.reduceMod, w8_1, w8_2, w8_3, w8_4, w8_5, w8_6, w8_7] <;> push_cast <;> ring)
      (by rw [hm]; simp only [Nat.reduceMul, Nat.reduceMod, w8_1, w8_2, w8_3, w8_4, w8_5, w8_6, w8_7] <;> push_cast <;> ring)
      (by rw [hm]; simp only [Nat.reduceMul, Nat.reduceMod, w8_1, w8_2, w8_3, w8_4, w8_5, w8_6, w8_7] <;> push_cast <;> ring)
      (by rw [hm]; simp only [Nat.reduceMul, Nat.reduceMod, w8_1, w8_2, w8_3, w8_4, w8_5, w8_6, w8_7] <;> push_cast <;> ring)
      (by rw [hm]; simp only [Nat.reduceMul, Nat.reduceMod, w8_1, w8_2, w8_3, w8_4, w8_5, w8_6, w8_7] <;> push_cast <;> ring) z
  · exact absurd h2 (by decide)
  · simp only [kern8, Nat.reduceEqDiff, OfNat.ofNat_ne_one, OfNat.one_ne_ofNat, if_true, if_false]
    exact body8_spec _ _ (fun j => w 8 (3 * j)) (by rw [hm]; simp only [Nat.reduceMul, Nat.reduceMod, w_zero])
      (by rw [hm]; simp only [Nat.reduceMul, Nat.reduceMod, w8_1, w8_2, w8_3, w8_4, w8_5, w8_6, w8_7] <;> push_cast <;> ring)
      (by rw [hm]; simp only [Nat.reduceMul, Nat.reduceMod, w8_1, w8_2, w8_3, w8_4, w8_5, w8_6, w8_7] <;> push_cast <;> ring)
      (by rw [hm]; simp only [Nat.reduceMul, Nat.reduceMod, w8_1, w8_2, w8_3, w8_4, w8_5, w8_6, w8_7] <;> push_cast <;> ring)
      (by rw [hm]; simp only [Nat.reduceMul, Nat.reduceMod, w8_1, w8_2, w8_3, w8_4, w8_5, w8_6, w8_7] <;> push_cast <;> ring)
      (by rw [hm]; simp only [Nat.reduceMul, Nat.reduceMod, w8_1, w8_2, w8_3, w8_4, w8_5, w8_6, w8_7] <;> push_cast <;> ring)
      (by rw [hm]; simp only [Nat.reduceMul, Nat.reduceMod, w8_1, w8_2, w8_3, w8_4, w8_5, w8_6, w8_7] <;> push_cast <;> ring)
      (by rw [hm]; simp only [Nat.reduceMul, Nat.reduceMod, w8_1, w8_2, w8_3, w8_4, w8_5, w8_6, w8_7] <;> push_cast <;> ring) z
  · exact absurd h2 (by decide)
  · simp only [kern8, Nat.reduceEqDiff, OfNat.ofNat_ne_one, OfNat.one_ne_ofNat, if_true, if_false]
    exact body8_spec _ _ (fun j => w 8 (5 * j)) (by rw [hm]; simp only [Nat.reduceMul, Nat.reduceMod, w_zero])
      (by rw [hm]; simp only [Nat.reduceMul, Nat.reduceMod, w8_1, w8_2, w8_3, w8_4, w8_5, w8_6, w8_7] <;> push_cast <;> ring)
      (by rw [hm]; simp only [Nat.reduceMul, Nat.reduceMod, w8_1, w8_2, w8_3, w8_4, w8_5, w8_6, w8_7] <;> push_cast <;> ring)
      (by rw [hm]; simp only [Nat.reduceMul, Nat.reduceMod, w8_1, w8_2, w8_3, w8_4, w8_5, w8_6, w8_7] <;> push_cast <;> ring)
      (by rw [hm]; simp only [Nat.reduceMul, Nat.reduceMod, w8_1, w8_2, w8_3, w8_4, w8_5, w8_6, w8_7] <;> push_cast <;> ring)
      (by rw [hm]; simp only [Nat.reduceMul, Nat.reduceMod, w8_1, w8_2, w8_3, w8_4, w8_5, w8_6, w8_7] <;> push_cast <;> ring)
      (by rw [hm]; simp only [Nat.reduceMul, Nat.reduceMod, w8_1, w8_2, w8_3, w8_4, w8_5, w8_6, w8_7] <;> push_cast <;> ring)
      (by rw [hm]; simp only [Nat.reduceMul, Nat.reduceMod, w8_1, w8_2, w8_3, w8_4, w8_5, w8_6, w8_7] <;> push_cast <;> ring) z
  · exact absurd h2 (by decide)
  · simp only [kern8, Nat.reduceEqDiff, OfNat.ofNat_ne_one, OfNat.one_ne_ofNat, if_true, if_false]
    exact body8_spec _ _ (fun j => w 8 (7 * j)) (by rw [hm]; simp only [Nat.reduceMul, Nat.reduceMod, w_zero])
      (by rw [hm]; simp only [Nat.reduceMul, Nat.reduceMod, w8_1, w8_2, w8_3, w8_4, w8_5, w8_6, w8_7] <;> push_cast <;> ring)
      (by rw [hm]; simp only [Nat.reduceMul, Nat.reduceMod, w8_1, w8_2, w8_3, w8_4, w8_5, w8_6, w8_7] <;> push_cast <;> ring)
      (by rw [hm]; simp only [Nat.reduceMul, Nat.reduceMod, w8_1, w8_2, w8_3, w8_4, w8_5, w8_6, w8_7] <;> push_cast <;> ring)
      (by rw [hm]; simp only [Nat.reduceMul, Nat.reduceMod, w8_1, w8_2, w8_3, w8_4, w8_5, w8_6, w8_7] <;> push_cast <;> ring)
      (by rw [hm]; simp only [Nat.reduceMul, Nat.reduceMod, w8_1, w8_2, w8_3, w8_4, w8_5, w8_6, w8_7] <;> push_cast <;> ring)
      (by rw [hm]; simp only [Nat.reduceMul, Nat.reduceMod, w8_1, w8_2, w8_3, w8_4, w8_5, w8_6, w8_7] <;> push_cast <;> ring)
      (by rw [hm]; simp only [Nat.reduceMul, Nat.reduceMod, w8_1, w8_2, w8_3, w8_4, w8_5, w8_6, w8_7] <;> push_cast <;> ring) z

theorem kern9_spec (mu : Nat) (h1 : mu < 9) (h2 : Nat.Coprime mu 9) (z : Nat → ℂ) :
    kern9 mu z = short 9 mu z := by
  have key : ∀ l, l = (List.range 9).map (fun k => ∑ q ∈ range 9, z q * (fun j => w 9 (mu * j)) (k * q % 9)) → l = short 9 mu z := by
    intro l hl; rw [hl, short]; simp only [w_mul_mod (show 0 < 9 by norm_num)]
  apply key; clear key
  have hr : ∀ a, w 9 (a + 9) = w 9 a := fun a => by rw [w_add, w_self (by norm_num), mul_one]
  have hm : ∀ a, w 9 a = w 9 (a % 9) := fun a => (w_mod (by norm_num) a).symm
  interval_cases mu
  · exact absurd h2 (by decide)
  · simp only [kern9, Nat.reduceEqDiff, OfNat.ofNat_ne_one, OfNat.one_ne_ofNat, if_true, if_false]
    exact body9_spec _ _ _ _ _ (fun j => w 9 (1 * j)) (by rw [hm]; simp only [Nat.reduceMul, Nat.reduceMod, w_zero])
      (by rw [hm]; simp only [Nat.reduceMul, Nat.reduceMod, w9_1, w9_2, w9_3, w9_4, w9_5, w9_6, w9_7, w9_8] <;> push_cast <;> ring)
      (by rw [hm]; simp only [Nat.reduceMul, Nat.reduceMod, w9_1, w9_2, w9_3, w9_4, w9_5, w9_6, w9_7, w9_8] <;> push_cast <;> ring)
      (by rw [hm]; simp only [Nat.reduceMul, Nat.reduceMod, w9_1, w9_2, w9_3, w9_4, w9_5, w9_6, w9_7, w9_8] <;> push_cast <;> ring)
      (by rw [hm]; simp only [Nat.reduceMul, Nat.reduceMod, w9_1, w9_2, w9_3, w9_4, w9_5, w9_6, w9_7, w9_8]; push_cast; linear_combination (norm := (push_cast; ring)) rel9a4.1 + rel9a.1 + I * rel9a4.2)
      (by rw [hm]; simp only [Nat.reduceMul, Nat.reduceMod, w9_1, w9_2, w9_3, w9_4, w9_5, w9_6, w9_7, w9_8]; push_cast; linear_combination (norm := (push_cast; ring)) rel9a4.1 + rel9a.1 - I * rel9a4.2)
      (by rw [hm]; simp only [Nat.reduceMul, Nat.reduceMod, w9_1, w9_2, w9_3, w9_4, w9_5, w9_6, w9_7, w9_8] <;> push_cast <;> ring)
      (by rw [hm]; simp only [Nat.reduceMul, Nat.reduceMod, w9_1, w9_2, w9_3, w9_4, w9_5, w9_6, w9_7, w9_8] <;> push_cast <;> ring)
      (by rw [hm]; simp only [Nat.reduceMul, Nat.reduceMod, w9_1, w9_2, w9_3, w9_4, w9_5, w9_6, w9_7, w9_8] <;> push_cast <;> ring)
      (by linear_combination (norm := ring) p866_sq)
      (by linear_combination (norm := (push_cast; ring)) rel9a.1)
      (by linear_combination (norm := (push_cast; ring)) rel9a.2) z
  · simp only [kern9, Nat.reduceEqDiff, OfNat.ofNat_ne_one, OfNat.one_ne_ofNat, if_true, if_false]
    exact body9_spec _ _ _ _ _ (fun j => w 9 (2 * j)) (by rw [hm]; simp only [Nat.reduceMul, Nat.reduceMod, w_zero])
      (by rw [hm]; simp only [Nat.reduceMul, Nat.reduceMod, w9_1, w9_2, w9_3, w9_4, w9_5, w9_6, w9_7, w9_8] <;> push_cast <;> ring)
      (by rw [hm]; simp only [Nat.reduceMul, Nat.reduceMod, w9_1, w9_2, w9_3, w9_4, w9_5, w9_6, w9_7, w9_8] <;> push_cast <;> ring)
      (by rw [hm]; simp only [Nat.reduceMul, Nat.reduceMod, w9_1, w9_2, w9_3, w9_4, w9_5, w9_6, w9_7, w9_8] <;> push_cast <;> ring)
      (by rw [hm]; simp only [Nat.reduceMul, Nat.reduceMod, w9_1, w9_2, w9_3, w9_4, w9_5, w9_6, w9_7, w9_8]; push_cast; linear_combination (norm := (push_cast; ring)) rel9b4.1 + rel9b.1 + I * rel9b4.2)
      (by rw [hm]; simp only [Nat.reduceMul, Nat.reduceMod, w9_1, w9_2, w9_3, w9_4, w9_5, w9_6, w9_7, w9_8]; push_cast; linear_combination (norm := (push_cast; ring)) rel9b4.1 + rel9b.1 - I * rel9b4.2)
      (by rw [hm]; simp only [Nat.reduceMul, Nat.reduceMod, w9_1, w9_2, w9_3, w9_4, w9_5, w9_6, w9_7, w9_8] <;> push_cast <;> ring)
      (by rw [hm]; simp only [Nat.reduceMul, Nat.reduceMod, w9_1, w9_2, w9_3, w9_4, w9_5, w9_6, w9_7, w9_8] <;> push_cast <;> ring)
      (by rw [hm]; simp only [Nat.reduceMul, Nat.reduceMod, w9_1, w9_2, w9_3, w9_4, w9_5, w9_6, w9_7, w9_8] <;> push_cast <;> ring)
      (by linear_combination (norm := ring) p866_sq)
      (by linear_combination (norm := (push_cast; ring)) rel9b.1)
      (by linear_combination (norm := (push_cast; ring)) rel9b.2) z
  · exact absurd h2 (by decide)
  · simp only [kern9, Nat.reduceEqDiff, OfNat.ofNat_ne_one, OfNat.one_ne_ofNat, if_true, if_false]
    exact body9_spec _ _ _ _ _ (fun j => w 9 (4 * j)) (by rw [hm]; simp only [Nat.reduceMul, Nat.reduceMod, w_zero])
      (by rw [hm]; simp only [Nat.reduceMul, Nat.reduceMod, w9_1, w9_2, w9_3, w9_4, w9_5, w9_6, w9_7, w9_8] <;> push_cast <;> ring)
      (by rw [hm]; simp only [Nat.reduceMul, Nat.reduceMod, w9_1, w9_2, w9_3, w9_4, w9_5, w9_6, w9_7, w9_8] <;> push_cast <;> ring)
      (by rw [hm]; simp only [Nat.reduceMul, Nat.reduceMod, w9_1, w9_2, w9_3, w9_4, w9_5, w9_6, w9_7, w9_8] <;> push_cast <;> ring)
      (by rw [hm]; simp only [Nat.reduceMul, Nat.reduceMod, w9_1, w9_2, w9_3, w9_4, w9_5, w9_6, w9_7, w9_8]; push_cast; linear_combination (norm := (push_cast; ring)) rel9c4.1 + rel9c.1 + I * rel9c4.2)
      (by rw [hm]; simp only [Nat.reduceMul, Nat.reduceMod, w9_1, w9_2, w9_3, w9_4, w9_5, w9_6, w9_7, w9_8]; push_cast; linear_combination (norm := (push_cast; ring)) rel9c4.1 + rel9c.1 - I * rel9c4.2)
      (by rw [hm]; simp only [Nat.reduceMul, Nat.reduceMod, w9_1, w9_2, w9_3, w9_4, w9_5, w9_6, w9_7, w9_8] <;> push_cast <;> ring)
      (by rw [hm]; simp only [Nat.reduceMul, Nat.reduceMod, w9_1, w9_2, w9_3, w9_4, w9_5, w9_6, w9_7, w9_8] <;> push_cast <;> ring)
      (by rw [hm]; simp only [Nat.reduceMul, Nat.reduceMod, w9_1, w9_2, w9_3, w9_4, w9_5, w9_6, w9_7, w9_8] <;> push_cast <;> ring)
      (by linear_combination (norm := ring) p866_sq)
      (by linear_combination (norm := (push_cast; ring)) rel9c.1)
      (by linear_combination (norm := (push_cast; ring)) rel9c.2) z
  · simp only [kern9, Nat.reduceEqDiff, OfNat.ofNat_ne_one, OfNat.one_ne_ofNat, if_true, if_false]
    exact body9_spec _ _ _ _ _ (fun j => w 9 (5 * j)) (by rw [hm]; simp only [Nat.reduceMul, Nat.reduceMod, w_zero])
      (by rw [hm]; simp only [Nat.reduceMul, Nat.reduceMod, w9_1, w9_2, w9_3, w9_4, w9_5, w9_6, w9_7, w9_8] <;> push_cast <;> ring)
      (by rw [hm]; simp only [Nat.reduceMul, Nat.reduceMod, w9_1, w9_2, w9_3, w9_4, w9_5, w9_6, w9_7, w9_8] <;> push_cast <;> ring)
      (by rw [hm]; simp only [Nat.reduceMul, Nat.reduceMod, w9_1, w9_2, w9_3, w9_4, w9_5, w9_6, w9_7, w9_8] <;> push_cast <;> ring)
      (by rw [hm]; simp only [Nat.reduceMul, Nat.reduceMod, w9_1, w9_2, w9_3, w9_4, w9_5, w9_6, w9_7, w9_8]; push_cast; linear_combination (norm := (push_cast; ring)) rel9c4.1 + rel9c.1 - I * rel9c4.2)
      (by rw [hm]; simp only [Nat.reduceMul, Nat.reduceMod, w9_1, w9_2, w9_3, w9_4, w9_5, w9_6, w9_7, w9_8]; push_cast; linear_combination (norm := (push_cast; ring)) rel9c4.1 + rel9c.1 + I * rel9c4.2)
      (by rw [hm]; simp only [Nat.reduceMul, Nat.reduceMod, w9_1, w9_2, w9_3, w9_4, w9_5, w9_6, w9_7, w9_8] <;> push_cast <;> ring)
      (by rw [hm]; simp only [Nat.reduceMul, Nat.reduceMod, w9_1, w9_2, w9_3, w9_4, w9_5, w9_6, w9_7, w9_8] <;> push_cast <;> ring)
      (by rw [hm]; simp only [Nat.reduceMul, Nat.reduceMod, w9_1, w9_2, w9_3, w9_4, w9_5, w9_6, w9_7, w9_8] <;> push_cast <;> ring)
      (by linear_combination (norm := ring) p866_sq)
      (by linear_combination (norm := (push_cast; ring)) rel9c.1)
      (by linear_combination (norm := (push_cast; ring)) -rel9c.2) z
  · exact absurd h2 (by decide)
  · simp only [kern9, Nat.reduceEqDiff, OfNat.ofNat_ne_one, OfNat.one_ne_ofNat, if_true, if_false]
    exact body9_spec _ _ _ _ _ (fun j => w 9 (7 * j)) (by rw [hm]; simp only [Nat.reduceMul, Nat.reduceMod, w_zero])
      (by rw [hm]; simp only [Nat.reduceMul, Nat.reduceMod, w9_1, w9_2, w9_3, w9_4, w9_5, w9_6, w9_7, w9_8] <;> push_cast <;> ring)
      (by rw [hm]; simp only [Nat.reduceMul, Nat.reduceMod, w9_1, w9_2, w9_3, w9_4, w9_5, w9_6, w9_7, w9_8] <;> push_cast <;> ring)
      (by rw [hm]; simp only [Nat.reduceMul, Nat.reduceMod, w9_1, w9_2, w9_3, w9_4, w9_5, w9_6, w9_7, w9_8] <;> push_cast <;> ring)
      (by rw [hm]; simp only [Nat.reduceMul, Nat.reduceMod, w9_1, w9_2, w9_3, w9_4, w9_5, w9_6, w9_7, w9_8]; push_cast; linear_combination (norm := (push_cast; ring)) rel9b4.1 + rel9b.1 - I * rel9b4.2)
      (by rw [hm]; simp only [Nat.reduceMul, Nat.reduceMod, w9_1, w9_2, w9_3, w9_4, w9_5, w9_6, w9_7, w9_8]; push_cast; linear_combination (norm := (push_cast; ring)) rel9b4.1 + rel9b.1 + I * rel9b4.2)
      (by rw [hm]; simp only [Nat.reduceMul, Nat.reduceMod, w9_1, w9_2, w9_3, w9_4, w9_5, w9_6, w9_7, w9_8] <;> push_cast <;> ring)
      (by rw [hm]; simp only [Nat.reduceMul, Nat.reduceMod, w9_1, w9_2, w9_3, w9_4, w9_5, w9_6, w9_7, w9_8] <;> push_cast <;> ring)
      (by rw [hm]; simp only [Nat.reduceMul, Nat.reduceMod, w9_1, w9_2, w9_3, w9_4, w9_5, w9_6, w9_7, w9_8] <;> push_cast <;> ring)
      (by linear_combination (norm := ring) p866_sq)
      (by linear_combination (norm := (push_cast; ring)) rel9b.1)
      (by linear_combination (norm := (push_cast; ring)) -rel9b.2) z
  · simp only [kern9, Nat.reduceEqDiff, OfNat.ofNat_ne_one, OfNat.one_ne_ofNat, if_true, if_false]
    exact body9_spec _ _ _ _ _ (fun j => w 9 (8 * j)) (by rw [hm]; simp only [Nat.reduceMul, Nat.reduceMod, w_zero])
      (by rw [hm]; simp only [Nat.reduceMul, Nat.reduceMod, w9_1, w9_2, w9_3, w9_4, w9_5, w9_6, w9_7, w9_8] <;> push_cast <;> ring)
      (by rw [hm]; simp only [Nat.reduceMul, Nat.reduceMod, w9_1, w9_2, w9_3, w9_4, w9_5, w9_6, w9_7, w9_8] <;> push_cast <;> ring)
      (by rw [hm]; simp only [Nat.reduceMul, Nat.reduceMod, w9_1, w9_2, w9_3, w9_4, w9_5, w9_6, w9_7, w9_8] <;> push_cast <;> ring)
      (by rw [hm]; simp only [Nat.reduceMul, Nat.reduceMod, w9_1, w9_2, w9_3, w9_4, w9_5, w9_6, w9_7, w9_8]; push_cast; linear_combination (norm := (push_cast; ring)) rel9a4.1 + rel9a.1 - I * rel9a4.2)
      (by rw [hm]; simp only [Nat.reduceMul, Nat.reduceMod, w9_1, w9_2, w9_3, w9_4, w9_5, w9_6, w9_7, w9_8]; push_cast; linear_combination (norm := (push_cast; ring)) rel9a4.1 + rel9a.1 + I * rel9a4.2)
      (by rw [hm]; simp only [Nat.reduceMul, Nat.reduceMod, w9_1, w9_2, w9_3, w9_4, w9_5, w9_6, w9_7, w9_8] <;> push_cast <;> ring)
      (by rw [hm]; simp only [Nat.reduceMul, Nat.reduceMod, w9_1, w9_2, w9_3, w9_4, w9_5, w9_6, w9_7, w9_8] <;> push_cast <;> ring)
      (by rw [hm]; simp only [Nat.reduceMul, Nat.reduceMod, w9_1, w9_2, w9_3, w9_4, w9_5, w9_6, w9_7, w9_8] <;> push_cast <;> ring)
      (by linear_combination (norm := ring) p866_sq)
      (by linear_combination (norm := (push_cast; ring)) rel9a.1)
      (by linear_combination (norm := (push_cast; ring)) -rel9a.2) z

theorem kern11_spec (mu : Nat) (h1 : mu < 11) (h2 : Nat.Coprime mu 11) (z : Nat → ℂ) :
    kern11 mu z = short 11 mu z := by
  have key : ∀ l, l = (List.range 11).map (fun k => ∑ q ∈ range 11, z q * (fun j => w 11 (mu * j)) (k * q % 11)) → l = short 11 mu z := by
    intro l hl; rw [hl, short]; simp only [w_mul_mod (show 0 < 11 by norm_num)]
  apply key; clear key
  have hr : ∀ a, w 11 (a + 11) = w 11 a := fun a => by rw [w_add, w_self (by norm_num), mul_one]
  have hm : ∀ a, w 11 a = w 11 (a % 11) := fun a => (w_mod (by norm_num) a).symm
  interval_cases mu
  · exact absurd h2 (by decide)
  · simp only [kern11, Nat.reduceEqDiff, OfNat.ofNat_ne_one, OfNat.one_ne_ofNat, if_true, if_false]
    exact body11_spec _ _ _ _ _ _ _ _ _ _ (fun j => w 11 (1 * j)) (by rw [hm]; simp only [Nat.reduceMul, Nat.reduceMod, w_zero])
      (by rw [hm]; simp only [Nat.reduceMul, Nat.reduceMod, w11_1, w11_2, w11_3, w11_4, w11_5, w11_6, w11_7, w11_8, w11_9, w11_10] <;> push_cast <;> ring)
      (by rw [hm]; simp only [Nat.reduceMul, Nat.reduceMod, w11_1, w11_2, w11_3, w11_4, w11_5, w11_6, w11_7, w11_8, w11_9, w11_10] <;> push_cast <;> ring)
      (by rw [hm]; simp only [Nat.reduceMul, Nat.reduceMod, w11_1, w11_2, w11_3, w11_4, w11_5, w11_6, w11_7, w11_8, w11_9, w11_10] <;> push_cast <;> ring)
      (by rw [hm]; simp only [Nat.reduceMul, Nat.reduceMod, w11_1, w11_2, w11_3, w11_4, w11_5, w11_6, w11_7, w11_8, w11_9, w11_10] <;> push_cast <;> ring)
      (by rw [hm]; simp only [Nat.reduceMul, Nat.reduceMod, w11_1, w11_2, w11_3, w11_4, w11_5, w11_6, w11_7, w11_8, w11_9, w11_10] <;> push_cast <;> ring)
      (by rw [hm]; simp only [Nat.reduceMul, Nat.reduceMod, w11_1, w11_2, w11_3, w11_4, w11_5, w11_6, w11_7, w11_8, w11_9, w11_10] <;> push_cast <;> ring)
      (by rw [hm]; simp only [Nat.reduceMul, Nat.reduceMod, w11_1, w11_2, w11_3, w11_4, w11_5, w11_6, w11_7, w11_8, w11_9, w11_10] <;> push_cast <;> ring)
      (by rw [hm]; simp only [Nat.reduceMul, Nat.reduceMod, w11_1, w11_2, w11_3, w11_4, w11_5, w11_6, w11_7, w11_8, w11_9, w11_10] <;> push_cast <;> ring)
      (by rw [hm]; simp only [Nat.reduceMul, Nat.reduceMod, w11_1, w11_2, w11_3, w11_4, w11_5, w11_6, w11_7, w11_8, w11_9, w11_10] <;> push_cast <;> ring)
      (by rw [hm]; simp only [Nat.reduceMul, Nat.reduceMod, w11_1, w11_2, w11_3, w11_4, w11_5, w11_6, w11_7, w11_8, w11_9, w11_10] <;> push_cast <;> ring)
      (by linear_combination (norm := (push_cast; ring)) sum11) z
  · simp only [kern11, Nat.reduceEqDiff, OfNat.ofNat_ne_one, OfNat.one_ne_ofNat, if_true, if_false]
    exact body11_spec _ _ _ _ _ _ _ _ _ _ (fun j => w 11 (2 * j)) (by rw [hm]; simp only [Nat.reduceMul, Nat.reduceMod, w_zero])
      (by rw [hm]; simp only [Nat.reduceMul, Nat.reduceMod, w11_1, w11_2, w11_3, w11_4, w11_5, w11_6, w11_7, w11_8, w11_9, w11_10] <;> push_cast <;> ring)
      (by rw [hm]; simp only [Nat.reduceMul, Nat.reduceMod, w11_1, w11_2, w11_3, w11_4, w11_5, w11_6, w11_7, w11_8, w11_9, w11_10] <;> push_cast <;> ring)
      (by rw [hm]; simp only [Nat.reduceMul, Nat.reduceMod, w11_1, w11_2, w11_3, w11_4, w11_5, w11_6, w11_7, w11_8, w11_9, w11_10] <;> push_cast <;> ring)
      (by rw [hm]; simp only [Nat.reduceMul, Nat.reduceMod, w11_1, w11_2, w11_3, w11_4, w11_5, w11_6, w11_7, w11_8, w11_9, w11_10] <;> push_cast <;> ring)
      (by rw [hm]; simp only [Nat.reduceMul, Nat.reduceMod, w11_1, w11_2, w11_3, w11_4, w11_5, w11_6, w11_7, w11_8, w11_9, w11_10] <;> push_cast <;> ring)
      (by rw [hm]; simp only [Nat.reduceMul, Nat.reduceMod, w11_1, w11_2, w11_3, w11_4, w11_5, w11_6, w11_7, w11_8, w11_9, w11_10] <;> push_cast <;> ring)
      (by rw [hm]; simp only [Nat.reduceMul, Nat.reduceMod, w11_1, w11_2, w11_3, w11_4, w11_5, w11_6, w11_7, w11_8, w11_9, w11_10] <;> push_cast <;> ring)
      (by rw [hm]; simp only [Nat.reduceMul, Nat.reduceMod, w11_1, w11_2, w11_3, w11_4, w11_5, w11_6, w11_7, w11_8, w11_9, w11_10] <;> push_cast <;> ring)
      (by rw [hm]; simp only [Nat.reduceMul, Nat.reduceMod, w11_1, w11_2, w11_3, w11_4, w11_5, w11_6, w11_7, w11_8, w11_9, w11_10] <;> push_cast <;> ring)
      (by rw [hm]; simp only [Nat.reduceMul, Nat.reduceMod, w11_1, w11_2, w11_3, w11_4, w11_5, w11_6, w11_7, w11_8, w11_9, w11_10] <;> push_cast <;> ring)
      (by linear_combination (norm := (push_cast; ring)) sum11) z
  · simp only [kern11, Nat.reduceEqDiff, OfNat.ofNat_ne_one, OfNat.one_ne_ofNat, if_true, if_false]
    exact body11_spec _ _ _ _ _ _ _ _ _ _ (fun j => w 11 (3 * j)) (by rw [hm]; simp only [Nat.reduceMul, Nat.reduceMod, w_zero])
      (by rw [hm]; simp only [Nat.reduceMul, Nat.reduceMod, w11_1, w11_2, w11_3, w11_4, w11_5, w11_6, w11_7, w11_8, w11_9, w11_10] <;> push_cast <;> ring)
      (by rw [hm]; simp only [Nat.reduceMul, Nat.reduceMod, w11_1, w11_2, w11_3, w11_4, w11_5, w11_6, w11_7, w11_8, w11_9, w11_10] <;> push_cast <;> ring)
      (by rw [hm]; simp only [Nat.reduceMul, Nat.reduceMod, w11_1, w11_2, w11_3, w11_4, w11_5, w11_6, w11_7, w11_8, w11_9, w11_10] <;> push_cast <;> ring)
      (by rw [hm]; simp only [Nat.reduceMul, Nat.reduceMod, w11_1, w11_2, w11_3, w11_4, w11_5, w11_6, w11_7, w11_8, w11_9, w11_10] <;> push_cast <;> ring)
      (by rw [hm]; simp only [Nat.reduceMul, Nat.reduceMod, w11_1, w11_2, w11_3, w11_4, w11_5, w11_6, w11_7, w11_8, w11_9, w11_10] <;> push_cast <;> ring)
      (by rw [hm]; simp only [Nat.reduceMul, Nat.reduceMod, w11_1, w11_2, w11_3, w11_4, w11_5, w11_6, w11_7, w11_8, w11_9, w11_10] <;> push_cast <;> ring)
      (by rw [hm]; simp only [Nat.reduceMul, Nat.reduceMod, w11_1, w11_2, w11_3, w11_4, w11_5, w11_6, w11_7, w11_8, w11_9, w11_10] <;> push_cast <;> ring)
      (by rw [hm]; simp only [Nat.reduceMul, Nat.reduceMod, w11_1, w11_2, w11_3, w11_4, w11_5, w11_6, w11_7, w11_8, w11_9, w11_10] <;> push_cast <;> ring)
      (by rw [hm]; simp only [Nat.reduceMul, Nat.reduceMod, w11_1, w11_2, w11_3, w11_4, w11_5, w11_6, w11_7, w11_8, w11_9, w11_10] <;> push_cast <;> ring)
      (by rw [hm]; simp only [Nat.reduceMul, Nat.reduceMod, w11_1, w11_2, w11_3, w11_4, w11_5, w11_6, w11_7, w11_8, w11_9, w11_10] <;> push_cast <;> ring)
      (by linear_combination (norm := (push_cast; ring)) sum11) z
  · simp only [kern11, Nat.reduceEqDiff, OfNat.ofNat_ne_one, OfNat.one_ne_ofNat, if_true, if_false]
    exact body11_spec _ _ _ _ _ _ _ _ _ _ (fun j => w 11 (4 * j)) (by rw [hm]; simp only [Nat.reduceMul, Nat.reduceMod, w_zero])
      (by rw [hm]; simp only [Nat.reduceMul, Nat.reduceMod, w11_1, w11_2, w11_3, w11_4, w11_5, w11_6, w11_7, w11_8, w11_9, w11_10] <;> push_cast <;> ring)
      (by rw [hm]; simp only [Nat.reduceMul, Nat.reduceMod, w11_1, w11_2, w11_3, w11_4, w11_5, w11_6, w11_7, w11_8, w11_9, w11_10] <;> push_cast <;> ring)
      (by rw [hm]; simp only [Nat.reduceMul, Nat.reduceMod, w11_1, w11_2, w11_3, w11_4, w11_5, w11_6, w11_7, w11_8, w11_9, w11_10] <;> push_cast <;> ring)
      (by rw [hm]; simp only [Nat.reduceMul, Nat.reduceMod, w11_1, w11_2, w11_3, w11_4, w11_5, w11_6, w11_7, w11_8, w11_9, w11_10] <;> push_cast <;> ring)
      (by rw [hm]; simp only [Nat.reduceMul, Nat.reduceMod, w11_1, w11_2, w11_3, w11_4, w11_5, w11_6, w11_7, w11_8, w11_9, w11_10] <;> push_cast <;> ring)
      (by rw [hm]; simp only [Nat.reduceMul, Nat.reduceMod, w11_1, w11_2, w11_3, w11_4, w11_5, w11_6, w11_7, w11_8, w11_9, w11_10] <;> push_cast <;> ring)
      (by rw [hm]; simp only [Nat.reduceMul, Nat.reduceMod, w11_1, w11_2, w11_3, w11_4, w11_5, w11_6, w11_7, w11_8, w11_9, w11_10] <;> push_cast <;> ring)
      (by rw [hm]; simp only [Nat.reduceMul, Nat.reduceMod, w11_1, w11_2, w11_3, w11_4, w11_5, w11_6, w11_7, w11_8, w11_9, w11_10] <;> push_cast <;> ring)
      (by rw [hm]; simp only [Nat.reduceMul, Nat.reduceMod, w11_1, w11_2, w11_3, w11_4, w11_5, w11_6, w11_7, w11_8, w11_9, w11_10] <;> push_cast <;> ring)
      (by rw [hm]; simp only [Nat.reduceMul, Nat.reduceMod, w11_1, w11_2, w11_3, w11_4, w11_5, w11_6, w11_7, w11_8, w11_9, w11_10] <;> push_cast <;> ring)
      (by linear_combination (norm := (push_cast; ring)) sum11) z
  · simp only [kern11, Nat.reduceEqDiff, OfNat.ofNat_ne_one, OfNat.one_ne_ofNat, if_true, if_false]
    exact body11_spec _ _ _ _ _ _ _ _ _ _ (fun j => w 11 (5 * j)) (by rw [hm]; simp only [Nat.reduceMul, Nat.reduceMod, w_zero])
      (by rw [hm]; simp only [Nat.reduceMul, Nat.reduceMod, w11_1, w11_2, w11_3, w11_4, w11_5, w11_6, w11_7, w11_8, w11_9, w11_10] <;> push_cast <;> ring)
      (by rw [hm]; simp only [Nat.reduceMul, Nat.reduceMod, w11_1, w11_2, w11_3, w11_4, w11_5, w11_6, w11_7, w11_8, w11_9, w11_10] <;> push_cast <;> ring)
      (by rw [hm]; simp only [Nat.reduceMul, Nat.reduceMod, w11_1, w11_2, w11_3, w11_4, w11_5, w11_6, w11_7, w11_8, w11_9, w11_10] <;> push_cast <;> ring)
      (by rw [hm]; simp only [Nat.reduceMul, Nat.reduceMod, w11_1, w11_2, w11_3, w11_4, w11_5, w11_6, w11_7, w11_8, w11_9, w11_10] <;> push_cast <;> ring)
      (by rw [hm]; simp only [Nat.reduceMul, Nat.reduceMod, w11_1, w11_2, w11_3, w11_4, w11_5, w11_6, w11_7, w11_8, w11_9, w11_10] <;> push_cast <;> ring)
      (by rw [hm]; simp only [Nat.reduceMul, Nat.reduceMod, w11_1, w11_2, w11_3, w11_4, w11_5, w11_6, w11_7, w11_8, w11_9, w11_10] <;> push_cast <;> ring)
      (by rw [hm]; simp only [Nat.reduceMul, Nat.reduceMod, w11_1, w11_2, w11_3, w11_4, w11_5, w11_6, w11_7, w11_8, w11_9, w11_10] <;> push_cast <;> ring)
      (by rw [hm]; simp only [Nat.reduceMul, Nat.reduceMod, w11_1, w11_2, w11_3, w11_4, w11_5, w11_6, w11_7, w11_8, w11_9, w11_10] <;> push_cast <;> ring)
      (by rw [hm]; simp only [Nat.reduceMul, Nat.reduceMod, w11_1, w11_2, w11_3, w11_4, w11_5, w11_6, w11_7, w11_8, w11_9, w11_10] <;> push_cast <;> ring)
      (by rw [hm]; simp only [Nat.reduceMul, Nat.reduceMod, w11_1, w11_2, w11_3, w11_4, w11_5, w11_6, w11_7, w11_8, w11_9, w11_10] <;> push_cast <;> ring)
      (by linear_combination (norm := (push_cast; ring)) sum11) z
  · simp only [kern11, Nat.reduceEqDiff, OfNat.ofNat_ne_one, OfNat.one_ne_ofNat, if_true, if_false]
    exact body11_spec _ _ _ _ _ _ _ _ _ _ (fun j => w 11 (6 * j)) (by rw [hm]; simp only [Nat.reduceMul, Nat.reduceMod, w_zero])
      (by rw [hm]; simp only [Nat.reduceMul, Nat.reduceMod, w11_1, w11_2, w11_3, w11_4, w11_5, w11_6, w11_7, w11_8, w11_9, w11_10] <;> push_cast <;> ring)
      (by rw [hm]; simp only [Nat.reduceMul, Nat.reduceMod, w11_1, w11_2, w11_3, w11_4, w11_5, w11_6, w11_7, w11_8, w11_9, w11_10] <;> push_cast <;> ring)
      (by rw [hm]; simp only [Nat.reduceMul, Nat.reduceMod, w11_1, w11_2, w11_3, w11_4, w11_5, w11_6, w11_7, w11_8, w11_9, w11_10] <;> push_cast <;> ring)
      (by rw [hm]; simp only [Nat.reduceMul, Nat.reduceMod, w11_1, w11_2, w11_3, w11_4, w11_5, w11_6, w11_7, w11_8, w11_9, w11_10] <;> push_cast <;> ring)
      (by rw [hm]; simp only [Nat.reduceMul, Nat.reduceMod, w11_1, w11_2, w11_3, w11_4, w11_5, w11_6, w11_7, w11_8, w11_9, w11_10] <;> push_cast <;> ring)
      (by rw [hm]; simp only [Nat.reduceMul, Nat.reduceMod, w11_1, w11_2, w11_3, w11_4, w11_5, w11_6, w11_7, w11_8, w11_9, w11_10] <;> push_cast <;> ring)
      (by rw [hm]; simp only [Nat.reduceMul, Nat.reduceMod, w11_1, w11_2, w11_3, w11_4, w11_5, w11_6, w11_7, w11_8, w11_9, w11_10] <;> push_cast <;> ring)
      (by rw [hm]; simp only [Nat.reduceMul, Nat.reduceMod, w11_1, w11_2, w11_3, w11_4, w11_5, w11_6, w11_7, w11_8, w11_9, w11_10] <;> push_cast <;> ring)
      (by rw [hm]; simp only [Nat.reduceMul, Nat.reduceMod, w11_1, w11_2, w11_3, w11_4, w11_5, w11_6, w11_7, w11_8, w11_9, w11_10] <;> push_cast <;> ring)
      (by rw [hm]; simp only [Nat.reduceMul, Nat.reduceMod, w11_1, w11_2, w11_3, w11_4, w11_5, w11_6, w11_7, w11_8, w11_9, w11_10] <;> push_cast <;> ring)
      (by linear_combination (norm := (push_cast; ring)) sum11) z
  · simp only [kern11, Nat.reduceEqDiff, OfNat.ofNat_ne_one, OfNat.one_ne_ofNat, if_true, if_false]
    exact body11_spec _ _ _ _ _ _ _ _ _ _ (fun j => w 11 (7 * j)) (by rw [hm]; simp only [Nat.reduceMul, Nat.reduceMod, w_zero])
      (by rw [hm]; simp only [Nat.reduceMul, Nat.reduceMod, w11_1, w11_2, w11_3, w11_4, w11_5, w11_6, w11_7, w11_8, w11_9, w11_10] <;> push_cast <;> ring)
      (by rw [hm]; simp only [Nat.reduceMul, Nat.reduceMod, w11_1, w11_2, w11_3, w11_4, w11_5, w11_6, w11_7, w11_8, w11_9, w11_10] <;> push_cast <;> ring)
      (by rw [hm]; simp only [Nat.reduceMul, Nat.reduceMod, w11_1, w11_2, w11_3, w11_4, w11_5, w11_6, w11_7, w11_8, w11_9, w11_10] <;> push_cast <;> ring)
      (by rw [hm]; simp only [Nat.reduceMul, Nat.reduceMod, w11_1, w11_2, w11_3, w11_4, w11_5, w11_6, w11_7, w11_8, w11_9, w11_10] <;> push_cast <;> ring)
      (by rw [hm]; simp only [Nat.reduceMul, Nat.reduceMod, w11_1, w11_2, w11_3, w11_4, w11_5, w11_6, w11_7, w11_8, w11_9, w11_10] <;> push_cast <;> ring)
      (by rw [hm]; simp only [Nat.reduceMul, Nat.reduceMod, w11_1, w11_2, w11_3, w11_4, w11_5, w11_6, w11_7, w11_8, w11_9, w11_10] <;> push_cast <;> ring)
      (by rw [hm]; simp only [Nat.reduceMul, Nat.reduceMod, w11_1, w11_2, w11_3, w11_4, w11_5, w11_6, w11_7, w11_8, w11_9, w11_10] <;> push_cast <;> ring)
      (by rw [hm]; simp only [Nat.reduceMul, Nat.reduceMod, w11_1, w11_2, w11_3, w11_4, w11_5, w11_6, w11_7, w11_8, w11_9, w11_10] <;> push_cast <;> ring)
      (by rw [hm]; simp only [Nat.reduceMul, Nat.reduceMod, w11_1, w11_2, w11_3, w11_4, w11_5, w11_6, w11_7, w11_8, w11_9, w11_10] <;> push_cast <;> ring)
      (by rw [hm]; simp only [Nat.reduceMul, Nat.reduceMod, w11_1, w11_2, w11_3, w11_4, w11_5, w11_6, w11_7, w11_8, w11_9, w11_10] <;> push_cast <;> ring)
      (by linear_combination (norm := (push_cast; ring)) sum11) z
  · simp only [kern11, Nat.reduceEqDiff, OfNat.ofNat_ne_one, OfNat.one_ne_ofNat, if_true, if_false]
    exact body11_spec _ _ _ _ _ _ _ _ _ _ (fun j => w 11 (8 * j)) (by rw [hm]; simp only [Nat.reduceMul, Nat.reduceMod, w_zero])
      (by rw [hm]; simp only [Nat.reduceMul, Nat.reduceMod, w11_1, w11_2, w11_3, w11_4, w11_5, w11_6, w11_7, w11_8, w11_9, w11_10] <;> push_cast <;> ring)
      (by rw [hm]; simp only [Nat.reduceMul, Nat.reduceMod, w11_1, w11_2, w11_3, w11_4, w11_5, w11_6, w11_7, w11_8, w11_9, w11_10] <;> push_cast <;> ring)
      (by rw [hm]; simp only [Nat.reduceMul, Nat.reduceMod, w11_1, w11_2, w11_3, w11_4, w11_5, w11_6, w11_7, w11_8, w11_9, w11_10] <;> push_cast <;> ring)
      (by rw [hm]; simp only [Nat.reduceMul, Nat.reduceMod, w11_1, w11_2, w11_3, w11_4, w11_5, w11_6, w11_7, w11_8, w11_9, w11_10] <;> push_cast <;> ring)
      (by rw [hm]; simp only [Nat.reduceMul, Nat.reduceMod, w11_1, w11_2, w11_3, w11_4, w11_5, w11_6, w11_7, w11_8, w11_9, w11_10] <;> push_cast <;> ring)
      (by rw [hm]; simp only [Nat.reduceMul, Nat.reduceMod, w11_1, w11_2, w11_3, w11_4, w11_5, w11_6, w11_7, w11_8, w11_9, w11_10] <;> push_cast <;> ring)
      (by rw [hm]; simp only [Nat.reduceMul, Nat.reduceMod, w11_1, w11_2, w11_3, w11_4, w11_5, w11_6, w11_7, w11_8, w11_9, w11_10] <;> push_cast <;> ring)
      (by rw [hm]; simp only [Nat.reduceMul, Nat.reduceMod, w11_1, w11_2, w11_3, w11_4, w11_5, w11_6, w11_7, w11_8, w11_9, w11_10] <;> push_cast <;> ring)
      (by rw [hm]; simp only [Nat.reduceMul, Nat.reduceMod, w11_1, w11_2, w11_3, w11_4, w11_5, w11_6, w11_7, w11_8, w11_9, w11_10] <;> push_cast <;> ring)
      (by rw [hm]; simp only [Nat.reduceMul, Nat.reduceMod, w11_1, w11_2, w11_3, w11_4, w11_5, w11_6, w11_7, w11_8, w11_9, w11_10] <;> push_cast <;> ring)
      (by linear_combination (norm := (push_cast; ring)) sum11) z
  · simp only [kern11, Nat.reduceEqDiff, OfNat.ofNat_ne_one, OfNat.one_ne_ofNat, if_true, if_false]
    exact body11_spec _ _ _ _ _ _ _ _ _ _ (fun j => w 11 (9 * j)) (by rw [hm]; simp only [Nat.reduceMul, Nat.reduceMod, w_zero])
      (by rw [hm]; simp only [Nat.reduceMul, Nat.reduceMod, w11_1, w11_2, w11_3, w11_4, w11_5, w11_6, w11_7, w11_8, w11_9, w11_10] <;> push_cast <;> ring)
      (by rw [hm]; simp only [Nat.reduceMul, Nat.reduceMod, w11_1, w11_2, w11_3, w11_4, w11_5, w11_6, w11_7, w11_8, w11_9, w11_10] <;> push_cast <;> ring)
      (by rw [hm]; simp only [Nat.reduceMul, Nat.reduceMod, w11_1, w11_2, w11_3, w11_4, w11_5, w11_6, w11_7, w11_8, w11_9, w11_10] <;> push_cast <;> ring)
      (by rw [hm]; simp only [Nat.reduceMul, Nat.reduceMod, w11_1, w11_2, w11_3, w11_4, w11_5, w11_6, w11_7, w11_8, w11_9, w11_10] <;> push_cast <;> ring)
      (by rw [hm]; simp only [Nat.reduceMul, Nat.reduceMod, w11_1, w11_2, w11_3, w11_4, w11_5, w11_6, w11_7, w11_8, w11_9, w11_10] <;> push_cast <;> ring)
      (by rw [hm]; simp only [Nat.reduceMul, Nat.reduceMod, w11_1, w11_2, w11_3, w11_4, w11_5, w11_6, w11_7, w11_8, w11_9, w11_10] <;> push_cast <;> ring)
      (by rw [hm]; simp only [Nat.reduceMul, Nat.reduceMod, w11_1, w11_2, w11_3, w11_4, w11_5, w11_6, w11_7, w11_8, w11_9, w11_10] <;> push_cast <;> ring)
      (by rw [hm]; simp only [Nat.reduceMul, Nat.reduceMod, w11_1, w11_2, w11_3, w11_4, w11_5, w11_6, w11_7, w11_8, w11_9, w11_10] <;> push_cast <;> ring)
      (by rw [hm]; simp only [Nat.reduceMul, Nat.reduceMod, w11_1, w11_2, w11_3, w11_4, w11_5, w11_6, w11_7, w11_8, w11_9, w11_10] <;> push_cast <;> ring)
      (by rw [hm]; simp only [Nat.reduceMul, Nat.reduceMod, w11_1, w11_2, w11_3, w11_4, w11_5, w11_6, w11_7, w11_8, w11_9, w11_10] <;> push_cast <;> ring)
      (by linear_combination (norm := (push_cast; ring)) sum11) z
  · simp only [kern11, Nat.reduceEqDiff, OfNat.ofNat_ne_one, OfNat.one_ne_ofNat, if_true, if_false]
    exact body11_spec _ _ _ _ _ _ _ _ _ _ (fun j => w 11 (10 * j)) (by rw [hm]; simp only [Nat.reduceMul, Nat.reduceMod, w_zero])
      (by rw [hm]; simp only [Nat.reduceMul, Nat.reduceMod, w11_1, w11_2, w11_3, w11_4, w11_5, w11_6, w11_7, w11_8, w11_9, w11_10] <;> push_cast <;> ring)
      (by rw [hm]; simp only [Nat.reduceMul, Nat.reduceMod, w11_1, w11_2, w11_3, w11_4, w11_5, w11_6, w11_7, w11_8, w11_9, w11_10] <;> push_cast <;> ring)
      (by rw [hm]; simp only [Nat.reduceMul, Nat.reduceMod, w11_1, w11_2, w11_3, w11_4, w11_5, w11_6, w11_7, w11_8, w11_9, w11_10] <;> push_cast <;> ring)
      (by rw [hm]; simp only [Nat.reduceMul, Nat.reduceMod, w11_1, w11_2, w11_3, w11_4, w11_5, w11_6, w11_7, w11_8, w11_9, w11_10] <;> push_cast <;> ring)
      (by rw [hm]; simp only [Nat.reduceMul, Nat.reduceMod, w11_1, w11_2, w11_3, w11_4, w11_5, w11_6, w11_7, w11_8, w11_9, w11_10] <;> push_cast <;> ring)
      (by rw [hm]; simp only [Nat.reduceMul, Nat.reduceMod, w11_1, w11_2, w11_3, w11_4, w11_5, w11_6, w11_7, w11_8, w11_9, w11_10] <;> push_cast <;> ring)
      (by rw [hm]; simp only [Nat.reduceMul, Nat.reduceMod, w11_1, w11_2, w11_3, w11_4, w11_5, w11_6, w11_7, w11_8, w11_9, w11_10] <;> push_cast <;> ring)
      (by rw [hm]; simp only [Nat.reduceMul, Nat.reduceMod, w11_1, w11_2, w11_3, w11_4, w11_5, w11_6, w11_7, w11_8, w11_9, w11_10] <;> push_cast <;> ring)
      (by rw [hm]; simp only [Nat.reduceMul, Nat.reduceMod, w11_1, w11_2, w11_3, w11_4, w11_5, w11_6, w11_7, w11_8, w11_9, w11_10] <;> push_cast <;> ring)
      (by rw [hm]; simp only [Nat.reduceMul, Nat.reduceMod, w11_1, w11_2, w11_3, w11_4, w11_5, w11_6, w11_7, w11_8, w11_9, w11_10] <;> push_cast <;> ring)
      (by linear_combination (norm := (push_cast; ring)) sum11) z

theorem kern13_spec (mu : Nat) (h1 : mu < 13) (h2 : Nat.Coprime mu 13) (z : Nat → ℂ) :
    kern13 mu z = short 13 mu z := by
  have key : ∀ l, l = (List.range 13).map (fun k => ∑ q ∈ range 13, z q * (fun j => w 13 (mu * j)) (k * q % 13)) → l = short 13 mu z := by
    intro l hl; rw [hl, short]; simp only [w_mul_mod (show 0 < 13 by norm_num)]
  apply key; clear key
  have hr : ∀ a, w 13 (a + 13) = w 13 a := fun a => by rw [w_add, w_self (by norm_num), mul_one]
  have hm : ∀ a, w 13 a = w 13 (a % 13) := fun a => (w_mod (by norm_num) a).symm
  interval_cases mu
  · exact absurd h2 (by decide)
  · simp only [kern13, Nat.reduceEqDiff, OfNat.ofNat_ne_one, OfNat.one_ne_ofNat, if_true, if_false]
    exact body13_spec _ _ _ _ _ _ _ _ _ _ _ _ (fun j => w 13 (1 * j)) (by rw [hm]; simp only [Nat.reduceMul, Nat.reduceMod, w_zero])
      (by rw [hm]; simp only [Nat.reduceMul, Nat.reduceMod, w13_1, w13_2, w13_3, w13_4, w13_5, w13_6, w13_7, w13_8, w13_9, w13_10, w13_11, w13_12] <;> push_cast <;> ring)
      (by rw [hm]; simp only [Nat.reduceMul, Nat.reduceMod, w13_1, w13_2, w13_3, w13_4, w13_5, w13_6, w13_7, w13_8, w13_9, w13_10, w13_11, w13_12] <;> push_cast <;> ring)
      (by rw [hm]; simp only [Nat.reduceMul, Nat.reduceMod, w13_1, w13_2, w13_3, w13_4, w13_5, w13_6, w13_7, w13_8, w13_9, w13_10, w13_11, w13_12] <;> push_cast <;> ring)
      (by rw [hm]; simp only [Nat.reduceMul, Nat.reduceMod, w13_1, w13_2, w13_3, w13_4, w13_5, w13_6, w13_7, w13_8, w13_9, w13_10, w13_11, w13_12] <;> push_cast <;> ring)
      (by rw [hm]; simp only [Nat.reduceMul, Nat.reduceMod, w13_1, w13_2, w13_3, w13_4, w13_5, w13_6, w13_7, w13_8, w13_9, w13_10, w13_11, w13_12] <;> push_cast <;> ring)
      (by rw [hm]; simp only [Nat.reduceMul, Nat.reduceMod, w13_1, w13_2, w13_3, w13_4, w13_5, w13_6, w13_7, w13_8, w13_9, w13_10, w13_11, w13_12] <;> push_cast <;> ring)
      (by rw [hm]; simp only [Nat.reduceMul, Nat.reduceMod, w13_1, w13_2, w13_3, w13_4, w13_5, w13_6, w13_7, w13_8, w13_9, w13_10, w13_11, w13_12] <;> push_cast <;> ring)
      (by rw [hm]; simp only [Nat.reduceMul, Nat.reduceMod, w13_1, w13_2, w13_3, w13_4, w13_5, w13_6, w13_7, w13_8, w13_9, w13_10, w13_11, w13_12] <;> push_cast <;> ring)
      (by rw [hm]; simp only [Nat.reduceMul, Nat.reduceMod, w13_1, w13_2, w13_3, w13_4, w13_5, w13_6, w13_7, w13_8, w13_9, w13_10, w13_11, w13_12] <;> push_cast <;> ring)
      (by rw [hm]; simp only [Nat.reduceMul, Nat.reduceMod, w13_1, w13_2, w13_3, w13_4, w13_5, w13_6, w13_7, w13_8, w13_9, w13_10, w13_11, w13_12] <;> push_cast <;> ring)
      (by rw [hm]; simp only [Nat.reduceMul, Nat.reduceMod, w13_1, w13_2, w13_3, w13_4, w13_5, w13_6, w13_7, w13_8, w13_9, w13_10, w13_11, w13_12] <;> push_cast <;> ring)
      (by rw [hm]; simp only [Nat.reduceMul, Nat.reduceMod, w13_1, w13_2, w13_3, w13_4, w13_5, w13_6, w13_7, w13_8, w13_9, w13_10, w13_11, w13_12] <;> push_cast <;> ring)
      (by linear_combination (norm := (push_cast; ring)) sum13) z
  · simp only [kern13, Nat.reduceEqDiff, OfNat.ofNat_ne_one, OfNat.one_ne_ofNat, if_true, if_false]
    exact body13_spec _ _ _ _ _ _ _ _ _ _ _ _ (fun j => w 13 (2 * j)) (by rw [hm]; simp only [Nat.reduceMul, Nat.reduceMod, w_zero])
      (by rw [hm]; simp only [Nat.reduceMul, Nat.reduceMod, w13_1, w13_2, w13_3, w13_4, w13_5, w13_6, w13_7, w13_8, w13_9, w13_10, w13_11, w13_12] <;> push_cast <;> ring)
      (by rw [hm]; simp only [Nat.reduceMul, Nat.reduceMod, w13_1, w13_2, w13_3, w13_4, w13_5, w13_6, w13_7, w13_8, w13_9, w13_10, w13_11, w13_12] <;> push_cast <;> ring)
      (by rw [hm]; simp only [Nat.reduceMul, Nat.reduceMod, w13_1, w13_2, w13_3, w13_4, w13_5, w13_6, w13_7, w13_8, w13_9, w13_10, w13_11, w13_12] <;> push_cast <;> ring)
      (by rw [hm]; simp only [Nat.reduceMul, Nat.reduceMod, w13_1, w13_2, w13_3, w13_4, w13_5, w13_6, w13_7, w13_8, w13_9, w13_10, w13_11, w13_12] <;> push_cast <;> ring)
      (by rw [hm]; simp only [Nat.reduceMul, Nat.reduceMod, w13_1, w13_2, w13_3, w13_4, w13_5, w13_6, w13_7, w13_8, w13_9, w13_10, w13_11, w13_12] <;> push_cast <;> ring)
      (by rw [hm]; simp only [Nat.reduceMul, Nat.reduceMod, w13_1, w13_2, w13_3, w13_4, w13_5, w13_6, w13_7, w13_8, w13_9, w13_10, w13_11, w13_12] <;> push_cast <;> ring)
      (by rw [hm]; simp only [Nat.reduceMul, Nat.reduceMod, w13_1, w13_2, w13_3, w13_4, w13_5, w13_6, w13_7, w13_8, w13_9, w13_10, w13_11, w13_12] <;> push_cast <;> ring)
      (by rw [hm]; simp only [Nat.reduceMul, Nat.reduceMod, w13_1, w13_2, w13_3, w13_4, w13_5, w13_6, w13_7, w13_8, w13_9, w13_10, w13_11, w13_12] <;> push_cast <;> ring)
      (by rw [hm]; simp only [Nat.reduceMul, Nat.reduceMod, w13_1, w13_2, w13_3, w13_4, w13_5, w13_6, w13_7, w13_8, w13_9, w13_10, w13_11, w13_12] <;> push_cast <;> ring)
      (by rw [hm]; simp only [Nat.reduceMul, Nat.reduceMod, w13_1, w13_2, w13_3, w13_4, w13_5, w13_6, w13_7, w13_8, w13_9, w13_10, w13_11, w13_12] <;> push_cast <;> ring)
      (by rw [hm]; simp only [Nat.reduceMul, Nat.reduceMod, w13_1, w13_2, w13_3, w13_4, w13_5, w13_6, w13_7, w13_8, w13_9, w13_10, w13_11, w13_12] <;> push_cast <;> ring)
      (by rw [hm]; simp only [Nat.reduceMul, Nat.reduceMod, w13_1, w13_2, w13_3, w13_4, w13_5, w13_6, w13_7, w13_8, w13_9, w13_10, w13_11, w13_12] <;> push_cast <;> ring)
      (by linear_combination (norm := (push_cast; ring)) sum13) z
  · simp only [kern13, Nat.reduceEqDiff, OfNat.ofNat_ne_one, OfNat.one_ne_ofNat, if_true, if_false]
    exact body13_spec _ _ _ _ _ _ _ _ _ _ _ _ (fun j => w 13 (3 * j)) (by rw [hm]; simp only [Nat.reduceMul, Nat.reduceMod, w_zero])
      (by rw [hm]; simp only [Nat.reduceMul, Nat.reduceMod, w13_1, w13_2, w13_3, w13_4, w13_5, w13_6, w13_7, w13_8, w13_9, w13_10, w13_11, w13_12] <;> push_cast <;> ring)
      (by rw [hm]; simp only [Nat.reduceMul, Nat.reduceMod, w13_1, w13_2, w13_3, w13_4, w13_5, w13_6, w13_7, w13_8, w13_9, w13_10, w13_11, w13_12] <;> push_cast <;> ring)
      (by rw [hm]; simp only [Nat.reduceMul, Nat.reduceMod, w13_1, w13_2, w13_3, w13_4, w13_5, w13_6, w13_7, w13_8, w13_9, w13_10, w13_11, w13_12] <;> push_cast <;> ring)
      (by rw [hm]; simp only [Nat.reduceMul, Nat.reduceMod, w13_1, w13_2, w13_3, w13_4, w13_5, w13_6, w13_7, w13_8, w13_9, w13_10, w13_11, w13_12] <;> push_cast <;> ring)
      (by rw [hm]; simp only [Nat.reduceMul, Nat.reduceMod, w13_1, w13_2, w13_3, w13_4, w13_5, w13_6, w13_7, w13_8, w13_9, w13_10, w13_11, w13_12] <;> push_cast <;> ring)
      (by rw [hm]; simp only [Nat.reduceMul, Nat.reduceMod, w13_1, w13_2, w13_3, w13_4, w13_5, w13_6, w13_7, w13_8, w13_9, w13_10, w13_11, w13_12] <;> push_cast <;> ring)
      (by rw [hm]; simp only [Nat.reduceMul, Nat.reduceMod, w13_1, w13_2, w13_3, w13_4, w13_5, w13_6, w13_7, w13_8, w13_9, w13_10, w13_11, w13_12] <;> push_cast <;> ring)
      (by rw [hm]; simp only [Nat.reduceMul, Nat.reduceMod, w13_1, w13_2, w13_3, w13_4, w13_5, w13_6, w13_7, w13_8, w13_9, w13_10, w13_11, w13_12] <;> push_cast <;> ring)
      (by rw [hm]; simp only [Nat.reduceMul, Nat.reduceMod, w13_1, w13_2, w13_3, w13_4, w13_5, w13_6, w13_7, w13_8, w13_9, w13_10, w13_11, w13_12] <;> push_cast <;> ring)
      (by rw [hm]; simp only [Nat.reduceMul, Nat.reduceMod, w13_1, w13_2, w13_3, w13_4, w13_5, w13_6, w13_7, w13_8, w13_9, w13_10, w13_11, w13_12] <;> push_cast <;> ring)
      (by rw [hm]; simp only [Nat.reduceMul, Nat.reduceMod, w13_1, w13_2, w13_3, w13_4, w13_5, w13_6, w13_7, w13_8, w13_9, w13_10, w13_11, w13_12] <;> push_cast <;> ring)
      (by rw [hm]; simp only [Nat.reduceMul, Nat.reduceMod, w13_1, w13_2, w13_3, w13_4, w13_5, w13_6, w13_7, w13_8, w13_9, w13_10, w13_11, w13_12] <;> push_cast <;> ring)
      (by linear_combination (norm := (push_cast; ring)) sum13) z
  · simp only [kern13, Nat.reduceEqDiff, OfNat.ofNat_ne_one, OfNat.one_ne_ofNat, if_true, if_false]
    exact body13_spec _ _ _ _ _ _ _ _ _ _ _ _ (fun j => w 13 (4 * j)) (by rw [hm]; simp only [Nat.reduceMul, Nat.reduceMod, w_zero])
      (by rw [hm]; simp only [Nat.reduceMul, Nat.reduceMod, w13_1, w13_2, w13_3, w13_4, w13_5, w13_6, w13_7, w13_8, w13_9, w13_10, w13_11, w13_12] <;> push_cast <;> ring)
      (by rw [hm]; simp only [Nat.reduceMul, Nat.reduceMod, w13_1, w13_2, w13_3, w13_4, w13_5, w13_6, w13_7, w13_8, w13_9, w13_10, w13_11, w13_12] <;> push_cast <;> ring)
      (by rw [hm]; simp only [Nat.reduceMul, Nat.reduceMod, w13_1, w13_2, w13_3, w13_4, w13_5, w13_6, w13_7, w13_8, w13_9, w13_10, w13_11, w13_12] <;> push_cast <;> ring)
      (by rw [hm]; simp only [Nat.reduceMul, Nat.reduceMod, w13_1, w13_2, w13_3, w13_4, w13_5, w13_6, w13_7, w13_8, w13_9, w13_10, w13_11, w13_12] <;> push_cast <;> ring)
      (by rw [hm]; simp only [Nat.reduceMul, Nat.reduceMod, w13_1, w13_2, w13_3, w13_4, w13_5, w13_6, w13_7, w13_8, w13_9, w13_10, w13_11, w13_12] <;> push_cast <;> ring)
      (by rw [hm]; simp only [Nat.reduceMul, Nat.reduceMod, w13_1, w13_2, w13_3, w13_4, w13_5, w13_6, w13_7, w13_8, w13_9, w13_10, w13_11, w13_12] <;> push_cast <;> ring)
      (by rw [hm]; simp only [Nat.reduceMul, Nat.reduceMod, w13_1, w13_2, w13_3, w13_4, w13_5, w13_6, w13_7, w13_8, w13_9, w13_10, w13_11, w13_12] <;> push_cast <;> ring)
      (by rw [hm]; simp only [Nat.reduceMul, Nat.reduceMod, w13_1, w13_2, w13_3, w13_4, w13_5, w13_6, w13_7, w13_8, w13_9, w13_10, w13_11, w13_12] <;> push_cast <;> ring)
      (by rw [hm]; simp only [Nat.reduceMul, Nat.reduceMod, w13_1, w13_2, w13_3, w13_4, w13_5, w13_6, w13_7, w13_8, w13_9, w13_10, w13_11, w13_12] <;> push_cast <;> ring)
      (by rw [hm]; simp only [Nat.reduceMul, Nat.reduceMod, w13_1, w13_2, w13_3, w13_4, w13_5, w13_6, w13_7, w13_8, w13_9, w13_10, w13_11, w13_12] <;> push_cast <;> ring)
      (by rw [hm]; simp only [Nat.reduceMul, Nat.reduceMod, w13_1, w13_2, w13_3, w13_4, w13_5, w13_6, w13_7, w13_8, w13_9, w13_10, w13_11, w13_12] <;> push_cast <;> ring)
      (by rw [hm]; simp only [Nat.reduceMul, Nat.reduceMod, w13_1, w13_2, w13_3, w13_4, w13_5, w13_6, w13_7, w13_8, w13_9, w13_10, w13_11, w13_12] <;> push_cast <;> ring)
      (by linear_combination (norm := (push_cast; ring)) sum13) z
  · simp only [kern13, Nat.reduceEqDiff, OfNat.ofNat_ne_one, OfNat.one_ne_ofNat, if_true, if_false]
    exact body13_spec _ _ _ _ _ _ _ _ _ _ _ _ (fun j => w 13 (5 * j)) (by rw [hm]; simp only [Nat.reduceMul, Nat.reduceMod, w_zero])
      (by rw [hm]; simp only [Nat.reduceMul, Nat.reduceMod, w13_1, w13_2, w13_3, w13_4, w13_5, w13_6, w13_7, w13_8, w13_9, w13_10, w13_11, w13_12] <;> push_cast <;> ring)
      (by rw [hm]; simp only [Nat.reduceMul, Nat.reduceMod, w13_1, w13_2, w13_3, w13_4, w13_5, w13_6, w13_7, w13_8, w13_9, w13_10, w13_11, w13_12] <;> push_cast <;> ring)
      (by rw [hm]; simp only [Nat.reduceMul, Nat.reduceMod, w13_1, w13_2, w13_3, w13_4, w13_5, w13_6, w13_7, w13_8, w13_9, w13_10, w13_11, w13_12] <;> push_cast <;> ring)
      (by rw [hm]; simp only [Nat.reduceMul, Nat.reduceMod, w13_1, w13_2, w13_3, w13_4, w13_5, w13_6, w13_7, w13_8, w13_9, w13_10, w13_11, w13_12] <;> push_cast <;> ring)
      (by rw [hm]; simp only [Nat.reduceMul, Nat.reduceMod, w13_1, w13_2, w13_3, w13_4, w13_5, w13_6, w13_7, w13_8, w13_9, w13_10, w13_11, w13_12] <;> push_cast <;> ring)
      (by rw [hm]; simp only [Nat.reduceMul, Nat.reduceMod, w13_1, w13_2, w13_3, w13_4, w13_5, w13_6, w13_7, w13_8, w13_9, w13_10, w13_11, w13_12] <;> push_cast <;> ring)
      (by rw [hm]; simp only [Nat.reduceMul, Nat.reduceMod, w13_1, w13_2, w13_3, w13_4, w13_5, w13_6, w13_7, w13_8, w13_9, w13_10, w13_11, w13_12] <;> push_cast <;> ring)
      (by rw [hm]; simp only [Nat.reduceMul, Nat.reduceMod, w13_1, w13_2, w13_3, w13_4, w13_5, w13_6, w13_7, w13_8, w13_9, w13_10, w13_11, w13_12] <;> push_cast <;> ring)
      (by rw [hm]; simp only [Nat.reduceMul, Nat.reduceMod, w13_1, w13_2, w13_3, w13_4, w13_5, w13_6, w13_7, w13_8, w13_9, w13_10, w13_11, w13_12] <;> push_cast <;> ring)
      (by rw [hm]; simp only [Nat.reduceMul, Nat.reduceMod, w13_1, w13_2, w13_3, w13_4, w13_5, w13_6, w13_7, w13_8, w13_9, w13_10, w13_11, w13_12] <;> push_cast <;> ring)
      (by rw [hm]; simp only [Nat.reduceMul, Nat.reduceMod, w13_1, w13_2, w13_3, w13_4, w13_5, w13_6, w13_7, w13_8, w13_9, w13_10, w13_11, w13_12] <;> push_cast <;> ring)
      (by rw [hm]; simp only [Nat.reduceMul, Nat.reduceMod, w13_1, w13_2, w13_3, w13_4, w13_5, w13_6, w13_7, w13_8, w13_9, w13_10, w13_11, w13_12] <;> push_cast <;> ring)
      (by linear_combination (norm := (push_cast; ring)) sum13) z
  · simp only [kern13, Nat.reduceEqDiff, OfNat.ofNat_ne_one, OfNat.one_ne_ofNat, if_true, if_false]
    exact body13_spec _ _ _ _ _ _ _ _ _ _ _ _ (fun j => w 13 (6 * j)) (by rw [hm]; simp only [Nat.reduceMul, Nat.reduceMod, w_zero])
      (by rw [hm]; simp only [Nat.reduceMul, Nat.reduceMod, w13_1, w13_2, w13_3, w13_4, w13_5, w13_6, w13_7, w13_8, w13_9, w13_10, w13_11, w13_12] <;> push_cast <;> ring)
      (by rw [hm]; simp only [Nat.reduceMul, Nat.reduceMod, w13_1, w13_2, w13_3, w13_4, w13_5, w13_6, w13_7, w13_8, w13_9, w13_10, w13_11, w13_12] <;> push_cast <;> ring)
      (by rw [hm]; simp only [Nat.reduceMul, Nat.reduceMod, w13_1, w13_2, w13_3, w13_4, w13_5, w13_6, w13_7, w13_8, w13_9, w13_10, w13_11, w13_12] <;> push_cast <;> ring)
      (by rw [hm]; simp only [Nat.reduceMul, Nat.reduceMod, w13_1, w13_2, w13_3, w13_4, w13_5, w13_6, w13_7, w13_8, w13_9, w13_10, w13_11, w13_12] <;> push_cast <;> ring)
      (by rw [hm]; simp only [Nat.reduceMul, Nat.reduceMod, w13_1, w13_2, w13_3, w13_4, w13_5, w13_6, w13_7, w13_8, w13_9, w13_10, w13_11, w13_12] <;> push_cast <;> ring)
      (by rw [hm]; simp only [Nat.reduceMul, Nat.reduceMod, w13_1, w13_2, w13_3, w13_4, w13_5, w13_6, w13_7, w13_8, w13_9, w13_10, w13_11, w13_12] <;> push_cast <;> ring)
      (by rw [hm]; simp only [Nat.reduceMul, Nat.reduceMod, w13_1, w13_2, w13_3, w13_4, w13_5, w13_6, w13_7, w13_8, w13_9, w13_10, w13_11, w13_12] <;> push_cast <;> ring)
      (by rw [hm]; simp only [Nat.reduceMul, Nat.reduceMod, w13_1, w13_2, w13_3, w13_4, w13_5, w13_6, w13_7, w13_8, w13_9, w13_10, w13_11, w13_12] <;> push_cast <;> ring)
      (by rw [hm]; simp only [Nat.reduceMul, Nat.reduceMod, w13_1, w13_2, w13_3, w13_4, w13_5, w13_6, w13_7, w13_8, w13_9, w13_10, w13_11, w13_12] <;> push_cast <;> ring)
      (by rw [hm]; simp only [Nat.reduceMul, Nat.reduceMod, w13_1, w13_2, w13_3, w13_4, w13_5, w13_6, w13_7, w13_8, w13_9, w13_10, w13_11, w13_12] <;> push_cast <;> ring)
      (by rw [hm]; simp only [Nat.reduceMul, Nat.reduceMod, w13_1, w13_2, w13_3, w13_4, w13_5, w13_6, w13_7, w13_8, w13_9, w13_10, w13_11, w13_12] <;> push_cast <;> ring)
      (by rw [hm]; simp only [Nat.reduceMul, Nat.reduceMod, w13_1, w13_2, w13_3, w13_4, w13_5, w13_6, w13_7, w13_8, w13_9, w13_10, w13_11, w13_12] <;> push_cast <;> ring)
      (by linear_combination (norm := (push_cast; ring)) sum13) z
  · simp only [kern13, Nat.reduceEqDiff, OfNat.ofNat_ne_one, OfNat.one_ne_ofNat, if_true, if_false]
    exact body13_spec _ _ _ _ _ _ _ _ _ _ _ _ (fun j => w 13 (7 * j)) (by rw [hm]; simp only [Nat.reduceMul, Nat.reduceMod, w_zero])
      (by rw [hm]; simp only [Nat.reduceMul, Nat.reduceMod, w13_1, w13_2, w13_3, w13_4, w13_5, w13_6, w13_7, w13_8, w13_9, w13_10, w13_11, w13_12] <;> push_cast <;> ring)
      (by rw [hm]; simp only [Nat.reduceMul, Nat.reduceMod, w13_1, w13_2, w13_3, w13_4, w13_5, w13_6, w13_7, w13_8, w13_9, w13_10, w13_11, w13_12] <;> push_cast <;> ring)
      (by rw [hm]; simp only [Nat.reduceMul, Nat.reduceMod, w13_1, w13_2, w13_3, w13_4, w13_5, w13_6, w13_7, w13_8, w13_9, w13_10, w13_11, w13_12] <;> push_cast <;> ring)
      (by rw [hm]; simp only [Nat.reduceMul, Nat.reduceMod, w13_1, w13_2, w13_3, w13_4, w13_5, w13_6, w13_7, w13_8, w13_9, w13_10, w13_11, w13_12] <;> push_cast <;> ring)
      (by rw [hm]; simp only [Nat.reduceMul, Nat.reduceMod, w13_1, w13_2, w13_3, w13_4, w13_5, w13_6, w13_7, w13_8, w13_9, w13_10, w13_11, w13_12] <;> push_cast <;> ring)
      (by rw [hm]; simp only [Nat.reduceMul, Nat.reduceMod, w13_1, w13_2, w13_3, w13_4, w13_5, w13_6, w13_7, w13_8, w13_9, w13_10, w13_11, w13_12] <;> push_cast <;> ring)
      (by rw [hm]; simp only [Nat.reduceMul, Nat.reduceMod, w13_1, w13_2, w13_3, w13_4, w13_5, w13_6, w13_7, w13_8, w13_9, w13_10, w13_11, w13_12] <;> push_cast <;> ring)
      (by rw [hm]; simp only [Nat.reduceMul, Nat.reduceMod, w13_1, w13_2, w13_3, w13_4, w13_5, w13_6, w13_7, w13_8, w13_9, w13_10, w13_11, w13_12] <;> push_cast <;> ring)
      (by rw [hm]; simp only [Nat.reduceMul, Nat.reduceMod, w13_1, w13_2, w13_3, w13_4, w13_5, w13_6, w13_7, w13_8, w13_9, w13_10, w13_11, w13_12] <;> push_cast <;> ring)
      (by rw [hm]; simp only [Nat.reduceMul, Nat.reduceMod, w13_1, w13_2, w13_3, w13_4, w13_5, w13_6, w13_7, w13_8, w13_9, w13_10, w13_11, w13_12] <;> push_cast <;> ring)
      (by rw [hm]; simp only [Nat.reduceMul, Nat.reduceMod, w13_1, w13_2, w13_3, w13_4, w13_5, w13_6, w13_7, w13_8, w13_9, w13_10, w13_11, w13_12] <;> push_cast <;> ring)
      (by rw [hm]; simp only [Nat.reduceMul, Nat.reduceMod, w13_1, w13_2, w13_3, w13_4, w13_5, w13_6, w13_7, w13_8, w13_9, w13_10, w13_11, w13_12] <;> push_cast <;> ring)
      (by linear_combination (norm := (push_cast; ring)) sum13) z
  · simp only [kern13, Nat.reduceEqDiff, OfNat.ofNat_ne_one, OfNat.one_ne_ofNat, if_true, if_false]
    exact body13_spec _ _ _ _ _ _ _ _ _ _ _ _ (fun j => w 13 (8 * j)) (by rw [hm]; simp only [Nat.reduceMul, Nat.reduceMod, w_zero])
      (by rw [hm]; simp only [Nat.reduceMul, Nat.reduceMod, w13_1, w13_2, w13_3, w13_4, w13_5, w13_6, w13_7, w13_8, w13_9, w13_10, w13_11, w13_12] <;> push_cast <;> ring)
      (by rw [hm]; simp only [Nat.reduceMul, Nat.reduceMod, w13_1, w13_2, w13_3, w13_4, w13_5, w13_6, w13_7, w13_8, w13_9, w13_10, w13_11, w13_12] <;> push_cast <;> ring)
      (by rw [hm]; simp only [Nat.reduceMul, Nat.reduceMod, w13_1, w13_2, w13_3, w13_4, w13_5, w13_6, w13_7, w13_8, w13_9, w13_10, w13_11, w13_12] <;> push_cast <;> ring)
      (by rw [hm]; simp only [Nat.reduceMul, Nat.reduceMod, w13_1, w13_2, w13_3, w13_4, w13_5, w13_6, w13_7, w13_8, w13_9, w13_10, w13_11, w13_12] <;> push_cast <;> ring)
      (by rw [hm]; simp only [Nat.reduceMul, Nat.reduceMod, w13_1, w13_2, w13_3, w13_4, w13_5, w13_6, w13_7, w13_8, w13_9, w13_10, w13_11, w13_12] <;> push_cast <;> ring)
      (by rw [hm]; simp only [Nat.reduceMul, Nat.reduceMod, w13_1, w13_2, w13_3, w13_4, w13_5, w13_6, w13_7, w13_8, w13_9, w13_10, w13_11, w13_12] <;> push_cast <;> ring)
      (by rw [hm]; simp only [Nat.reduceMul, Nat.reduceMod, w13_1, w13_2, w13_3, w13_4, w13_5, w13_6, w13_7, w13_8, w13_9, w13_10, w13_11, w13_12] <;> push_cast <;> ring)
      (by rw [hm]; simp only [Nat.reduceMul, Nat.reduceMod, w13_1, w13_2, w13_3, w13_4, w13_5, w13_6, w13_7, w13_8, w13_9, w13_10, w13_11, w13_12] <;> push_cast <;> ring)
      (by rw [hm]; simp only [Nat.reduceMul, Nat.reduceMod, w13_1, w13_2, w13_3, w13_4, w13_5, w13_6, w13_7, w13_8, w13_9, w13_10, w13_11, w13_12] <;> push_cast <;> ring)
      (by rw [hm]; simp only [Nat.reduceMul, Nat.reduceMod, w13_1, w13_2, w13_3, w13_4, w13_5, w13_6, w13_7, w13_8, w13_9, w13_10, w13_11, w13_12] <;> push_cast <;> ring)
      (by rw [hm]; simp only [Nat.reduceMul, Nat.reduceMod, w13_1, w13_2, w13_3, w13_4, w13_5, w13_6, w13_7, w13_8, w13_9, w13_10, w13_11, w13_12] <;> push_cast <;> ring)
      (by rw [hm]; simp only [Nat.reduceMul, Nat.reduceMod, w13_1, w13_2, w13_3, w13_4, w13_5, w13_6, w13_7, w13_8, w13_9, w13_10, w13_11, w13_12] <;> push_cast <;> ring)
      (by linear_combination (norm := (push_cast; ring)) sum13) z
  · simp only [kern13, Nat.reduceEqDiff, OfNat.ofNat_ne_one, OfNat.one_ne_ofNat, if_true, if_false]
    exact body13_spec _ _ _ _ _ _ _ _ _ _ _ _ (fun j => w 13 (9 * j)) (by rw [hm]; simp only [Nat.reduceMul, Nat.reduceMod, w_zero])
      (by rw [hm]; simp only [Nat.reduceMul, Nat.reduceMod, w13_1, w13_2, w13_3, w13_4, w13_5, w13_6, w13_7, w13_8, w13_9, w13_10, w13_11, w13_12] <;> push_cast <;> ring)
      (by rw [hm]; simp only [Nat.reduceMul, Nat.reduceMod, w13_1, w13_2, w13_3, w13_4, w13_5, w13_6, w13_7, w13_8, w13_9, w13_10, w13_11, w13_12] <;> push_cast <;> ring)
      (by rw [hm]; simp only [Nat.reduceMul, Nat.reduceMod, w13_1, w13_2, w13_3, w13_4, w13_5, w13_6, w13_7, w13_8, w13_9, w13_10, w13_11, w13_12] <;> push_cast <;> ring)
      (by rw [hm]; simp only [Nat.reduceMul, Nat.reduceMod, w13_1, w13_2, w13_3, w13_4, w13_5, w13_6, w13_7, w13_8, w13_9, w13_10, w13_11, w13_12] <;> push_cast <;> ring)
      (by rw [hm]; simp only [Nat.reduceMul, Nat.reduceMod, w13_1, w13_2, w13_3, w13_4, w13_5, w13_6, w13_7, w13_8, w13_9, w13_10, w13_11, w13_12] <;> push_cast <;> ring)
      (by rw [hm]; simp only [Nat.reduceMul, Nat.reduceMod, w13_1, w13_2, w13_3, w13_4, w13_5, w13_6, w13_7, w13_8, w13_9, w13_10, w13_11, w13_12] <;> push_cast <;> ring)
      (by rw [hm]; simp only [Nat.reduceMul, Nat.reduceMod, w13_1, w13_2, w13_3, w13_4, w13_5, w13_6, w13_7, w13_8, w13_9, w13_10, w13_11, w13_12] <;> push_cast <;> ring)
      (by rw [hm]; simp only [Nat.reduceMul, Nat.reduceMod, w13_1, w13_2, w13_3, w13_4, w13_5, w13_6, w13_7, w13_8, w13_9, w13_10, w13_11, w13_12] <;> push_cast <;> ring)
      (by rw [hm]; simp only [Nat.reduceMul, Nat.reduceMod, w13_1, w13_2, w13_3, w13_4, w13_5, w13_6, w13_7, w13_8, w13_9, w13_10, w13_11, w13_12] <;> push_cast <;> ring)
      (by rw [hm]; simp only [Nat.reduceMul, Nat.reduceMod, w13_1, w13_2, w13_3, w13_4, w13_5, w13_6, w13_7, w13_8, w13_9, w13_10, w13_11, w13_12] <;> push_cast <;> ring)
      (by rw [hm]; simp only [Nat.reduceMul, Nat.reduceMod, w13_1, w13_2, w13_3, w13_4, w13_5, w13_6, w13_7, w13_8, w13_9, w13_10, w13_11, w13_12] <;> push_cast <;> ring)
      (by rw [hm]; simp only [Nat.reduceMul, Nat.reduceMod, w13_1, w13_2, w13_3, w13_4, w13_5, w13_6, w13_7, w13_8, w13_9, w13_10, w13_11, w13_12] <;> push_cast <;> ring)
      (by linear_combination (norm := (push_cast; ring)) sum13) z
  · simp only [kern13, Nat.reduceEqDiff, OfNat.ofNat_ne_one, OfNat.one_ne_ofNat, if_true, if_false]
    exact body13_spec _ _ _ _ _ _ _ _ _ _ _ _ (fun j => w 13 (10 * j)) (by rw [hm]; simp only [Nat.reduceMul, Nat.reduceMod, w_zero])
      (by rw [hm]; simp only [Nat.reduceMul, Nat.reduceMod, w13_1, w13_2, w13_3, w13_4, w13_5, w13_6, w13_7, w13_8, w13_9, w13_10, w13_11, w13_12] <;> push_cast <;> ring)
      (by rw [hm]; simp only [Nat.reduceMul, Nat.reduceMod, w13_1, w13_2, w13_3, w13_4, w13_5, w13_6, w13_7, w13_8, w13_9, w13_10, w13_11, w13_12] <;> push_cast <;> ring)
      (by rw [hm]; simp only [Nat.reduceMul, Nat.reduceMod, w13_1, w13_2, w13_3, w13_4, w13_5, w13_6, w13_7, w13_8, w13_9, w13_10, w13_11, w13_12] <;> push_cast <;> ring)
      (by rw [hm]; simp only [Nat.reduceMul, Nat.reduceMod, w13_1, w13_2, w13_3, w13_4, w13_5, w13_6, w13_7, w13_8, w13_9, w13_10, w13_11, w13_12] <;> push_cast <;> ring)
      (by rw [hm]; simp only [Nat.reduceMul, Nat.reduceMod, w13_1, w13_2, w13_3, w13_4, w13_5, w13_6, w13_7, w13_8, w13_9, w13_10, w13_11, w13_12] <;> push_cast <;> ring)
      (by rw [hm]; simp only [Nat.reduceMul, Nat.reduceMod, w13_1, w13_2, w13_3, w13_4, w13_5, w13_6, w13_7, w13_8, w13_9, w13_10, w13_11, w13_12] <;> push_cast <;> ring)
      (by rw [hm]; simp only [Nat.reduceMul, Nat.reduceMod, w13_1, w13_2, w13_3, w13_4, w13_5, w13_6, w13_7, w13_8, w13_9, w13_10, w13_11, w13_12] <;> push_cast <;> ring)
      (by rw [hm]; simp only [Nat.reduceMul, Nat.reduceMod, w13_1, w13_2, w13_3, w13_4, w13_5, w13_6, w13_7, w13_8, w13_9, w13_10, w13_11, w13_12] <;> push_cast <;> ring)
      (by rw [hm]; simp only [Nat.reduceMul, Nat.reduceMod, w13_1, w13_2, w13_3, w13_4, w13_5, w13_6, w13_7, w13_8, w13_9, w13_10, w13_11, w13_12] <;> push_cast <;> ring)
      (by rw [hm]; simp only [Nat.reduceMul, Nat.reduceMod, w13_1, w13_2, w13_3, w13_4, w13_5, w13_6, w13_7, w13_8, w13_9, w13_10, w13_11, w13_12] <;> push_cast <;> ring)
      (by rw [hm]; simp only [Nat.reduceMul, Nat.reduceMod, w13_1, w13_2, w13_3, w13_4, w13_5, w13_6, w13_7, w13_8, w13_9, w13_10, w13_11, w13_12] <;> push_cast <;> ring)
      (by rw [hm]; simp only [Nat.reduceMul, Nat.reduceMod, w13_1, w13_2, w13_3, w13_4, w13_5, w13_6, w13_7, w13_8, w13_9, w13_10, w13_11, w13_12] <;> push_cast <;> ring)
      (by linear_combination (norm := (push_cast; ring)) sum13) z
  · simp only [kern13, Nat.reduceEqDiff, OfNat.ofNat_ne_one, OfNat.one_ne_ofNat, if_true, if_false]
    exact body13_spec _ _ _ _ _ _ _ _ _ _ _ _ (fun j => w 13 (11 * j)) (by rw [hm]; simp only [Nat.reduceMul, Nat.reduceMod, w_zero])
      (by rw [hm]; simp only [Nat.reduceMul, Nat.reduceMod, w13_1, w13_2, w13_3, w13_4, w13_5, w13_6, w13_7, w13_8, w13_9, w13_10, w13_11, w13_12] <;> push_cast <;> ring)
      (by rw [hm]; simp only [Nat.reduceMul, Nat.reduceMod, w13_1, w13_2, w13_3, w13_4, w13_5, w13_6, w13_7, w13_8, w13_9, w13_10, w13_11, w13_12] <;> push_cast <;> ring)
      (by rw [hm]; simp only [Nat.reduceMul, Nat.reduceMod, w13_1, w13_2, w13_3, w13_4, w13_5, w13_6, w13_7, w13_8, w13_9, w13_10, w13_11, w13_12] <;> push_cast <;> ring)
      (by rw [hm]; simp only [Nat.reduceMul, Nat.reduceMod, w13_1, w13_2, w13_3, w13_4, w13_5, w13_6, w13_7, w13_8, w13_9, w13_10, w13_11, w13_12] <;> push_cast <;> ring)
      (by rw [hm]; simp only [Nat.reduceMul, Nat.reduceMod, w13_1, w13_2, w13_3, w13_4, w13_5, w13_6, w13_7, w13_8, w13_9, w13_10, w13_11, w13_12] <;> push_cast <;> ring)
      (by rw [hm]; simp only [Nat.reduceMul, Nat.reduceMod, w13_1, w13_2, w13_3, w13_4, w13_5, w13_6, w13_7, w13_8, w13_9, w13_10, w13_11, w13_12] <;> push_cast <;> ring)
      (by rw [hm]; simp only [Nat.reduceMul, Nat.reduceMod, w13_1, w13_2, w13_3, w13_4, w13_5, w13_6, w13_7, w13_8, w13_9, w13_10, w13_11, w13_12] <;> push_cast <;> ring)
      (by rw [hm]; simp only [Nat.reduceMul, Nat.reduceMod, w13_1, w13_2, w13_3, w13_4, w13_5, w13_6, w13_7, w13_8, w13_9, w13_10, w13_11, w13_12] <;> push_cast <;> ring)
      (by rw [hm]; simp only [Nat.reduceMul, Nat.reduceMod, w13_1, w13_2, w13_3, w13_4, w13_5, w13_6, w13_7, w13_8, w13_9, w13_10, w13_11, w13_12] <;> push_cast <;> ring)
      (by rw [hm]; simp only [Nat.reduceMul, Nat.reduceMod, w13_1, w13_2, w13_3, w13_4, w13_5, w13_6, w13_7, w13_8, w13_9, w13_10, w13_11, w13_12] <;> push_cast <;> ring)
      (by rw [hm]; simp only [Nat.reduceMul, Nat.reduceMod, w13_1, w13_2, w13_3, w13_4, w13_5, w13_6, w13_7, w13_8, w13_9, w13_10, w13_11, w13_12] <;> push_cast <;> ring)
      (by rw [hm]; simp only [Nat.reduceMul, Nat.reduceMod, w13_1, w13_2, w13_3, w13_4, w13_5, w13_6, w13_7, w13_8, w13_9, w13_10, w13_11, w13_12] <;> push_cast <;> ring)
      (by linear_combination (norm := (push_cast; ring)) sum13) z
  · simp only [kern13, Nat.reduceEqDiff, OfNat.ofNat_ne_one, OfNat.one_ne_ofNat, if_true, if_false]
    exact body13_spec _ _ _ _ _ _ _ _ _ _ _ _ (fun j => w 13 (12 * j)) (by rw [hm]; simp only [Nat.reduceMul, Nat.reduceMod, w_zero])
      (by rw [hm]; simp only [Nat.reduceMul, Nat.reduceMod, w13_1, w13_2, w13_3, w13_4, w13_5, w13_6, w13_7, w13_8, w13_9, w13_10, w13_11, w13_12] <;> push_cast <;> ring)
      (by rw [hm]; simp only [Nat.reduceMul, Nat.reduceMod, w13_1, w13_2, w13_3, w13_4, w13_5, w13_6, w13_7, w13_8, w13_9, w13_10, w13_11, w13_12] <;> push_cast <;> ring)
      (by rw [hm]; simp only [Nat.reduceMul, Nat.reduceMod, w13_1, w13_2, w13_3, w13_4, w13_5, w13_6, w13_7, w13_8, w13_9, w13_10, w13_11, w13_12] <;> push_cast <;> ring)
      (by rw [hm]; simp only [Nat.reduceMul, Nat.reduceMod, w13_1, w13_2, w13_3, w13_4, w13_5, w13_6, w13_7, w13_8, w13_9, w13_10, w13_11, w13_12] <;> push_cast <;> ring)
      (by rw [hm]; simp only [Nat.reduceMul, Nat.reduceMod, w13_1, w13_2, w13_3, w13_4, w13_5, w13_6, w13_7, w13_8, w13_9, w13_10, w13_11, w13_12] <;> push_cast <;> ring)
      (by rw [hm]; simp only [Nat.reduceMul, Nat.reduceMod, w13_1, w13_2, w13_3, w13_4, w13_5, w13_6, w13_7, w13_8, w13_9, w13_10, w13_11, w13_12] <;> push_cast <;> ring)
      (by rw [hm]; simp only [Nat.reduceMul, Nat.reduceMod, w13_1, w13_2, w13_3, w13_4, w13_5, w13_6, w13_7, w13_8, w13_9, w13_10, w13_11, w13_12] <;> push_cast <;> ring)
      (by rw [hm]; simp only [Nat.reduceMul, Nat.reduceMod, w13_1, w13_2, w13_3, w13_4, w13_5, w13_6, w13_7, w13_8, w13_9, w13_10, w13_11, w13_12] <;> push_cast <;> ring)
      (by rw [hm]; simp only [Nat.reduceMul, Nat.reduceMod, w13_1, w13_2, w13_3, w13_4, w13_5, w13_6, w13_7, w13_8, w13_9, w13_10, w13_11, w13_12] <;> push_cast <;> ring)
      (by rw [hm]; simp only [Nat.reduceMul, Nat.reduceMod, w13_1, w13_2, w13_3, w13_4, w13_5, w13_6, w13_7, w13_8, w13_9, w13_10, w13_11, w13_12] <;> push_cast <;> ring)
      (by rw [hm]; simp only [Nat.reduceMul, Nat.reduceMod, w13_1, w13_2, w13_3, w13_4, w13_5, w13_6, w13_7, w13_8, w13_9, w13_10, w13_11, w13_12] <;> push_cast <;> ring)
      (by rw [hm]; simp only [Nat.reduceMul, Nat.reduceMod, w13_1, w13_2, w13_3, w13_4, w13_5, w13_6, w13_7, w13_8, w13_9, w13_10, w13_11, w13_12] <;> push_cast <;> ring)
      (by linear_combination (norm := (push_cast; ring)) sum13) z

theorem kern16_spec (mu : Nat) (h1 : mu < 16) (h2 : Nat.Coprime mu 16) (z : Nat → ℂ) :
    kern16 mu z = short 16 mu z := by
  have key : ∀ l, l = (List.range 16).map (fun k => ∑ q ∈ range 16, z q * (fun j => w 16 (mu * j)) (k * q % 16)) → l = short 16 mu z := by
    intro l hl; rw [hl, short]; simp only [w_mul_mod (show 0 < 16 by norm_num)]
  apply key; clear key
  have hr : ∀ a, w 16 (a + 16) = w 16 a := fun a => by rw [w_add, w_self (by norm_num), mul_one]
  have hm : ∀ a, w 16 a = w 16 (a % 16) := fun a => (w_mod (by norm_num) a).symm
  interval_cases mu
  · exact absurd h2 (by decide)
  · simp only [kern16, Nat.reduceEqDiff, OfNat.ofNat_ne_one, OfNat.one_ne_ofNat, if_true, if_false]
    exact body16_spec _ _ _ _ (fun j => w 16 (1 * j)) (by rw [hm]; simp only [Nat.reduceMul, Nat.reduceMod, w_zero])
      (by rw [hm]; simp only [Nat.reduceMul, Nat.reduceMod, w16_1, w16_2, w16_3, w16_4, w16_5, w16_6, w16_7, w16_8, w16_9, w16_10, w16_11, w16_12, w16_13, w16_14, w16_15] <;> push_cast <;> ring)
      (by rw [hm]; simp only [Nat.reduceMul, Nat.reduceMod, w16_1, w16_2, w16_3, w16_4, w16_5, w16_6, w16_7, w16_8, w16_9, w16_10, w16_11, w16_12, w16_13, w16_14, w16_15] <;> push_cast <;> ring)
      (by rw [hm]; simp only [Nat.reduceMul, Nat.reduceMod, w16_1, w16_2, w16_3, w16_4, w16_5, w16_6, w16_7, w16_8, w16_9, w16_10, w16_11, w16_12, w16_13, w16_14, w16_15] <;> push_cast <;> ring)
      (by rw [hm]; simp only [Nat.reduceMul, Nat.reduceMod, w16_1, w16_2, w16_3, w16_4, w16_5, w16_6, w16_7, w16_8, w16_9, w16_10, w16_11, w16_12, w16_13, w16_14, w16_15] <;> push_cast <;> ring)
      (by rw [hm]; simp only [Nat.reduceMul, Nat.reduceMod, w16_1, w16_2, w16_3, w16_4, w16_5, w16_6, w16_7, w16_8, w16_9, w16_10, w16_11, w16_12, w16_13, w16_14, w16_15] <;> push_cast <;> ring)
      (by rw [hm]; simp only [Nat.reduceMul, Nat.reduceMod, w16_1, w16_2, w16_3, w16_4, w16_5, w16_6, w16_7, w16_8, w16_9, w16_10, w16_11, w16_12, w16_13, w16_14, w16_15] <;> push_cast <;> ring)
      (by rw [hm]; simp only [Nat.reduceMul, Nat.reduceMod, w16_1, w16_2, w16_3, w16_4, w16_5, w16_6, w16_7, w16_8, w16_9, w16_10, w16_11, w16_12, w16_13, w16_14, w16_15] <;> push_cast <;> ring)
      (by rw [hm]; simp only [Nat.reduceMul, Nat.reduceMod, w16_1, w16_2, w16_3, w16_4, w16_5, w16_6, w16_7, w16_8, w16_9, w16_10, w16_11, w16_12, w16_13, w16_14, w16_15] <;> push_cast <;> ring)
      (by rw [hm]; simp only [Nat.reduceMul, Nat.reduceMod, w16_1, w16_2, w16_3, w16_4, w16_5, w16_6, w16_7, w16_8, w16_9, w16_10, w16_11, w16_12, w16_13, w16_14, w16_15] <;> push_cast <;> ring)
      (by rw [hm]; simp only [Nat.reduceMul, Nat.reduceMod, w16_1, w16_2, w16_3, w16_4, w16_5, w16_6, w16_7, w16_8, w16_9, w16_10, w16_11, w16_12, w16_13, w16_14, w16_15] <;> push_cast <;> ring)
      (by rw [hm]; simp only [Nat.reduceMul, Nat.reduceMod, w16_1, w16_2, w16_3, w16_4, w16_5, w16_6, w16_7, w16_8, w16_9, w16_10, w16_11, w16_12, w16_13, w16_14, w16_15] <;> push_cast <;> ring)
      (by rw [hm]; simp only [Nat.reduceMul, Nat.reduceMod, w16_1, w16_2, w16_3, w16_4, w16_5, w16_6, w16_7, w16_8, w16_9, w16_10, w16_11, w16_12, w16_13, w16_14, w16_15] <;> push_cast <;> ring)
      (by rw [hm]; simp only [Nat.reduceMul, Nat.reduceMod, w16_1, w16_2, w16_3, w16_4, w16_5, w16_6, w16_7, w16_8, w16_9, w16_10, w16_11, w16_12, w16_13, w16_14, w16_15] <;> push_cast <;> ring)
      (by rw [hm]; simp only [Nat.reduceMul, Nat.reduceMod, w16_1, w16_2, w16_3, w16_4, w16_5, w16_6, w16_7, w16_8, w16_9, w16_10, w16_11, w16_12, w16_13, w16_14, w16_15] <;> push_cast <;> ring)
      (by rw [hm]; simp only [Nat.reduceMul, Nat.reduceMod, w16_1, w16_2, w16_3, w16_4, w16_5, w16_6, w16_7, w16_8, w16_9, w16_10, w16_11, w16_12, w16_13, w16_14, w16_15] <;> push_cast <;> ring) z
  · exact absurd h2 (by decide)
  · simp only [kern16, Nat.reduceEqDiff, OfNat.ofNat_ne_one, OfNat.one_ne_ofNat, if_true, if_false]
    exact body16_spec _ _ _ _ (fun j => w 16 (3 * j)) (by rw [hm]; simp only [Nat.reduceMul, Nat.reduceMod, w_zero])
      (by rw [hm]; simp only [Nat.reduceMul, Nat.reduceMod, w16_1, w16_2, w16_3, w16_4, w16_5, w16_6, w16_7, w16_8, w16_9, w16_10, w16_11, w16_12, w16_13, w16_14, w16_15] <;> push_cast <;> ring)
      (by rw [hm]; simp only [Nat.reduceMul, Nat.reduceMod, w16_1, w16_2, w16_3, w16_4, w16_5, w16_6, w16_7, w16_8, w16_9, w16_10, w16_11, w16_12, w16_13, w16_14, w16_15] <;> push_cast <;> ring)
      (by rw [hm]; simp only [Nat.reduceMul, Nat.reduceMod, w16_1, w16_2, w16_3, w16_4, w16_5, w16_6, w16_7, w16_8, w16_9, w16_10, w16_11, w16_12, w16_13, w16_14, w16_15] <;> push_cast <;> ring)
      (by rw [hm]; simp only [Nat.reduceMul, Nat.reduceMod, w16_1, w16_2, w16_3, w16_4, w16_5, w16_6, w16_7, w16_8, w16_9, w16_10, w16_11, w16_12, w16_13, w16_14, w16_15] <;> push_cast <;> ring)
      (by rw [hm]; simp only [Nat.reduceMul, Nat.reduceMod, w16_1, w16_2, w16_3, w16_4, w16_5, w16_6, w16_7, w16_8, w16_9, w16_10, w16_11, w16_12, w16_13, w16_14, w16_15] <;> push_cast <;> ring)
      (by rw [hm]; simp only [Nat.reduceMul, Nat.reduceMod, w16_1, w16_2, w16_3, w16_4, w16_5, w16_6, w16_7, w16_8, w16_9, w16_10, w16_11, w16_12, w16_13, w16_14, w16_15] <;> push_cast <;> ring)
      (by rw [hm]; simp only [Nat.reduceMul, Nat.reduceMod, w16_1, w16_2, w16_3, w16_4, w16_5, w16_6, w16_7, w16_8, w16_9, w16_10, w16_11, w16_12, w16_13, w16_14, w16_15] <;> push_cast <;> ring)
      (by rw [hm]; simp only [Nat.reduceMul, Nat.reduceMod, w16_1, w16_2, w16_3, w16_4, w16_5, w16_6, w16_7, w16_8, w16_9, w16_10, w16_11, w16_12, w16_13, w16_14, w16_15] <;> push_cast <;> ring)
      (by rw [hm]; simp only [Nat.reduceMul, Nat.reduceMod, w16_1, w16_2, w16_3, w16_4, w16_5, w16_6, w16_7, w16_8, w16_9, w16_10, w16_11, w16_12, w16_13, w16_14, w16_15] <;> push_cast <;> ring)
      (by rw [hm]; simp only [Nat.reduceMul, Nat.reduceMod, w16_1, w16_2, w16_3, w16_4, w16_5, w16_6, w16_7, w16_8, w16_9, w16_10, w16_11, w16_12, w16_13, w16_14, w16_15] <;> push_cast <;> ring)
      (by rw [hm]; simp only [Nat.reduceMul, Nat.reduceMod, w16_1, w16_2, w16_3, w16_4, w16_5, w16_6, w16_7, w16_8, w16_9, w16_10, w16_11, w16_12, w16_13, w16_14, w16_15] <;> push_cast <;> ring)
      (by rw [hm]; simp only [Nat.reduceMul, Nat.reduceMod, w16_1, w16_2, w16_3, w16_4, w16_5, w16_6, w16_7, w16_8, w16_9, w16_10, w16_11, w16_12, w16_13, w16_14, w16_15] <;> push_cast <;> ring)
      (by rw [hm]; simp only [Nat.reduceMul, Nat.reduceMod, w16_1, w16_2, w16_3, w16_4, w16_5, w16_6, w16_7, w16_8, w16_9, w16_10, w16_11, w16_12, w16_13, w16_14, w16_15] <;> push_cast <;> ring)
      (by rw [hm]; simp only [Nat.reduceMul, Nat.reduceMod, w16_1, w16_2, w16_3, w16_4, w16_5, w16_6, w16_7, w16_8, w16_9, w16_10, w16_11, w16_12, w16_13, w16_14, w16_15] <;> push_cast <;> ring)
      (by rw [hm]; simp only [Nat.reduceMul, Nat.reduceMod, w16_1, w16_2, w16_3, w16_4, w16_5, w16_6, w16_7, w16_8, w16_9, w16_10, w16_11, w16_12, w16_13, w16_14, w16_15] <;> push_cast <;> ring) z
  · exact absurd h2 (by decide)
  · simp only [kern16, Nat.reduceEqDiff, OfNat.ofNat_ne_one, OfNat.one_ne_ofNat, if_true, if_false]
    exact body16_spec _ _ _ _ (fun j => w 16 (5 * j)) (by rw [hm]; simp only [Nat.reduceMul, Nat.reduceMod, w_zero])
      (by rw [hm]; simp only [Nat.reduceMul, Nat.reduceMod, w16_1, w16_2, w16_3, w16_4, w16_5, w16_6, w16_7, w16_8, w16_9, w16_10, w16_11, w16_12, w16_13, w16_14, w16_15] <;> push_cast <;> ring)
      (by rw [hm]; simp only [Nat.reduceMul, Nat.reduceMod, w16_1, w16_2, w16_3, w16_4, w16_5, w16_6, w16_7, w16_8, w16_9, w16_10, w16_11, w16_12, w16_13, w16_14, w16_15] <;> push_cast <;> ring)
      (by rw [hm]; simp only [Nat.reduceMul, Nat.reduceMod, w16_1, w16_2, w16_3, w16_4, w16_5, w16_6, w16_7, w16_8, w16_9, w16_10, w16_11, w16_12, w16_13, w16_14, w16_15] <;> push_cast <;> ring)
      (by rw [hm]; simp only [Nat.reduceMul, Nat.reduceMod, w16_1, w16_2, w16_3, w16_4, w16_5, w16_6, w16_7, w16_8, w16_9, w16_10, w16_11, w16_12, w16_13, w16_14, w16_15] <;> push_cast <;> ring)
      (by rw [hm]; simp only [Nat.reduceMul, Nat.reduceMod, w16_1, w16_2, w16_3, w16_4, w16_5, w16_6, w16_7, w16_8, w16_9, w16_10, w16_11, w16_12, w16_13, w16_14, w16_15] <;> push_cast <;> ring)
      (by rw [hm]; simp only [Nat.reduceMul, Nat.reduceMod, w16_1, w16_2, w16_3, w16_4, w16_5, w16_6, w16_7, w16_8, w16_9, w16_10, w16_11, w16_12, w16_13, w16_14, w16_15] <;> push_cast <;> ring)
      (by rw [hm]; simp only [Nat.reduceMul, Nat.reduceMod, w16_1, w16_2, w16_3, w16_4, w16_5, w16_6, w16_7, w16_8, w16_9, w16_10, w16_11, w16_12, w16_13, w16_14, w16_15] <;> push_cast <;> ring)
      (by rw [hm]; simp only [Nat.reduceMul, Nat.reduceMod, w16_1, w16_2, w16_3, w16_4, w16_5, w16_6, w16_7, w16_8, w16_9, w16_10, w16_11, w16_12, w16_13, w16_14, w16_15] <;> push_cast <;> ring)
      (by rw [hm]; simp only [Nat.reduceMul, Nat.reduceMod, w16_1, w16_2, w16_3, w16_4, w16_5, w16_6, w16_7, w16_8, w16_9, w16_10, w16_11, w16_12, w16_13, w16_14, w16_15] <;> push_cast <;> ring)
      (by rw [hm]; simp only [Nat.reduceMul, Nat.reduceMod, w16_1, w16_2, w16_3, w16_4, w16_5, w16_6, w16_7, w16_8, w16_9, w16_10, w16_11, w16_12, w16_13, w16_14, w16_15] <;> push_cast <;> ring)
      (by rw [hm]; simp only [Nat.reduceMul, Nat.reduceMod, w16_1, w16_2, w16_3, w16_4, w16_5, w16_6, w16_7, w16_8, w16_9, w16_10, w16_11, w16_12, w16_13, w16_14, w16_15] <;> push_cast <;> ring)
      (by rw [hm]; simp only [Nat.reduceMul, Nat.reduceMod, w16_1, w16_2, w16_3, w16_4, w16_5, w16_6, w16_7, w16_8, w16_9, w16_10, w16_11, w16_12, w16_13, w16_14, w16_15] <;> push_cast <;> ring)
      (by rw [hm]; simp only [Nat.reduceMul, Nat.reduceMod, w16_1, w16_2, w16_3, w16_4, w16_5, w16_6, w16_7, w16_8, w16_9, w16_10, w16_11, w16_12, w16_13, w16_14, w16_15] <;> push_cast <;> ring)
      (by rw [hm]; simp only [Nat.reduceMul, Nat.reduceMod, w16_1, w16_2, w16_3, w16_4, w16_5, w16_6, w16_7, w16_8, w16_9, w16_10, w16_11, w16_12, w16_13, w16_14, w16_15] <;> push_cast <;> ring)
      (by rw [hm]; simp only [Nat.reduceMul, Nat.reduceMod, w16_1, w16_2, w16_3, w16_4, w16_5, w16_6, w16_7, w16_8, w16_9, w16_10, w16_11, w16_12, w16_13, w16_14, w16_15] <;> push_cast <;> ring) z
  · exact absurd h2 (by decide)
  · simp only [kern16, Nat.reduceEqDiff, OfNat.ofNat_ne_one, OfNat.one_ne_ofNat, if_true, if_false]
    exact body16_spec _ _ _ _ (fun j => w 16 (7 * j)) (by rw [hm]; simp only [Nat.reduceMul, Nat.reduceMod, w_zero])
      (by rw [hm]; simp only [Nat.reduceMul, Nat.reduceMod, w16_1, w16_2, w16_3, w16_4, w16_5, w16_6, w16_7, w16_8, w16_9, w16_10, w16_11, w16_12, w16_13, w16_14, w16_15] <;> push_cast <;> ring)
      (by rw [hm]; simp only [Nat.reduceMul, Nat.reduceMod, w16_1, w16_2, w16_3, w16_4, w16_5, w16_6, w16_7, w16_8, w16_9, w16_10, w16_11, w16_12, w16_13, w16_14, w16_15] <;> push_cast <;> ring)
      (by rw [hm]; simp only [Nat.reduceMul, Nat.reduceMod, w16_1, w16_2, w16_3, w16_4, w16_5, w16_6, w16_7, w16_8, w16_9, w16_10, w16_11, w16_12, w16_13, w16_14, w16_15] <;> push_cast <;> ring)
      (by rw [hm]; simp only [Nat.reduceMul, Nat.reduceMod, w16_1, w16_2, w16_3, w16_4, w16_5, w16_6, w16_7, w16_8, w16_9, w16_10, w16_11, w16_12, w16_13, w16_14, w16_15] <;> push_cast <;> ring)
      (by rw [hm]; simp only [Nat.reduceMul, Nat.reduceMod, w16_1, w16_2, w16_3, w16_4, w16_5, w16_6, w16_7, w16_8, w16_9, w16_10, w16_11, w16_12, w16_13, w16_14, w16_15] <;> push_cast <;> ring)
      (by rw [hm]; simp only [Nat.reduceMul, Nat.reduceMod, w16_1, w16_2, w16_3, w16_4, w16_5, w16_6, w16_7, w16_8, w16_9, w16_10, w16_11, w16_12, w16_13, w16_14, w16_15] <;> push_cast <;> ring)
      (by rw [hm]; simp only [Nat.reduceMul, Nat.reduceMod, w16_1, w16_2, w16_3, w16_4, w16_5, w16_6, w16_7, w16_8, w16_9, w16_10, w16_11, w16_12, w16_13, w16_14, w16_15] <;> push_cast <;> ring)
      (by rw [hm]; simp only [Nat.reduceMul, Nat.reduceMod, w16_1, w16_2, w16_3, w16_4, w16_5, w16_6, w16_7, w16_8, w16_9, w16_10, w16_11, w16_12, w16_13, w16_14, w16_15] <;> push_cast <;> ring)
      (by rw [hm]; simp only [Nat.reduceMul, Nat.reduceMod, w16_1, w16_2, w16_3, w16_4, w16_5, w16_6, w16_7, w16_8, w16_9, w16_10, w16_11, w16_12, w16_13, w16_14, w16_15] <;> push_cast <;> ring)
      (by rw [hm]; simp only [Nat.reduceMul, Nat.reduceMod, w16_1, w16_2, w16_3, w16_4, w16_5, w16_6, w16_7, w16_8, w16_9, w16_10, w16_11, w16_12, w16_13, w16_14, w16_15] <;> push_cast <;> ring)
      (by rw [hm]; simp only [Nat.reduceMul, Nat.reduceMod, w16_1, w16_2, w16_3, w16_4, w16_5, w16_6, w16_7, w16_8, w16_9, w16_10, w16_11, w16_12, w16_13, w16_14, w16_15] <;> push_cast <;> ring)
      (by rw [hm]; simp only [Nat.reduceMul, Nat.reduceMod, w16_1, w16_2, w16_3, w16_4, w16_5, w16_6, w16_7, w16_8, w16_9, w16_10, w16_11, w16_12, w16_13, w16_14, w16_15] <;> push_cast <;> ring)
      (by rw [hm]; simp only [Nat.reduceMul, Nat.reduceMod, w16_1, w16_2, w16_3, w16_4, w16_5, w16_6, w16_7, w16_8, w16_9, w16_10, w16_11, w16_12, w16_13, w16_14, w16_15] <;> push_cast <;> ring)
      (by rw [hm]; simp only [Nat.reduceMul, Nat.reduceMod, w16_1, w16_2, w16_3, w16_4, w16_5, w16_6, w16_7, w16_8, w16_9, w16_10, w16_11, w16_12, w16_13, w16_14, w16_15] <;> push_cast <;> ring)
      (by rw [hm]; simp only [Nat.reduceMul, Nat.reduceMod, w16_1, w16_2, w16_3, w16_4, w16_5, w16_6, w16_7, w16_8, w16_9, w16_10, w16_11, w16_12, w16_13, w16_14, w16_15] <;> push_cast <;> ring) z
  · exact absurd h2 (by decide)
  · simp only [kern16, Nat.reduceEqDiff, OfNat.ofNat_ne_one, OfNat.one_ne_ofNat, if_true, if_false]
    exact body16_spec _ _ _ _ (fun j => w 16 (9 * j)) (by rw [hm]; simp only [Nat.reduceMul, Nat.reduceMod, w_zero])
      (by rw [hm]; simp only [Nat.reduceMul, Nat.reduceMod, w16_1, w16_2, w16_3, w16_4, w16_5, w16_6, w16_7, w16_8, w16_9, w16_10, w16_11, w16_12, w16_13, w16_14, w16_15] <;> push_cast <;> ring)
      (by rw [hm]; simp only [Nat.reduceMul, Nat.reduceMod, w16_1, w16_2, w16_3, w16_4, w16_5, w16_6, w16_7, w16_8, w16_9, w16_10, w16_11, w16_12, w16_13, w16_14, w16_15] <;> push_cast <;> ring)
      (by rw [hm]; simp only [Nat.reduceMul, Nat.reduceMod, w16_1, w16_2, w16_3, w16_4, w16_5, w16_6, w16_7, w16_8, w16_9, w16_10, w16_11, w16_12, w16_13, w16_14, w16_15] <;> push_cast <;> ring)
      (by rw [hm]; simp only [Nat.reduceMul, Nat.reduceMod, w16_1, w16_2, w16_3, w16_4, w16_5, w16_6, w16_7, w16_8, w16_9, w16_10, w16_11, w16_12, w16_13, w16_14, w16_15] <;> push_cast <;> ring)
      (by rw [hm]; simp only [Nat.reduceMul, Nat.reduceMod, w16_1, w16_2, w16_3, w16_4, w16_5, w16_6, w16_7, w16_8, w16_9, w16_10, w16_11, w16_12, w16_13, w16_14, w16_15] <;> push_cast <;> ring)
      (by rw [hm]; simp only [Nat.reduceMul, Nat.reduceMod, w16_1, w16_2, w16_3, w16_4, w16_5, w16_6, w16_7, w16_8, w16_9, w16_10, w16_11, w16_12, w16_13, w16_14, w16_15] <;> push_cast <;> ring)
      (by rw [hm]; simp only [Nat.reduceMul, Nat.reduceMod, w16_1, w16_2, w16_3, w16_4, w16_5, w16_6, w16_7, w16_8, w16_9, w16_10, w16_11, w16_12, w16_13, w16_14, w16_15] <;> push_cast <;> ring)
      (by rw [hm]; simp only [Nat.reduceMul, Nat.reduceMod, w16_1, w16_2, w16_3, w16_4, w16_5, w16_6, w16_7, w16_8, w16_9, w16_10, w16_11, w16_12, w16_13, w16_14, w16_15] <;> push_cast <;> ring)
      (by rw [hm]; simp only [Nat.reduceMul, Nat.reduceMod, w16_1, w16_2, w16_3, w16_4, w16_5, w16_6, w16_7, w16_8, w16_9, w16_10, w16_11, w16_12, w16_13, w16_14, w16_15] <;> push_cast <;> ring)
      (by rw [hm]; simp only [Nat.reduceMul, Nat.reduceMod, w16_1, w16_2, w16_3, w16_4, w16_5, w16_6, w16_7, w16_8, w16_9, w16_10, w16_11, w16_12, w16_13, w16_14, w16_15] <;> push_cast <;> ring)
      (by rw [hm]; simp only [Nat.reduceMul, Nat.reduceMod, w16_1, w16_2, w16_3, w16_4, w16_5, w16_6, w16_7, w16_8, w16_9, w16_10, w16_11, w16_12, w16_13, w16_14, w16_15] <;> push_cast <;> ring)
      (by rw [hm]; simp only [Nat.reduceMul, Nat.reduceMod, w16_1, w16_2, w16_3, w16_4, w16_5, w16_6, w16_7, w16_8, w16_9, w16_10, w16_11, w16_12, w16_13, w16_14, w16_15] <;> push_cast <;> ring)
      (by rw [hm]; simp only [Nat.reduceMul, Nat.reduceMod, w16_1, w16_2, w16_3, w16_4, w16_5, w16_6, w16_7, w16_8, w16_9, w16_10, w16_11, w16_12, w16_13, w16_14, w16_15] <;> push_cast <;> ring)
      (by rw [hm]; simp only [Nat.reduceMul, Nat.reduceMod, w16_1, w16_2, w16_3, w16_4, w16_5, w16_6, w16_7, w16_8, w16_9, w16_10, w16_11, w16_12, w16_13, w16_14, w16_15] <;> push_cast <;> ring)
      (by rw [hm]; simp only [Nat.reduceMul, Nat.reduceMod, w16_1, w16_2, w16_3, w16_4, w16_5, w16_6, w16_7, w16_8, w16_9, w16_10, w16_11, w16_12, w16_13, w16_14, w16_15] <;> push_cast <;> ring) z
  · exact absurd h2 (by decide)
  · simp only [kern16, Nat.reduceEqDiff, OfNat.ofNat_ne_one, OfNat.one_ne_ofNat, if_true, if_false]
    exact body16_spec _ _ _ _ (fun j => w 16 (11 * j)) (by rw [hm]; simp only [Nat.reduceMul, Nat.reduceMod, w_zero])
      (by rw [hm]; simp only [Nat.reduceMul, Nat.reduceMod, w16_1, w16_2, w16_3, w16_4, w16_5, w16_6, w16_7, w16_8, w16_9, w16_10, w16_11, w16_12, w16_13, w16_14, w16_15] <;> push_cast <;> ring)
      (by rw [hm]; simp only [Nat.reduceMul, Nat.reduceMod, w16_1, w16_2, w16_3, w16_4, w16_5, w16_6, w16_7, w16_8, w16_9, w16_10, w16_11, w16_12, w16_13, w16_14, w16_15] <;> push_cast <;> ring)
      (by rw [hm]; simp only [Nat.reduceMul, Nat.reduceMod, w16_1, w16_2, w16_3, w16_4, w16_5, w16_6, w16_7, w16_8, w16_9, w16_10, w16_11, w16_12, w16_13, w16_14, w16_15] <;> push_cast <;> ring)
      (by rw [hm]; simp only [Nat.reduceMul, Nat.reduceMod, w16_1, w16_2, w16_3, w16_4, w16_5, w16_6, w16_7, w16_8, w16_9, w16_10, w16_11, w16_12, w16_13, w16_14, w16_15] <;> push_cast <;> ring)
      (by rw [hm]; simp only [Nat.reduceMul, Nat.reduceMod, w16_1, w16_2, w16_3, w16_4, w16_5, w16_6, w16_7, w16_8, w16_9, w16_10, w16_11, w16_12, w16_13, w16_14, w16_15] <;> push_cast <;> ring)
      (by rw [hm]; simp only [Nat.reduceMul, Nat.reduceMod, w16_1, w16_2, w16_3, w16_4, w16_5, w16_6, w16_7, w16_8, w16_9, w16_10, w16_11, w16_12, w16_13, w16_14, w16_15] <;> push_cast <;> ring)
      (by rw [hm]; simp only [Nat.reduceMul, Nat.reduceMod, w16_1, w16_2, w16_3, w16_4, w16_5, w16_6, w16_7, w16_8, w16_9, w16_10, w16_11, w16_12, w16_13, w16_14, w16_15] <;> push_cast <;> ring)
      (by rw [hm]; simp only [Nat.reduceMul, Nat.reduceMod, w16_1, w16_2, w16_3, w16_4, w16_5, w16_6, w16_7, w16_8, w16_9, w16_10, w16_11, w16_12, w16_13, w16_14, w16_15] <;> push_cast <;> ring)
      (by rw [hm]; simp only [Nat.reduceMul, Nat.reduceMod, w16_1, w16_2, w16_3, w16_4, w16_5, w16_6, w16_7, w16_8, w16_9, w16_10, w16_11, w16_12, w16_13, w16_14, w16_15] <;> push_cast <;> ring)
      (by rw [hm]; simp only [Nat.reduceMul, Nat.reduceMod, w16_1, w16_2, w16_3, w16_4, w16_5, w16_6, w16_7, w16_8, w16_9, w16_10, w16_11, w16_12, w16_13, w16_14, w16_15] <;> push_cast <;> ring)
      (by rw [hm]; simp only [Nat.reduceMul, Nat.reduceMod, w16_1, w16_2, w16_3, w16_4, w16_5, w16_6, w16_7, w16_8, w16_9, w16_10, w16_11, w16_12, w16_13, w16_14, w16_15] <;> push_cast <;> ring)
      (by rw [hm]; simp only [Nat.reduceMul, Nat.reduceMod, w16_1, w16_2, w16_3, w16_4, w16_5, w16_6, w16_7, w16_8, w16_9, w16_10, w16_11, w16_12, w16_13, w16_14, w16_15] <;> push_cast <;> ring)
      (by rw [hm]; simp only [Nat.reduceMul, Nat.reduceMod, w16_1, w16_2, w16_3, w16_4, w16_5, w16_6, w16_7, w16_8, w16_9, w16_10, w16_11, w16_12, w16_13, w16_14, w16_15] <;> push_cast <;> ring)
      (by rw [hm]; simp only [Nat.reduceMul, Nat.reduceMod, w16_1, w16_2, w16_3, w16_4, w16_5, w16_6, w16_7, w16_8, w16_9, w16_10, w16_11, w16_12, w16_13, w16_14, w16_15] <;> push_cast <;> ring)
      (by rw [hm]; simp only [Nat.reduceMul, Nat.reduceMod, w16_1, w16_2, w16_3, w16_4, w16_5, w16_6, w16_7, w16_8, w16_9, w16_10, w16_11, w16_12, w16_13, w16_14, w16_15] <;> push_cast <;> ring) z
  · exact absurd h2 (by decide)
  · simp only [kern16, Nat.reduceEqDiff, OfNat.ofNat_ne_one, OfNat.one_ne_ofNat, if_true, if_false]
    exact body16_spec _ _ _ _ (fun j => w 16 (13 * j)) (by rw [hm]; simp only [Nat.reduceMul, Nat.reduceMod, w_zero])
      (by rw [hm]; simp only [Nat.reduceMul, Nat.reduceMod, w16_1, w16_2, w16_3, w16_4, w16_5, w16_6, w16_7, w16_8, w16_9, w16_10, w16_11, w16_12, w16_13, w16_14, w16_15] <;> push_cast <;> ring)
      (by rw [hm]; simp only [Nat.reduceMul, Nat.reduceMod, w16_1, w16_2, w16_3, w16_4, w16_5, w16_6, w16_7, w16_8, w16_9, w16_10, w16_11, w16_12, w16_13, w16_14, w16_15] <;> push_cast <;> ring)
      (by rw [hm]; simp only [Nat.reduceMul, Nat.reduceMod, w16_1, w16_2, w16_3, w16_4, w16_5, w16_6, w16_7, w16_8, w16_9, w16_10, w16_11, w16_12, w16_13, w16_14, w16_15] <;> push_cast <;> ring)
      (by rw [hm]; simp only [Nat.reduceMul, Nat.reduceMod, w16_1, w16_2, w16_3, w16_4, w16_5, w16_6, w16_7, w16_8, w16_9, w16_10, w16_11, w16_12, w16_13, w16_14, w16_15] <;> push_cast <;> ring)
      (by rw [hm]; simp only [Nat.reduceMul, Nat.reduceMod, w16_1, w16_2, w16_3, w16_4, w16_5, w16_6, w16_7, w16_8, w16_9, w16_10, w16_11, w16_12, w16_13, w16_14, w16_15] <;> push_cast <;> ring)
      (by rw [hm]; simp only [Nat.reduceMul, Nat.reduceMod, w16_1, w16_2, w16_3, w16_4, w16_5, w16_6, w16_7, w16_8, w16_9, w16_10, w16_11, w16_12, w16_13, w16_14, w16_15] <;> push_cast <;> ring)
      (by rw [hm]; simp only [Nat.reduceMul, Nat.reduceMod, w16_1, w16_2, w16_3, w16_4, w16_5, w16_6, w16_7, w16_8, w16_9, w16_10, w16_11, w16_12, w16_13, w16_14, w16_15] <;> push_cast <;> ring)
      (by rw [hm]; simp only [Nat.reduceMul, Nat.reduceMod, w16_1, w16_2, w16_3, w16_4, w16_5, w16_6, w16_7, w16_8, w16_9, w16_10, w16_11, w16_12, w16_13, w16_14, w16_15] <;> push_cast <;> ring)
      (by rw [hm]; simp only [Nat.reduceMul, Nat.reduceMod, w16_1, w16_2, w16_3, w16_4, w16_5, w16_6, w16_7, w16_8, w16_9, w16_10, w16_11, w16_12, w16_13, w16_14, w16_15] <;> push_cast <;> ring)
      (by rw [hm]; simp only [Nat.reduceMul, Nat.reduceMod, w16_1, w16_2, w16_3, w16_4, w16_5, w16_6, w16_7, w16_8, w16_9, w16_10, w16_11, w16_12, w16_13, w16_14, w16_15] <;> push_cast <;> ring)
      (by rw [hm]; simp only [Nat.reduceMul, Nat.reduceMod, w16_1, w16_2, w16_3, w16_4, w16_5, w16_6, w16_7, w16_8, w16_9, w16_10, w16_11, w16_12, w16_13, w16_14, w16_15] <;> push_cast <;> ring)
      (by rw [hm]; simp only [Nat.reduceMul, Nat.reduceMod, w16_1, w16_2, w16_3, w16_4, w16_5, w16_6, w16_7, w16_8, w16_9, w16_10, w16_11, w16_12, w16_13, w16_14, w16_15] <;> push_cast <;> ring)
      (by rw [hm]; simp only [Nat.reduceMul, Nat.reduceMod, w16_1, w16_2, w16_3, w16_4, w16_5, w16_6, w16_7, w16_8, w16_9, w16_10, w16_11, w16_12, w16_13, w16_14, w16_15] <;> push_cast <;> ring)
      (by rw [hm]; simp only [Nat.reduceMul, Nat.reduceMod, w16_1, w16_2, w16_3, w16_4, w16_5, w16_6, w16_7, w16_8, w16_9, w16_10, w16_11, w16_12, w16_13, w16_14, w16_15] <;> push_cast <;> ring)
      (by rw [hm]; simp only [Nat.reduceMul, Nat.reduceMod, w16_1, w16_2, w16_3, w16_4, w16_5, w16_6, w16_7, w16_8, w16_9, w16_10, w16_11, w16_12, w16_13, w16_14, w16_15] <;> push_cast <;> ring) z
  · exact absurd h2 (by decide)
  · simp only [kern16, Nat.reduceEqDiff, OfNat.ofNat_ne_one, OfNat.one_ne_ofNat, if_true, if_false]
    exact body16_spec _ _ _ _ (fun j => w 16 (15 * j)) (by rw [hm]; simp only [Nat.reduceMul, Nat.reduceMod, w_zero])
      (by rw [hm]; simp only [Nat.reduceMul, Nat.reduceMod, w16_1, w16_2, w16_3, w16_4, w16_5, w16_6, w16_7, w16_8, w16_9, w16_10, w16_11, w16_12, w16_13, w16_14, w16_15] <;> push_cast <;> ring)
      (by rw [hm]; simp only [Nat.reduceMul, Nat.reduceMod, w16_1, w16_2, w16_3, w16_4, w16_5, w16_6, w16_7, w16_8, w16_9, w16_10, w16_11, w16_12, w16_13, w16_14, w16_15] <;> push_cast <;> ring)
      (by rw [hm]; simp only [Nat.reduceMul, Nat.reduceMod, w16_1, w16_2, w16_3, w16_4, w16_5, w16_6, w16_7, w16_8, w16_9, w16_10, w16_11, w16_12, w16_13, w16_14, w16_15] <;> push_cast <;> ring)
      (by rw [hm]; simp only [Nat.reduceMul, Nat.reduceMod, w16_1, w16_2, w16_3, w16_4, w16_5, w16_6, w16_7, w16_8, w16_9, w16_10, w16_11, w16_12, w16_13, w16_14, w16_15] <;> push_cast <;> ring)
      (by rw [hm]; simp only [Nat.reduceMul, Nat.reduceMod, w16_1, w16_2, w16_3, w16_4, w16_5, w16_6, w16_7, w16_8, w16_9, w16_10, w16_11, w16_12, w16_13, w16_14, w16_15] <;> push_cast <;> ring)
      (by rw [hm]; simp only [Nat.reduceMul, Nat.reduceMod, w16_1, w16_2, w16_3, w16_4, w16_5, w16_6, w16_7, w16_8, w16_9, w16_10, w16_11, w16_12, w16_13, w16_14, w16_15] <;> push_cast <;> ring)
      (by rw [hm]; simp only [Nat.reduceMul, Nat.reduceMod, w16_1, w16_2, w16_3, w16_4, w16_5, w16_6, w16_7, w16_8, w16_9, w16_10, w16_11, w16_12, w16_13, w16_14, w16_15] <;> push_cast <;> ring)
      (by rw [hm]; simp only [Nat.reduceMul, Nat.reduceMod, w16_1, w16_2, w16_3, w16_4, w16_5, w16_6, w16_7, w16_8, w16_9, w16_10, w16_11, w16_12, w16_13, w16_14, w16_15] <;> push_cast <;> ring)
      (by rw [hm]; simp only [Nat.reduceMul, Nat.reduceMod, w16_1, w16_2, w16_3, w16_4, w16_5, w16_6, w16_7, w16_8, w16_9, w16_10, w16_11, w16_12, w16_13, w16_14, w16_15] <;> push_cast <;> ring)
      (by rw [hm]; simp only [Nat.reduceMul, Nat.reduceMod, w16_1, w16_2, w16_3, w16_4, w16_5, w16_6, w16_7, w16_8, w16_9, w16_10, w16_11, w16_12, w16_13, w16_14, w16_15] <;> push_cast <;> ring)
      (by rw [hm]; simp only [Nat.reduceMul, Nat.reduceMod, w16_1, w16_2, w16_3, w16_4, w16_5, w16_6, w16_7, w16_8, w16_9, w16_10, w16_11, w16_12, w16_13, w16_14, w16_15] <;> push_cast <;> ring)
      (by rw [hm]; simp only [Nat.reduceMul, Nat.reduceMod, w16_1, w16_2, w16_3, w16_4, w16_5, w16_6, w16_7, w16_8, w16_9, w16_10, w16_11, w16_12, w16_13, w16_14, w16_15] <;> push_cast <;> ring)
      (by rw [hm]; simp only [Nat.reduceMul, Nat.reduceMod, w16_1, w16_2, w16_3, w16_4, w16_5, w16_6, w16_7, w16_8, w16_9, w16_10, w16_11, w16_12, w16_13, w16_14, w16_15] <;> push_cast <;> ring)
      (by rw [hm]; simp only [Nat.reduceMul, Nat.reduceMod, w16_1, w16_2, w16_3, w16_4, w16_5, w16_6, w16_7, w16_8, w16_9, w16_10, w16_11, w16_12, w16_13, w16_14, w16_15] <;> push_cast <;> ring)
      (by rw [hm]; simp only [Nat.reduceMul, Nat.reduceMod, w16_1, w16_2, w16_3, w16_4, w16_5, w16_6, w16_7, w16_8, w16_9, w16_10, w16_11, w16_12, w16_13, w16_14, w16_15] <;> push_cast <;> ring) z

end Verif.Fft.Pfa

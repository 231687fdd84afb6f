import Verif.Extrap.Spec
import Verif.Toep.Spec
import Verif.Fft.KissDft
import Mathlib.Algebra.Field.GeomSum
import Mathlib.Data.Complex.BigOperators
import Mathlib.Tactic.LinearCombination
import Mathlib.Tactic.Linarith
import Mathlib.Tactic.Positivity

/-! # The normal equations of the short operators -/

namespace Verif.Extrap

noncomputable section

open Finset Complex

/-- `exp(2πi d k / n)`. -/
def ex (n : ℕ) (d : ℤ) (k : ℕ) : ℂ := Complex.exp (2 * Real.pi * I * (d : ℂ) * k / n)

theorem ex_add (n : ℕ) (d e : ℤ) (k : ℕ) : ex n (d + e) k = ex n d k * ex n e k := by
  unfold ex; rw [← Complex.exp_add]; congr 1; push_cast; ring

theorem ex_conj (n : ℕ) (d : ℤ) (k : ℕ) : (starRingEnd ℂ) (ex n d k) = ex n (-d) k := by
  unfold ex
  rw [← Complex.exp_conj]
  congr 1
  have h2 : (starRingEnd ℂ) 2 = 2 := Complex.conj_ofNat 2
  simp [h2]

theorem ex_period {n : ℕ} (hn : 0 < n) (d : ℤ) (k : ℕ) : ex n (d + n) k = ex n d k := by
  rw [ex_add]
  have : ex n n k = 1 := by
    unfold ex
    have h : (n : ℂ) ≠ 0 := by exact_mod_cast hn.ne'
    rw [show 2 * (Real.pi : ℂ) * I * ((n : ℤ) : ℂ) * k / n = (k : ℤ) * (2 * Real.pi * I) by push_cast; field_simp]
    rw [Complex.exp_int_mul_two_pi_mul_I]
  rw [this, mul_one]

theorem ex_orth {n : ℕ} (d : ℤ) (h0 : d ≠ 0) (h1 : -(n : ℤ) < d) (h2 : d < n) : ∑ k ∈ range n, ex n d k = 0 := by
  have hn : 0 < n := by omega
  have hn' : (n : ℂ) ≠ 0 := by exact_mod_cast hn.ne'
  set z := Complex.exp (2 * Real.pi * I * (d : ℂ) / n) with hz
  have e : ∀ k ∈ range n, ex n d k = z ^ k := by
    intro k _
    unfold ex
    rw [hz, ← Complex.exp_nat_mul]; congr 1; ring
  rw [sum_congr rfl e]
  have g := geom_sum_mul z n
  have zn : z ^ n = 1 := by
    rw [hz, ← Complex.exp_nat_mul, show (n : ℂ) * (2 * Real.pi * I * (d : ℂ) / n) = (d : ℤ) * (2 * Real.pi * I) by field_simp]
    exact Complex.exp_int_mul_two_pi_mul_I d
  have z1 : z ≠ 1 := by
    intro h
    rw [hz, Complex.exp_eq_one_iff] at h
    obtain ⟨m, hm⟩ := h
    have hpi : (2 * (Real.pi : ℂ) * I) ≠ 0 := by simp [Real.pi_ne_zero]
    have h3 : (d : ℂ) = m * n := by
      have := mul_right_cancel₀ hpi (show ((d : ℂ) / n) * (2 * Real.pi * I) = m * (2 * Real.pi * I) by rw [← hm]; ring)
      field_simp at this
      rw [this, mul_comm]
    have h4 : d = m * n := by exact_mod_cast h3
    have : m = 0 := by
      by_contra hne
      rcases lt_or_gt_of_ne hne with h | h
      · nlinarith [show m ≤ -1 by omega]
      · nlinarith [show 1 ≤ m by omega]
    rw [this] at h4; simp at h4; exact h0 h4
  rw [zn, sub_self] at g
  exact (mul_eq_zero.1 g).resolve_right (sub_ne_zero.2 z1)

theorem ex_zero (n k : ℕ) : ex n 0 k = 1 := by simp [ex]

variable {nkx opl : ℕ}

/-- Lag of element `j`. -/
def lag (opl j : ℕ) : ℤ := (j : ℤ) - (((opl - 1) / 2 : ℕ) : ℤ)

theorem response_eq (x : ℕ → ℂ) (k : ℕ) : response nkx opl x k = ∑ j ∈ range opl, x j * ex nkx (lag opl j) k := rfl

/-- The elements of the operator are the Fourier coefficients of its response. -/
theorem response_coef (ho : opl ≤ nkx) (v : ℕ → ℂ) {i : ℕ} (hi : i < opl) :
    ∑ k ∈ range nkx, response nkx opl v k * ex nkx (-lag opl i) k = nkx * v i := by
  simp only [response_eq, sum_mul]
  rw [sum_comm]
  rw [sum_eq_single i]
  · rw [sum_congr rfl fun k _ => show v i * ex nkx (lag opl i) k * ex nkx (-lag opl i) k = v i by
      rw [mul_assoc, ← ex_add, add_neg_cancel, ex_zero, mul_one]]
    simp
  · intro j hj hne
    have hj' := mem_range.1 hj
    rw [sum_congr rfl fun k _ => show v j * ex nkx (lag opl j) k * ex nkx (-lag opl i) k = v j * ex nkx ((j : ℤ) - i) k by
      rw [mul_assoc, ← ex_add]; congr 2; unfold lag; ring]
    rw [← mul_sum, ex_orth _ (by omega) (by omega) (by omega), mul_zero]
  · intro hc; exact absurd (mem_range.2 hi) hc

/-- The response determines the operator. -/
theorem response_inj (ho : opl ≤ nkx) {v : ℕ → ℂ} (h : ∀ k < nkx, response nkx opl v k = 0) : ∀ i < opl, v i = 0 := by
  intro i hi
  have hn : (nkx : ℂ) ≠ 0 := by
    have : 0 < nkx := by omega
    exact_mod_cast this.ne'
  have e := response_coef ho v hi
  rw [sum_eq_zero fun k hk => by rw [h k (mem_range.1 hk), zero_mul]] at e
  exact (mul_eq_zero.1 e.symm).resolve_left hn

/-- Stationarity of the misfit. -/
def Normal (nkx opl : ℕ) (w : ℕ → ℝ) (K x : ℕ → ℂ) : Prop :=
  ∀ i < opl, ∑ k ∈ range nkx, (w k : ℂ) * ex nkx (-lag opl i) k * (response nkx opl x k - K k) = 0

theorem misfit_eq {w : ℕ → ℝ} {K x : ℕ → ℂ} (h : Normal nkx opl w K x) (z : ℕ → ℂ) :
    misfit nkx opl w K z = misfit nkx opl w K x + ∑ k ∈ range nkx, w k * normSq (response nkx opl (fun j => z j - x j) k) := by
  have hr : ∀ k, response nkx opl (fun j => z j - x j) k = response nkx opl z k - response nkx opl x k := by
    intro k
    rw [response_eq, response_eq, response_eq, ← sum_sub_distrib]
    exact sum_congr rfl fun j _ => by ring
  have cross : ∑ k ∈ range nkx, (w k : ℂ) * (starRingEnd ℂ) (response nkx opl (fun j => z j - x j) k) * (response nkx opl x k - K k) = 0 := by
    have e : ∀ k ∈ range nkx, (w k : ℂ) * (starRingEnd ℂ) (response nkx opl (fun j => z j - x j) k) * (response nkx opl x k - K k) =
        ∑ j ∈ range opl, (starRingEnd ℂ) (z j - x j) * ((w k : ℂ) * ex nkx (-lag opl j) k * (response nkx opl x k - K k)) := by
      intro k _
      rw [response_eq (x := fun j => z j - x j), map_sum, mul_sum, sum_mul]
      exact sum_congr rfl fun j _ => by rw [map_mul, ex_conj]; ring
    rw [sum_congr rfl e, sum_comm]
    apply sum_eq_zero
    intro j hj
    rw [← mul_sum, h j (mem_range.1 hj), mul_zero]
  have cre := congrArg Complex.re cross
  rw [Complex.re_sum, Complex.zero_re] at cre
  unfold misfit
  rw [← sum_add_distrib]
  have : ∀ k ∈ range nkx, w k * normSq (response nkx opl z k - K k) =
      w k * normSq (response nkx opl x k - K k) + w k * normSq (response nkx opl (fun j => z j - x j) k) +
      2 * ((w k : ℂ) * (starRingEnd ℂ) (response nkx opl (fun j => z j - x j) k) * (response nkx opl x k - K k)).re := by
    intro k _
    rw [hr]
    simp only [normSq_apply, mul_re, mul_im, conj_re, conj_im, ofReal_re, ofReal_im, sub_re, sub_im]
    ring
  rw [sum_congr rfl this, sum_add_distrib, ← mul_sum, cre, mul_zero, add_zero]

/-- A stationary operator is the best one. -/
theorem best_of_normal (ho : opl ≤ nkx) {w : ℕ → ℝ} (hw : ∀ k < nkx, 0 < w k) {K x : ℕ → ℂ} (h : Normal nkx opl w K x) :
    Best nkx opl w K x := by
  intro z
  rw [misfit_eq h z]
  have nn : ∀ k ∈ range nkx, 0 ≤ w k * normSq (response nkx opl (fun j => z j - x j) k) := fun k hk =>
    mul_nonneg (hw k (mem_range.1 hk)).le (normSq_nonneg _)
  refine ⟨by linarith [sum_nonneg nn], fun ⟨j, hj, hne⟩ => ?_⟩
  have : 0 < ∑ k ∈ range nkx, w k * normSq (response nkx opl (fun j => z j - x j) k) := by
    rcases (sum_nonneg nn).lt_or_eq with h | h
    · exact h
    · exfalso
      have hz := (sum_eq_zero_iff_of_nonneg nn).1 h.symm
      apply hne
      have := response_inj ho (v := fun j => z j - x j) (fun k hk => by
        have := hz k (mem_range.2 hk)
        rcases mul_eq_zero.1 this with h | h
        · exact absurd h (hw k hk).ne'
        · exact normSq_eq_zero.1 h) j hj
      exact sub_eq_zero.1 this
  linarith

/-- The coefficients of the normal equations: transform of the weights. -/
theorem T_eq {w : ℕ → ℝ} {r : ℕ → ℂ} (hr : ∀ m < opl, r m = ∑ k ∈ range nkx, (w k : ℂ) * ex nkx (-(m : ℤ)) k) {i j : ℕ} (hi : i < opl)
    (hj : j < opl) : Toep.T r i j = ∑ k ∈ range nkx, (w k : ℂ) * (ex nkx (-lag opl i) k * ex nkx (lag opl j) k) := by
  have e : ∀ k, ex nkx (-lag opl i) k * ex nkx (lag opl j) k = ex nkx ((j : ℤ) - i) k := by
    intro k; rw [← ex_add]; congr 1; unfold lag; ring
  simp only [e]
  unfold Toep.T
  by_cases h : j ≤ i
  · rw [if_pos h, hr _ (by omega)]
    apply sum_congr rfl; intro k _; congr 2; omega
  · rw [if_neg h, hr _ (by omega)]
    show (starRingEnd ℂ) _ = _
    rw [map_sum]
    apply sum_congr rfl; intro k _
    rw [map_mul, conj_ofReal, ex_conj]; congr 2; omega

theorem T_mul {w : ℕ → ℝ} {r : ℕ → ℂ} (hr : ∀ m < opl, r m = ∑ k ∈ range nkx, (w k : ℂ) * ex nkx (-(m : ℤ)) k) (v : ℕ → ℂ) {i : ℕ}
    (hi : i < opl) : ∑ j ∈ range opl, Toep.T r i j * v j = ∑ k ∈ range nkx, (w k : ℂ) * ex nkx (-lag opl i) k * response nkx opl v k := by
  rw [sum_congr rfl fun j hj => by rw [T_eq hr hi (mem_range.1 hj), sum_mul]]
  rw [sum_comm]
  apply sum_congr rfl; intro k _
  rw [response_eq, mul_sum]
  exact sum_congr rfl fun j _ => by ring

/-- The matrix of the normal equations is definite. -/
theorem definite (ho : opl ≤ nkx) {w : ℕ → ℝ} (hw : ∀ k < nkx, 0 < w k) {r : ℕ → ℂ}
    (hr : ∀ m < opl, r m = ∑ k ∈ range nkx, (w k : ℂ) * ex nkx (-(m : ℤ)) k) : Toep.Definite opl r := by
  intro v ⟨j, hj, hv⟩ h0
  apply hv
  have e : ∑ i ∈ range opl, ∑ j ∈ range opl, star (v i) * Toep.T r i j * v j =
      ((∑ k ∈ range nkx, w k * normSq (response nkx opl v k) : ℝ) : ℂ) := by
    have e1 : ∀ i ∈ range opl, ∑ j ∈ range opl, star (v i) * Toep.T r i j * v j =
        ∑ k ∈ range nkx, (starRingEnd ℂ) (v i) * ((w k : ℂ) * ex nkx (-lag opl i) k * response nkx opl v k) := by
      intro i hi
      rw [← mul_sum, ← T_mul hr v (mem_range.1 hi), mul_sum]
      exact sum_congr rfl fun j _ => by rw [mul_assoc]; rfl
    rw [sum_congr rfl e1, sum_comm]
    push_cast
    apply sum_congr rfl; intro k _
    rw [← mul_conj, response_eq, map_sum]
    rw [mul_comm (∑ j ∈ range opl, v j * ex nkx (lag opl j) k), sum_mul, mul_sum]
    apply sum_congr rfl; intro i _
    rw [map_mul, ex_conj]; ring
  rw [e] at h0
  have h1 : ∑ k ∈ range nkx, w k * normSq (response nkx opl v k) = 0 := by exact_mod_cast h0
  have nn : ∀ k ∈ range nkx, 0 ≤ w k * normSq (response nkx opl v k) := fun k hk =>
    mul_nonneg (hw k (mem_range.1 hk)).le (normSq_nonneg _)
  have hz := (sum_eq_zero_iff_of_nonneg nn).1 h1
  exact response_inj ho (fun k hk => by
    rcases mul_eq_zero.1 (hz k (mem_range.2 hk)) with h | h
    · exact absurd h (hw k hk).ne'
    · exact normSq_eq_zero.1 h) j hj

/-- Solving the Toeplitz system is solving the normal equations. -/
theorem normal_of_solves {w : ℕ → ℝ} {r y K x : ℕ → ℂ} (hr : ∀ m < opl, r m = ∑ k ∈ range nkx, (w k : ℂ) * ex nkx (-(m : ℤ)) k)
    (hy : ∀ i < opl, y i = ∑ k ∈ range nkx, K k * w k * ex nkx (-lag opl i) k) (h : Toep.Solves opl r x y) :
    Normal nkx opl w K x := by
  intro i hi
  have := h i hi
  rw [T_mul hr x hi, hy i hi] at this
  rw [sum_congr rfl fun k _ => mul_sub _ _ _, sum_sub_distrib, this, ← sum_sub_distrib]
  exact sum_eq_zero fun k _ => by ring

/-- The transform of the library with sign -1 in terms of `ex`. -/
theorem dft_ex (n : ℕ) (x : ℕ → ℂ) (m : ℕ) : Fft.dft (-1) n x m = ∑ k ∈ range n, x k * ex n (-(m : ℤ)) k := by
  unfold Fft.dft ex
  apply sum_congr rfl; intro k _
  congr 2; push_cast; ring

end

end Verif.Extrap

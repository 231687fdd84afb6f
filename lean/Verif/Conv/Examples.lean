import Verif.Conv.Props2

/-!
# Cases that meet the hypotheses of the theorems about `fconv.c`
-/

namespace Verif.Conv

open Finset Complex Verif Verif.Fft Verif.Fft.Lib

noncomputable section

/-- A power of two is its own padded length. -/
theorem optncr_pow2 (m : Nat) : optncr (2 ^ m) = 2 ^ m := by
  have hl : Real.logb 2 ((2 ^ m : Nat) : ℝ) = m := by
    rw [Nat.cast_pow, Nat.cast_ofNat, Real.logb_pow, Real.logb_self_eq_one (by norm_num), mul_one]
  have h : pow2Len (2 ^ m) = 2 ^ m := pow2Len_eq _ m (by rw [hl]; norm_num) (by rw [hl]; norm_num)
  unfold optncr
  rw [h]; simp

private theorem optncr_8 : optncr 8 = 8 := optncr_pow2 3

/-- Zeroed work space. -/
def work0 : Work := ⟨0, 0, 0, 0, 0, 0, fun _ => ⟨0, 0, 0⟩, fun _ => ⟨0, 0, 0⟩, fun _ => ⟨0, 0, 0⟩⟩

/-- Two traces of eight samples, `1 2 0 …` and `3 4 0 …`, convolved with themselves: `1 4 4` and `9 24 16`. -/
example : ∃ cov' s', convol 2 8 16 16 1 false work0 (fun j => if j = 0 then 1 else if j = 1 then 2 else if j = 8 then 3 else if j = 9 then 4 else 0)
    (fun j => if j = 0 then 1 else if j = 1 then 2 else if j = 8 then 3 else if j = 9 then 4 else 0) 0 St.init = some (cov', s') ∧
    cov' 1 = 4 ∧ cov' 9 = 24 ∧ cov' 10 = 16 ∧ cov' 11 = 0 := by
  obtain ⟨cov', s', e, _, a⟩ := convol_linear 2 8 16 16 2 2 (by norm_num) (by norm_num) (by norm_num) (by norm_num) (by rw [optncr_8]; norm_num) 1
    work0 (fun j => if j = 0 then 1 else if j = 1 then 2 else if j = 8 then 3 else if j = 9 then 4 else 0)
    (fun j => if j = 0 then 1 else if j = 1 then 2 else if j = 8 then 3 else if j = 9 then 4 else 0) 0
    (fun i j _ _ _ => by rw [if_neg (by omega), if_neg (by omega), if_neg (by omega), if_neg (by omega)])
    (fun i j _ _ _ => by rw [if_neg (by omega), if_neg (by omega), if_neg (by omega), if_neg (by omega)]) St.init .start
  refine ⟨cov', s', e, ?_, ?_, ?_, ?_⟩
  · have := a 0 1 (by norm_num) (by norm_num)
    simpa [Nat.antidiagonal_succ, show (2:ℝ) + 2 = 4 by norm_num] using this
  · have := a 1 1 (by norm_num) (by norm_num)
    simpa [Nat.antidiagonal_succ, show (3:ℝ) * 4 + 4 * 3 = 24 by norm_num] using this
  · have := a 1 2 (by norm_num) (by norm_num)
    simpa [Nat.antidiagonal_succ, show (4:ℝ) * 4 = 16 by norm_num] using this
  · have := a 1 3 (by norm_num) (by norm_num)
    simpa [Nat.antidiagonal_succ] using this

/-- The wrap-around of `convol_not_linear` is met by traces of eight samples. -/
example : ∃ cov' s', convol 1 8 8 8 1 false work0 (fun j => if j = 7 then 1 else 0) (fun j => if j = 7 then 1 else 0) 0 St.init =
    some (cov', s') ∧ cov' 6 = 1 := by
  obtain ⟨cov', s', e, a, _⟩ := convol_not_linear 8 8 8 (by norm_num) (by norm_num) optncr_8 le_rfl le_rfl 1 work0 0 St.init .start
  exact ⟨cov', s', e, a⟩

/-- Correlation of `1 2 0 …` with `0 1 0 …`: lag 0 is 2, lag -1 (the last sample) is 1. -/
example : ∃ cov' s', corr 1 8 8 8 1 false work0 (fun j => if j = 0 then 1 else if j = 1 then 2 else 0) (fun j => if j = 1 then 1 else 0) 0
    St.init = some (cov', s') ∧ cov' 0 = 2 ∧ cov' 7 = 1 := by
  obtain ⟨cov', s', e, _, a, b⟩ := corr_lags 1 8 8 8 2 2 (by norm_num) (by norm_num) (by norm_num) (by norm_num) 1
    work0 (fun j => if j = 0 then 1 else if j = 1 then 2 else 0) (fun j => if j = 1 then 1 else 0) 0
    (fun i j _ _ _ => by rw [if_neg (by omega), if_neg (by omega)])
    (fun i j _ _ _ => by rw [if_neg (by omega)]) St.init .start
  refine ⟨cov', s', e, ?_, ?_⟩
  · have := a 0 0 (by norm_num) (by norm_num) (by rw [optncr_8]; norm_num)
    simpa [Finset.sum_range_succ] using this
  · have := b 0 1 (by norm_num) (by norm_num) (by rw [optncr_8]; norm_num) (by rw [optncr_8]; norm_num) (by rw [optncr_8]; norm_num)
    rw [optncr_8] at this
    simpa [Finset.sum_range_succ] using this

/-- The shifted correlation, the power spectrum and `corr3` run on any two traces of eight samples. -/
example (d1 d2 : Nat → ℝ) : (∃ r, corr 1 8 8 8 1 true work0 d1 d2 0 St.init = some r) ∧ (∃ r, power 1 8 8 8 1 true work0 d1 d2 0 St.init = some r) ∧
    ∃ r, corr3 1 8 8 4 1 work0 d1 d2 0 St.init = some r := by
  obtain ⟨a, s, e, _⟩ := corr_spec 1 8 8 8 (by norm_num) (by norm_num) (by norm_num) (by norm_num) 1 true (by norm_num) work0 d1 d2 0 St.init .start
  obtain ⟨b, t, f, _⟩ := power_spec 1 8 8 8 (by norm_num) (by norm_num) (by norm_num) (by norm_num) 1 true (by norm_num) work0 d1 d2 0 St.init .start
  obtain ⟨c, u, g, _⟩ := corr3_spec 1 8 8 4 (by norm_num) (by norm_num) (by norm_num) (by norm_num) 1 work0 d1 d2 0 St.init .start
  exact ⟨⟨_, e⟩, ⟨_, f⟩, _, g⟩

private theorem sp_spike (N k : Nat) (hN : 0 < N) (h : optncr N = N) : sp N (fun j => if j % N = 0 then 1 else 0) 0 k = 1 := by
  unfold sp
  refine spectrum_spike _ (by omega) _ ?_ (fun j hj hj' => ?_) k
  · simp [pad, trace, hN]
  · unfold pad trace
    rw [h] at hj'
    rw [if_pos hj', Nat.zero_mul, Nat.zero_add]
    exact if_neg (by rw [Nat.mod_eq_of_lt hj']; omega)

/-- Deconvolution by a unit sample, stabilised with `reps=1`, `eps=0.25`: hypotheses met with largest denominator 1. -/
example (d1 : Nat → ℝ) : ∃ r, deconv 1 8 8 8 1 (1 / 4) 1 true work0 d1 (fun j => if j % 8 = 0 then 1 else 0) 0 St.init = some r := by
  obtain ⟨cov', s', e, _⟩ := deconv_spec 1 8 8 8 (by norm_num) (by norm_num) (by norm_num) (by norm_num) 1 (1 / 4) 1 true (by norm_num) work0 d1
    (fun j => if j % 8 = 0 then 1 else 0) 0 St.init .start 1
    (fun i k hi _ => by
      obtain rfl : i = 0 := by omega
      rw [sp_spike 8 k (by norm_num) optncr_8]; simp)
    ⟨0, 0, by norm_num, by omega, by rw [sp_spike 8 0 (by norm_num) optncr_8]; simp⟩
    (fun i k hi _ => by
      obtain rfl : i = 0 := by omega
      rw [sp_spike 8 k (by norm_num) optncr_8]; norm_num)
  exact ⟨_, e⟩

/-- Deconvolution by a unit sample and convolution with it give the first gather back. -/
example (d1 : Nat → ℝ) : ∃ cov' s' con' s'', deconv 1 8 8 8 1 0 0 false work0 d1 (fun j => if j % 8 = 0 then 1 else 0) 0 St.init = some (cov', s') ∧
    convol 1 8 8 8 1 false work0 cov' (fun j => if j % 8 = 0 then 1 else 0) 0 s' = some (con', s'') ∧ ∀ m, m < 8 → con' m = d1 m := by
  obtain ⟨cov', s', con', s'', e, f, a⟩ := convol_deconv 1 8 8 8 8 (by norm_num) (by norm_num) optncr_8 (by norm_num) (by norm_num) (by norm_num)
    (by norm_num) 1 work0 work0 d1 (fun j => if j % 8 = 0 then 1 else 0) 0 0 St.init .start
    (fun i k hi _ => by
      obtain rfl : i = 0 := by omega
      rw [sp_spike 8 k (by norm_num) optncr_8]; simp)
  exact ⟨cov', s', con', s'', e, f, fun m hm => by rw [a m (by omega)]; norm_num⟩

/-- Deconvolution by a zero trace without stabilisation. -/
example (d1 : Nat → ℝ) : deconv 1 8 8 8 1 0 0 false work0 d1 0 0 St.init = none :=
  deconv_divides_by_zero 1 8 8 8 (by norm_num) (by norm_num) (by norm_num) 1 false work0 d1 0 0 St.init .start
    ⟨0, 0, by norm_num, by omega, by simp [sp, spectrum, pad, trace]⟩

/-- Coherence of a unit sample with itself: hypotheses met with `epsmax=0.5`. -/
example : ∃ r, cohr 1 8 8 8 1 (1 / 2) (1 / 4) 1 true work0 (fun j => if j % 8 = 0 then 1 else 0) (fun j => if j % 8 = 0 then 1 else 0) 0 St.init =
    some r := by
  have h : ∀ i k, i < 1 → ‖sp 8 (fun j => if j % 8 = 0 then 1 else 0) i k‖ * ‖sp 8 (fun j => if j % 8 = 0 then 1 else 0) i k‖ = 1 := by
    intro i k hi
    obtain rfl : i = 0 := by omega
    rw [sp_spike 8 k (by norm_num) optncr_8]; simp
  obtain ⟨cov', s', e, _⟩ := cohr_spec_partial 1 8 8 8 (by norm_num) (by norm_num) (by norm_num) (by norm_num) 1 (1 / 2) (1 / 4) 1 (by norm_num)
    (by norm_num) (by norm_num) true (by norm_num) work0 (fun j => if j % 8 = 0 then 1 else 0) (fun j => if j % 8 = 0 then 1 else 0) 0 St.init
    .start (fun _ => 1) (fun i k hi _ => (h i k hi).le) (fun i hi => ⟨0, by omega, h i 0 hi⟩)
    (fun i k hi _ _ => by rw [h i k hi]; norm_num)
  exact ⟨_, e⟩

end

end Verif.Conv

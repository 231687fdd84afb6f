import Verif.Fft.PfaReal
import Verif.Fft.PfaProps
import Verif.Fft.MayerProps

/-!
# A real transform from a complex transform of half the length (mathematics behind pfafft.c:1268-1361)
-/

namespace Verif.Fft.Pfa

open Complex Finset Verif Verif.Fft

/-- `exp(± 2 π i a / n)` -/
noncomputable def tw (s : Int) (n a : Nat) : ℂ := exp (s * (2 * Real.pi * I * a / n))

theorem dft_tw (s : Int) (n : Nat) (x : Nat → ℂ) (k : Nat) : dft s n x k = ∑ j ∈ range n, x j * tw s n (j * k) := by
  unfold dft tw
  exact sum_congr rfl fun j _ => by push_cast; rfl

theorem tw_add (s : Int) (n a b : Nat) : tw s n (a + b) = tw s n a * tw s n b := by
  rw [tw, tw, tw, ← exp_add]; congr 1; push_cast; ring

theorem tw_zero (s : Int) (n : Nat) : tw s n 0 = 1 := by simp [tw]

theorem tw_half (s : Int) (hs : s = 1 ∨ s = -1) {N : Nat} (hN : 0 < N) : tw s (2 * N) N = -1 := by
  have h : (N : ℂ) ≠ 0 := by exact_mod_cast hN.ne'
  have e : (2 * Real.pi * I * (N : ℂ) / ((2 * N : Nat) : ℂ)) = Real.pi * I := by
    push_cast; field_simp
  rw [tw, e]
  rcases hs with rfl | rfl
  · simp [exp_pi_mul_I]
  · rw [Int.cast_neg, Int.cast_one, neg_one_mul, exp_neg, exp_pi_mul_I]; norm_num

theorem tw_double (s : Int) (N a : Nat) : tw s (2 * N) (2 * a) = tw s N a := by
  rw [tw, tw]
  congr 2
  push_cast
  rw [show (2 * Real.pi * I * (2 * (a : ℂ)) : ℂ) = 2 * (2 * Real.pi * I * a) by ring, mul_div_mul_left _ _ two_ne_zero]

theorem tw_val (s : Int) (n a : Nat) : tw s n a =
    ⟨Real.cos (s * (2 * Real.pi / n) * a), Real.sin (s * (2 * Real.pi / n) * a)⟩ := by
  have : (s * (2 * Real.pi * I * a / n) : ℂ) = ((s * (2 * Real.pi / n) * a : ℝ) : ℂ) * I := by push_cast; ring
  rw [tw, this]
  apply Complex.ext
  · rw [exp_ofReal_mul_I_re]
  · rw [exp_ofReal_mul_I_im]

theorem tw_conj (s : Int) (n a : Nat) : (starRingEnd ℂ) (tw s n a) * tw s n a = 1 := by
  rw [tw_val]
  apply Complex.ext
  · simp only [mul_re, conj_re, conj_im, one_re]
    have := Real.sin_sq_add_cos_sq (s * (2 * Real.pi / n) * a)
    nlinarith
  · simp only [mul_im, conj_re, conj_im, one_im]; ring

theorem tw_ne (s : Int) (n a : Nat) : tw s n a ≠ 0 := exp_ne_zero _

theorem tw_sub (s : Int) (hs : s = 1 ∨ s = -1) {N k : Nat} (hN : 0 < N) (hk : k ≤ N) :
    tw s (2 * N) (N - k) = -(starRingEnd ℂ) (tw s (2 * N) k) := by
  apply mul_right_cancel₀ (tw_ne s (2 * N) k)
  rw [← tw_add, Nat.sub_add_cancel hk, tw_half s hs hN, neg_mul, tw_conj]

theorem sum_even_odd (N : Nat) (f : Nat → ℂ) : ∑ j ∈ range (2 * N), f j = ∑ j ∈ range N, (f (2 * j) + f (2 * j + 1)) := by
  induction N with
  | zero => rfl
  | succ N ih => rw [Nat.mul_succ, sum_range_succ, sum_range_succ, ih, sum_range_succ, add_assoc]

theorem sum_halves (N : Nat) (f : Nat → ℂ) : ∑ j ∈ range (2 * N), f j = ∑ j ∈ range N, (f j + f (j + N)) := by
  rw [two_mul, sum_range_add, sum_add_distrib]
  congr 1
  exact sum_congr rfl fun j _ => by rw [Nat.add_comm]

/-- The spectrum of a real trace from the transform of its pairs. -/
theorem fwd_half (s : Int) {N : Nat} (hN : 0 < N) (x : Nat → ℝ) (k : Nat) (hk : k ≤ N) :
    dft s (2 * N) (fun j => (x j : ℂ)) k =
      (dft s N (fun j => (1 / 2 : ℂ) * (x (2 * j) + I * x (2 * j + 1))) k +
        (starRingEnd ℂ) (dft s N (fun j => (1 / 2 : ℂ) * (x (2 * j) + I * x (2 * j + 1))) (N - k))) +
      tw s (2 * N) k * (-I * (dft s N (fun j => (1 / 2 : ℂ) * (x (2 * j) + I * x (2 * j + 1))) k -
        (starRingEnd ℂ) (dft s N (fun j => (1 / 2 : ℂ) * (x (2 * j) + I * x (2 * j + 1))) (N - k)))) := by
  have hZ : ∀ k, dft s N (fun j => (1 / 2 : ℂ) * (x (2 * j) + I * x (2 * j + 1))) k =
      (1 / 2) * (dft s N (fun j => (x (2 * j) : ℂ)) k + I * dft s N (fun j => (x (2 * j + 1) : ℂ)) k) := by
    intro k
    simp only [dft_tw]
    rw [mul_sum, ← sum_add_distrib, mul_sum]
    exact sum_congr rfl fun j _ => by ring
  have hE := Mayer.dft_hermitian s N hN (fun j => x (2 * j)) k hk
  have hO := Mayer.dft_hermitian s N hN (fun j => x (2 * j + 1)) k hk
  rw [hZ, hZ, hE, hO]
  simp only [map_mul, map_add, conj_conj, conj_I]
  rw [show (starRingEnd ℂ) (1 / 2 : ℂ) = 1 / 2 by
    rw [show (1 / 2 : ℂ) = ((1 / 2 : ℝ) : ℂ) by push_cast; rfl, conj_ofReal]]
  have hX : dft s (2 * N) (fun j => (x j : ℂ)) k =
      dft s N (fun j => (x (2 * j) : ℂ)) k + tw s (2 * N) k * dft s N (fun j => (x (2 * j + 1) : ℂ)) k := by
    simp only [dft_tw]
    rw [sum_even_odd, mul_sum, ← sum_add_distrib]
    refine sum_congr rfl fun j _ => ?_
    rw [show (2 * j + 1) * k = 2 * (j * k) + k by ring, tw_add, show 2 * j * k = 2 * (j * k) by ring, tw_double]
    ring
  rw [hX]
  linear_combination (tw s (2 * N) k * dft s N (fun j => (x (2 * j + 1) : ℂ)) k) * I_sq

/-- The pairs of a trace from its spectrum. -/
theorem bwd_half (s : Int) (hs : s = 1 ∨ s = -1) {N : Nat} (hN : 0 < N) (X : Nat → ℂ) (t : Nat) :
    dft s N (fun k => (X k + X (k + N)) + I * tw s (2 * N) k * (X k - X (k + N))) t =
      dft s (2 * N) X (2 * t) + I * dft s (2 * N) X (2 * t + 1) := by
  simp only [dft_tw]
  rw [sum_halves, sum_halves, mul_sum, ← sum_add_distrib]
  refine sum_congr rfl fun k _ => ?_
  have e1 : tw s (2 * N) (k * (2 * t)) = tw s N (k * t) := by
    rw [show k * (2 * t) = 2 * (k * t) by ring, tw_double]
  have hper : ∀ a, tw s N (N * a) = 1 := by
    intro a
    rw [← tw_double, show 2 * (N * a) = N * a + N * a by ring, tw_add]
    have : ∀ a, tw s (2 * N) (N * a) = (-1) ^ a := by
      intro a
      induction a with
      | zero => simp [tw_zero]
      | succ a ih => rw [Nat.mul_succ, tw_add, ih, tw_half s hs hN, pow_succ]
    rw [this, ← pow_add, ← two_mul, pow_mul]; simp
  have e2 : tw s (2 * N) ((k + N) * (2 * t)) = tw s N (k * t) := by
    rw [show (k + N) * (2 * t) = 2 * (k * t + N * t) by ring, tw_double, tw_add, hper, mul_one]
  have e3 : tw s (2 * N) (k * (2 * t + 1)) = tw s N (k * t) * tw s (2 * N) k := by
    rw [show k * (2 * t + 1) = 2 * (k * t) + k by ring, tw_add, tw_double]
  have e4 : tw s (2 * N) ((k + N) * (2 * t + 1)) = -(tw s N (k * t) * tw s (2 * N) k) := by
    rw [show (k + N) * (2 * t + 1) = 2 * (k * t + N * t) + (k + N) by ring, tw_add, tw_double, tw_add, hper, tw_add,
      tw_half s hs hN]
    ring
  rw [e1, e2, e3, e4]
  ring

/-- The transform of a Hermitian spectrum is real. -/
theorem hermitian_real (s : Int) (hs : s = 1 ∨ s = -1) (n : Nat) (hn : 0 < n) (X : Nat → ℂ) (h0 : (X 0).im = 0)
    (hX : ∀ k, 0 < k → k < n → X (n - k) = (starRingEnd ℂ) (X k)) (t : Nat) (ht : t < n) : (dft s n X t).im = 0 := by
  have key : ∀ t, (dft (-1) n X t).im = 0 := fun t => by rw [Mayer.hermitian_dft n hn X h0 hX t, ofReal_im]
  rcases hs with rfl | rfl
  · rcases Nat.eq_zero_or_pos t with rfl | h
    · have := key 0
      simpa [dft] using this
    · have := Mayer.dft_reflect 1 n hn X (n - t) (by omega)
      rw [show n - (n - t) = t by omega] at this
      rw [this]; exact key _
  · exact key t

end Verif.Fft.Pfa

import Verif.Fft.KissProps
import Mathlib.Algebra.BigOperators.NatAntidiagonal

/-!
# Convolution and correlation of traces, and their spectra
-/

namespace Verif.Conv

open Complex Finset Verif.Fft

noncomputable section

/-! ### Specification -/

/-- A trace of `nsam` samples, zero afterwards. -/
def pad (nsam : Nat) (x : Nat → ℝ) (j : Nat) : ℝ := if j < nsam then x j else 0

/-- The convolution `∑_{s+u=t} x(s) y(u)`. -/
def lconv (x y : Nat → ℝ) (t : Nat) : ℝ := ∑ p ∈ antidiagonal t, x p.1 * y p.2

/-- The circular convolution with period `N`: `∑_{s+u ≡ t} x(s) y(u)`. -/
def cconv (N : Nat) (x y : Nat → ℝ) (t : Nat) : ℝ := ∑ s ∈ range N, ∑ u ∈ range N, if (s + u) % N = t then x s * y u else 0

/-- The circular correlation with period `N`: `∑_u x(u+t) y(u)`. -/
def ccorr (N : Nat) (x y : Nat → ℝ) (t : Nat) : ℝ := ∑ u ∈ range N, x ((u + t) % N) * y u

/-- A periodic trace with time reversed. -/
def rev (N : Nat) (g : Nat → ℝ) (t : Nat) : ℝ := g ((N - t) % N)

/-- A periodic trace delayed by `h` samples. -/
def delay (N h : Nat) (g : Nat → ℝ) (t : Nat) : ℝ := g ((t + (N - h)) % N)

/-- The spectrum `∑_j x(j) e^{-2πi jk/N}`. -/
def spectrum (N : Nat) (x : Nat → ℝ) (k : Nat) : ℂ := ∑ j ∈ range N, (x j : ℂ) * exp (-(2 * Real.pi * I * (j * k) / N))

/-! ### Spectra -/

theorem spectrum_dft (N : Nat) (x : Nat → ℝ) (k : Nat) : spectrum N x k = dft (-1) N (fun j => (x j : ℂ)) k := by
  unfold spectrum dft
  refine sum_congr rfl fun t _ => ?_
  congr 2
  push_cast
  ring

theorem spectrum_root (N : Nat) (x : Nat → ℝ) (k : Nat) : spectrum N x k = ∑ j ∈ range N, (x j : ℂ) * root (-1) N ^ (j * k) := by
  rw [spectrum_dft]
  unfold dft
  exact sum_congr rfl fun j _ => by rw [root_pow_dft]

theorem root_mod (N a k : Nat) (hN : 0 < N) : root (-1) N ^ (a % N * k) = root (-1) N ^ (a * k) := by
  conv_rhs => rw [← Nat.div_add_mod a N, Nat.add_mul, pow_add, mul_assoc, pow_mul, root_pow_n _ _ hN, one_pow, one_mul]

theorem root_conj_mul (N a : Nat) : root (-1) N ^ a * (starRingEnd ℂ) (root (-1) N ^ a) = 1 := by
  rw [map_pow, root_conj, ← mul_pow, root_mul_neg, one_pow]

theorem spectrum_congr (N : Nat) {x y : Nat → ℝ} (h : ∀ j, j < N → x j = y j) (k : Nat) : spectrum N x k = spectrum N y k := by
  unfold spectrum
  exact sum_congr rfl fun j hj => by rw [h j (mem_range.mp hj)]

theorem spectrum_add (N : Nat) (x y : Nat → ℝ) (k : Nat) : spectrum N (fun t => x t + y t) k = spectrum N x k + spectrum N y k := by
  unfold spectrum
  rw [← sum_add_distrib]
  exact sum_congr rfl fun j _ => by push_cast; ring

theorem spectrum_smul (N : Nat) (a : ℝ) (x : Nat → ℝ) (k : Nat) : spectrum N (fun t => a * x t) k = a * spectrum N x k := by
  unfold spectrum
  rw [mul_sum]
  exact sum_congr rfl fun j _ => by push_cast; ring

/-- The spectrum of a convolution is the product. -/
theorem spectrum_cconv (N : Nat) (hN : 0 < N) (x y : Nat → ℝ) (k : Nat) :
    spectrum N (cconv N x y) k = spectrum N x k * spectrum N y k := by
  have h1 : spectrum N (cconv N x y) k = ∑ t ∈ range N, ∑ s ∈ range N, ∑ u ∈ range N,
      if (s + u) % N = t then (x s : ℂ) * y u * root (-1) N ^ (t * k) else 0 := by
    rw [spectrum_root]
    refine sum_congr rfl fun t _ => ?_
    unfold cconv
    rw [ofReal_sum, sum_mul]
    refine sum_congr rfl fun s _ => ?_
    rw [ofReal_sum, sum_mul]
    refine sum_congr rfl fun u _ => ?_
    split <;> simp
  rw [h1, sum_comm, spectrum_root, spectrum_root, sum_mul]
  refine sum_congr rfl fun s _ => ?_
  rw [sum_comm, mul_sum]
  refine sum_congr rfl fun u _ => ?_
  rw [sum_ite_eq, if_pos (mem_range.mpr (Nat.mod_lt _ hN)), root_mod _ _ _ hN, Nat.add_mul, pow_add]
  ring

theorem rotate_sum {M : Type*} [AddCommMonoid M] {N : Nat} (hN : 0 < N) (o : Nat) (f : Nat → M) :
    ∑ i ∈ range N, f ((i + o) % N) = ∑ i ∈ range N, f i := by
  have ho : o % N < N := Nat.mod_lt _ hN
  refine sum_nbij' (fun i => (i + o) % N) (fun i => (i + (N - o % N)) % N) ?_ ?_ ?_ ?_ ?_
  · intro i hi; exact mem_range.mpr (Nat.mod_lt _ hN)
  · intro i hi; exact mem_range.mpr (Nat.mod_lt _ hN)
  · intro i hi
    have hi := mem_range.mp hi
    rw [Nat.mod_add_mod, Nat.add_right_comm, Nat.add_assoc, ← Nat.add_mod_mod, ← Nat.add_mod_mod (N - o % N),
      Nat.sub_add_cancel ho.le, Nat.mod_self, Nat.add_zero, Nat.mod_eq_of_lt hi]
  · intro i hi
    have hi := mem_range.mp hi
    rw [Nat.mod_add_mod, Nat.add_assoc, ← Nat.add_mod_mod, ← Nat.add_mod_mod (N - o % N), Nat.sub_add_cancel ho.le, Nat.mod_self,
      Nat.add_zero, Nat.mod_eq_of_lt hi]
  · intro i _; rfl

theorem spectrum_rot (N : Nat) (hN : 0 < N) (g : Nat → ℝ) (u k : Nat) :
    spectrum N (fun t => g ((t + u) % N)) k * root (-1) N ^ (u * k) = spectrum N g k := by
  rw [spectrum_root, spectrum_root, ← rotate_sum hN u (fun j => (g j : ℂ) * root (-1) N ^ (j * k)), sum_mul]
  refine sum_congr rfl fun t _ => ?_
  rw [root_mod _ _ _ hN, Nat.add_mul, pow_add]
  ring

/-- The spectrum of a correlation is the product with the conjugate. -/
theorem spectrum_ccorr (N : Nat) (hN : 0 < N) (x y : Nat → ℝ) (k : Nat) :
    spectrum N (ccorr N x y) k = spectrum N x k * (starRingEnd ℂ) (spectrum N y k) := by
  have h1 : spectrum N (ccorr N x y) k = ∑ u ∈ range N, (y u : ℂ) * spectrum N (fun t => x ((t + u) % N)) k := by
    unfold spectrum ccorr
    simp only [mul_sum, sum_mul, ofReal_sum]
    rw [sum_comm]
    refine sum_congr rfl fun u _ => sum_congr rfl fun t _ => ?_
    rw [Nat.add_comm u t]
    push_cast
    ring
  rw [h1, spectrum_root N y, map_sum, mul_sum]
  refine sum_congr rfl fun u _ => ?_
  rw [map_mul, conj_ofReal, ← spectrum_rot N hN x u k]
  linear_combination (-(y u : ℂ) * spectrum N (fun t => x ((t + u) % N)) k) * root_conj_mul N (u * k)

/-- The spectrum of a delayed trace. -/
theorem spectrum_delay (N h : Nat) (hN : 0 < N) (hh : h ≤ N) (g : Nat → ℝ) (k : Nat) :
    spectrum N (delay N h g) k = exp (-(2 * Real.pi * I * (h * k) / N)) * spectrum N g k := by
  have h1 : exp (-(2 * Real.pi * I * (h * k) / N)) = root (-1) N ^ (h * k) := by
    rw [root_pow_dft]
    congr 1
    push_cast
    ring
  rw [h1, ← spectrum_rot N hN g (N - h) k]
  have h2 : root (-1) N ^ (h * k) * root (-1) N ^ ((N - h) * k) = 1 := by
    rw [← pow_add, ← Nat.add_mul, Nat.add_sub_cancel' hh, pow_mul, root_pow_n _ _ hN, one_pow]
  unfold delay
  linear_combination (-spectrum N (fun t => g ((t + (N - h)) % N)) k) * h2

theorem rev_mod {N t : Nat} (ht : t < N) : (N - (N - t) % N) % N = t := by
  rcases Nat.eq_zero_or_pos t with rfl | h
  · simp
  · rw [Nat.mod_eq_of_lt (show N - t < N by omega), Nat.mod_eq_of_lt (by omega)]; omega

/-- The spectrum of the reversed trace. -/
theorem spectrum_rev (N : Nat) (hN : 0 < N) (g : Nat → ℝ) (k : Nat) : spectrum N (rev N g) k = (starRingEnd ℂ) (spectrum N g k) := by
  rw [spectrum_root, spectrum_root, map_sum]
  refine sum_nbij' (fun t => (N - t) % N) (fun t => (N - t) % N) ?_ ?_ ?_ ?_ ?_
  · intro i hi; exact mem_range.mpr (Nat.mod_lt _ hN)
  · intro i hi; exact mem_range.mpr (Nat.mod_lt _ hN)
  · intro i hi; exact rev_mod (mem_range.mp hi)
  · intro i hi; exact rev_mod (mem_range.mp hi)
  · intro t ht
    have ht := mem_range.mp ht
    have h1 : root (-1) N ^ ((N - t) % N * k) * root (-1) N ^ (t * k) = 1 := by
      rw [root_mod _ _ _ hN, ← pow_add, ← Nat.add_mul, Nat.sub_add_cancel ht.le, pow_mul, root_pow_n _ _ hN, one_pow]
    have h2 := root_conj_mul N ((N - t) % N * k)
    rw [map_mul, conj_ofReal]
    unfold rev
    have h3 : root (-1) N ^ (t * k) = (starRingEnd ℂ) (root (-1) N ^ ((N - t) % N * k)) :=
      mul_left_cancel₀ (left_ne_zero_of_mul_eq_one h1) (h1.trans h2.symm)
    rw [h3]

/-- Back from the spectrum. -/
theorem spectrum_inv (N : Nat) (hN : 0 < N) (g : Nat → ℝ) (t : Nat) (ht : t < N) : dft 1 N (spectrum N g) t = N * g t := by
  have := dft_roundtrip (-1) (Or.inr rfl) N hN (fun j => (g j : ℂ)) t ht
  rw [show (-(-1) : Int) = 1 by norm_num] at this
  rw [← this]
  congr 1
  funext k
  exact spectrum_dft N g k

/-- Traces with the same spectrum are the same. -/
theorem spectrum_inj (N : Nat) (hN : 0 < N) {g g' : Nat → ℝ} (h : ∀ k, k < N → spectrum N g k = spectrum N g' k) (t : Nat) (ht : t < N) :
    g t = g' t := by
  have e : dft 1 N (spectrum N g) t = dft 1 N (spectrum N g') t := by
    unfold dft
    exact sum_congr rfl fun j hj => by rw [h j (mem_range.mp hj)]
  rw [spectrum_inv N hN g t ht, spectrum_inv N hN g' t ht] at e
  have hN' : (N : ℂ) ≠ 0 := by exact_mod_cast hN.ne'
  exact_mod_cast mul_left_cancel₀ hN' e

/-! ### Wrap-around -/

theorem lconv_box (N : Nat) (x y : Nat → ℝ) (hx : ∀ j, N ≤ j → x j = 0) (hy : ∀ j, N ≤ j → y j = 0) (t : Nat) :
    ∑ s ∈ range N, ∑ u ∈ range N, (if s + u = t then x s * y u else 0) = lconv x y t := by
  unfold lconv
  rw [← sum_product', ← sum_filter]
  refine sum_subset ?_ ?_
  · rintro ⟨s, u⟩ h
    rw [mem_filter] at h
    exact mem_antidiagonal.mpr h.2
  · rintro ⟨s, u⟩ h h'
    have h := mem_antidiagonal.mp h
    by_cases hs : s < N
    · by_cases hu : u < N
      · exact absurd (mem_filter.mpr ⟨mem_product.mpr ⟨mem_range.mpr hs, mem_range.mpr hu⟩, h⟩) h'
      · simp [hy u (by omega)]
    · simp [hx s (by omega)]

/-- The circular convolution is the convolution plus what comes round from behind the period. -/
theorem cconv_wrap (N : Nat) (x y : Nat → ℝ) (hx : ∀ j, N ≤ j → x j = 0) (hy : ∀ j, N ≤ j → y j = 0) (t : Nat) (ht : t < N) :
    cconv N x y t = lconv x y t + lconv x y (t + N) := by
  rw [← lconv_box N x y hx hy, ← lconv_box N x y hx hy, ← sum_add_distrib]
  unfold cconv
  refine sum_congr rfl fun s hs => ?_
  rw [← sum_add_distrib]
  refine sum_congr rfl fun u hu => ?_
  have hs := mem_range.mp hs
  have hu := mem_range.mp hu
  by_cases h : s + u < N
  · rw [Nat.mod_eq_of_lt h, if_neg (show ¬ s + u = t + N by omega), add_zero]
  · rw [show s + u = s + u - N + N by omega, Nat.add_mod_right, Nat.mod_eq_of_lt (by omega)]
    by_cases h2 : s + u - N = t
    · rw [if_pos h2, if_neg (by omega), if_pos (by omega), zero_add]
    · rw [if_neg h2, if_neg (by omega), if_neg (by omega), add_zero]

/-- No wrap-around when the two lengths together fit. -/
theorem lconv_zero (n1 n2 : Nat) (x y : Nat → ℝ) (hx : ∀ j, n1 ≤ j → x j = 0) (hy : ∀ j, n2 ≤ j → y j = 0) (t : Nat)
    (ht : n1 + n2 ≤ t + 1) : lconv x y t = 0 := by
  unfold lconv
  refine sum_eq_zero fun p hp => ?_
  have hp := mem_antidiagonal.mp hp
  by_cases h : n1 ≤ p.1
  · rw [hx _ h, zero_mul]
  · rw [hy p.2 (by omega), mul_zero]

/-- Weighting both traces with `b^j` weights the convolution with `b^t`. -/
theorem lconv_weight (b : ℝ) (x y : Nat → ℝ) (t : Nat) : lconv (fun j => x j * b ^ j) (fun j => y j * b ^ j) t = b ^ t * lconv x y t := by
  unfold lconv
  rw [mul_sum]
  refine sum_congr rfl fun p hp => ?_
  rw [← mem_antidiagonal.mp hp, pow_add]
  ring

end

end Verif.Conv

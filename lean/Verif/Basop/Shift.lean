import Verif.Basop.Filter

/-!
# Sinusoids, whole-sample shifts, inverse operations, and the missing Nyquist frequency
-/

namespace Verif.Basop

open Complex Finset Verif Verif.Fft Verif.Fft.Lib Verif.Conv

/-! ### Sinusoids -/

/-- The real sinusoid of complex amplitude `a` with `m` periods in `N` samples. -/
noncomputable def sinusoid (N m : ℕ) (a : ℂ) (t : ℕ) : ℝ := (a * exp (2 * Real.pi * I * (m * t) / N)).re

theorem root_exp (N m t : ℕ) : exp (2 * Real.pi * I * (m * t) / N) = root 1 N ^ (m * t) := by
  rw [root_pow_dft]; push_cast; rw [one_mul]

/-- The trace with a given two-sided line spectrum. -/
theorem sinusoid_spectrum (N m : ℕ) (hm : 0 < m) (h2 : 2 * m < N) (a : ℂ) (k : ℕ) (hk : k < N) :
    Conv.spectrum N (sinusoid N m a) k = if k = m then N / 2 * a else if k = N - m then N / 2 * (starRingEnd ℂ) a else 0 := by
  have hN : 0 < N := by omega
  have hN' : (N : ℂ) ≠ 0 := by exact_mod_cast hN.ne'
  obtain ⟨g, hg⟩ := exists_trace N hN (fun k => if k = m then N / 2 * a else if k = N - m then N / 2 * (starRingEnd ℂ) a else 0)
    (by rw [if_neg (by omega), if_neg (by omega)]; rfl) (by
      intro k h0 hk
      by_cases h1 : k = m
      · subst h1
        rw [if_neg (by omega), if_pos rfl, if_pos rfl]
        simp only [map_mul, map_div₀, map_natCast, map_ofNat]
      · by_cases h3 : k = N - m
        · subst h3
          rw [if_pos (by omega), if_neg h1, if_pos rfl]
          simp only [map_mul, map_div₀, map_natCast, map_ofNat, conj_conj]
        · rw [if_neg (by omega), if_neg (by omega), if_neg h1, if_neg h3, map_zero])
  rw [← hg k hk]
  refine spectrum_congr N (fun t ht => ?_) k
  have e := spectrum_inv N hN g t ht
  have e2 : dft 1 N (Conv.spectrum N g) t = N / 2 * a * root 1 N ^ (m * t) + N / 2 * (starRingEnd ℂ) a * root 1 N ^ ((N - m) * t) := by
    unfold dft
    rw [sum_congr rfl (fun j hj => by rw [hg j (mem_range.mp hj)] ),
      sum_congr rfl (g := fun j => (if j = m then N / 2 * a * root 1 N ^ (m * t) else 0) +
        if j = N - m then N / 2 * (starRingEnd ℂ) a * root 1 N ^ ((N - m) * t) else 0)
      (fun j _ => by
        rw [← root_pow_dft]
        by_cases h1 : j = m
        · subst h1; rw [if_pos rfl, if_pos rfl, if_neg (by omega), add_zero]
        · rw [if_neg h1, if_neg h1, zero_add]
          by_cases h3 : j = N - m
          · subst h3; rw [if_pos rfl, if_pos rfl]
          · rw [if_neg h3, if_neg h3, zero_mul]), sum_add_distrib, sum_ite_eq' (range N) m, sum_ite_eq' (range N) (N - m),
      if_pos (mem_range.mpr (by omega)), if_pos (mem_range.mpr (by omega))]
  have e3 : root 1 N ^ ((N - m) * t) = (starRingEnd ℂ) (root 1 N ^ (m * t)) := by
    rw [map_pow, root_conj]
    have h1 : root 1 N ^ ((N - m) * t) * root 1 N ^ (m * t) = 1 := by
      rw [← pow_add, ← Nat.add_mul, Nat.sub_add_cancel (by omega), pow_mul, root_pow_n _ _ hN, one_pow]
    have h2 : root (-1) N ^ (m * t) * root 1 N ^ (m * t) = 1 := by
      rw [← mul_pow, mul_comm, root_mul_neg, one_pow]
    exact mul_right_cancel₀ (right_ne_zero_of_mul_eq_one h1) (h1.trans h2.symm)
  rw [e2, e3] at e
  unfold sinusoid
  rw [root_exp]
  generalize root 1 N ^ (m * t) = z at e
  have h4 : (N : ℂ) / 2 * a * z + N / 2 * (starRingEnd ℂ) a * (starRingEnd ℂ) z = N * ((a * z).re : ℂ) := by
    have := add_conj (a * z)
    rw [map_mul] at this
    push_cast at this ⊢
    linear_combination (N / 2 : ℂ) * this
  rw [h4] at e
  exact_mod_cast mul_left_cancel₀ hN' e

/-- **C127.** A sinusoid with a frequency in the band comes out as the sinusoid of the same frequency, with the complex amplitude multiplied by
the intended factor; one with a frequency outside the band comes out as zero.  (The trace has a number of samples that is not padded.) -/
theorem timeFilter_sinusoid (f : Filt) (hv : 0 < f.vel) (N nrec lend : ℕ) (hN : InvLen N) (hd : nrec * N ≤ lend) (dt : ℝ) (hdt : 0 < dt)
    (fmin fmax : ℝ) (hf : fmax ≤ 1 / (2 * dt)) (w : Work) (data : ℕ → ℝ) (s : St) (hs : Hist s) (a : ℕ → ℂ) (m : ℕ → ℕ)
    (hm : ∀ i, i < nrec → 0 < m i ∧ 2 * m i < N) (hdata : ∀ i t, i < nrec → t < N → data (i * N + t) = sinusoid N (m i) (a i) t) :
    ∃ out s', timeFilter f N N nrec lend dt fmin fmax w data s = some (out, s') ∧ Hist s' ∧
      ∀ i t, i < nrec → t < N →
        (f.InBand N dt fmin fmax (m i) → out (i * N + t) = sinusoid N (m i) (f.ideal (angular N dt (m i)) * a i) t) ∧
        (¬ f.InBand N dt fmin fmax (m i) → out (i * N + t) = 0) := by
  have h1 : 0 < N := hN.1.1
  obtain ⟨out, s', e, p, hg, _⟩ := timeFilter_spec f hv N N nrec lend hN le_rfl hd dt hdt fmin fmax hf w data s hs
  refine ⟨out, s', e, p, fun i t hi ht => ?_⟩
  obtain ⟨g, hg1, hg2⟩ := hg i hi
  rw [hg2 t ht]
  obtain ⟨hm0, hm2⟩ := hm i hi
  have hx : ∀ k, Conv.spectrum N (pad N (trace N data i)) k = Conv.spectrum N (sinusoid N (m i) (a i)) k := fun k =>
    spectrum_congr N (fun j hj => by rw [pad, if_pos hj, trace, hdata i j hi hj]) k
  have hg1 : ∀ k, k < N → Conv.spectrum N g k = f.factor N dt fmin fmax k *
      (if k = m i then N / 2 * a i else if k = N - m i then N / 2 * (starRingEnd ℂ) (a i) else 0) := fun k hk => by
    rw [hg1 k hk, hx, sinusoid_spectrum N (m i) hm0 hm2 (a i) k hk]
  constructor
  · intro hb
    refine spectrum_inj N h1 (fun k hk => ?_) t ht
    rw [hg1 k hk, sinusoid_spectrum N (m i) hm0 hm2 _ k hk]
    by_cases h3 : k = m i
    · subst h3
      rw [if_pos rfl, if_pos rfl]
      have ef : f.factor N dt fmin fmax (m i) = f.ideal (angular N dt (m i)) := by
        unfold Filt.factor
        rw [if_pos (by omega), if_pos hb]
      rw [ef]
      ring
    · rw [if_neg h3, if_neg h3]
      by_cases h4 : k = N - m i
      · rw [if_pos h4, if_pos h4]
        have ef : f.factor N dt fmin fmax k = (starRingEnd ℂ) (f.ideal (angular N dt (m i))) := by
          unfold Filt.factor
          rw [if_neg (by omega), show N - k = m i by omega, if_pos hb]
        rw [ef, map_mul]
        ring
      · rw [if_neg h4, if_neg h4, mul_zero]
  · intro hb
    have : ∀ k, k < N → Conv.spectrum N g k = Conv.spectrum N (fun _ => 0) k := fun k hk => by
      have e0 : Conv.spectrum N (fun _ => (0 : ℝ)) k = 0 := by simp [Conv.spectrum]
      rw [hg1 k hk, e0]
      by_cases h3 : k = m i
      · have ef : f.factor N dt fmin fmax k = 0 := by
          subst h3
          unfold Filt.factor
          rw [if_pos (by omega), if_neg hb]
        rw [ef, zero_mul]
      · rw [if_neg h3]
        by_cases h4 : k = N - m i
        · have ef : f.factor N dt fmin fmax k = 0 := by
            unfold Filt.factor
            rw [if_neg (by omega), show N - k = m i by omega, if_neg hb]
          rw [ef, zero_mul]
        · rw [if_neg h4, mul_zero]
    exact spectrum_inj N h1 this t ht

/-- Differentiation: the sinusoid `sin(ω t)` becomes `ω cos(ω t)`. -/
theorem jom_sine (N m : ℕ) (dt : ℝ) (t : ℕ) :
    sinusoid N m (-I) t = Real.sin (2 * Real.pi * (m * t) / N) ∧
    sinusoid N m ((Filt.jom true).ideal (angular N dt m) * -I) t = angular N dt m * Real.cos (2 * Real.pi * (m * t) / N) := by
  have e : exp (2 * Real.pi * I * (m * t) / N) = ⟨Real.cos (2 * Real.pi * (m * t) / N), Real.sin (2 * Real.pi * (m * t) / N)⟩ := by
    rw [unit_exp]
    congr 1
    push_cast
    ring
  unfold sinusoid
  rw [e]
  unfold Filt.ideal
  generalize Real.cos _ = x
  generalize Real.sin _ = y
  generalize angular N dt m = om
  constructor <;> simp

/-! ### A shift by whole samples -/

/-- The part of a trace that a time shift keeps: all frequencies with `⌊fmin N dt⌋ ≤ k < ⌊fmax N dt⌋`. -/
def Kept (N : ℕ) (dt fmin fmax : ℝ) (x w : ℕ → ℝ) : Prop :=
  ∀ k, k < N → Conv.spectrum N w k = open Classical in
    if ⌊fmin * (N * dt)⌋₊ ≤ min k (N - k) ∧ min k (N - k) < ⌊fmax * (N * dt)⌋₊ then Conv.spectrum N x k else 0

theorem shift_factor {N : ℕ} (hN : 0 < N) {dt : ℝ} (hdt : 0 < dt) (fmin fmax : ℝ) (h k : ℕ) (hk : k < N) :
    (Filt.shift (h * dt)).factor N dt fmin fmax k = open Classical in
      if ⌊fmin * (N * dt)⌋₊ ≤ min k (N - k) ∧ min k (N - k) < ⌊fmax * (N * dt)⌋₊ then exp (-(2 * Real.pi * I * (h * k) / N)) else 0 := by
  have hN' : (N : ℂ) ≠ 0 := by exact_mod_cast hN.ne'
  have hdt' : (dt : ℂ) ≠ 0 := by exact_mod_cast hdt.ne'
  have hid : ∀ j : ℕ, (Filt.shift (h * dt)).ideal (angular N dt j) = exp (-(2 * Real.pi * I * (h * j) / N)) := fun j => by
    unfold Filt.ideal angular
    dsimp only
    congr 1
    push_cast
    field_simp
  have hb : ∀ j, (Filt.shift (h * dt)).InBand N dt fmin fmax j ↔ ⌊fmin * (N * dt)⌋₊ ≤ j ∧ j < ⌊fmax * (N * dt)⌋₊ := fun j => by
    unfold Filt.InBand
    constructor
    · rintro ⟨a, b, _⟩; exact ⟨a, b⟩
    · rintro ⟨a, b⟩; exact ⟨a, b, Or.inl ⟨_, rfl⟩⟩
  unfold Filt.factor
  by_cases h2 : 2 * k ≤ N
  · rw [if_pos h2, min_eq_left (by omega : k ≤ N - k), hid]
    by_cases h3 : ⌊fmin * (N * dt)⌋₊ ≤ k ∧ k < ⌊fmax * (N * dt)⌋₊
    · rw [if_pos ((hb k).mpr h3), if_pos h3]
    · rw [if_neg (fun h => h3 ((hb k).mp h)), if_neg h3]
  · rw [if_neg h2, min_eq_right (by omega : N - k ≤ k), hid]
    by_cases h3 : ⌊fmin * (N * dt)⌋₊ ≤ N - k ∧ N - k < ⌊fmax * (N * dt)⌋₊
    · rw [if_pos ((hb _).mpr h3), if_pos h3, ← exp_conj, exp_eq_exp_iff_exists_int]
      refine ⟨h, ?_⟩
      simp only [map_neg, map_div₀, map_mul, conj_I, conj_ofReal, map_ofNat, map_natCast]
      rw [Nat.cast_sub hk.le]
      field_simp
      push_cast
      ring
    · rw [if_neg (fun h => h3 ((hb _).mp h)), if_neg h3]

/-- **C127.** A shift by `h` whole samples delays the part of the padded trace within the band by `h` samples, cyclically over the length of
the transform. -/
theorem timeShift_whole (N nsam nrec lend : ℕ) (hN : InvLen N) (hns : nsam ≤ N) (hd : nrec * nsam ≤ lend) (dt : ℝ) (hdt : 0 < dt)
    (fmin fmax : ℝ) (hf : fmax ≤ 1 / (2 * dt)) (h : ℕ) (hh : h ≤ N) (w : Work) (data : ℕ → ℝ) (s : St) (hs : Hist s) :
    ∃ out s', timeFilter (.shift (h * dt)) N nsam nrec lend dt fmin fmax w data s = some (out, s') ∧ Hist s' ∧
      ∀ i, i < nrec → ∃ v, Kept N dt fmin fmax (pad nsam (trace nsam data i)) v ∧
        ∀ t, t < nsam → out (i * nsam + t) = v ((t + (N - h)) % N) := by
  have h1 : 0 < N := hN.1.1
  obtain ⟨out, s', e, p, hg, _⟩ := timeFilter_spec (.shift (h * dt)) one_pos N nsam nrec lend hN hns hd dt hdt fmin fmax hf w data s hs
  refine ⟨out, s', e, p, fun i hi => ?_⟩
  obtain ⟨g, hg1, hg2⟩ := hg i hi
  obtain ⟨v, hv⟩ := factor_trace (.shift ((0 : ℕ) * dt)) h1 hdt fmin hf (pad nsam (trace nsam data i))
  have hv' : Kept N dt fmin fmax (pad nsam (trace nsam data i)) v := fun k hk => by
    rw [hv k hk, shift_factor h1 hdt fmin fmax 0 k hk]
    split
    · simp
    · rw [zero_mul]
  refine ⟨v, hv', fun t ht => ?_⟩
  rw [hg2 t ht]
  refine spectrum_inj (g' := delay N h v) N h1 (fun k hk => ?_) t (by omega)
  rw [hg1 k hk, shift_factor h1 hdt fmin fmax h k hk, spectrum_delay N h h1 hh, hv' k hk]
  split
  · rfl
  · rw [zero_mul, mul_zero]

/-! ### The missing Nyquist frequency -/

theorem alternating_spectrum (h : ℕ) (hh : 0 < h) (c : ℝ) (k : ℕ) (hk : k < 2 * h) :
    Conv.spectrum (2 * h) (fun t => c * (-1) ^ t) k = if k = h then ((2 * h : ℕ) : ℂ) * c else 0 := by
  have hN : 0 < 2 * h := by omega
  obtain ⟨g, hg⟩ := exists_trace (2 * h) hN (fun k => if k = h then ((2 * h : ℕ) : ℂ) * c else 0)
    (by rw [if_neg (by omega)]; rfl) (by
      intro k h0 hk
      by_cases h1 : k = h
      · rw [if_pos (by omega), if_pos h1]; simp only [map_mul, map_natCast, conj_ofReal]
      · rw [if_neg (by omega), if_neg h1, map_zero])
  rw [← hg k hk]
  refine spectrum_congr _ (fun t ht => ?_) k
  have e := spectrum_inv (2 * h) hN g t ht
  have e2 : dft 1 (2 * h) (Conv.spectrum (2 * h) g) t = ((2 * h : ℕ) : ℂ) * c * root 1 (2 * h) ^ (h * t) := by
    unfold dft
    rw [sum_congr rfl (fun j hj => by rw [hg j (mem_range.mp hj)]),
      sum_congr rfl (g := fun j => if j = h then ((2 * h : ℕ) : ℂ) * c * root 1 (2 * h) ^ (h * t) else 0)
      (fun j _ => by
        rw [← root_pow_dft]
        by_cases h1 : j = h
        · subst h1; rw [if_pos rfl, if_pos rfl]
        · rw [if_neg h1, if_neg h1, zero_mul]), sum_ite_eq' (range (2 * h)) h, if_pos (mem_range.mpr (by omega))]
  rw [e2, pow_mul, root_pow_quot 1 (2 * h) 2 h (by ring) hN, root_two 1 (Or.inl rfl)] at e
  have hN' : ((2 * h : ℕ) : ℂ) ≠ 0 := by exact_mod_cast hN.ne'
  rw [mul_assoc] at e
  exact_mod_cast mul_left_cancel₀ hN' e

/-- **C127.** With the default band a time shift of zero does not give the data back: from every trace the component at the Nyquist frequency
is taken away. -/
theorem timeShift_zero (h nrec lend : ℕ) (hN : InvLen (2 * h)) (hd : nrec * (2 * h) ≤ lend) (dt : ℝ) (hdt : 0 < dt) (w : Work)
    (data : ℕ → ℝ) (s : St) (hs : Hist s) :
    ∃ out s', timeFilter (.shift 0) (2 * h) (2 * h) nrec lend dt 0 (1 / (2 * dt)) w data s = some (out, s') ∧ Hist s' ∧
      ∀ i t, i < nrec → t < 2 * h →
        out (i * (2 * h) + t) = data (i * (2 * h) + t) - (∑ j ∈ range (2 * h), (-1) ^ j * data (i * (2 * h) + j)) / (2 * h) * (-1) ^ t := by
  have h1 : 0 < 2 * h := hN.1.1
  have hh : 0 < h := by omega
  have hc : ((2 * h : ℕ) : ℂ) ≠ 0 := by exact_mod_cast h1.ne'
  obtain ⟨out, s', e, p, hg⟩ := timeShift_whole (2 * h) (2 * h) nrec lend hN le_rfl hd dt hdt 0 (1 / (2 * dt)) le_rfl 0 (by omega) w data s hs
  rw [Nat.cast_zero, zero_mul] at e
  refine ⟨out, s', e, p, fun i t hi ht => ?_⟩
  obtain ⟨v, hv, hv2⟩ := hg i hi
  rw [hv2 t ht, Nat.sub_zero, Nat.add_mod_right, Nat.mod_eq_of_lt ht]
  set x : ℕ → ℝ := fun j => data (i * (2 * h) + j) with hx
  set c : ℝ := (∑ j ∈ range (2 * h), (-1) ^ j * x j) / (2 * h) with hcdef
  have hfl : ⌊1 / (2 * dt) * (((2 * h : ℕ) : ℝ) * dt)⌋₊ = h := by
    have : 1 / (2 * dt) * (((2 * h : ℕ) : ℝ) * dt) = (h : ℝ) := by push_cast; field_simp
    rw [this, Nat.floor_natCast]
  have hX : ∀ k, Conv.spectrum (2 * h) (pad (2 * h) (trace (2 * h) data i)) k = Conv.spectrum (2 * h) x k := fun k =>
    spectrum_congr _ (fun j hj => by rw [pad, if_pos hj, trace]) k
  refine spectrum_inj (g' := fun t => x t + -c * (-1) ^ t) (2 * h) h1 (fun k hk => ?_) t ht |>.trans (by ring)
  rw [hv k hk, hfl, hX, spectrum_add, alternating_spectrum h hh _ k hk, zero_mul, Nat.floor_zero]
  by_cases h3 : k = h
  · rw [if_neg (by omega), if_pos h3, h3]
    have e1 : Conv.spectrum (2 * h) x h = ((2 * h : ℕ) : ℂ) * c := by
      rw [spectrum_root, hcdef]
      have hroot : ∀ j, root (-1) (2 * h) ^ (j * h) = (-1) ^ j := fun j => by
        rw [Nat.mul_comm j h, pow_mul, root_pow_quot (-1) (2 * h) 2 h (by ring) h1, root_two (-1) (Or.inr rfl)]
      rw [sum_congr rfl (fun j _ => by rw [hroot j])]
      push_cast at hc ⊢
      rw [mul_div_cancel₀ _ hc]
      exact sum_congr rfl fun j _ => by ring
    rw [e1]
    push_cast
    ring
  · rw [if_pos (by omega), if_neg h3, add_zero]

/-- The trace `1, -1, 1, -1, …` comes out of a time shift of zero as zero. -/
theorem timeShift_alternating (h nrec lend : ℕ) (hN : InvLen (2 * h)) (hd : nrec * (2 * h) ≤ lend) (dt : ℝ) (hdt : 0 < dt) (w : Work)
    (data : ℕ → ℝ) (s : St) (hs : Hist s) (hdata : ∀ i t, i < nrec → t < 2 * h → data (i * (2 * h) + t) = (-1) ^ t) :
    ∃ out s', timeFilter (.shift 0) (2 * h) (2 * h) nrec lend dt 0 (1 / (2 * dt)) w data s = some (out, s') ∧
      ∀ i t, i < nrec → t < 2 * h → out (i * (2 * h) + t) = 0 := by
  obtain ⟨out, s', e, _, a⟩ := timeShift_zero h nrec lend hN hd dt hdt w data s hs
  refine ⟨out, s', e, fun i t hi ht => ?_⟩
  have h1 : (2 * (h : ℝ)) ≠ 0 := by
    have : 0 < 2 * h := hN.1.1
    exact_mod_cast this.ne'
  have hsum : ∑ j ∈ range (2 * h), (-1) ^ j * data (i * (2 * h) + j) = 2 * (h : ℝ) := by
    rw [sum_congr rfl (fun j hj => by rw [hdata i j hi (mem_range.mp hj), ← mul_pow]; norm_num : ∀ j ∈ range (2 * h), _ = (1 : ℝ))]
    simp
  rw [a i t hi ht, hsum, hdata i t hi ht, div_self h1]
  ring

/-! ### Operations and their inverses -/

/-- The operation that undoes another. -/
def Filt.inverse : Filt → Filt
  | .shift s => .shift (-s)
  | .rot r => .rot (-r)
  | .jom b => .jom !b
  | .sk c b => .sk c !b
  | .sjom b => .sjom !b
  | .som b => .som !b
  | .divk c b => .divk c !b

theorem ideal_inverse (f : Filt) (hv : 0 < f.vel) {om : ℝ} (h : 0 < om ∨ ∃ s, f = .shift s) : f.inverse.ideal om * f.ideal om = 1 := by
  cases f with
  | shift s => simp only [Filt.inverse, Filt.ideal]; rw [← exp_add, exp_eq_one_iff]; exact ⟨0, by push_cast; ring⟩
  | rot r => simp only [Filt.inverse, Filt.ideal]; rw [← exp_add, exp_eq_one_iff]; exact ⟨0, by push_cast; ring⟩
  | jom b =>
    have hz : (I * om : ℂ) ≠ 0 := by
      have : 0 < om := by rcases h with h | ⟨s, h⟩ <;> [exact h; cases h]
      exact mul_ne_zero I_ne_zero (by exact_mod_cast this.ne')
    cases b
    · exact mul_inv_cancel₀ hz
    · exact inv_mul_cancel₀ hz
  | sk c b =>
    have hz : (Real.sqrt (om / c) : ℂ) ≠ 0 := by
      have : 0 < om := by rcases h with h | ⟨s, h⟩ <;> [exact h; cases h]
      exact_mod_cast (Real.sqrt_pos.mpr (div_pos this hv)).ne'
    cases b
    · exact mul_inv_cancel₀ hz
    · exact inv_mul_cancel₀ hz
  | sjom b =>
    have hz : ((I * om) ^ (1 / 2 : ℂ) : ℂ) ≠ 0 := by
      have : 0 < om := by rcases h with h | ⟨s, h⟩ <;> [exact h; cases h]
      rw [sqrt_jom this.le, unit_exp]
      exact mul_ne_zero (by exact_mod_cast (Real.sqrt_pos.mpr this).ne') (exp_ne_zero _)
    cases b
    · exact mul_inv_cancel₀ hz
    · exact inv_mul_cancel₀ hz
  | som b =>
    have hz : (Real.sqrt om : ℂ) ≠ 0 := by
      have : 0 < om := by rcases h with h | ⟨s, h⟩ <;> [exact h; cases h]
      exact_mod_cast (Real.sqrt_pos.mpr this).ne'
    cases b
    · exact mul_inv_cancel₀ hz
    · exact inv_mul_cancel₀ hz
  | divk c b =>
    have hz : (om / c : ℂ) ≠ 0 := by
      have : 0 < om := by rcases h with h | ⟨s, h⟩ <;> [exact h; cases h]
      exact_mod_cast (div_pos this hv).ne'
    cases b
    · exact mul_inv_cancel₀ hz
    · exact inv_mul_cancel₀ hz

/-- **C127.** An operation followed by its inverse gives back the part of every trace that lies in the band.  (The traces have a number of
samples that is not padded.) -/
theorem timeFilter_inverse (f : Filt) (hv : 0 < f.vel) (N nrec lend : ℕ) (hN : InvLen N) (hd : nrec * N ≤ lend) (dt : ℝ) (hdt : 0 < dt)
    (fmin fmax : ℝ) (hf : fmax ≤ 1 / (2 * dt)) (w w' : Work) (data : ℕ → ℝ) (s : St) (hs : Hist s) :
    ∃ mid s1 out s2, timeFilter f N N nrec lend dt fmin fmax w data s = some (mid, s1) ∧
      timeFilter f.inverse N N nrec lend dt fmin fmax w' mid s1 = some (out, s2) ∧
      ∀ i, i < nrec → ∃ g : ℕ → ℝ, (∀ t, t < N → out (i * N + t) = g t) ∧
        ∀ k, k < N → Conv.spectrum N g k = open Classical in
          if f.InBand N dt fmin fmax (min k (N - k)) then Conv.spectrum N (trace N data i) k else 0 := by
  have h1 : 0 < N := hN.1.1
  have hv' : 0 < f.inverse.vel := by cases f <;> exact hv
  have hband : ∀ k, f.inverse.InBand N dt fmin fmax k ↔ f.InBand N dt fmin fmax k := fun k => by
    unfold Filt.InBand
    cases f <;> simp [Filt.inverse]
  obtain ⟨mid, s1, e1, p1, hg1, _⟩ := timeFilter_spec f hv N N nrec lend hN le_rfl hd dt hdt fmin fmax hf w data s hs
  obtain ⟨out, s2, e2, p2, hg2, _⟩ := timeFilter_spec f.inverse hv' N N nrec lend hN le_rfl hd dt hdt fmin fmax hf w' mid s1 p1
  refine ⟨mid, s1, out, s2, e1, e2, fun i hi => ?_⟩
  obtain ⟨u, hu1, hu2⟩ := hg1 i hi
  obtain ⟨g, hg, hg2⟩ := hg2 i hi
  refine ⟨g, hg2, fun k hk => ?_⟩
  have ea : Conv.spectrum N (pad N (trace N mid i)) k = Conv.spectrum N u k :=
    spectrum_congr N (fun j hj => by rw [pad, if_pos hj, trace, hu2 j hj]) k
  have eb : Conv.spectrum N (pad N (trace N data i)) k = Conv.spectrum N (trace N data i) k :=
    spectrum_congr N (fun j hj => by rw [pad, if_pos hj]) k
  have hpos : ∀ j, f.InBand N dt fmin fmax j → 0 < angular N dt j ∨ ∃ s, f = .shift s := fun j hj => by
    rcases hj.2.2 with h | h
    · exact Or.inr h
    · left
      have := Real.pi_pos
      unfold angular
      positivity
  rw [hg k hk, ea, hu1 k hk, eb]
  unfold Filt.factor
  by_cases h2 : 2 * k ≤ N
  · rw [if_pos h2, if_pos h2, min_eq_left (by omega : k ≤ N - k)]
    by_cases hb : f.InBand N dt fmin fmax k
    · rw [if_pos hb, if_pos ((hband k).mpr hb), if_pos hb, ← mul_assoc, ideal_inverse f hv (hpos k hb), one_mul]
    · rw [if_neg hb, if_neg hb, zero_mul, mul_zero]
  · rw [if_neg h2, if_neg h2, min_eq_right (by omega : N - k ≤ k)]
    by_cases hb : f.InBand N dt fmin fmax (N - k)
    · rw [if_pos hb, if_pos ((hband _).mpr hb), if_pos hb, ← mul_assoc, ← map_mul, ideal_inverse f hv (hpos _ hb), map_one, one_mul]
    · rw [if_neg hb, if_neg hb, zero_mul, mul_zero]

/-! ### The hypotheses are met -/

example : InvLen (2 * 8) := ⟨⟨by norm_num, fun m e => by
  have := Nat.pow_right_injective (le_refl 2) (show 2 ^ 4 = 2 ^ m by norm_num at e ⊢; exact e)
  omega⟩, Or.inl ⟨4, by norm_num⟩⟩

example : (Filt.jom true).InBand 16 (1 / 16) 0 8 1 := by
  refine ⟨by norm_num, ?_, Or.inr (by norm_num)⟩
  norm_num

end Verif.Basop

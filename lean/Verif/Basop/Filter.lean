import Verif.Basop.Model
import Verif.Conv.Through

/-!
# What the operations in the frequency domain do to a trace
-/

namespace Verif.Basop

open Complex Finset Verif Verif.Fft Verif.Fft.Lib Verif.Conv

/-! ### Specification -/

/-- What each operation is meant to multiply the spectrum with at the angular frequency `om`. -/
noncomputable def Filt.ideal (om : ℝ) : Filt → ℂ
  | .shift sec => exp (-(I * om * sec))
  | .rot r => exp (I * Real.pi * r)
  | .jom true => I * om
  | .jom false => (I * om)⁻¹
  | .sk c true => (Real.sqrt (om / c) : ℂ)
  | .sk c false => (Real.sqrt (om / c) : ℂ)⁻¹
  | .sjom true => (I * om) ^ (1 / 2 : ℂ)
  | .sjom false => ((I * om) ^ (1 / 2 : ℂ))⁻¹
  | .som true => (Real.sqrt om : ℂ)
  | .som false => (Real.sqrt om : ℂ)⁻¹
  | .divk c true => (om / c : ℂ)
  | .divk c false => (om / c : ℂ)⁻¹

/-- The velocity an operation uses; 1 when it uses none. -/
def Filt.vel : Filt → ℝ
  | .sk c _ => c
  | .divk c _ => c
  | _ => 1

/-- The angular frequency of element `k` of the spectrum of `N` samples at the interval `dt`. -/
noncomputable def angular (N : ℕ) (dt : ℝ) (k : ℕ) : ℝ := 2 * Real.pi * (k / (N * dt))

/-- The frequencies that are kept: not below `fmin` (rounded down to an element of the spectrum), below `fmax` (rounded down), and not
zero, except for the time shift. -/
def Filt.InBand (f : Filt) (N : ℕ) (dt fmin fmax : ℝ) (k : ℕ) : Prop :=
  ⌊fmin * (N * dt)⌋₊ ≤ k ∧ k < ⌊fmax * (N * dt)⌋₊ ∧ ((∃ sec, f = .shift sec) ∨ 0 < k)

open Classical in
/-- The factor at every element of the spectrum: those above the middle belong to negative frequencies. -/
noncomputable def Filt.factor (f : Filt) (N : ℕ) (dt fmin fmax : ℝ) (k : ℕ) : ℂ :=
  if 2 * k ≤ N then (if f.InBand N dt fmin fmax k then f.ideal (angular N dt k) else 0)
  else (if f.InBand N dt fmin fmax (N - k) then (starRingEnd ℂ) (f.ideal (angular N dt (N - k))) else 0)

/-! ### The factors -/

theorem unit_exp (a : ℝ) : (⟨Real.cos a, Real.sin a⟩ : ℂ) = exp (I * a) := by
  rw [mul_comm, exp_mul_I, ← ofReal_cos, ← ofReal_sin]
  generalize Real.cos a = x
  generalize Real.sin a = y
  apply Complex.ext <;> simp

theorem sqrt_jom {om : ℝ} (h : 0 ≤ om) :
    ((I * om) ^ (1 / 2 : ℂ) : ℂ) = Real.sqrt om * ⟨Real.cos (1 / 4 * Real.pi), Real.sin (1 / 4 * Real.pi)⟩ := by
  rw [unit_exp]
  rcases h.eq_or_lt with rfl | h
  · simp
  · have h' : (om : ℂ) ≠ 0 := by exact_mod_cast h.ne'
    rw [mul_comm I, cpow_def_of_ne_zero (mul_ne_zero h' I_ne_zero), log_ofReal_mul h I_ne_zero, log_I, add_mul, exp_add]
    congr 1
    · rw [Real.sqrt_eq_rpow, ofReal_cpow h.le, cpow_def_of_ne_zero h', ofReal_log h.le]
      push_cast
      rfl
    · congr 1
      push_cast
      ring

theorem rot_mul (a : ℝ) (c : ℂ) : (⟨c.re * Real.cos a - c.im * Real.sin a, c.im * Real.cos a + c.re * Real.sin a⟩ : ℂ) = exp (I * a) * c := by
  rw [← unit_exp]
  generalize Real.cos a = x
  generalize Real.sin a = y
  apply Complex.ext <;> simp <;> ring

/-- At every frequency the code multiplies with the intended factor. -/
theorem at_ideal (f : Filt) (dw : ℝ) (hdw : 0 ≤ dw) (iom : ℕ) (c : ℂ) : f.at dw iom c = f.ideal (dw * iom) * c := by
  have h0 : 0 ≤ dw * (iom : ℝ) := by positivity
  cases f with
  | shift sec =>
    show (⟨_, _⟩ : ℂ) = _
    rw [rot_mul]
    unfold Filt.ideal
    congr 2
    push_cast
    ring
  | rot r =>
    show (⟨_, _⟩ : ℂ) = _
    rw [rot_mul]
    unfold Filt.ideal
    congr 2
    push_cast
    ring
  | jom b =>
    unfold Filt.at Filt.ideal
    generalize dw * (iom : ℝ) = om at h0
    cases b
    · dsimp only
      rw [mul_inv, inv_I, ← ofReal_inv, ← one_div]
      generalize 1 / om = y
      apply Complex.ext <;> simp
    · dsimp only
      apply Complex.ext <;> simp
  | sk v b =>
    cases b
    · unfold Filt.at Filt.ideal
      dsimp only
      generalize Real.sqrt (dw * (iom : ℝ) / v) = om at h0
      rw [← ofReal_inv, div_eq_mul_inv, div_eq_mul_inv]
      generalize om⁻¹ = y
      apply Complex.ext <;> simp [mul_comm]
    · unfold Filt.at Filt.ideal
      dsimp only
      generalize Real.sqrt (dw * (iom : ℝ) / v) = om at h0
      apply Complex.ext <;> simp
  | sjom b =>
    unfold Filt.at Filt.ideal
    rw [sqrt_jom h0]
    dsimp only
    generalize Real.sqrt (dw * (iom : ℝ)) = om at h0
    have hn := Real.cos_sq_add_sin_sq (1 / 4 * Real.pi)
    generalize Real.cos (1 / 4 * Real.pi) = x at hn
    generalize Real.sin (1 / 4 * Real.pi) = y at hn
    cases b
    · dsimp only
      have e : (⟨x, y⟩ : ℂ)⁻¹ = ⟨x, -y⟩ := by
        have hn : normSq (⟨x, y⟩ : ℂ) = 1 := by
          rw [normSq_mk]
          nlinarith
        rw [Complex.inv_def, hn]
        apply Complex.ext <;> simp
      rw [mul_inv, e, ← ofReal_inv, ← one_div]
      generalize 1 / om = z
      apply Complex.ext <;> simp <;> ring
    · dsimp only
      apply Complex.ext <;> simp <;> ring
  | som b =>
    unfold Filt.at Filt.ideal
    dsimp only
    generalize Real.sqrt (dw * (iom : ℝ)) = om at h0
    cases b
    · dsimp only
      rw [← ofReal_inv, ← one_div]
      generalize 1 / om = y
      apply Complex.ext <;> simp
    · dsimp only
      apply Complex.ext <;> simp
  | divk v b =>
    cases b
    · unfold Filt.at Filt.ideal
      dsimp only
      rw [← ofReal_div]
      generalize dw * (iom : ℝ) / v = om at h0
      rw [← ofReal_inv, div_eq_mul_inv, div_eq_mul_inv]
      generalize om⁻¹ = y
      apply Complex.ext <;> simp [mul_comm]
    · unfold Filt.at Filt.ideal
      dsimp only
      rw [← ofReal_div]
      generalize dw * (iom : ℝ) / v = om at h0
      apply Complex.ext <;> simp

/-! ### The loops -/

theorem bandLoop_val {nrec nfreq lo hi : ℕ} (hlo : lo ≤ nfreq) (hhi : hi ≤ nfreq) (F : ℕ → ℂ → ℂ) (c q : ℕ → ℂ) {i k : ℕ} (hi' : i < nrec)
    (hk : k < nfreq) : bandLoop nrec nfreq lo hi F c q (i * nfreq + k) = if lo ≤ k ∧ k < hi then F k (c (i * nfreq + k)) else 0 := by
  have w := Writes.forN (n := nrec) (f := fun ix q =>
      forN (hi - lo) (fun d q => aset q (ix * nfreq + (lo + d)) (F (lo + d) (c (ix * nfreq + (lo + d)))))
        (forN (nfreq - hi) (fun d q => aset q (ix * nfreq + (hi + d)) (0 : ℂ)) (forN lo (fun iom q => aset q (ix * nfreq + iom) (0 : ℂ)) q)))
    (fun ix _ => ((Writes.forN (n := lo) (fun iom _ => Writes.aset (ix * nfreq + iom) (0 : ℂ))).comp
      (Writes.forN (n := nfreq - hi) (fun d _ => Writes.aset (ix * nfreq + (hi + d)) (0 : ℂ)))).comp
      (Writes.forN (n := hi - lo) (fun d _ => Writes.aset (ix * nfreq + (lo + d)) (F (lo + d) (c (ix * nfreq + (lo + d)))))))
  refine w.val q ⟨i, hi', ?_⟩ ?_
  · by_cases h : lo ≤ k ∧ k < hi
    · right; exact ⟨k - lo, by omega, by rw [Nat.add_sub_cancel' h.1], by rw [if_pos h, Nat.add_sub_cancel' h.1]⟩
    · left
      by_cases h2 : k < lo
      · left; exact ⟨k, h2, rfl, by rw [if_neg h]⟩
      · right; exact ⟨k - hi, by omega, by rw [Nat.add_sub_cancel' (by omega)], by rw [if_neg h]⟩
  · rintro v ⟨i', hi', (⟨j, hj, e, rfl⟩ | ⟨j, hj, e, rfl⟩) | ⟨j, hj, e, rfl⟩⟩
    · obtain ⟨rfl, rfl⟩ := rc_inj (le_refl nfreq) hk (by omega) e
      rw [if_neg (by omega)]
    · obtain ⟨rfl, rfl⟩ := rc_inj (le_refl nfreq) hk (by omega) e
      rw [if_neg (by omega)]
    · obtain ⟨rfl, rfl⟩ := rc_inj (le_refl nfreq) hk (by omega) e
      rw [if_pos (by omega)]

theorem hnr {N nrec i j : ℕ} (hi : i < nrec) (hj : j < N) : i * N + j < N * nrec := by rw [Nat.mul_comm N]; exact row_le hi hj

/-- Padding and the forward transform. -/
theorem forward (N nsam nrec lend : ℕ) (hN : InvLen N) (hns : nsam ≤ N) (hd : nrec * nsam ≤ lend) (w : Work) (data : ℕ → ℝ) (s : St)
    (hs : Hist s) :
    ∃ r c s', padData nsam nrec N lend (N * nrec) data w.r = some r ∧
      rcmFft N nrec N (N / 2 + 1) (N * nrec) ((N / 2 + 1) * nrec) (-1) w.j1 r w.c s = some (c, s') ∧ Hist s' ∧
      ∀ i k, i < nrec → k ≤ N / 2 → c (i * (N / 2 + 1) + k) = Conv.spectrum N (pad nsam (trace nsam data i)) k := by
  have h1 : 0 < N := hN.1.1
  have hr' : ∀ i, i < nrec → i * N + N ≤ N * nrec := fun i hi => by
    have := hnr hi (show N - 1 < N by omega); omega
  have hpad : padData nsam nrec N lend (N * nrec) data w.r = some (padLoop nsam nrec N data w.r) := by
    unfold padData
    rw [if_pos]
    refine ⟨fun ix it hx ht => ⟨?_, hnr hx (by omega)⟩, fun ix it hx _ ht => hnr hx ht⟩
    have := row_le hx ht; omega
  obtain ⟨c, s', e, p, a, _⟩ := rcm_fft_dft_partial N nrec N (N / 2 + 1) (N * nrec) ((N / 2 + 1) * nrec) hN.1 (by omega) (Or.inl rfl)
    hr' (fun i hi => hnr hi (by omega)) (-1) (Or.inr rfl) w.j1 (padLoop nsam nrec N data w.r) w.c s hs
  refine ⟨_, c, s', hpad, e, p, fun i k hi hk => ?_⟩
  rw [a i hi k hk, spectrum_dft]
  unfold dft
  exact sum_congr rfl fun j hj => by dsimp only; rw [padLoop_val hns data w.r hi (mem_range.mp hj)]

/-- The inverse transform. -/
theorem backward (N nrec : ℕ) (hN : InvLen N) (w : Work) (g : ℕ → ℕ → ℝ) (q : ℕ → ℂ) (r : ℕ → ℝ) (s : St) (hs : Hist s)
    (hq : ∀ i k, i < nrec → k ≤ N / 2 → q (i * (N / 2 + 1) + k) = Conv.spectrum N (g i) k) :
    ∃ x s', crmFft N nrec (N / 2 + 1) N ((N / 2 + 1) * nrec) (N * nrec) 1 w.j2 q r s = some (x, s') ∧ Hist s' ∧
      ∀ i t, i < nrec → t < N → x (i * N + t) = N * g i t := by
  have h1 : 0 < N := hN.1.1
  have hr' : ∀ i, i < nrec → i * N + N ≤ N * nrec := fun i hi => by
    have := hnr hi (show N - 1 < N by omega); omega
  obtain ⟨x, s', e, p, a, _⟩ := crm_fft_dft_partial N nrec (N / 2 + 1) N ((N / 2 + 1) * nrec) (N * nrec) hN le_rfl (Or.inl rfl)
    hr' (fun i hi => hnr hi (by omega)) 1 (Or.inl rfl) w.j2 (fun i => Conv.spectrum N (g i)) q (fun i _ => spectrum_zero_im N (g i))
    (fun i _ k _ hk => spectrum_herm N h1 (g i) k hk.le) (fun i hi k hk => hq i k hi hk) r s hs
  refine ⟨x, s', e, p, fun i t hi ht => ?_⟩
  have e := a i hi t ht
  rw [spectrum_inv N h1 (g i) t ht] at e
  exact_mod_cast e

/-! ### The band -/

theorem deltom_pos {N : ℕ} (hN : 0 < N) {dt : ℝ} (hdt : 0 < dt) : 0 < deltom N dt := by
  unfold deltom; positivity

theorem angular_eq (N : ℕ) (dt : ℝ) (k : ℕ) : deltom N dt * k = angular N dt k := by
  unfold deltom angular
  ring

theorem ratio {N : ℕ} (hN : 0 < N) {dt : ℝ} (hdt : 0 < dt) (f : ℝ) : 2 * Real.pi * f / deltom N dt = f * (N * dt) := by
  have := Real.pi_pos
  unfold deltom
  field_simp

theorem iomax_eq {N : ℕ} (hN : 0 < N) {dt : ℝ} (hdt : 0 < dt) {fmax : ℝ} (h : fmax ≤ 1 / (2 * dt)) :
    iomax N dt fmax = ⌊fmax * (N * dt)⌋₊ ∧ iomax N dt fmax ≤ N / 2 := by
  have h2 : ⌊fmax * (N * dt)⌋₊ ≤ N / 2 := by
    have : fmax * (N * dt) ≤ (N : ℝ) / 2 := by
      calc fmax * (N * dt) ≤ 1 / (2 * dt) * (N * dt) := by gcongr
        _ = N / 2 := by field_simp
    rw [Nat.le_div_iff_mul_le (by norm_num)]
    rcases le_total 0 (fmax * (N * dt)) with h0 | h0
    · have := Nat.floor_le h0
      have h3 : ((⌊fmax * (N * dt)⌋₊ * 2 : ℕ) : ℝ) ≤ (N : ℝ) := by push_cast; linarith
      exact_mod_cast h3
    · rw [Nat.floor_of_nonpos h0]; omega
  unfold iomax
  rw [ratio hN hdt]
  omega

theorem inBand_iff (f : Filt) {N : ℕ} (hN : 0 < N) {dt : ℝ} (hdt : 0 < dt) (fmin : ℝ) {fmax : ℝ} (h : fmax ≤ 1 / (2 * dt)) (k : ℕ) :
    f.InBand N dt fmin fmax k ↔ iomin f.least N dt fmin ≤ k ∧ k < iomax N dt fmax := by
  obtain ⟨e1, e2⟩ := iomax_eq hN hdt h
  have hmin : k < N / 2 + 1 → (⌊min (fmin * (N * dt)) ((N / 2 + 1 : ℕ) : ℝ)⌋₊ ≤ k ↔ ⌊fmin * (N * dt)⌋₊ ≤ k) := by
    intro hk
    rcases le_total (fmin * (N * dt)) ((N / 2 + 1 : ℕ) : ℝ) with h | h
    · rw [min_eq_left h]
    · rw [min_eq_right h, Nat.floor_natCast]
      have := Nat.le_floor h
      omega
  have hl : ((∃ sec, f = .shift sec) ∨ 0 < k) ↔ f.least ≤ k := by
    cases f <;> simp [Filt.least] <;> omega
  unfold Filt.InBand iomin
  rw [ratio hN hdt, e1]
  constructor
  · rintro ⟨a, b, c⟩
    refine ⟨max_le ((hmin (by omega)).mpr a) (hl.mp c), b⟩
  · rintro ⟨a, b⟩
    exact ⟨(hmin (by omega)).mp (le_trans (le_max_left _ _) a), b, hl.mpr (le_trans (le_max_right _ _) a)⟩

theorem iomin_le (f : Filt) (N : ℕ) (dt fmin : ℝ) : iomin f.least N dt fmin ≤ N / 2 + 1 := by
  unfold iomin
  refine max_le ?_ ?_
  · have := Nat.floor_le_floor (min_le_right (2 * Real.pi * fmin / deltom N dt) ((N / 2 + 1 : ℕ) : ℝ))
    rwa [Nat.floor_natCast] at this
  · cases f <;> simp [Filt.least]

/-- A factor with the symmetry of real traces exists for every operation. -/
theorem factor_trace (f : Filt) {N : ℕ} (hN : 0 < N) {dt : ℝ} (hdt : 0 < dt) (fmin : ℝ) {fmax : ℝ} (h : fmax ≤ 1 / (2 * dt)) (x : ℕ → ℝ) :
    ∃ g : ℕ → ℝ, ∀ k, k < N → Conv.spectrum N g k = f.factor N dt fmin fmax k * Conv.spectrum N x k := by
  have hny : ∀ k, 2 * k = N → ¬ f.InBand N dt fmin fmax k := fun k hk hb => by
    have := (inBand_iff f hN hdt fmin h k).mp hb
    have := (iomax_eq hN hdt h).2
    omega
  have h0 : f.InBand N dt fmin fmax 0 → f.ideal (angular N dt 0) = 1 := by
    rintro ⟨_, _, ⟨sec, rfl⟩ | h⟩
    · simp [Filt.ideal, angular]
    · omega
  have hsym : ∀ k, 0 < k → k < N → f.factor N dt fmin fmax (N - k) = (starRingEnd ℂ) (f.factor N dt fmin fmax k) := by
    intro k hk0 hk
    by_cases h1 : 2 * k = N
    · have e : f.factor N dt fmin fmax k = 0 := by
        unfold Filt.factor
        rw [if_pos h1.le, if_neg (hny _ h1)]
      rw [show N - k = k by omega, e, map_zero]
    · unfold Filt.factor
      by_cases h2 : 2 * k ≤ N
      · rw [if_neg (by omega), if_pos h2, show N - (N - k) = k by omega]
        split
        · rfl
        · rw [map_zero]
      · rw [if_pos (by omega), if_neg h2]
        split
        · rw [conj_conj]
        · rw [map_zero]
  refine exists_trace N hN (fun k => f.factor N dt fmin fmax k * Conv.spectrum N x k) ?_ ?_
  · have e : (f.factor N dt fmin fmax 0).im = 0 := by
      unfold Filt.factor
      rw [if_pos (by omega)]
      split
      · rename_i hb; rw [h0 hb, one_im]
      · rfl
    rw [mul_im, e, spectrum_zero_im]
    simp
  · intro k hk0 hk
    rw [hsym k hk0 hk, spectrum_herm N hN x k hk.le, map_mul]

/-! ### The operations -/

/-- **C127.** Every trace of the result is the first `nsam` samples of a trace of `N` samples whose spectrum is that of the padded input
trace, times the intended factor of the operation at every frequency in the band, and zero outside.  All that lies beyond the
gather is left alone, and no array is left. -/
theorem timeFilter_spec (f : Filt) (hv : 0 < f.vel) (N nsam nrec lend : ℕ) (hN : InvLen N) (hns : nsam ≤ N) (hd : nrec * nsam ≤ lend) (dt : ℝ) (hdt : 0 < dt)
    (fmin fmax : ℝ) (hf : fmax ≤ 1 / (2 * dt)) (w : Work) (data : ℕ → ℝ) (s : St) (hs : Hist s) :
    ∃ out s', timeFilter f N nsam nrec lend dt fmin fmax w data s = some (out, s') ∧ Hist s' ∧
      (∀ i, i < nrec → ∃ g : ℕ → ℝ,
        (∀ k, k < N → Conv.spectrum N g k = f.factor N dt fmin fmax k * Conv.spectrum N (pad nsam (trace nsam data i)) k) ∧
        ∀ t, t < nsam → out (i * nsam + t) = g t) ∧
      ∀ m, nrec * nsam ≤ m → out m = data m := by
  have h1 : 0 < N := hN.1.1
  have _ := hv
  choose g hg using fun i => factor_trace f h1 hdt fmin hf (pad nsam (trace nsam data i))
  obtain ⟨r, c, s1, e1, e2, p1, a1⟩ := forward N nsam nrec lend hN hns hd w data s hs
  obtain ⟨x, s2, e3, p2, a2⟩ := backward N nrec hN w g
    (bandLoop nrec (N / 2 + 1) (iomin f.least N dt fmin) (iomax N dt fmax) (fun iom c => f.at (deltom N dt) iom c) c w.q) r s1 p1 (by
      intro i k hi hk
      rw [bandLoop_val (iomin_le f N dt fmin) (by have := (iomax_eq h1 hdt hf).2; omega) _ _ _ hi (by omega), hg i k (by omega)]
      have ef : f.factor N dt fmin fmax k = open Classical in if f.InBand N dt fmin fmax k then f.ideal (angular N dt k) else 0 := by
        unfold Filt.factor
        rw [if_pos (by omega)]
      rw [ef]
      by_cases hb : f.InBand N dt fmin fmax k
      · rw [if_pos hb, if_pos ((inBand_iff f h1 hdt fmin hf k).mp hb)]
        rw [at_ideal f _ (deltom_pos h1 hdt).le, angular_eq, a1 i k hi hk]
      · rw [if_neg hb, if_neg (fun h => hb ((inBand_iff f h1 hdt fmin hf k).mpr h)), zero_mul])
  obtain ⟨v1, v2⟩ := sclLoop_val (nsam := N) (nrec := nrec) (nsamout := nsam) (1 / N) x data
  refine ⟨sclLoop N nrec (1 / N) nsam x data, s2, ?_, p2, fun i hi => ⟨g i, hg i, fun t ht => ?_⟩, v2⟩
  · unfold timeFilter
    dsimp only
    rw [e1, Option.bind_some, e2, Option.bind_some]
    dsimp only
    rw [e3, Option.bind_some]
    dsimp only
    unfold sclData
    rw [if_pos fun ix it hx ht => ⟨hnr hx (by omega), by have := row_le hx ht; omega⟩, Option.map_some]
  · rw [v1 i t hi ht, a2 i t hi (by omega)]
    have hN' : (N : ℝ) ≠ 0 := by exact_mod_cast h1.ne'
    field_simp

end Verif.Basop

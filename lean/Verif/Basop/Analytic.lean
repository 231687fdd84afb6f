import Verif.Basop.Shift

/-!
# Hilbert transform, envelope and time reversal
-/

namespace Verif.Basop

open Complex Finset Verif Verif.Fft Verif.Fft.Lib Verif.Conv

/-! ### Specification -/

/-- `h` is the (discrete) Hilbert transform of the `N` samples of `x`: positive frequencies are multiplied with `-i`, negative ones with
`i`, the mean and the Nyquist frequency with zero. -/
def IsHilbert (N : ℕ) (x h : ℕ → ℝ) : Prop :=
  ∀ k, k < N → Conv.spectrum N h k = (if k = 0 ∨ 2 * k = N then 0 else if 2 * k < N then -I else I) * Conv.spectrum N x k

/-- The mean of the `N` samples of `x`. -/
noncomputable def mean (N : ℕ) (x : ℕ → ℝ) : ℝ := (∑ j ∈ range N, x j) / N

/-- The amplitude of the component `(-1)^t` of the `N` samples of `x`; an odd number of samples has no such component. -/
noncomputable def nyquist (N : ℕ) (x : ℕ → ℝ) : ℝ := if N % 2 = 0 then (∑ j ∈ range N, (-1) ^ j * x j) / N else 0

/-! ### The analytic signal -/

theorem hilbert_exists (N : ℕ) (hN : 0 < N) (x : ℕ → ℝ) : ∃ h, IsHilbert N x h := by
  refine exists_trace N hN (fun k => (if k = 0 ∨ 2 * k = N then 0 else if 2 * k < N then -I else I) * Conv.spectrum N x k) ?_ ?_
  · simp
  · intro k h0 hk
    rw [spectrum_herm N hN x k hk.le, map_mul]
    congr 1
    by_cases h1 : 2 * k = N
    · rw [if_pos (by omega), if_pos (by omega), map_zero]
    · rw [if_neg (show ¬ (N - k = 0 ∨ 2 * (N - k) = N) by omega), if_neg (show ¬ (k = 0 ∨ 2 * k = N) by omega)]
      by_cases h2 : 2 * k < N
      · rw [if_neg (by omega), if_pos h2, map_neg, conj_I, neg_neg]
      · rw [if_pos (by omega), if_neg h2, conj_I]

theorem hilbert_unique (N : ℕ) (hN : 0 < N) (x h h' : ℕ → ℝ) (e : IsHilbert N x h) (e' : IsHilbert N x h') (t : ℕ) (ht : t < N) : h t = h' t :=
  spectrum_inj N hN (fun k hk => by rw [e k hk, e' k hk]) t ht

theorem spectrum_mean (N : ℕ) (hN : 0 < N) (x : ℕ → ℝ) : Conv.spectrum N x 0 = N * (mean N x : ℝ) := by
  have hN' : (N : ℂ) ≠ 0 := by exact_mod_cast hN.ne'
  unfold mean
  rw [spectrum_root]
  push_cast
  rw [mul_div_cancel₀ _ hN']
  exact sum_congr rfl fun j _ => by simp

theorem spectrum_nyquist (h : ℕ) (hh : 0 < h) (x : ℕ → ℝ) : Conv.spectrum (2 * h) x h = (2 * h : ℕ) * (nyquist (2 * h) x : ℝ) := by
  have h1 : 0 < 2 * h := by omega
  have hc : ((2 * h : ℕ) : ℂ) ≠ 0 := by exact_mod_cast h1.ne'
  have hroot : ∀ j, root (-1) (2 * h) ^ (j * h) = (-1) ^ j := fun j => by
    rw [Nat.mul_comm j h, pow_mul, root_pow_quot (-1) (2 * h) 2 h (by ring) h1, root_two (-1) (Or.inr rfl)]
  unfold nyquist
  rw [if_pos (by omega), spectrum_root, sum_congr rfl (fun j _ => by rw [hroot j]), ofReal_div, ofReal_natCast, mul_div_cancel₀ _ hc]
  push_cast
  exact sum_congr rfl fun j _ => by ring

/-- The sum over the frequencies from zero to Nyquist: half the analytic signal, with the mean and the Nyquist component counted twice. -/
theorem half_sum (N : ℕ) (hN : 0 < N) (x h : ℕ → ℝ) (hh : IsHilbert N x h) (t : ℕ) (ht : t < N) :
    dft 1 N (fun k => if k < N / 2 + 1 then Conv.spectrum N x k else 0) t =
      N / 2 * ((x t : ℂ) + I * h t + mean N x + nyquist N x * (-1) ^ t) := by
  have e1 := spectrum_inv N hN x t ht
  have e2 := spectrum_inv N hN h t ht
  have hm : ∀ c : ℂ, dft 1 N (fun k => if k = 0 then c else 0) t = c := fun c => by
    unfold dft
    rw [sum_congr rfl (g := fun j => if j = 0 then c else 0) (fun j _ => by
      dsimp only
      by_cases h : j = 0
      · subst h; simp
      · rw [if_neg h, zero_mul]), sum_ite_eq' (range N) 0, if_pos (mem_range.mpr hN)]
  have hny : dft 1 N (fun k => if 2 * k = N then Conv.spectrum N x k else 0) t = N * (nyquist N x * (-1) ^ t) := by
    by_cases hev : N % 2 = 0
    · obtain ⟨m, rfl⟩ : ∃ m, N = 2 * m := ⟨N / 2, by omega⟩
      unfold dft
      rw [sum_congr rfl (g := fun j => if j = m then ((2 * m : ℕ) : ℂ) * (nyquist (2 * m) x * (-1) ^ t) else 0) (fun j _ => by
        dsimp only
        rw [← root_pow_dft]
        by_cases h : j = m
        · subst h
          rw [if_pos rfl, if_pos rfl, spectrum_nyquist j (by omega), pow_mul, root_pow_quot 1 (2 * j) 2 j (by ring) hN, root_two 1 (Or.inl rfl), mul_assoc]
        · rw [if_neg (by omega), if_neg h, zero_mul]), sum_ite_eq' (range (2 * m)) m, if_pos (mem_range.mpr (by omega))]
    · unfold dft nyquist
      rw [if_neg hev]
      rw [sum_eq_zero (fun j _ => by dsimp only; rw [if_neg (by omega), zero_mul])]
      simp
  have hsum : 2 * dft 1 N (fun k => if k < N / 2 + 1 then Conv.spectrum N x k else 0) t = dft 1 N (Conv.spectrum N x) t +
      I * dft 1 N (Conv.spectrum N h) t + dft 1 N (fun k => if k = 0 then Conv.spectrum N x 0 else 0) t +
      dft 1 N (fun k => if 2 * k = N then Conv.spectrum N x k else 0) t := by
    unfold dft
    rw [mul_sum, mul_sum, ← sum_add_distrib, ← sum_add_distrib, ← sum_add_distrib]
    refine sum_congr rfl fun k hk => ?_
    have hk := mem_range.mp hk
    dsimp only
    rw [hh k hk]
    generalize exp _ = z
    by_cases h0 : k = 0
    · subst h0
      rw [if_pos (by omega), if_pos (Or.inl rfl), if_pos rfl, if_neg (by omega)]
      ring
    · by_cases h1 : 2 * k = N
      · rw [if_pos (by omega), if_pos (Or.inr h1), if_neg h0, if_pos h1]
        ring
      · rw [if_neg (show ¬ (k = 0 ∨ 2 * k = N) by omega), if_neg h0, if_neg h1]
        by_cases h2 : 2 * k < N
        · rw [if_pos (by omega), if_pos h2]
          linear_combination (Conv.spectrum N x k * z) * I_sq
        · rw [if_neg (by omega), if_neg h2]
          linear_combination (-(Conv.spectrum N x k * z)) * I_sq
  rw [e1, e2, hm, hny, spectrum_mean N hN] at hsum
  linear_combination (1 / 2 : ℂ) * hsum

/-! ### The loops -/

theorem cpadLoop_val {nsam nrec N : ℕ} (h : nsam ≤ N) (data : ℕ → ℝ) (o : ℕ → ℂ) {i j : ℕ} (hi : i < nrec) (hj : j < N) :
    cpadLoop nsam nrec N data o (i * N + j) = (pad nsam (trace nsam data i) j : ℂ) := by
  have w := Writes.forN (n := nrec) (f := fun ix o =>
      forN (N - nsam) (fun d o => aset o (ix * N + (nsam + d)) (0 : ℂ))
        (forN nsam (fun it o => aset o (ix * N + it) (⟨data (ix * nsam + it), 0⟩ : ℂ)) o))
    (fun ix _ => (Writes.forN (n := nsam) (fun it _ => Writes.aset (ix * N + it) (⟨data (ix * nsam + it), 0⟩ : ℂ))).comp
      (Writes.forN (n := N - nsam) (fun d _ => Writes.aset (ix * N + (nsam + d)) (0 : ℂ))))
  refine w.val o ⟨i, hi, ?_⟩ ?_
  · by_cases hjn : j < nsam
    · left; exact ⟨j, hjn, rfl, by rw [pad, if_pos hjn, trace]; rfl⟩
    · right; exact ⟨j - nsam, by omega, by rw [Nat.add_sub_cancel' (by omega)], by rw [pad, if_neg hjn, ofReal_zero]⟩
  · rintro v ⟨i', hi', ⟨j', hj', e, rfl⟩ | ⟨d, hd, e, rfl⟩⟩
    · obtain ⟨rfl, rfl⟩ := rc_inj (le_refl N) hj (by omega) e
      rw [pad, if_pos hj', trace]; rfl
    · obtain ⟨rfl, rfl⟩ := rc_inj (le_refl N) hj (by omega) e
      rw [pad, if_neg (by omega), ofReal_zero]

theorem halfLoop_val {nrec nfreq N : ℕ} (o : ℕ → ℂ) {i j : ℕ} (hi : i < nrec) (hj : j < N) :
    halfLoop nrec nfreq N o (i * N + j) = if j < nfreq then o (i * N + j) else 0 := by
  have w := Writes.forN (n := nrec) (f := fun ix o => forN (N - nfreq) (fun d o => aset o (ix * N + (nfreq + d)) (0 : ℂ)) o)
    (fun ix _ => Writes.forN (n := N - nfreq) (fun d _ => Writes.aset (ix * N + (nfreq + d)) (0 : ℂ)))
  by_cases h : j < nfreq
  · rw [if_pos h]
    refine w.frame o ?_
    rintro v ⟨i', hi', d, hd, e, _⟩
    obtain ⟨rfl, rfl⟩ := rc_inj (le_refl N) hj (by omega) e
    omega
  · rw [if_neg h]
    refine w.val o ⟨i, hi, j - nfreq, by omega, by rw [Nat.add_sub_cancel' (by omega)], rfl⟩ ?_
    rintro v ⟨_, _, _, _, _, rfl⟩
    rfl

theorem outLoop_val {nsam nrec : ℕ} (F : ℕ → ℕ → ℝ) (o : ℕ → ℝ) :
    (∀ i j, i < nrec → j < nsam → forN nrec (fun ix d => forN nsam (fun j d => aset d (ix * nsam + j) (F ix j)) d) o (i * nsam + j) = F i j) ∧
      ∀ m, nrec * nsam ≤ m → forN nrec (fun ix d => forN nsam (fun j d => aset d (ix * nsam + j) (F ix j)) d) o m = o m := by
  have w := Writes.forN (n := nrec) (f := fun ix d => forN nsam (fun j d => aset d (ix * nsam + j) (F ix j)) d)
    (fun ix _ => Writes.forN (n := nsam) (fun j _ => Writes.aset (ix * nsam + j) (F ix j)))
  refine ⟨fun i j hi hj => w.val o ⟨i, hi, j, hj, rfl, rfl⟩ ?_, fun m hm => w.frame o ?_⟩
  · rintro v ⟨i', hi', j', hj', e, rfl⟩
    obtain ⟨rfl, rfl⟩ := rc_inj (le_refl nsam) hj hj' e
    rfl
  · rintro v ⟨i, hi, j, hj, e, _⟩
    have := row_le hi hj
    omega

theorem analytic_val (out : ℂ → ℝ) (nsam nrec lend : ℕ) (h0 : 0 < nsam) (h16 : nsam ≤ 16384) (hd : nrec * nsam ≤ lend) (w : Work) (data : ℕ → ℝ) (s : St)
    (hs : Hist s) :
    ∃ o s', analytic out nsam nrec lend w data s = some (o, s') ∧ Hist s' ∧
      (∀ i, i < nrec → ∃ h, IsHilbert (optncr nsam) (pad nsam (trace nsam data i)) h ∧ ∀ t, t < nsam →
        o (i * nsam + t) = out ((optncr nsam) / 2 * ((data (i * nsam + t) : ℂ) + I * h t + mean (optncr nsam) (pad nsam (trace nsam data i)) +
          nyquist (optncr nsam) (pad nsam (trace nsam data i)) * (-1) ^ t))) ∧
      ∀ m, nrec * nsam ≤ m → o m = data m := by
  have hge : nsam ≤ optncr nsam := optncr_ge_partial nsam h0 h16
  unfold analytic
  dsimp only
  generalize optncr nsam = N at *
  have h1 : 0 < N := by omega
  have hr' : ∀ i, i < nrec → i * N + N ≤ N * nrec := fun i hi => by
    have := hnr hi (show N - 1 < N by omega); omega
  rw [if_pos (fun ix j hx => ⟨fun hj => ⟨by have := row_le hx hj; omega, hnr hx (by omega)⟩, fun hj => hnr hx hj⟩)]
  obtain ⟨c1, s1, e1, p1, a1, _⟩ := ccm_fft_dft N nrec N (N * nrec) h1 le_rfl hr' (-1) (Or.inr rfl) w.j1 (cpadLoop nsam nrec N data w.c) s hs
  obtain ⟨c2, s2, e2, p2, a2, _⟩ := ccm_fft_dft N nrec N (N * nrec) h1 le_rfl hr' 1 (Or.inl rfl) w.j2 (halfLoop nrec (N / 2 + 1) N c1) s1 p1
  rw [e1, Option.bind_some]
  dsimp only
  rw [e2, Option.map_some]
  obtain ⟨v1, v2⟩ := outLoop_val (nsam := nsam) (nrec := nrec) (fun ix j => out (c2 (ix * N + j))) data
  refine ⟨_, s2, rfl, p2, fun i hi => ?_, v2⟩
  obtain ⟨h, hh⟩ := hilbert_exists N h1 (pad nsam (trace nsam data i))
  refine ⟨h, hh, fun t ht => ?_⟩
  rw [v1 i t hi ht, a2 i hi t (by omega)]
  have es : ∀ k, k < N → halfLoop nrec (N / 2 + 1) N c1 (i * N + k) =
      if k < N / 2 + 1 then Conv.spectrum N (pad nsam (trace nsam data i)) k else 0 := fun k hk => by
    rw [halfLoop_val c1 hi hk, a1 i hi k hk, spectrum_dft]
    congr 1
    unfold dft
    exact sum_congr rfl fun j hj => by dsimp only; rw [cpadLoop_val hge data w.c hi (mem_range.mp hj)]
  have ed : dft 1 N (fun j => halfLoop nrec (N / 2 + 1) N c1 (i * N + j)) t =
      dft 1 N (fun k => if k < N / 2 + 1 then Conv.spectrum N (pad nsam (trace nsam data i)) k else 0) t := by
    unfold dft
    exact sum_congr rfl fun j hj => by dsimp only; rw [es j (mem_range.mp hj)]
  rw [ed, half_sum N h1 _ h hh t (by omega)]
  have ep : pad nsam (trace nsam data i) t = data (i * nsam + t) := by rw [pad, if_pos ht, trace]
  rw [ep]

/-! ### The two operations -/

/-- **C128 (partial).** Choice `hilb` gives half the Hilbert transform of every trace (padded to the length of the transform). -/
theorem hilbertTrans_half_partial (nsam nrec lend : ℕ) (h0 : 0 < nsam) (h16 : nsam ≤ 16384) (hd : nrec * nsam ≤ lend) (w : Work) (data : ℕ → ℝ) (s : St)
    (hs : Hist s) :
    ∃ o s', hilbertTrans nsam nrec lend w data s = some (o, s') ∧ Hist s' ∧
      (∀ i, i < nrec → ∃ h, IsHilbert (optncr nsam) (pad nsam (trace nsam data i)) h ∧ ∀ t, t < nsam → o (i * nsam + t) = h t / 2) ∧
      ∀ m, nrec * nsam ≤ m → o m = data m := by
  have hge : nsam ≤ optncr nsam := optncr_ge_partial nsam h0 h16
  obtain ⟨o, s', e, p, a, f⟩ := analytic_val (fun z => z.im * (1 / (optncr nsam : ℝ))) nsam nrec lend h0 h16 hd w data s hs
  refine ⟨o, s', e, p, fun i hi => ?_, f⟩
  obtain ⟨h, hh, v⟩ := a i hi
  refine ⟨h, hh, fun t ht => ?_⟩
  rw [v t ht]
  generalize optncr nsam = N at *
  have hN' : (N : ℝ) ≠ 0 := by
    have : 0 < N := by omega
    exact_mod_cast this.ne'
  generalize mean N _ = mu
  generalize nyquist N _ = nu
  have e1 : ((N : ℂ) / 2 * ((data (i * nsam + t) : ℂ) + I * h t + mu + nu * (-1) ^ t)) =
      ((N / 2 * (data (i * nsam + t) + mu + nu * (-1) ^ t) : ℝ) : ℂ) + ((N / 2 * h t : ℝ) : ℂ) * I := by
    push_cast
    ring
  rw [e1, add_im, ofReal_im, im_ofReal_mul, I_im]
  field_simp
  ring

/-- So the Hilbert transform of the cosine comes out as half the sine. -/
theorem hilbertTrans_cosine (nsam nrec lend : ℕ) (h3 : 3 ≤ nsam) (h16 : nsam ≤ 16384) (ho : optncr nsam = nsam) (hd : nrec * nsam ≤ lend) (m : ℕ) (hm : 0 < m)
    (hm2 : 2 * m < nsam) (w : Work) (data : ℕ → ℝ) (s : St) (hs : Hist s)
    (hdata : ∀ i t, i < nrec → t < nsam → data (i * nsam + t) = Real.cos (2 * Real.pi * (m * t) / nsam)) :
    ∃ o s', hilbertTrans nsam nrec lend w data s = some (o, s') ∧
      ∀ i t, i < nrec → t < nsam → o (i * nsam + t) = Real.sin (2 * Real.pi * (m * t) / nsam) / 2 := by
  have h0 : 0 < nsam := by omega
  obtain ⟨o, s', e, _, a, _⟩ := hilbertTrans_half_partial nsam nrec lend h0 h16 hd w data s hs
  refine ⟨o, s', e, fun i t hi ht => ?_⟩
  obtain ⟨h, hh, v⟩ := a i hi
  rw [v t ht]
  rw [ho] at hh
  congr 1
  rw [← (jom_sine nsam m 1 t).1]
  have hc : ∀ t, sinusoid nsam m 1 t = Real.cos (2 * Real.pi * (m * t) / nsam) := fun t => by
    have e : exp (2 * Real.pi * I * (m * t) / nsam) = ⟨Real.cos (2 * Real.pi * (m * t) / nsam), Real.sin (2 * Real.pi * (m * t) / nsam)⟩ := by
      rw [unit_exp]
      congr 1
      push_cast
      ring
    unfold sinusoid
    rw [e, one_mul]
  refine spectrum_inj nsam h0 (fun k hk => ?_) t ht
  have hx : Conv.spectrum nsam (pad nsam (trace nsam data i)) k = Conv.spectrum nsam (sinusoid nsam m 1) k :=
    spectrum_congr nsam (fun j hj => by rw [pad, if_pos hj, trace, hdata i j hi hj, hc]) k
  rw [hh k hk, hx, sinusoid_spectrum nsam m hm hm2 _ k hk, sinusoid_spectrum nsam m hm hm2 _ k hk]
  by_cases h1 : k = m
  · rw [if_pos h1, if_pos h1, if_neg (by omega), if_pos (by omega)]
    ring
  · rw [if_neg h1, if_neg h1]
    by_cases h2 : k = nsam - m
    · rw [if_pos h2, if_pos h2, if_neg (by omega), if_neg (by omega), map_neg, conj_I, map_one]
      ring
    · rw [if_neg h2, if_neg h2, mul_zero]

theorem rcabs_norm (z : ℂ) : rcabs z = ‖z‖ := by
  unfold rcabs
  dsimp only
  rw [norm_def, normSq_apply]
  have key : ∀ x y : ℝ, 0 < |x| → |x| * Real.sqrt (1 + |y| / |x| * (|y| / |x|)) = Real.sqrt (x * x + y * y) := fun x y hx => by
    rw [← Real.sqrt_sq (abs_nonneg x), ← Real.sqrt_mul (sq_nonneg _), Real.sqrt_sq (abs_nonneg x)]
    congr 1
    field_simp
    rw [sq_abs, sq_abs]
  split
  · rename_i h
    rw [abs_eq_zero.mp h, ← Real.sqrt_sq_eq_abs]
    congr 1
    ring
  · rename_i h1
    split
    · rename_i h
      rw [abs_eq_zero.mp h, ← Real.sqrt_sq_eq_abs]
      congr 1
      ring
    · rename_i h2
      split
      · exact key _ _ (lt_of_le_of_ne (abs_nonneg _) (Ne.symm h1))
      · rw [key _ _ (lt_of_le_of_ne (abs_nonneg _) (Ne.symm h2)), add_comm]

/-- **C128 (partial).** Choice `env` gives the absolute value of the analytic signal of every trace, to which its mean and its Nyquist
component are added once more. -/
theorem envelope_partial (nsam nrec lend : ℕ) (h0 : 0 < nsam) (h16 : nsam ≤ 16384) (hd : nrec * nsam ≤ lend) (w : Work) (data : ℕ → ℝ) (s : St)
    (hs : Hist s) :
    ∃ o s', envelope nsam nrec lend w data s = some (o, s') ∧ Hist s' ∧
      (∀ i, i < nrec → ∃ h, IsHilbert (optncr nsam) (pad nsam (trace nsam data i)) h ∧ ∀ t, t < nsam →
        o (i * nsam + t) = Real.sqrt ((data (i * nsam + t) + mean (optncr nsam) (pad nsam (trace nsam data i)) +
          nyquist (optncr nsam) (pad nsam (trace nsam data i)) * (-1) ^ t) ^ 2 + h t ^ 2)) ∧
      ∀ m, nrec * nsam ≤ m → o m = data m := by
  have hge : nsam ≤ optncr nsam := optncr_ge_partial nsam h0 h16
  obtain ⟨o, s', e, p, a, f⟩ := analytic_val (fun z => rcabs z * (2 / (optncr nsam : ℝ))) nsam nrec lend h0 h16 hd w data s hs
  refine ⟨o, s', e, p, fun i hi => ?_, f⟩
  obtain ⟨h, hh, v⟩ := a i hi
  refine ⟨h, hh, fun t ht => ?_⟩
  rw [v t ht, rcabs_norm]
  generalize optncr nsam = N at *
  have hN' : (0 : ℝ) < N := by
    have : 0 < N := by omega
    exact_mod_cast this
  generalize mean N _ = mu
  generalize nyquist N _ = nu
  have e1 : ((N : ℂ) / 2 * ((data (i * nsam + t) : ℂ) + I * h t + mu + nu * (-1) ^ t)) =
      ((N / 2 : ℝ) : ℂ) * (((data (i * nsam + t) + mu + nu * (-1) ^ t : ℝ) : ℂ) + (h t : ℂ) * I) := by
    push_cast
    ring
  rw [e1, norm_mul, norm_real, Real.norm_of_nonneg (by positivity), norm_add_mul_I]
  field_simp

/-- The envelope of a constant trace is twice the constant, when the trace is not padded. -/
theorem envelope_constant (nsam nrec lend : ℕ) (h0 : 0 < nsam) (h16 : nsam ≤ 16384) (ho : optncr nsam = nsam) (hd : nrec * nsam ≤ lend) (w : Work) (data : ℕ → ℝ)
    (s : St) (hs : Hist s) (c : ℝ) (hc : 0 ≤ c) (hdata : ∀ m, m < nrec * nsam → data m = c) :
    ∃ o s', envelope nsam nrec lend w data s = some (o, s') ∧ ∀ m, m < nrec * nsam → o m = 2 * c := by
  obtain ⟨o, s', e, _, a, _⟩ := envelope_partial nsam nrec lend h0 h16 hd w data s hs
  refine ⟨o, s', e, fun m hm => ?_⟩
  have hi : m / nsam < nrec := Nat.div_lt_of_lt_mul (by rwa [Nat.mul_comm])
  have hj : m % nsam < nsam := Nat.mod_lt _ h0
  obtain ⟨h, hh, v⟩ := a (m / nsam) hi
  have em : m / nsam * nsam + m % nsam = m := Nat.div_add_mod' m nsam
  have v := v (m % nsam) hj
  rw [ho] at v hh
  rw [em] at v
  have hx : ∀ j, j < nsam → pad nsam (trace nsam data (m / nsam)) j = c := fun j hj => by
    rw [pad, if_pos hj, trace, hdata _ (row_le hi hj)]
  have hns : (nsam : ℝ) ≠ 0 := by exact_mod_cast h0.ne'
  have hmean : mean nsam (pad nsam (trace nsam data (m / nsam))) = c := by
    unfold mean
    rw [sum_congr rfl (fun j hj => hx j (mem_range.mp hj)), sum_const, card_range, nsmul_eq_mul, mul_div_cancel_left₀ _ hns]
  have hsp : ∀ k, k < nsam → k ≠ 0 → Conv.spectrum nsam (pad nsam (trace nsam data (m / nsam))) k = 0 := fun k hk hk0 => by
    rw [spectrum_root, sum_congr rfl (fun j hj => by rw [hx j (mem_range.mp hj)]), ← mul_sum,
      sum_congr rfl (fun j _ => by rw [Nat.mul_comm j k, pow_mul]) , geom_sum_eq]
    · rw [← pow_mul, Nat.mul_comm, pow_mul, root_pow_n _ _ h0, one_pow, sub_self, zero_div, mul_zero]
    · intro h1
      have hp := (root_primitive nsam (by omega)).pow_eq_one_iff_dvd k
      have h2 : root 1 nsam ^ k = 1 := by
        have := root_mul_neg 1 nsam
        have h3 : root 1 nsam ^ k * root (-1) nsam ^ k = 1 := by rw [← mul_pow, this, one_pow]
        rwa [h1, mul_one] at h3
      have := Nat.le_of_dvd (by omega) (hp.mp h2)
      omega
  have hny : nyquist nsam (pad nsam (trace nsam data (m / nsam))) = 0 := by
    by_cases hev : nsam % 2 = 0
    · obtain ⟨q, hq⟩ : ∃ q, nsam = 2 * q := ⟨nsam / 2, by omega⟩
      have e1 := hsp q (by omega) (by omega)
      rw [hq] at e1 ⊢
      rw [spectrum_nyquist q (by omega)] at e1
      have h1 : ((2 * q : ℕ) : ℂ) ≠ 0 := by
        have : 2 * q ≠ 0 := by omega
        exact_mod_cast this
      exact_mod_cast (mul_eq_zero.mp e1).resolve_left h1
    · unfold nyquist; rw [if_neg hev]
  have hz : h (m % nsam) = 0 := by
    refine spectrum_inj (g' := fun _ => 0) nsam h0 (fun k hk => ?_) _ hj
    have e0 : Conv.spectrum nsam (fun _ => (0 : ℝ)) k = 0 := by simp [Conv.spectrum]
    rw [e0, hh k hk]
    by_cases hk0 : k = 0
    · rw [if_pos (Or.inl hk0), zero_mul]
    · rw [hsp k hk hk0, mul_zero]
  rw [v, hmean, hny, hz, hdata m hm]
  rw [show (c + c + 0 * (-1) ^ (m % nsam)) ^ 2 + (0 : ℝ) ^ 2 = (2 * c) ^ 2 by ring, Real.sqrt_sq (by positivity)]

/-! ### Time reversal -/

theorem conjLoop_val {nrec nf : ℕ} (c : ℕ → ℂ) {i k : ℕ} (hi : i < nrec) (hk : k < nf) :
    forN nrec (fun ix c => forN nf (fun j c => aset c (ix * nf + j) ⟨(c (ix * nf + j)).re, -(c (ix * nf + j)).im⟩) c) c (i * nf + k) =
      (starRingEnd ℂ) (c (i * nf + k)) := by
  have inner : ∀ (n ix : ℕ) (c : ℕ → ℂ) (m : ℕ), forN n (fun j c => aset c (ix * nf + j) ⟨(c (ix * nf + j)).re, -(c (ix * nf + j)).im⟩) c m =
      if ix * nf ≤ m ∧ m < ix * nf + n then (starRingEnd ℂ) (c m) else c m := by
    intro n ix c m
    induction n with
    | zero => rw [if_neg (by omega)]; rfl
    | succ n ih =>
      rw [forN_succ]
      by_cases hm : m = ix * nf + n
      · subst hm
        rw [if_pos (by omega)]
        rw [if_neg (by omega)] at ih
        simp only [aset, if_pos]
        rw [ih]
        rfl
      · simp only [aset, if_neg hm]
        rw [ih]
        by_cases h : ix * nf ≤ m ∧ m < ix * nf + n
        · rw [if_pos h, if_pos (by omega)]
        · rw [if_neg h, if_neg (by omega)]
  have outer : ∀ (n : ℕ) (m : ℕ), forN n (fun ix c => forN nf (fun j c => aset c (ix * nf + j) ⟨(c (ix * nf + j)).re, -(c (ix * nf + j)).im⟩) c) c m =
      if m < n * nf then (starRingEnd ℂ) (c m) else c m := by
    intro n m
    induction n generalizing m with
    | zero => rw [if_neg (by omega)]; rfl
    | succ n ih =>
      rw [forN_succ, inner, ih]
      have e : (n + 1) * nf = n * nf + nf := by ring
      by_cases h : m < n * nf
      · rw [if_neg (by omega), if_pos h, if_pos (by omega)]
      · by_cases h2 : m < n * nf + nf
        · rw [if_pos (by omega), if_neg h, if_pos (by omega)]
        · rw [if_neg (by omega), if_neg h, if_neg (by omega)]
  rw [outer, if_pos (row_le hi hk)]

/-- **C129 (partial).** Choice `conjg`: sample `t` of a trace of the result is sample `nsam - t` of the input trace, for `t` from one; the first
sample is zero when the trace is padded, and the first sample of the input otherwise. -/
theorem conjugate_partial (nsam nrec lend : ℕ) (h3 : 3 ≤ nsam) (h16 : nsam ≤ 16384) (hd : nrec * nsam ≤ lend) (w : Work) (data : ℕ → ℝ) (s : St)
    (hs : Hist s) :
    ∃ o s', conjugate nsam nrec lend w data s = some (o, s') ∧ Hist s' ∧
      (∀ i t, i < nrec → 0 < t → t < nsam → o (i * nsam + t) = data (i * nsam + (nsam - t))) ∧
      (∀ i, i < nrec → o (i * nsam) = if optncr nsam = nsam then data (i * nsam) else 0) ∧
      ∀ m, nrec * nsam ≤ m → o m = data m := by
  have hge : nsam ≤ optncr nsam := optncr_ge_partial nsam (by omega) h16
  have hinv : InvLen (optncr nsam) := optncr_invLen nsam h3 h16
  unfold conjugate
  dsimp only
  generalize optncr nsam = N at *
  have h1 : 0 < N := by omega
  have hN' : (N : ℝ) ≠ 0 := by exact_mod_cast h1.ne'
  obtain ⟨r, c, s1, e1, e2, p1, a1⟩ := forward N nsam nrec lend hinv hge hd w data s hs
  rw [e1, Option.bind_some, e2, Option.bind_some]
  dsimp only
  obtain ⟨x, s2, e3, p2, a2⟩ := backward N nrec hinv w (fun i => rev N (pad nsam (trace nsam data i))) _ r s1 p1 (by
    intro i k hi hk
    rw [spectrum_rev N h1, ← a1 i k hi hk]
    exact conjLoop_val c hi (by omega))
  rw [e3, Option.bind_some]
  dsimp only
  rw [if_pos (fun ix it hx ht => ⟨by have := hnr hx (show it + (N - nsam) < N by omega); omega, by have := row_le hx ht; omega⟩)]
  obtain ⟨v1, v2⟩ := outLoop_val (nsam := nsam) (nrec := nrec) (fun ix it => 1 / N * x (ix * N + it + (N - nsam))) data
  have hv : ∀ i t, i < nrec → t < nsam → 1 / (N : ℝ) * x (i * N + t + (N - nsam)) = pad nsam (trace nsam data i) ((nsam - t) % N) := fun i t hi ht => by
    rw [Nat.add_assoc, a2 i _ hi (by omega)]
    unfold rev
    rw [show N - (t + (N - nsam)) = nsam - t by omega]
    field_simp
  refine ⟨_, s2, rfl, p2, fun i t hi h0 ht => ?_, fun i hi => ?_, v2⟩
  · rw [v1 i t hi ht, hv i t hi ht, Nat.mod_eq_of_lt (by omega), pad, if_pos (by omega), trace]
  · have e := v1 i 0 hi (by omega)
    rw [Nat.add_zero] at e
    rw [e, hv i 0 hi (by omega), Nat.sub_zero]
    by_cases hN : N = nsam
    · rw [if_pos hN, hN, Nat.mod_self, pad, if_pos (by omega), trace, Nat.add_zero]
    · rw [if_neg hN, Nat.mod_eq_of_lt (by omega), pad, if_neg (by omega)]

/-- The header puts the first sample of the reversed trace at `-(n1-1) d1` (basop.c:294); then sample `t` is at time `-τ` of the sample
`nsam - 1 - t` of the input, but it holds the sample after that one. -/
theorem conjugate_late (nsam nrec lend : ℕ) (h3 : 3 ≤ nsam) (h16 : nsam ≤ 16384) (hd : nrec * nsam ≤ lend) (hr : 0 < nrec) (w : Work) (s : St)
    (hs : Hist s) : ∃ data : ℕ → ℝ, ∃ o s', conjugate nsam nrec lend w data s = some (o, s') ∧
      (∃ t, t < nsam ∧ o t ≠ data (nsam - 1 - t)) ∧ ∀ t, t < nsam → data t = 0 ∨ t = 1 := by
  obtain ⟨o, s', e, _, a, _⟩ := conjugate_partial nsam nrec lend h3 h16 hd w (fun m => if m = 1 then 1 else 0) s hs
  refine ⟨_, o, s', e, ⟨nsam - 1, by omega, ?_⟩, fun t _ => ?_⟩
  · have := a 0 (nsam - 1) hr (by omega) (by omega)
    rw [Nat.zero_mul, Nat.zero_add, Nat.zero_add, if_pos (by omega)] at this
    rw [this, if_neg (by omega)]
    norm_num
  · by_cases h : t = 1
    · exact Or.inr h
    · left; rw [if_neg h]

end Verif.Basop

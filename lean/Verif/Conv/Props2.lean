import Verif.Conv.Props

/-!
# What `fconv` computes: deconvolution and coherence
-/

namespace Verif.Conv

open Complex Finset Verif Verif.Fft Verif.Fft.Lib

/-- The spectrum of trace `i`, padded. -/
noncomputable def sp (nsam : Nat) (d : Nat → ℝ) (i k : Nat) : ℂ := spectrum (optncr nsam) (pad nsam (trace nsam d i)) k

theorem sp_zero_im (nsam : Nat) (d : Nat → ℝ) (i : Nat) : (sp nsam d i 0).im = 0 := spectrum_zero_im _ _

theorem sp_herm (nsam : Nat) (hN : 0 < optncr nsam) (d : Nat → ℝ) (i k : Nat) (hk : k ≤ optncr nsam) :
    sp nsam d i (optncr nsam - k) = (starRingEnd ℂ) (sp nsam d i k) := spectrum_herm _ hN _ _ hk

/-! ### The largest value -/

theorem maxLoop_spec (n : Nat) (den : Nat → ℝ) :
    0 ≤ maxLoop n den ∧ (∀ j, j < n → den j ≤ maxLoop n den) ∧ (maxLoop n den = 0 ∨ ∃ j, j < n ∧ den j = maxLoop n den) := by
  unfold maxLoop
  induction n with
  | zero => exact ⟨le_rfl, fun j hj => by omega, Or.inl rfl⟩
  | succ n ih =>
    rw [forN_succ]
    generalize forN n (fun j m => if den j > m then den j else m) 0 = r at ih
    obtain ⟨h1, h2, h3⟩ := ih
    split
    · rename_i h
      refine ⟨h1.trans h.le, fun j hj => ?_, Or.inr ⟨n, by omega, rfl⟩⟩
      by_cases hj' : j = n
      · rw [hj']
      · exact (h2 j (by omega)).trans h.le
    · rename_i h
      refine ⟨h1, fun j hj => ?_, ?_⟩
      · by_cases hj' : j = n
        · rw [hj']; exact not_lt.mp h
        · exact h2 j (by omega)
      · rcases h3 with h3 | ⟨j, hj, e⟩
        · exact Or.inl h3
        · exact Or.inr ⟨j, by omega, e⟩

theorem maxLoop_eq (n : Nat) (den : Nat → ℝ) (h0 : ∀ j, j < n → 0 ≤ den j) (M : ℝ) (hM : ∀ j, j < n → den j ≤ M)
    (hM' : ∃ j, j < n ∧ den j = M) : maxLoop n den = M := by
  obtain ⟨h1, h2, h3⟩ := maxLoop_spec n den
  obtain ⟨j, hj, e⟩ := hM'
  apply le_antisymm
  · rcases h3 with h3 | ⟨j', hj', e'⟩
    · rw [h3, ← e]; exact h0 j hj
    · rw [← e']; exact hM j' hj'
  · rw [← e]; exact h2 j hj

theorem split_index {n nf m : Nat} (hm : m < n * nf) : ∃ i k, i < n ∧ k < nf ∧ m = i * nf + k := by
  have hf : 0 < nf := by
    rcases Nat.eq_zero_or_pos nf with rfl | h
    · simp at hm
    · exact h
  exact ⟨m / nf, m % nf, Nat.div_lt_of_lt_mul (by rw [Nat.mul_comm]; exact hm), Nat.mod_lt _ hf, by rw [Nat.mul_comm, Nat.div_add_mod]⟩

theorem denDec_eq (p2 : Nat → ℂ) (j : Nat) : denDec p2 j = normSq (p2 j) := by
  rw [denDec, normSq_apply]

/-! ### Deconvolution -/

/-- **C89.** `deconv`: with `M` the largest value of `|X2|²` over all traces and frequencies and `λ = reps·M + eps`, each trace of the
result is `dt` times the trace `g` with `(|X2|² + λ) G = X1 X2*` at every frequency; with `shift` delayed.  No denominator may be zero. -/
theorem deconv_spec (nrec nsam lend lenc : Nat) (h3 : 3 ≤ nsam) (h16 : nsam ≤ 16384) (hd : nrec * nsam ≤ lend) (hc : nrec * nsam ≤ lenc)
    (dt eps reps : ℝ) (shift : Bool) (hdt : shift = true → dt ≠ 0) (w : Work) (d1 d2 cov : Nat → ℝ) (s : St) (hs : Hist s) (M : ℝ)
    (hM : ∀ i k, i < nrec → k ≤ optncr nsam / 2 → normSq (sp nsam d2 i k) ≤ M)
    (hM' : ∃ i k, i < nrec ∧ k ≤ optncr nsam / 2 ∧ normSq (sp nsam d2 i k) = M)
    (hne : ∀ i k, i < nrec → k ≤ optncr nsam / 2 → normSq (sp nsam d2 i k) + (reps * M + eps) ≠ 0) :
    ∃ cov' s', deconv nrec nsam lend lenc dt eps reps shift w d1 d2 cov s = some (cov', s') ∧ Hist s' ∧
      (∃ g : Nat → Nat → ℝ,
        (∀ i k, i < nrec → k < optncr nsam → (normSq (sp nsam d2 i k) + (reps * M + eps) : ℝ) * spectrum (optncr nsam) (g i) k =
          sp nsam d1 i k * (starRingEnd ℂ) (sp nsam d2 i k)) ∧
        ∀ i t, i < nrec → t < nsam → cov' (i * nsam + t) = dt * placed (optncr nsam) nsam shift (g i) t) ∧
      ∀ m, nrec * nsam ≤ m → cov' m = cov m := by
  have hge : nsam ≤ optncr nsam := optncr_ge_partial nsam (by omega) h16
  have hN : 0 < optncr nsam := by omega
  set L := reps * M + eps with hL
  let Q : Nat → Nat → ℂ := fun i k => sp nsam d1 i k * (starRingEnd ℂ) (sp nsam d2 i k) / ((normSq (sp nsam d2 i k) + L : ℝ) : ℂ)
  have hg : ∀ i, ∃ g : Nat → ℝ, ∀ k, k < optncr nsam → spectrum (optncr nsam) g k = Q i k := by
    intro i
    refine exists_trace _ hN (Q i) ?_ ?_
    · dsimp only [Q]
      rw [← ofReal_re (normSq _ + L), conj_eq_iff_im.mpr (sp_zero_im nsam d2 i), div_ofReal_im, mul_im, sp_zero_im, sp_zero_im]
      simp
    · intro k _ hk
      dsimp only [Q]
      rw [sp_herm _ hN _ _ _ hk.le, sp_herm _ hN _ _ _ hk.le, normSq_conj, map_div₀, map_mul, conj_ofReal]
  choose g hg using hg
  have hden : ∀ i k, i < nrec → k < optncr nsam → normSq (sp nsam d2 i k) + L ≠ 0 := by
    intro i k hi hk
    by_cases h : k ≤ optncr nsam / 2
    · exact hne i k hi h
    · have := hne i (optncr nsam - k) hi (by omega)
      rwa [sp_herm _ hN _ _ _ hk.le, normSq_conj] at this
  obtain ⟨cov', s', e, p, a, f⟩ := through_spec nrec nsam nsam lend lenc h3 h16 le_rfl hd hc dt
    (fun p1 p2 => decComb (nrec * (optncr nsam / 2 + 1)) eps reps p1 p2 w.q) (shifted nrec nsam dt shift) w d1 d2 cov s hs
    (fun i => placed (optncr nsam) nsam shift (g i)) (fun p1 p2 e1 e2 => by
      have hmax : maxLoop (nrec * (optncr nsam / 2 + 1)) (denDec p2) = M := by
        refine maxLoop_eq _ _ (fun j _ => by rw [denDec_eq]; exact normSq_nonneg _) M (fun j hj => ?_) ?_
        · obtain ⟨i, k, hi, hk, rfl⟩ := split_index hj
          rw [denDec_eq, e2 i k hi (by omega)]
          exact hM i k hi (by omega)
        · obtain ⟨i, k, hi, hk, e⟩ := hM'
          exact ⟨_, row_le hi (show k < optncr nsam / 2 + 1 by omega), by rw [denDec_eq, e2 i k hi hk]; exact e⟩
      unfold decComb
      dsimp only
      rw [hmax, ← hL, if_pos fun j hj => by
        obtain ⟨i, k, hi, hk, rfl⟩ := split_index hj
        rw [denDec_eq, e2 i k hi (by omega)]
        exact hne i k hi (by omega)]
      refine ⟨_, rfl, fun i k hi hk => ?_⟩
      rw [shifted_val nrec nsam hN dt shift hdt _ hi hk, spectrum_placed _ _ hN hge, hg i k (by omega)]
      congr 1
      have hv : ∀ j, decLoop (nrec * (optncr nsam / 2 + 1)) L p1 p2 w.q j =
          if j < nrec * (optncr nsam / 2 + 1) then p1 j * (starRingEnd ℂ) (p2 j) / ((normSq (p2 j) + L : ℝ) : ℂ) else w.q j := by
        intro j
        rw [← eachLoop _ (fun j _ => p1 j * (starRingEnd ℂ) (p2 j) / ((normSq (p2 j) + L : ℝ) : ℂ))]
        unfold decLoop
        refine congrFun (congrArg (fun f => forN (nrec * (optncr nsam / 2 + 1)) f w.q) ?_) j
        funext j q
        rw [← mul_conj_re_im, denDec_eq]
        have key : ∀ a b c : ℝ, (⟨a / c, b / c⟩ : ℂ) = (⟨a, b⟩ : ℂ) / (c : ℂ) := by
          intro a b c
          apply Complex.ext
          · rw [div_ofReal_re]
          · rw [div_ofReal_im]
        rw [key, key]
        split
        · congr 3 <;> ring
        · rfl
      rw [hv, if_pos (row_le hi (by omega)), e1 i k hi hk, e2 i k hi hk]
      rfl)
  refine ⟨cov', s', e, p, ⟨g, fun i k hi hk => ?_, a⟩, f⟩
  rw [hg i k hk]
  have : ((normSq (sp nsam d2 i k) + L : ℝ) : ℂ) ≠ 0 := by exact_mod_cast hden i k hi hk
  dsimp only [Q]
  field_simp

/-- **C89 (zero denominators).** Without stabilisation a frequency missing in a trace of `data2` is a division by zero. -/
theorem deconv_divides_by_zero (nrec nsam lend lenc : Nat) (h3 : 3 ≤ nsam) (h16 : nsam ≤ 16384) (hd : nrec * nsam ≤ lend)
    (dt : ℝ) (shift : Bool) (w : Work) (d1 d2 cov : Nat → ℝ) (s : St) (hs : Hist s)
    (h0 : ∃ i k, i < nrec ∧ k ≤ optncr nsam / 2 ∧ sp nsam d2 i k = 0) :
    deconv nrec nsam lend lenc dt 0 0 shift w d1 d2 cov s = none := by
  obtain ⟨p1, p2, r1, s2, _, _, b2, e⟩ := through_fwd nrec nsam nsam lend lenc h3 h16 hd dt
    (fun p1 p2 => decComb (nrec * (optncr nsam / 2 + 1)) 0 0 p1 p2 w.q) (shifted nrec nsam dt shift) w d1 d2 cov s hs
  unfold deconv
  rw [e]
  obtain ⟨i, k, hi, hk, h⟩ := h0
  have : decComb (nrec * (optncr nsam / 2 + 1)) 0 0 p1 p2 w.q = none := by
    unfold decComb
    dsimp only
    rw [if_neg]
    intro hall
    refine hall (i * (optncr nsam / 2 + 1) + k) (row_le hi (by omega)) ?_
    rw [denDec_eq, b2 i k hi hk]
    unfold sp at h
    rw [h]; simp
  rw [this, Option.bind_none]

theorem exists_max (n nf : Nat) (hn : 0 < n) (hf : 0 < nf) (F : Nat → Nat → ℝ) (h0 : ∀ i k, 0 ≤ F i k) :
    ∃ M, (∀ i k, i < n → k < nf → F i k ≤ M) ∧ ∃ i k, i < n ∧ k < nf ∧ F i k = M := by
  obtain ⟨h1, h2, h3⟩ := maxLoop_spec (n * nf) (fun j => F (j / nf) (j % nf))
  have hv : ∀ i k, k < nf → (i * nf + k) / nf = i ∧ (i * nf + k) % nf = k := fun i k hk => by
    rw [Nat.mul_comm, Nat.mul_add_div hf, Nat.div_eq_of_lt hk, Nat.mul_add_mod, Nat.mod_eq_of_lt hk]
    simp
  have hle : ∀ i k, i < n → k < nf → F i k ≤ maxLoop (n * nf) (fun j => F (j / nf) (j % nf)) := by
    intro i k hi hk
    have := h2 (i * nf + k) (row_le hi hk)
    rwa [(hv i k hk).1, (hv i k hk).2] at this
  refine ⟨_, hle, ?_⟩
  rcases h3 with h3 | ⟨j, hj, e⟩
  · refine ⟨0, 0, hn, hf, le_antisymm (hle 0 0 hn hf) ?_⟩
    rw [h3]; exact h0 0 0
  · obtain ⟨i, k, hi, hk, rfl⟩ := split_index hj
    rw [(hv i k hk).1, (hv i k hk).2] at e
    exact ⟨i, k, hi, hk, e⟩

/-- **C89 (inverse of the convolution).** When the number of samples needs no padding and no frequency of `data2` is missing,
deconvolution without stabilisation followed by convolution gives `data1` back, times `dt²`. -/
theorem convol_deconv (nrec nsam lend lenc lenc' : Nat) (h3 : 3 ≤ nsam) (h16 : nsam ≤ 16384) (hN : optncr nsam = nsam) (hr : 0 < nrec)
    (hd : nrec * nsam ≤ lend) (hc : nrec * nsam ≤ lenc) (hc' : nrec * nsam ≤ lenc') (dt : ℝ) (w w' : Work) (d1 d2 cov con : Nat → ℝ)
    (s : St) (hs : Hist s) (hne : ∀ i k, i < nrec → k ≤ nsam / 2 → sp nsam d2 i k ≠ 0) :
    ∃ cov' s' con' s'', deconv nrec nsam lend lenc dt 0 0 false w d1 d2 cov s = some (cov', s') ∧
      convol nrec nsam (min lenc lend) lenc' dt false w' cov' d2 con s' = some (con', s'') ∧
      ∀ m, m < nrec * nsam → con' m = dt ^ 2 * d1 m := by
  obtain ⟨M, hM, i0, k0, hi0, hk0, hM'⟩ := exists_max nrec (nsam / 2 + 1) hr (by omega) (fun i k => normSq (sp nsam d2 i k))
    (fun _ _ => normSq_nonneg _)
  have hp : 0 < nsam := by omega
  obtain ⟨cov', s', e, p, ⟨g, hg, a⟩, _⟩ := deconv_spec nrec nsam lend lenc h3 h16 hd hc dt 0 0 false (by simp) w d1 d2 cov s hs M
    (fun i k hi hk => hM i k hi (by rw [hN] at hk; omega)) ⟨i0, k0, hi0, by rw [hN]; omega, hM'⟩
    (fun i k hi hk => by
      rw [hN] at hk
      rw [zero_mul, add_zero, add_zero]
      exact fun h => hne i k hi hk (normSq_eq_zero.mp h))
  obtain ⟨con', s'', e2, _, a2, _⟩ := convol_spec nrec nsam (min lenc lend) lenc' h3 h16 (by omega) hc' dt false (by simp) w' cov' d2 con
    s' p
  refine ⟨cov', s', con', s'', e, e2, fun m hm => ?_⟩
  obtain ⟨i, t, hi, ht, rfl⟩ := split_index hm
  rw [a2 i t hi ht, hN, placed, if_neg (by simp)]
  have key : cconv nsam (pad nsam (trace nsam cov' i)) (pad nsam (trace nsam d2 i)) t = dt * trace nsam d1 i t := by
    refine spectrum_inj nsam hp (g' := fun t => dt * trace nsam d1 i t) (fun k hk => ?_) t ht
    have h1 : spectrum nsam (pad nsam (trace nsam cov' i)) k = dt * spectrum nsam (g i) k := by
      rw [← spectrum_smul]
      refine spectrum_congr _ (fun j hj => ?_) k
      rw [pad, if_pos hj, trace, a i j hi hj, placed, if_neg (by simp)]
    have h2 : ∀ d : Nat → ℝ, sp nsam d i k = spectrum nsam (trace nsam d i) k := fun d => by
      rw [sp, hN]
      exact spectrum_congr _ (fun j hj => by rw [pad, if_pos hj]) k
    have h3 : spectrum nsam (pad nsam (trace nsam d2 i)) k = sp nsam d2 i k := by rw [sp, hN]
    have h4 := hg i k hi (by omega)
    rw [hN] at h4
    have h5 : sp nsam d2 i k ≠ 0 := by
      by_cases h : k ≤ nsam / 2
      · exact hne i k hi h
      · intro h0
        refine hne i (nsam - k) hi (by omega) ?_
        have := sp_herm nsam (by omega) d2 i k (by omega)
        rw [hN] at this
        rw [this, h0, map_zero]
    rw [spectrum_cconv _ hp, h1, h3, spectrum_smul, ← h2 d1]
    rw [zero_mul, add_zero, add_zero, ← mul_conj] at h4
    have h6 : (starRingEnd ℂ) (sp nsam d2 i k) ≠ 0 := (map_ne_zero _).mpr h5
    have h7 : sp nsam d2 i k * spectrum nsam (g i) k = sp nsam d1 i k :=
      mul_right_cancel₀ h6 (by linear_combination h4)
    linear_combination (dt : ℂ) * h7
  rw [key, trace]
  ring

/-! ### Coherence -/

theorem denCoh_eq (p1 p2 : Nat → ℂ) (j : Nat) : denCoh p1 p2 j = ‖p1 j‖ * ‖p2 j‖ := by
  rw [denCoh, Complex.norm_def, Complex.norm_def, normSq_apply, normSq_apply]

/-- A loop over a row that writes known values and hands a number on. -/
theorem rowLoopM (b n : Nat) (P : ℝ → Prop) (V : Nat → ℂ) (f : Nat → (Nat → ℂ) × ℝ → Option ((Nat → ℂ) × ℝ))
    (hf : ∀ j, j < n → ∀ s, P s.2 → ∃ r, P r ∧ f j s = some (aset s.1 (j + b) (V (j + b)), r)) (s : (Nat → ℂ) × ℝ) (hs : P s.2) :
    ∃ s', forNM n f s = some s' ∧ P s'.2 ∧ ∀ m, s'.1 m = if b ≤ m ∧ m < b + n then V m else s.1 m := by
  induction n with
  | zero => exact ⟨s, rfl, hs, fun m => by rw [if_neg (by omega)]⟩
  | succ n ih =>
    obtain ⟨s', e, hp, a⟩ := ih fun j hj => hf j (by omega)
    obtain ⟨r, hr, e2⟩ := hf n (by omega) s' hp
    refine ⟨_, by rw [forNM_succ, e, Option.bind_some, e2], hr, fun m => ?_⟩
    unfold aset
    dsimp only
    by_cases hm : m = n + b
    · rw [if_pos hm, if_pos (by omega), hm]
    · rw [if_neg hm, a]
      by_cases h : b ≤ m ∧ m < b + n
      · rw [if_pos h, if_pos (by omega)]
      · rw [if_neg h, if_neg (by omega)]

theorem cohLoop_val (nrec nf : Nat) (epsmax eps reps : ℝ) (p1 p2 : Nat → ℂ) (P : ℝ → Prop) (V : Nat → ℂ)
    (hV : ∀ i k, i < nrec → k < nf → ∀ s : (Nat → ℂ) × ℝ, P s.2 → ∃ r, P r ∧
      cohStep epsmax (reps * maxLoop nf (fun j => denCoh p1 p2 (j + i * nf)) + eps) (maxLoop nf fun j => denCoh p1 p2 (j + i * nf)) p1 p2
        (k + i * nf) s = some (aset s.1 (k + i * nf) (V (k + i * nf)), r)) (s : (Nat → ℂ) × ℝ) (hs : P s.2) :
    ∃ s', cohLoop nrec nf epsmax eps reps p1 p2 s = some s' ∧ P s'.2 ∧ ∀ m, m < nrec * nf → s'.1 m = V m := by
  unfold cohLoop
  induction nrec with
  | zero => exact ⟨s, rfl, hs, fun m hm => by omega⟩
  | succ n ih =>
    obtain ⟨s', e, hp, a⟩ := ih fun i k hi => hV i k (by omega)
    obtain ⟨s2, e2, hp2, a2⟩ := rowLoopM (n * nf) nf P V _ (fun j hj => hV n j (by omega) hj) s' hp
    refine ⟨s2, by rw [forNM_succ, e, Option.bind_some]; exact e2, hp2, fun m hm => ?_⟩
    rw [a2 m]
    rw [Nat.add_mul, Nat.one_mul] at hm
    split
    · rfl
    · exact a m (by omega)

/-- **C90.** `cohr`: with `D = |X1||X2|`, `M` the largest `D` of the trace and `λ = reps·M + eps`, each trace of the result is `dt` times
the trace with spectrum `X1 X2*/D` where `D > epsmax·M`, and `X1 X2*/(D+λ)` where `D < epsmax·M`; the spectrum never exceeds 1.
No `D` but zero may be exactly `epsmax·M`; see `cohr_uninitialised`. -/
theorem cohr_spec_partial (nrec nsam lend lenc : Nat) (h3 : 3 ≤ nsam) (h16 : nsam ≤ 16384) (hd : nrec * nsam ≤ lend) (hc : nrec * nsam ≤ lenc)
    (dt epsmax eps reps : ℝ) (hmax : 0 ≤ epsmax) (heps : 0 ≤ eps) (hreps : 0 ≤ reps) (shift : Bool) (hdt : shift = true → dt ≠ 0) (w : Work)
    (d1 d2 cov : Nat → ℝ) (s : St) (hs : Hist s) (M : Nat → ℝ)
    (hM : ∀ i k, i < nrec → k ≤ optncr nsam / 2 → ‖sp nsam d1 i k‖ * ‖sp nsam d2 i k‖ ≤ M i)
    (hM' : ∀ i, i < nrec → ∃ k, k ≤ optncr nsam / 2 ∧ ‖sp nsam d1 i k‖ * ‖sp nsam d2 i k‖ = M i)
    (htie : ∀ i k, i < nrec → k ≤ optncr nsam / 2 → ‖sp nsam d1 i k‖ * ‖sp nsam d2 i k‖ ≠ 0 →
      ‖sp nsam d1 i k‖ * ‖sp nsam d2 i k‖ ≠ epsmax * M i) :
    ∃ cov' s', cohr nrec nsam lend lenc dt epsmax eps reps shift w d1 d2 cov s = some (cov', s') ∧ Hist s' ∧
      (∃ g : Nat → Nat → ℝ,
        (∀ i k, i < nrec → k < optncr nsam →
          (‖sp nsam d1 i k‖ * ‖sp nsam d2 i k‖ > epsmax * M i → (‖sp nsam d1 i k‖ * ‖sp nsam d2 i k‖ : ℝ) * spectrum (optncr nsam) (g i) k =
            sp nsam d1 i k * (starRingEnd ℂ) (sp nsam d2 i k)) ∧
          (‖sp nsam d1 i k‖ * ‖sp nsam d2 i k‖ < epsmax * M i →
            (‖sp nsam d1 i k‖ * ‖sp nsam d2 i k‖ + (reps * M i + eps) : ℝ) * spectrum (optncr nsam) (g i) k =
            sp nsam d1 i k * (starRingEnd ℂ) (sp nsam d2 i k)) ∧
          (‖sp nsam d1 i k‖ * ‖sp nsam d2 i k‖ = 0 → spectrum (optncr nsam) (g i) k = 0) ∧
          ‖spectrum (optncr nsam) (g i) k‖ ≤ 1) ∧
        ∀ i t, i < nrec → t < nsam → cov' (i * nsam + t) = dt * placed (optncr nsam) nsam shift (g i) t) ∧
      ∀ m, nrec * nsam ≤ m → cov' m = cov m := by
  have hge : nsam ≤ optncr nsam := optncr_ge_partial nsam (by omega) h16
  have hN : 0 < optncr nsam := by omega
  let D : Nat → Nat → ℝ := fun i k => ‖sp nsam d1 i k‖ * ‖sp nsam d2 i k‖
  have hD : ∀ i k, D i k = ‖sp nsam d1 i k‖ * ‖sp nsam d2 i k‖ := fun _ _ => rfl
  simp only [← hD] at hM hM' htie ⊢
  have hD0 : ∀ i k, 0 ≤ D i k := fun i k => mul_nonneg (norm_nonneg _) (norm_nonneg _)
  have hDh : ∀ i k, k ≤ optncr nsam → D i (optncr nsam - k) = D i k := by
    intro i k hk
    rw [hD, hD, sp_herm _ hN _ _ _ hk, sp_herm _ hN _ _ _ hk, norm_conj, norm_conj]
  have hM0 : ∀ i, i < nrec → 0 ≤ M i := fun i hi => (hD0 i 0).trans (hM i 0 hi (by omega))
  have hl0 : ∀ i, i < nrec → 0 ≤ reps * M i + eps := fun i hi => add_nonneg (mul_nonneg hreps (hM0 i hi)) heps
  let c : Nat → Nat → ℝ := fun i k => if D i k > epsmax * M i then 1 / D i k else if D i k = 0 then 1 else 1 / (D i k + (reps * M i + eps))
  let Q : Nat → Nat → ℂ := fun i k => sp nsam d1 i k * (starRingEnd ℂ) (sp nsam d2 i k) * (c i k : ℂ)
  have hg : ∀ i, ∃ g : Nat → ℝ, ∀ k, k < optncr nsam → spectrum (optncr nsam) g k = Q i k := by
    intro i
    refine exists_trace _ hN (Q i) ?_ ?_
    · dsimp only [Q]
      rw [conj_eq_iff_im.mpr (sp_zero_im nsam d2 i), im_mul_ofReal, mul_im, sp_zero_im, sp_zero_im]
      simp
    · intro k _ hk
      have hc : c i (optncr nsam - k) = c i k := by dsimp only [c]; rw [hDh i k hk.le]
      dsimp only [Q]
      rw [hc, sp_herm _ hN _ _ _ hk.le, sp_herm _ hN _ _ _ hk.le, map_mul, map_mul, conj_ofReal]
  choose g hg using hg
  obtain ⟨cov', s', e, p, a, f⟩ := through_spec nrec nsam nsam lend lenc h3 h16 le_rfl hd hc dt
    (fun p1 p2 => (cohLoop nrec (optncr nsam / 2 + 1) epsmax eps reps p1 p2 (w.q, w.scl)).map (·.1)) (shifted nrec nsam dt shift) w d1 d2 cov
    s hs (fun i => placed (optncr nsam) nsam shift (g i)) (fun p1 p2 e1 e2 => by
      have hden : ∀ i k, i < nrec → k < optncr nsam / 2 + 1 → denCoh p1 p2 (k + i * (optncr nsam / 2 + 1)) = D i k := fun i k hi hk => by
        rw [denCoh_eq, Nat.add_comm k, e1 i k hi (by omega), e2 i k hi (by omega)]; rfl
      have hmax' : ∀ i, i < nrec → maxLoop (optncr nsam / 2 + 1) (fun j => denCoh p1 p2 (j + i * (optncr nsam / 2 + 1))) = M i := by
        intro i hi
        refine maxLoop_eq _ _ (fun j hj => by rw [hden i j hi hj]; exact hD0 i j) (M i) (fun j hj => ?_) ?_
        · rw [hden i j hi hj]; exact hM i j hi (by omega)
        · obtain ⟨k, hk, e⟩ := hM' i hi
          exact ⟨k, by omega, by rw [hden i k hi (by omega), e]⟩
      obtain ⟨r, er, _, ar⟩ := cohLoop_val nrec (optncr nsam / 2 + 1) epsmax eps reps p1 p2 (fun _ => True)
        (fun m => Q (m / (optncr nsam / 2 + 1)) (m % (optncr nsam / 2 + 1))) (fun i k hi hk s _ => by
          rw [hmax' i hi]
          unfold cohStep
          rw [hden i k hi hk]
          have hs : cohScl epsmax (reps * M i + eps) (M i) (D i k) s.2 = some (c i k) := by
            unfold cohScl
            dsimp only [c]
            by_cases h1 : D i k > epsmax * M i
            · have : D i k ≠ 0 := (lt_of_le_of_lt (mul_nonneg hmax (hM0 i hi)) h1).ne'
              rw [if_pos h1, if_neg this, if_pos h1]
            · rw [if_neg h1, if_neg h1]
              by_cases h0 : D i k = 0
              · rw [if_neg (by simp [h0]), if_pos h0, if_pos h0]
              · have hlt : D i k < epsmax * M i := lt_of_le_of_ne (not_lt.mp h1) (htie i k hi (by omega) h0)
                have hp : 0 < D i k := lt_of_le_of_ne (hD0 i k) (Ne.symm h0)
                rw [if_pos ⟨hlt, h0⟩, if_neg (by have := hl0 i hi; positivity), if_neg h0]
          rw [hs, Option.map_some]
          refine ⟨c i k, trivial, ?_⟩
          congr 3
          have hdm : (k + i * (optncr nsam / 2 + 1)) / (optncr nsam / 2 + 1) = i ∧ (k + i * (optncr nsam / 2 + 1)) % (optncr nsam / 2 + 1) = k := by
            rw [Nat.add_mul_div_right _ _ (by omega), Nat.div_eq_of_lt hk, Nat.add_mul_mod_self_right, Nat.mod_eq_of_lt hk]
            simp
          rw [hdm.1, hdm.2]
          dsimp only [Q, sp]
          rw [Nat.add_comm k, ← e1 i k hi (by omega), ← e2 i k hi (by omega), ← mul_conj_re_im]
          apply Complex.ext <;> simp) (w.q, w.scl) trivial
      refine ⟨r.1, by rw [er, Option.map_some], fun i k hi hk => ?_⟩
      rw [shifted_val nrec nsam hN dt shift hdt _ hi hk, spectrum_placed _ _ hN hge, hg i k (by omega), ar _ (row_le hi (by omega))]
      rw [Nat.mul_comm i, Nat.mul_add_div (by omega), Nat.div_eq_of_lt (show k < optncr nsam / 2 + 1 by omega), Nat.mul_add_mod,
        Nat.mod_eq_of_lt (show k < optncr nsam / 2 + 1 by omega), Nat.add_zero])
  refine ⟨cov', s', e, p, ⟨g, fun i k hi hk => ?_, a⟩, f⟩
  rw [hg i k hk]
  have hnorm : ‖Q i k‖ = D i k * |c i k| := by
    dsimp only [Q]
    rw [norm_mul, norm_mul, norm_conj, norm_real, Real.norm_eq_abs]
  have hz : D i k = 0 → sp nsam d1 i k * (starRingEnd ℂ) (sp nsam d2 i k) = 0 := fun h => by
    rw [← norm_eq_zero, norm_mul, norm_conj]; exact h
  refine ⟨fun h => ?_, fun h => ?_, fun h => ?_, ?_⟩
  · have h0 : D i k ≠ 0 := (lt_of_le_of_lt (mul_nonneg hmax (hM0 i hi)) h).ne'
    have h0' : (D i k : ℂ) ≠ 0 := by exact_mod_cast h0
    dsimp only [Q, c]
    rw [if_pos h]
    push_cast
    field_simp
  · dsimp only [Q, c]
    rw [if_neg (not_lt.mpr h.le)]
    by_cases h0 : D i k = 0
    · rw [if_pos h0, hz h0]; simp
    · have hp : 0 < D i k := lt_of_le_of_ne (hD0 i k) (Ne.symm h0)
      have h1 : (D i k + (reps * M i + eps)) ≠ 0 := by have := hl0 i hi; positivity
      have h2 : ((D i k + (reps * M i + eps) : ℝ) : ℂ) ≠ 0 := by exact_mod_cast h1
      rw [if_neg h0, ofReal_div, ofReal_one]
      field_simp
  · dsimp only [Q]; rw [hz h]; simp
  · rw [hnorm]
    dsimp only [c]
    by_cases h0 : D i k = 0
    · rw [h0]; simp
    · have hp : 0 < D i k := lt_of_le_of_ne (hD0 i k) (Ne.symm h0)
      have hl := hl0 i hi
      split
      · rw [abs_of_pos (by positivity)]
        field_simp
        exact le_rfl
      · rw [abs_of_pos (by positivity), mul_one_div, div_le_one (by positivity)]
        linarith

theorem spectrum_spike (N : Nat) (hN : 0 < N) (x : Nat → ℝ) (h0 : x 0 = 1) (h : ∀ j, 0 < j → j < N → x j = 0) (k : Nat) : spectrum N x k = 1 := by
  unfold spectrum
  rw [sum_eq_single 0]
  · simp [h0]
  · intro j hj hj0
    rw [h j (by omega) (mem_range.mp hj), ofReal_zero, zero_mul]
  · intro h; exact absurd (mem_range.mpr hN) h

/-- **C90 fails at a tie.** With `epsmax=1` the coherence of a unit sample with itself is whatever was in the uninitialised variable
`scl`. -/
theorem cohr_uninitialised (nsam lend lenc : Nat) (h3 : 3 ≤ nsam) (h16 : nsam ≤ 16384) (hd : nsam ≤ lend) (hc : nsam ≤ lenc)
    (dt eps reps : ℝ) (w : Work) (cov : Nat → ℝ) (s : St) (hs : Hist s) :
    ∃ cov' s', cohr 1 nsam lend lenc dt 1 eps reps false w (fun j => if j = 0 then 1 else 0) (fun j => if j = 0 then 1 else 0) cov s =
      some (cov', s') ∧ cov' 0 = dt * w.scl := by
  have hge : nsam ≤ optncr nsam := optncr_ge_partial nsam (by omega) h16
  have hN : 0 < optncr nsam := by omega
  have hsp : ∀ k, spectrum (optncr nsam) (pad nsam (trace nsam (fun j => if j = 0 then 1 else 0) 0)) k = 1 := by
    intro k
    refine spectrum_spike _ hN _ ?_ ?_ k
    · simp [pad, trace]; omega
    · intro j hj _
      unfold pad trace
      split
      · dsimp only; rw [if_neg (by omega)]
      · rfl
  obtain ⟨cov', s', e, p, a, f⟩ := through_spec 1 nsam nsam lend lenc h3 h16 le_rfl (by omega) (by omega) dt
    (fun p1 p2 => (cohLoop 1 (optncr nsam / 2 + 1) 1 eps reps p1 p2 (w.q, w.scl)).map (·.1)) (shifted 1 nsam dt false) w
    (fun j => if j = 0 then 1 else 0) (fun j => if j = 0 then 1 else 0) cov
    s hs (fun _ t => w.scl * if t = 0 then 1 else 0) (fun p1 p2 e1 e2 => by
      have hden : ∀ k, k < optncr nsam / 2 + 1 → denCoh p1 p2 (k + 0 * (optncr nsam / 2 + 1)) = 1 := fun k hk => by
        rw [denCoh_eq, Nat.add_comm k, e1 0 k (by omega) (by omega), e2 0 k (by omega) (by omega), hsp]; simp
      have hmax : maxLoop (optncr nsam / 2 + 1) (fun j => denCoh p1 p2 (j + 0 * (optncr nsam / 2 + 1))) = 1 := by
        refine maxLoop_eq _ _ (fun j hj => by rw [hden j hj]; norm_num) 1 (fun j hj => ?_) ⟨0, by omega, hden 0 (by omega)⟩
        rw [hden j hj]
      obtain ⟨r, er, _, ar⟩ := cohLoop_val 1 (optncr nsam / 2 + 1) 1 eps reps p1 p2 (fun r => r = w.scl) (fun _ => (w.scl : ℂ))
        (fun i k hi hk s hs => by
          obtain rfl : i = 0 := by omega
          rw [hmax]
          unfold cohStep
          rw [hden k hk]
          have hs : cohScl 1 (reps * 1 + eps) 1 1 s.2 = some s.2 := by
            unfold cohScl
            rw [if_neg (by norm_num), if_neg (by norm_num), if_neg (by norm_num)]
          rw [hs, Option.map_some]
          refine ⟨s.2, by assumption, ?_⟩
          congr 3
          have q1 := e1 0 k (by omega) (by omega)
          have q2 := e2 0 k (by omega) (by omega)
          rw [hsp, Nat.add_comm] at q1 q2
          rw [q1, q2]
          rw [show s.2 = w.scl by assumption]
          apply Complex.ext <;> simp) (w.q, w.scl) rfl
      refine ⟨r.1, by rw [er, Option.map_some], fun i k hi hk => ?_⟩
      rw [shifted_val 1 nsam hN dt false (by simp) _ hi hk, ar _ (row_le hi (by omega)), spectrum_smul,
        spectrum_spike _ hN _ (by simp) (fun j hj _ => by rw [if_neg (by omega)])]
      simp)
  refine ⟨cov', s', e, ?_⟩
  have := a 0 0 (by omega) (by omega)
  simpa using this

end Verif.Conv

import Verif.Conv.Model
import Verif.Conv.Spec
import Verif.Fft.LibMany

/-!
# The part all functions of `fconv.c` have in common
-/

namespace Verif.Conv

open Complex Finset Verif Verif.Fft Verif.Fft.Lib

/-- The samples of trace `i` of a gather with `ld` samples per trace. -/
def trace (ld : Nat) (d : Nat → ℝ) (i j : Nat) : ℝ := d (i * ld + j)

/-! ### Loops -/

theorem row_le {n ld i j : Nat} (hi : i < n) (hj : j < ld) : i * ld + j < n * ld := by
  have h := Nat.mul_le_mul_right ld (show i + 1 ≤ n from hi)
  rw [Nat.add_mul] at h
  omega

theorem padLoop_val {nsam nrec nsamout : Nat} (h : nsam ≤ nsamout) (data o : Nat → ℝ) {i j : Nat} (hi : i < nrec) (hj : j < nsamout) :
    padLoop nsam nrec nsamout data o (i * nsamout + j) = pad nsam (trace nsam data i) j := by
  have w := Writes.forN (n := nrec) (f := fun ix o =>
      forN (nsamout - nsam) (fun d o => aset o (ix * nsamout + (nsam + d)) (0 : ℝ))
        (forN nsam (fun it o => aset o (ix * nsamout + it) (data (ix * nsam + it))) o))
    (fun ix _ => (Writes.forN (n := nsam) (fun it _ => Writes.aset (ix * nsamout + it) (data (ix * nsam + it)))).comp
      (Writes.forN (n := nsamout - nsam) (fun d _ => Writes.aset (ix * nsamout + (nsam + d)) (0 : ℝ))))
  refine w.val o (v := pad nsam (trace nsam data i) j) ⟨i, hi, ?_⟩ ?_
  · by_cases hjn : j < nsam
    · left; exact ⟨j, hjn, rfl, by rw [pad, if_pos hjn, trace]⟩
    · right; exact ⟨j - nsam, by omega, by rw [Nat.add_sub_cancel' (by omega)], by rw [pad, if_neg hjn]⟩
  · rintro v ⟨i', hi', ⟨j', hj', e, rfl⟩ | ⟨d, hd, e, rfl⟩⟩
    · obtain ⟨rfl, rfl⟩ := rc_inj (le_refl nsamout) hj (by omega) e
      rw [pad, if_pos hj', trace]
    · obtain ⟨rfl, rfl⟩ := rc_inj (le_refl nsamout) hj (by omega) e
      rw [pad, if_neg (by omega)]

theorem sclLoop_val {nsam nrec nsamout : Nat} (scl : ℝ) (data o : Nat → ℝ) :
    (∀ i j, i < nrec → j < nsamout → sclLoop nsam nrec scl nsamout data o (i * nsamout + j) = scl * data (i * nsam + j)) ∧
      ∀ m, nrec * nsamout ≤ m → sclLoop nsam nrec scl nsamout data o m = o m := by
  have w := Writes.forN (n := nrec) (f := fun ix o => forN nsamout (fun it o => aset o (ix * nsamout + it) (scl * data (ix * nsam + it))) o)
    (fun ix _ => Writes.forN (n := nsamout) (fun it _ => Writes.aset (ix * nsamout + it) (scl * data (ix * nsam + it))))
  refine ⟨fun i j hi hj => w.val o ⟨i, hi, j, hj, rfl, rfl⟩ ?_, fun m hm => w.frame o ?_⟩
  · rintro v ⟨i', hi', j', hj', e, rfl⟩
    obtain ⟨rfl, rfl⟩ := rc_inj (le_refl nsamout) hj hj' e
    rfl
  · rintro v ⟨i, hi, j, hj, e, _⟩
    have := row_le hi hj
    omega

/-- A loop that replaces each of the first `n` elements. -/
theorem eachLoop {α : Type*} (n : Nat) (F : Nat → α → α) (q : Nat → α) (m : Nat) :
    forN n (fun j q => aset q j (F j (q j))) q m = if m < n then F m (q m) else q m := by
  induction n generalizing m with
  | zero => simp
  | succ n ih =>
    rw [forN_succ]
    generalize forN n (fun j q => aset q j (F j (q j))) q = r at ih
    unfold aset
    by_cases hm : m = n
    · subst hm; rw [if_pos rfl, ih, if_neg (by omega), if_pos (by omega)]
    · rw [if_neg hm, ih]
      by_cases h : m < n
      · rw [if_pos h, if_pos (by omega)]
      · rw [if_neg h, if_neg (by omega)]

/-- A loop over a row with a running frequency. -/
theorem omLoop (b n : Nat) (F : ℝ → ℂ → ℂ) (dw : ℝ) (q : Nat → ℂ) :
    (forN n (fun i (s : (Nat → ℂ) × ℝ) => (aset s.1 (b + i) (F s.2 (s.1 (b + i))), s.2 + dw)) (q, 0)).2 = n * dw ∧
    ∀ m, (forN n (fun i (s : (Nat → ℂ) × ℝ) => (aset s.1 (b + i) (F s.2 (s.1 (b + i))), s.2 + dw)) (q, 0)).1 m =
      if b ≤ m ∧ m < b + n then F (((m - b : Nat) : ℝ) * dw) (q m) else q m := by
  induction n with
  | zero =>
    refine ⟨by simp, fun m => ?_⟩
    rw [if_neg (by omega)]
    rfl
  | succ n ih =>
    rw [forN_succ]
    generalize forN n (fun i (s : (Nat → ℂ) × ℝ) => (aset s.1 (b + i) (F s.2 (s.1 (b + i))), s.2 + dw)) (q, 0) = r at ih
    obtain ⟨h1, h2⟩ := ih
    refine ⟨by dsimp only; rw [h1]; push_cast; ring, fun m => ?_⟩
    dsimp only
    unfold aset
    by_cases hm : m = b + n
    · subst hm
      rw [if_pos rfl, h1, h2, if_neg (by omega), if_pos (by omega), Nat.add_sub_cancel_left]
    · rw [if_neg hm, h2]
      by_cases h : b ≤ m ∧ m < b + n
      · rw [if_pos h, if_pos (by omega)]
      · rw [if_neg h, if_neg (by omega)]

theorem omLoops (nrec nf : Nat) (F : ℝ → ℂ → ℂ) (dw : ℝ) (q : Nat → ℂ) {i k : Nat} (hi : i < nrec) (hk : k < nf) :
    forN nrec (fun j q =>
      (forN nf (fun i (s : (Nat → ℂ) × ℝ) => (aset s.1 (j * nf + i) (F s.2 (s.1 (j * nf + i))), s.2 + dw)) (q, 0)).1) q (i * nf + k) =
      F (k * dw) (q (i * nf + k)) := by
  have key : ∀ n, ∀ i k, k < nf → forN n (fun j q =>
      (forN nf (fun i (s : (Nat → ℂ) × ℝ) => (aset s.1 (j * nf + i) (F s.2 (s.1 (j * nf + i))), s.2 + dw)) (q, 0)).1) q (i * nf + k) =
      if i < n then F (k * dw) (q (i * nf + k)) else q (i * nf + k) := by
    intro n
    induction n with
    | zero => intro i k _; simp
    | succ n ih =>
      intro i k hk
      rw [forN_succ, (omLoop (n * nf) nf F dw _).2]
      by_cases h : i = n
      · subst h
        rw [if_pos ⟨by omega, by omega⟩, if_pos (by omega), ih i k hk, if_neg (by omega), Nat.add_sub_cancel_left]
      · rw [if_neg, ih i k hk]
        · by_cases h2 : i < n
          · rw [if_pos h2, if_pos (by omega)]
          · rw [if_neg h2, if_neg (by omega)]
        · rintro ⟨h1, h2⟩
          rcases Nat.lt_or_gt_of_ne h with h3 | h3
          · have := row_le h3 hk; omega
          · have := Nat.mul_le_mul_right nf (show n + 1 ≤ i from h3)
            rw [Nat.add_mul] at this; omega
  rw [key nrec i k hk, if_pos hi]

/-! ### The shift -/

/-- Delay by `h` of `N` samples, at frequency `k`. -/
noncomputable def phase (N h k : Nat) : ℂ := exp (-(2 * Real.pi * I * (h * k) / N))

theorem om_tau (dt : ℝ) (hdt : dt ≠ 0) (N nsam k : Nat) (hN : 0 < N) :
    (k : ℝ) * dwOf dt N * tauOf dt nsam = 2 * Real.pi * ((nsam / 2 : Nat) * k) / N := by
  have hN' : (N : ℝ) ≠ 0 := by exact_mod_cast hN.ne'
  unfold dwOf tauOf
  generalize nsam / 2 = h
  field_simp

theorem phase_re_im (N h k : Nat) : phase N h k = ⟨Real.cos (2 * Real.pi * (h * k) / N), -Real.sin (2 * Real.pi * (h * k) / N)⟩ := by
  have e : -(2 * Real.pi * I * (h * k) / N) = ((-(2 * Real.pi * (h * k) / N) : ℝ) : ℂ) * I := by push_cast; ring
  unfold phase
  rw [e]
  generalize 2 * Real.pi * (h * k) / N = θ
  rw [exp_mul_I, ← ofReal_cos, ← ofReal_sin, Real.cos_neg, Real.sin_neg]
  apply Complex.ext
  · rw [add_re, ofReal_re, re_ofReal_mul, I_re, mul_zero, add_zero]
  · rw [add_im, ofReal_im, im_ofReal_mul, I_im, mul_one, zero_add]

theorem shifted_val (nrec nsam : Nat) (hN : 0 < optncr nsam) (dt : ℝ) (shift : Bool) (hdt : shift = true → dt ≠ 0) (q : Nat → ℂ) {i k : Nat}
    (hi : i < nrec) (hk : k ≤ optncr nsam / 2) :
    shifted nrec nsam dt shift q (i * (optncr nsam / 2 + 1) + k) =
      (if shift then phase (optncr nsam) (nsam / 2) k else 1) * q (i * (optncr nsam / 2 + 1) + k) := by
  unfold shifted
  cases shift with
  | false => simp
  | true =>
    rw [if_pos rfl, if_pos rfl]
    have := omLoops nrec (optncr nsam / 2 + 1) (fun om c => ⟨c.re * Real.cos (om * tauOf dt nsam) + c.im * Real.sin (om * tauOf dt nsam),
      c.im * Real.cos (om * tauOf dt nsam) - c.re * Real.sin (om * tauOf dt nsam)⟩) (dwOf dt (optncr nsam)) q hi (show k < _ by omega)
    refine this.trans ?_
    rw [om_tau dt (hdt rfl) _ _ _ hN, phase_re_im]
    generalize q _ = c
    apply Complex.ext <;> simp <;> ring

theorem shiftPow_val (nrec nsam : Nat) (hN : 0 < optncr nsam) (dt : ℝ) (hdt : dt ≠ 0) (q : Nat → ℂ) {i k : Nat}
    (hi : i < nrec) (hk : k ≤ optncr nsam / 2) (hq : (q (i * (optncr nsam / 2 + 1) + k)).im = 0) :
    shiftPow nrec (optncr nsam / 2 + 1) (dwOf dt (optncr nsam)) (tauOf dt nsam) q (i * (optncr nsam / 2 + 1) + k) =
      phase (optncr nsam) (nsam / 2) k * q (i * (optncr nsam / 2 + 1) + k) := by
  have := omLoops nrec (optncr nsam / 2 + 1) (fun om c => ⟨c.re * Real.cos (-om * tauOf dt nsam), c.re * Real.sin (-om * tauOf dt nsam)⟩)
    (dwOf dt (optncr nsam)) q hi (show k < _ by omega)
  refine this.trans ?_
  rw [neg_mul, om_tau dt hdt _ _ _ hN, phase_re_im, Real.cos_neg, Real.sin_neg]
  generalize q _ = c at hq
  apply Complex.ext <;> simp [hq] <;> ring

/-! ### There and back -/

theorem spectrum_zero_im (N : Nat) (g : Nat → ℝ) : (spectrum N g 0).im = 0 := by
  rw [spectrum_dft]; exact Mayer.dft_zero_im _ _ _

theorem spectrum_herm (N : Nat) (hN : 0 < N) (g : Nat → ℝ) (k : Nat) (hk : k ≤ N) :
    spectrum N g (N - k) = (starRingEnd ℂ) (spectrum N g k) := by
  rw [spectrum_dft, spectrum_dft]; exact Mayer.dft_hermitian _ _ hN _ _ hk

/-- The first half: both gathers get padded and transformed. -/
theorem through_fwd (nrec nsam ntout lend lenc : Nat) (h3 : 3 ≤ nsam) (h16 : nsam ≤ 16384) (hd : nrec * nsam ≤ lend)
    (dt : ℝ) (comb : (Nat → ℂ) → (Nat → ℂ) → Option (Nat → ℂ)) (shf : (Nat → ℂ) → Nat → ℂ) (w : Work)
    (d1 d2 cov : Nat → ℝ) (s : St) (hs : Hist s) :
    ∃ p1 p2 r1 s2, Hist s2 ∧
      (∀ i k, i < nrec → k ≤ optncr nsam / 2 →
        p1 (i * (optncr nsam / 2 + 1) + k) = spectrum (optncr nsam) (pad nsam (trace nsam d1 i)) k) ∧
      (∀ i k, i < nrec → k ≤ optncr nsam / 2 →
        p2 (i * (optncr nsam / 2 + 1) + k) = spectrum (optncr nsam) (pad nsam (trace nsam d2 i)) k) ∧
      through nrec nsam ntout lend lenc dt comb shf w d1 d2 cov s = (comb p1 p2).bind fun q =>
        (crmFft (optncr nsam) nrec (optncr nsam / 2 + 1) (optncr nsam) ((optncr nsam / 2 + 1) * nrec) (optncr nsam * nrec) 1 w.j3 (shf q) r1
            s2).bind fun (r1, s) =>
          (sclData (optncr nsam) nrec (dt / optncr nsam) ntout (optncr nsam * nrec) lenc r1 cov).map fun cov => (cov, s) := by
  have hge : nsam ≤ optncr nsam := optncr_ge_partial nsam (by omega) h16
  have hinv : InvLen (optncr nsam) := optncr_invLen nsam h3 h16
  unfold through
  dsimp only
  generalize optncr nsam = N at *
  have hNr : ∀ i j, i < nrec → j < N → i * N + j < N * nrec := fun i j hi hj => by rw [Nat.mul_comm N]; exact row_le hi hj
  have hr' : ∀ i, i < nrec → i * N + N ≤ N * nrec := fun i hi => by
    have := hNr i (N - 1) hi (by omega); omega
  have hc' : ∀ i, i < nrec → i * (N / 2 + 1) + N / 2 < (N / 2 + 1) * nrec := fun i hi => by
    rw [Nat.mul_comm (N / 2 + 1)]; exact row_le hi (by omega)
  have hpad : ∀ d o : Nat → ℝ, padData nsam nrec N lend (N * nrec) d o = some (padLoop nsam nrec N d o) := fun d o => by
    unfold padData
    rw [if_pos]
    refine ⟨fun ix it hx ht => ⟨?_, hNr ix it hx (by omega)⟩, fun ix it hx _ ht => hNr ix it hx ht⟩
    have := row_le hx ht; omega
  rw [hpad, hpad, Option.bind_some, Option.bind_some]
  obtain ⟨c1, s1, e1, p1, a1, _⟩ := rcm_fft_dft_partial N nrec N (N / 2 + 1) (N * nrec) ((N / 2 + 1) * nrec) hinv.1 (by omega) (Or.inl rfl)
    hr' hc' (-1) (Or.inr rfl) w.j1 (padLoop nsam nrec N d1 w.r1) w.c1 s hs
  obtain ⟨c2, s2, e2, p2, a2, _⟩ := rcm_fft_dft_partial N nrec N (N / 2 + 1) (N * nrec) ((N / 2 + 1) * nrec) hinv.1 (by omega) (Or.inl rfl)
    hr' hc' (-1) (Or.inr rfl) w.j2 (padLoop nsam nrec N d2 w.r2) w.c2 s1 p1
  have hsp : ∀ (d o : Nat → ℝ) (i k : Nat), i < nrec →
      dft (-1) N (fun j => (padLoop nsam nrec N d o (i * N + j) : ℂ)) k = spectrum N (pad nsam (trace nsam d i)) k := fun d o i k hi => by
    rw [spectrum_dft]
    unfold dft
    exact sum_congr rfl fun j hj => by dsimp only; rw [padLoop_val hge d o hi (mem_range.mp hj)]
  rw [e1, Option.bind_some]
  dsimp only
  rw [e2, Option.bind_some]
  exact ⟨c1, c2, _, s2, p2, fun i k hi hk => by rw [a1 i hi k hk, hsp d1 w.r1 i k hi],
    fun i k hi hk => by rw [a2 i hi k hk, hsp d2 w.r2 i k hi], rfl⟩

/-- If what is combined (and shifted) in the frequency domain is the spectrum of the traces `g i`, then the result is `dt` times the
traces, cut off at `ntout` samples; nothing else is written, and no array is left. -/
theorem through_spec (nrec nsam ntout lend lenc : Nat) (h3 : 3 ≤ nsam) (h16 : nsam ≤ 16384) (hto : ntout ≤ nsam) (hd : nrec * nsam ≤ lend)
    (hc : nrec * ntout ≤ lenc) (dt : ℝ) (comb : (Nat → ℂ) → (Nat → ℂ) → Option (Nat → ℂ)) (shf : (Nat → ℂ) → Nat → ℂ) (w : Work)
    (d1 d2 cov : Nat → ℝ) (s : St) (hs : Hist s) (g : Nat → Nat → ℝ)
    (hcomb : ∀ p1 p2 : Nat → ℂ,
      (∀ i k, i < nrec → k ≤ optncr nsam / 2 →
        p1 (i * (optncr nsam / 2 + 1) + k) = spectrum (optncr nsam) (pad nsam (trace nsam d1 i)) k) →
      (∀ i k, i < nrec → k ≤ optncr nsam / 2 →
        p2 (i * (optncr nsam / 2 + 1) + k) = spectrum (optncr nsam) (pad nsam (trace nsam d2 i)) k) →
      ∃ q, comb p1 p2 = some q ∧
        ∀ i k, i < nrec → k ≤ optncr nsam / 2 → shf q (i * (optncr nsam / 2 + 1) + k) = spectrum (optncr nsam) (g i) k) :
    ∃ cov' s', through nrec nsam ntout lend lenc dt comb shf w d1 d2 cov s = some (cov', s') ∧ Hist s' ∧
      (∀ i t, i < nrec → t < ntout → cov' (i * ntout + t) = dt * g i t) ∧ ∀ m, nrec * ntout ≤ m → cov' m = cov m := by
  have hge : nsam ≤ optncr nsam := optncr_ge_partial nsam (by omega) h16
  have hinv : InvLen (optncr nsam) := optncr_invLen nsam h3 h16
  obtain ⟨p1, p2, r1, s2, hs2, b1, b2, e⟩ := through_fwd nrec nsam ntout lend lenc h3 h16 hd dt comb shf w d1 d2 cov s hs
  obtain ⟨q, eq, hq⟩ := hcomb p1 p2 b1 b2
  rw [e, eq, Option.bind_some]
  clear hcomb e eq b1 b2
  generalize optncr nsam = N at *
  have h1 : 0 < N := by omega
  have hNr : ∀ i j, i < nrec → j < N → i * N + j < N * nrec := fun i j hi hj => by rw [Nat.mul_comm N]; exact row_le hi hj
  have hr' : ∀ i, i < nrec → i * N + N ≤ N * nrec := fun i hi => by
    have := hNr i (N - 1) hi (by omega); omega
  have hc' : ∀ i, i < nrec → i * (N / 2 + 1) + N / 2 < (N / 2 + 1) * nrec := fun i hi => by
    rw [Nat.mul_comm (N / 2 + 1)]; exact row_le hi (by omega)
  obtain ⟨x, s3, e3, p3, a3, _⟩ := crm_fft_dft_partial N nrec (N / 2 + 1) N ((N / 2 + 1) * nrec) (N * nrec) hinv le_rfl (Or.inl rfl)
    hr' hc' 1 (Or.inl rfl) w.j3 (fun i => spectrum N (g i)) (shf q) (fun i _ => spectrum_zero_im N (g i))
    (fun i _ k _ hk => spectrum_herm N h1 (g i) k hk.le) (fun i hi k hk => hq i k hi hk) r1 s2 hs2
  rw [e3, Option.bind_some]
  dsimp only
  obtain ⟨v1, v2⟩ := sclLoop_val (nsam := N) (nrec := nrec) (nsamout := ntout) (dt / N) x cov
  unfold sclData
  rw [if_pos fun ix it hx ht => ⟨hNr ix it hx (by omega), by have := row_le hx ht; omega⟩, Option.map_some]
  refine ⟨_, _, rfl, p3, fun i t hi ht => ?_, v2⟩
  rw [v1 i t hi ht]
  have e := a3 i hi t (by omega)
  rw [spectrum_inv N h1 (g i) t (by omega)] at e
  have e' : x (i * N + t) = N * g i t := by exact_mod_cast e
  have hN' : (N : ℝ) ≠ 0 := by exact_mod_cast h1.ne'
  rw [e']
  field_simp

/-- A spectrum with the symmetry of real traces is the spectrum of a real trace. -/
theorem exists_trace (N : Nat) (hN : 0 < N) (Q : Nat → ℂ) (h0 : (Q 0).im = 0)
    (hQ : ∀ k, 0 < k → k < N → Q (N - k) = (starRingEnd ℂ) (Q k)) : ∃ g : Nat → ℝ, ∀ k, k < N → spectrum N g k = Q k := by
  have hN' : (N : ℂ) ≠ 0 := by exact_mod_cast hN.ne'
  have hre : ∀ t, t < N → (dft 1 N Q t).im = 0 := Pfa.hermitian_real 1 (Or.inl rfl) N hN Q h0 hQ
  have e := dft_roundtrip 1 (Or.inl rfl) N hN Q
  generalize dft 1 N Q = G at e hre
  refine ⟨fun t => (G t).re / N, fun k hk => ?_⟩
  have e := e k hk
  have e2 : spectrum N (fun t => (G t).re / N) k = dft (-1) N (fun t => G t) k / N := by
    rw [spectrum_dft]
    unfold dft
    rw [sum_div]
    refine sum_congr rfl fun t ht => ?_
    have hre : ((G t).re : ℂ) = G t := by
      apply Complex.ext
      · exact ofReal_re _
      · rw [ofReal_im, hre t (mem_range.mp ht)]
    dsimp only
    rw [ofReal_div, hre, ofReal_natCast]
    ring
  rw [e2, e]
  field_simp

end Verif.Conv

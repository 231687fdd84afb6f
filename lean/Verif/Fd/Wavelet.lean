import Verif.Conv.Through
import Verif.Conv.Examples
import Verif.Base.Num
import Mathlib.Analysis.SpecialFunctions.Trigonometric.Deriv
import Mathlib.Analysis.Calculus.MeanValue

/-!
# The source wavelet of fdelmodc

`defineSource` reads the wavelet, integrates it unless it is an injection rate, delays it for some types of source and interpolates it to the
time step of the modelling.
-/

noncomputable section
namespace Verif.Fd.Wav
open Complex Finset Verif Verif.Fft Verif.Fft.Lib

/-! ### Model -/

/-- fdelmodc/getParameters.c:154-168: the number of samples and the time step of the wavelet that is used, for a wavelet of `ns` samples at
`ds` and a transform length `optn`.  Rational in place of float arithmetic. -/
def resample (ns optn : ℕ) (ds dt : ℚ) : ℕ × ℚ :=
  if NINT (ds * 1000000) ≠ NINT (dt * 1000000) then
    if ds > dt then (⌊(⌊ds / dt⌋ : ℚ) * optn⌋.toNat, dt) else (ns, dt)
  else (ns, ds)

/-- What `defineSource` uses of the parameters: `rate` for `src.injectionrate != 0`, `late` for `src.type > 6`, the wavelet as read
(`ns` samples at `ds`), the number of samples `nt` wanted, and `mod.dt`, `mod.dz` and the velocity at the source. -/
structure Par where
  rate : Bool
  late : Bool
  reverse : Bool
  ns : ℕ
  nt : ℕ
  ds : ℝ
  dt : ℝ
  dz : ℝ
  cp : ℝ

/-- fdelmodc/defineSource.c:159-165. -/
def integrate (deltom : ℝ) (iwmax : ℕ) (c : ℕ → ℂ) : ℕ → ℂ :=
  forN (iwmax - 1) (fun d c => aset c (d + 1) ⟨1 / (deltom * (d + 1 : ℕ)) * (c (d + 1)).im, -(1 / (deltom * (d + 1 : ℕ))) * (c (d + 1)).re⟩) c

/-- fdelmodc/defineSource.c:172-178. -/
def delayBy (deltom tshift : ℝ) (iwmax : ℕ) (c : ℕ → ℂ) : ℕ → ℂ :=
  forN (iwmax - 1) (fun d c => aset c (d + 1)
    ⟨(c (d + 1)).re * Real.cos (-(deltom * (d + 1 : ℕ) * tshift)) - (c (d + 1)).im * Real.sin (-(deltom * (d + 1 : ℕ) * tshift)),
      (c (d + 1)).im * Real.cos (-(deltom * (d + 1 : ℕ) * tshift)) + (c (d + 1)).re * Real.sin (-(deltom * (d + 1 : ℕ) * tshift))⟩) c

/-- The amplitude of a frequency, fdelmodc/defineSource.c:182, 187, 188. -/
def amp (z : ℂ) : ℝ := Real.sqrt (z.re * z.re + z.im * z.im)

open Classical in
/-- fdelmodc/defineSource.c:182-194, `len` frequencies are allocated. -/
def zeroFreq (len : ℕ) (c : ℕ → ℂ) : Option (ℕ → ℂ) :=
  if len < 2 then none
  else if amp (c 1) = 0 then some (aset c 0 0)
  else if len < 4 then none
  else
    let a := amp (c 1) + (2 * (amp (c 1) - amp (c 2)) - (amp (c 2) - amp (c 3)))
    some (aset c 0 ⟨if (c 1).re < 0 then -a else a, 0⟩)

/-- fdelmodc/defineSource.c:195-198. -/
def clear (iwmax len : ℕ) (c : ℕ → ℂ) : ℕ → ℂ := forN (len - iwmax) (fun d c => aset c (iwmax + d) 0) c

/-- One trace of the loop fdelmodc/defineSource.c:140-218 for a wavelet from a file, without the maximum; `j1`, `j2` are what uninitialised
memory of the transforms holds. -/
def wavelet (p : Par) (j1 j2 : Junk) (x : ℕ → ℝ) (s : St) : Option ((ℕ → ℝ) × St) :=
  let optn := optncr p.ns
  let iwmax := optn / 2 + 1
  let optnscale := if p.nt ≠ p.ns then p.nt else optn
  let nfreqscale := optnscale / 2 + 1
  let deltom := 2 * Real.pi * (1 / (optn * p.ds))
  if optnscale < p.ns then none else
  (rc1Fft optn optnscale nfreqscale (-1) j1 (fun j => if j < p.ns then x j else 0) (fun _ => 0) s).bind fun (c, s) =>
    let c := if p.rate then c else integrate deltom iwmax c
    let c := if p.late then delayBy deltom (1 / 2 * p.dt + 1 / 2 * p.dz / p.cp) iwmax c else c
    (zeroFreq nfreqscale c).bind fun c =>
      (cr1Fft optnscale nfreqscale optnscale 1 j2 (clear iwmax nfreqscale c) (fun _ => 0) s).bind fun (t, s) =>
        if optnscale < p.nt then none
        else some (fun j => if p.reverse then 1 / optn * (t (p.nt - 1 - j) - t 0) else 1 / optn * (t j - t (p.nt - 1)), s)

/-- fdelmodc/defineSource.c:201-231: `maxampl` of one trace. -/
def maxampl (nt : ℕ) (w : ℕ → ℝ) : ℝ := forN nt (fun j m => max m |w j|) 0

open Classical in
/-- fdelmodc/defineSource.c:200-231: after the loop over the `nx` traces, `maxampl` is that of the last trace; samples below `1e-5` of it
are set to zero in all traces. -/
def cutSmall (nx nt : ℕ) (w : ℕ → ℕ → ℝ) (i j : ℕ) : ℝ :=
  if i < nx ∧ j < nt ∧ |w i j| < 1 / 100000 * forN nx (fun i _ => maxampl nt (w i)) 0 then 0 else w i j

/-! ### Specification -/

/-- The angular frequency of bin `k`. -/
def omega (N : ℕ) (ds : ℝ) (k : ℕ) : ℝ := 2 * Real.pi * k / (N * ds)

/-- The band-limited function of time with the samples `x 0 … x (N-1)` at distance `ds`, without its mean and the Nyquist frequency. -/
def band (N : ℕ) (ds : ℝ) (x : ℕ → ℝ) (t : ℝ) : ℝ :=
  1 / N * ∑ k ∈ Icc 1 ((N - 1) / 2), 2 * (Conv.spectrum N x k * exp (I * (omega N ds k * t : ℝ))).re

/-- Nothing at the Nyquist frequency. -/
def NoNyquist (N : ℕ) (x : ℕ → ℝ) : Prop := N % 2 = 0 → Conv.spectrum N x (N / 2) = 0

/-- The time of sample `j` on the grid of `M` samples in the period of `N` samples at `ds`. -/
def time (N M : ℕ) (ds : ℝ) (j : ℕ) : ℝ := j * (N * ds / M)

/-- The delay. -/
def Par.tau (p : Par) : ℝ := if p.late then p.dt / 2 + p.dz / (2 * p.cp) else 0

/-- `V` is the time function that has to be played: `f` itself for injection rates, else an integral of it. -/
def Par.Plays (p : Par) (V f : ℝ → ℝ) : Prop := if p.rate then V = f else ∀ t, HasDerivAt V (f t) t

/-- The number of samples of a period after interpolation. -/
def Par.len (p : Par) : ℕ := if p.nt ≠ p.ns then p.nt else optncr p.ns

/-- The sample that is played at step `j`: backwards when reversed. -/
def Par.played (p : Par) (j : ℕ) : ℕ := if p.reverse then p.nt - 1 - j else j

/-- The sample whose value is subtracted, the last one that is played. -/
def Par.base (p : Par) : ℕ := if p.reverse then 0 else p.nt - 1

/-! ### Folding -/

theorem re_exp (z : ℂ) (θ : ℝ) : (z * exp (I * (θ : ℝ))).re = z.re * Real.cos θ - z.im * Real.sin θ := by
  rw [mul_comm I, mul_re, exp_ofReal_mul_I_re, exp_ofReal_mul_I_im]

/-- A real trigonometric sum of `M` samples. -/
def poly (h M : ℕ) (c : ℕ → ℂ) (t : ℕ) : ℝ := (c 0).re + ∑ k ∈ Icc 1 h, 2 * (c k * exp (I * (2 * Real.pi * (t * k : ℕ) / M : ℝ))).re

theorem dft_fold {M h : ℕ} (hM : 2 * h < M) (C : ℕ → ℂ) (h0 : (C 0).im = 0)
    (hC : ∀ k, 0 < k → k < M → C (M - k) = (starRingEnd ℂ) (C k)) (hz : ∀ k, h < k → k < M - h → C k = 0) (t : ℕ) :
    dft 1 M C t = (poly h M C t : ℂ) := by
  have hM0 : (M : ℂ) ≠ 0 := by exact_mod_cast (show M ≠ 0 by omega)
  set f : ℕ → ℂ := fun k => C k * root 1 M ^ (k * t) with hf
  have e1 : dft 1 M C t = ∑ k ∈ range M, f k := by
    unfold dft
    exact sum_congr rfl fun k _ => by rw [hf]; dsimp only; rw [root_pow_dft]
  have hp : ∀ k, root 1 M ^ (k * t) = exp (I * (2 * Real.pi * (t * k : ℕ) / M : ℝ)) := fun k => by
    rw [root_pow]; congr 1; push_cast; ring
  have e2 : ∑ k ∈ range M, f k = f 0 + (∑ k ∈ Icc 1 h, f k + ∑ k ∈ Icc 1 h, f (M - k)) := by
    have e3 : ∑ k ∈ Icc 1 h, f (M - k) = ∑ k ∈ Ico (M - h) M, f k := by
      refine sum_nbij' (fun k => M - k) (fun k => M - k) ?_ ?_ ?_ ?_ ?_
      · intro k hk; rw [mem_Icc] at hk; rw [mem_Ico]; omega
      · intro k hk; rw [mem_Ico] at hk; rw [mem_Icc]; omega
      · intro k hk; rw [mem_Icc] at hk; omega
      · intro k hk; rw [mem_Ico] at hk; omega
      · intro k _; rfl
    have e4 : ∑ k ∈ Ico (h + 1) (M - h), f k = 0 := sum_eq_zero fun k hk => by
      rw [mem_Ico] at hk
      rw [hf]; dsimp only
      rw [hz k (by omega) hk.2, zero_mul]
    rw [e3, range_eq_Ico, ← sum_Ico_consecutive f (Nat.zero_le (M - h)) (by omega), ← sum_Ico_consecutive f (Nat.zero_le (h + 1)) (by omega),
      e4, add_zero, ← add_assoc]
    congr 1
  have e5 : ∀ k ∈ Icc 1 h, f k + f (M - k) = ((2 * (C k * exp (I * (2 * Real.pi * (t * k : ℕ) / M : ℝ))).re : ℝ) : ℂ) := by
    intro k hk
    rw [mem_Icc] at hk
    have : f (M - k) = (starRingEnd ℂ) (f k) := by
      rw [hf]; dsimp only
      rw [map_mul, hC k (by omega) (by omega), map_pow, root_conj]
      congr 1
      have a : root 1 M ^ ((M - k) * t) * root 1 M ^ (k * t) = 1 := by
        rw [← pow_add, ← Nat.add_mul, Nat.sub_add_cancel (by omega), pow_mul, root_pow_n _ _ (by omega), one_pow]
      have b : root (-1) M ^ (k * t) * root 1 M ^ (k * t) = 1 := by
        rw [← mul_pow, mul_comm, root_mul_neg, one_pow]
      have c : root 1 M ^ (k * t) ≠ 0 := fun h => by rw [h, mul_zero] at b; exact zero_ne_one b
      exact mul_right_cancel₀ c (a.trans b.symm)
    rw [this, add_conj, hf]
    dsimp only
    rw [hp]
  rw [e1, e2, ← sum_add_distrib, sum_congr rfl e5]
  unfold poly
  rw [ofReal_add, ofReal_sum]
  congr 1
  rw [hf]
  dsimp only
  rw [Nat.zero_mul, pow_zero, mul_one]
  apply Complex.ext
  · rfl
  · rw [h0]; rfl

/-- The samples of the band-limited function are those of the trace, without the mean. -/
theorem band_sample {N : ℕ} (hN : 0 < N) {ds : ℝ} (hds : ds ≠ 0) (x : ℕ → ℝ) (hx : NoNyquist N x) (m : ℕ) (hm : m < N) :
    band N ds x (m * ds) = x m - (∑ j ∈ range N, x j) / N := by
  have hN' : (N : ℝ) ≠ 0 := by exact_mod_cast hN.ne'
  have e := dft_fold (M := N) (h := (N - 1) / 2) (by omega) (Conv.spectrum N x) (Conv.spectrum_zero_im N x)
    (fun k _ hk => Conv.spectrum_herm N hN x k hk.le) (fun k h1 h2 => by
      have : k = N / 2 := by omega
      rw [this]; exact hx (by omega)) m
  rw [Conv.spectrum_inv N hN x m hm] at e
  have e' : (N : ℝ) * x m = poly ((N - 1) / 2) N (Conv.spectrum N x) m := by exact_mod_cast e
  have e0 : (Conv.spectrum N x 0).re = ∑ j ∈ range N, x j := by
    unfold Conv.spectrum
    simp
  have e1 : poly ((N - 1) / 2) N (Conv.spectrum N x) m = ∑ j ∈ range N, x j + N * band N ds x (m * ds) := by
    unfold poly band
    rw [e0, ← mul_assoc, mul_one_div_cancel hN', one_mul]
    congr 1
    refine sum_congr rfl fun k _ => ?_
    have : omega N ds k * (m * ds) = 2 * Real.pi * (m * k : ℕ) / N := by unfold omega; push_cast; field_simp
    rw [this]
  have e2 := e'.trans e1
  field_simp
  linarith

/-! ### The transforms -/

theorem poly_congr {h M : ℕ} {c d : ℕ → ℂ} (e : ∀ k, k ≤ h → c k = d k) (t : ℕ) : poly h M c t = poly h M d t := by
  unfold poly
  rw [e 0 (Nat.zero_le _)]
  congr 1
  exact sum_congr rfl fun k hk => by rw [e k (mem_Icc.mp hk).2]

theorem cr1_poly {M h : ℕ} (hM : InvLen M) (hh : 2 * h < M) (junk : Junk) (c : ℕ → ℂ) (h0 : (c 0).im = 0)
    (hz : ∀ k, h < k → k ≤ M / 2 → c k = 0) (x : ℕ → ℝ) (s : St) (hs : Hist s) :
    ∃ y s', cr1Fft M (M / 2 + 1) M 1 junk c x s = some (y, s') ∧ Hist s' ∧ ∀ t, t < M → y t = poly h M c t := by
  set X : ℕ → ℂ := fun k => if k ≤ M / 2 then c k else (starRingEnd ℂ) (c (M - k)) with hX
  have hXl : ∀ k, k ≤ M / 2 → X k = c k := fun k hk => by rw [hX]; dsimp only; rw [if_pos hk]
  have hXr : ∀ k, M / 2 < k → X k = (starRingEnd ℂ) (c (M - k)) := fun k hk => by
    have : ¬ k ≤ M / 2 := by omega
    rw [hX]; dsimp only; rw [if_neg this]
  have herm : ∀ k, 0 < k → k < M → X (M - k) = (starRingEnd ℂ) (X k) := by
    intro k k0 kM
    rcases lt_trichotomy (2 * k) M with h1 | h1 | h1
    · rw [hXr (M - k) (by omega), hXl k (by omega), show M - (M - k) = k by omega]
    · rw [show M - k = k by omega, hXl k (by omega), hz k (by omega) (by omega), map_zero]
    · rw [hXl (M - k) (by omega), hXr k (by omega), conj_conj]
  obtain ⟨y, s', e, hs', a, _⟩ := cr1_fft_dft M (M / 2 + 1) M hM le_rfl (by omega) 1 (Or.inl rfl) junk X c (by rw [hXl 0 (by omega), h0]) herm
    (fun k hk => (hXl k hk).symm) x s hs
  refine ⟨y, s', e, hs', fun t ht => ?_⟩
  have := a t ht
  rw [dft_fold hh X (by rw [hXl 0 (by omega), h0]) herm] at this
  · have h2 : y t = poly h M X t := by exact_mod_cast this
    rw [h2]
    exact poly_congr (fun k hk => hXl k (by omega)) t
  · intro k h1 h2
    by_cases h3 : k ≤ M / 2
    · rw [hXl k h3, hz k h1 h3]
    · rw [hXr k (by omega), hz (M - k) (by omega) (by omega), map_zero]

/-- Even lengths without a fast transform: the straightforward sum has an additional alternating term. -/
theorem cr1_poly_even {M h : ℕ} (hM : M % 2 = 0) (h2 : ∀ m, M ≠ 2 ^ m) (hp : npfar M ≠ M) (hh : 2 * h < M) (junk : Junk) (c : ℕ → ℂ)
    (hz : ∀ k, h < k → k ≤ M / 2 → c k = 0) (x : ℕ → ℝ) (s : St) (hs : Hist s) :
    ∃ y s', cr1Fft M (M / 2 + 1) M 1 junk c x s = some (y, s') ∧ Hist s' ∧ ∀ t, t < M → y t = poly h M c t - (-1) ^ t * (M / 4) := by
  have hnp : ¬ isPow2 M := fun h => by obtain ⟨m, e⟩ := isPow2_iff.mp h; exact h2 m e
  have e : cr1Fft M (M / 2 + 1) M 1 junk c x s = some (fun i => if i < M then
      (crdft M 1 junk.tab (fun i => (c i).re) (fun i => (c i).im) s.cr).1 i else x i,
      { s with cr := (crdft M 1 junk.tab (fun i => (c i).re) (fun i => (c i).im) s.cr).2 }) := by
    unfold cr1Fft
    rw [if_pos ⟨le_rfl, by omega⟩, if_pos hnp, if_neg hp]
  refine ⟨_, _, e, Hist.cr1 _ _ _ _ _ _ _ _ hs (by omega) e, fun t ht => ?_⟩
  obtain ⟨a, _⟩ := crdft_spec M 1 junk.tab (fun i => (c i).re) (fun i => (c i).im) s.cr (by omega) hs.ok.cr
  rw [if_pos ht, a t ht, if_pos hM]
  have h3 : ∑ j ∈ range (ncOf M), ((c j).re * Real.cos (2 * Real.pi / M * (t * j : ℕ)) - ((1 : ℤ) : ℝ) * (c j).im *
      Real.sin (2 * Real.pi / M * (t * j : ℕ))) = (c 0).re + ∑ k ∈ Icc 1 h, (c k * exp (I * (2 * Real.pi * (t * k : ℕ) / M : ℝ))).re := by
    have h5 : ∀ k, (c k).re * Real.cos (2 * Real.pi / M * (t * k : ℕ)) - ((1 : ℤ) : ℝ) * (c k).im *
      Real.sin (2 * Real.pi / M * (t * k : ℕ)) = (c k * exp (I * (2 * Real.pi * (t * k : ℕ) / M : ℝ))).re := fun k => by
      rw [re_exp, Int.cast_one, one_mul, div_mul_eq_mul_div]
    rw [sum_congr rfl fun k _ => h5 k, range_eq_Ico,
      ← sum_Ico_consecutive _ (Nat.zero_le (h + 1)) (show h + 1 ≤ ncOf M by unfold ncOf; omega), sum_eq_zero (s := Ico (h + 1) (ncOf M)), add_zero,
      sum_eq_sum_Ico_succ_bot (by omega)]
    · congr 1
      simp
    · intro k hk
      rw [mem_Ico] at hk
      unfold ncOf at hk
      rw [hz k (by omega) (by omega), zero_mul, zero_re]
  rw [h3]
  unfold poly
  rw [← mul_sum]
  ring

/-! ### The filters -/

theorem shiftedLoop {n : ℕ} (F : ℕ → ℂ → ℂ) (c : ℕ → ℂ) (m : ℕ) :
    forN n (fun d c => aset c (d + 1) (F (d + 1) (c (d + 1)))) c m = if 1 ≤ m ∧ m ≤ n then F m (c m) else c m := by
  induction n generalizing m with
  | zero =>
    have : ¬ (1 ≤ m ∧ m ≤ 0) := by omega
    rw [forN_zero, if_neg this]
  | succ n ih =>
    rw [forN_succ]
    generalize forN n (fun d c => aset c (d + 1) (F (d + 1) (c (d + 1)))) c = q at ih
    unfold aset
    by_cases h : m = n + 1
    · subst h
      have h1 : ¬ (1 ≤ n + 1 ∧ n + 1 ≤ n) := by omega
      have h2 : 1 ≤ n + 1 ∧ n + 1 ≤ n + 1 := by omega
      rw [if_pos rfl, ih, if_neg h1, if_pos h2]
    · rw [if_neg h, ih]
      refine if_congr ?_ rfl rfl
      omega

theorem integrate_val (deltom : ℝ) (iwmax : ℕ) (c : ℕ → ℂ) (m : ℕ) :
    integrate deltom iwmax c m = if 1 ≤ m ∧ m ≤ iwmax - 1 then (I * (deltom * m : ℝ))⁻¹ * c m else c m := by
  unfold integrate
  refine (shiftedLoop (fun m z => ⟨1 / (deltom * m) * z.im, -(1 / (deltom * m)) * z.re⟩) c m).trans ?_
  refine if_congr Iff.rfl ?_ rfl
  generalize c m = z
  rw [mul_inv, inv_I, ← ofReal_inv, one_div]
  generalize (deltom * (m : ℝ))⁻¹ = w
  apply Complex.ext <;> simp

theorem delayBy_val (deltom tshift : ℝ) (iwmax : ℕ) (c : ℕ → ℂ) (m : ℕ) :
    delayBy deltom tshift iwmax c m = if 1 ≤ m ∧ m ≤ iwmax - 1 then exp (I * (-(deltom * m * tshift) : ℝ)) * c m else c m := by
  unfold delayBy
  refine (shiftedLoop (fun m z => ⟨z.re * Real.cos (-(deltom * m * tshift)) - z.im * Real.sin (-(deltom * m * tshift)),
    z.im * Real.cos (-(deltom * m * tshift)) + z.re * Real.sin (-(deltom * m * tshift))⟩) c m).trans ?_
  refine if_congr Iff.rfl ?_ rfl
  generalize c m = z
  generalize -(deltom * (m : ℝ) * tshift) = w
  rw [mul_comm I]
  apply Complex.ext
  · rw [mul_re, exp_ofReal_mul_I_re, exp_ofReal_mul_I_im]; ring
  · rw [mul_im, exp_ofReal_mul_I_re, exp_ofReal_mul_I_im]; ring

theorem zeroFreq_val {len : ℕ} (h : 4 ≤ len) (c : ℕ → ℂ) : ∃ d, zeroFreq len c = some d ∧ (d 0).im = 0 ∧ ∀ k, 1 ≤ k → d k = c k := by
  have h2 : ¬ len < 2 := by omega
  have h4 : ¬ len < 4 := by omega
  have hk : ∀ (z : ℂ) (k : ℕ), 1 ≤ k → aset c 0 z k = c k := fun z k hk => by
    have : k ≠ 0 := by omega
    unfold aset; rw [if_neg this]
  have h0 : ∀ z : ℂ, aset c 0 z 0 = z := fun z => by unfold aset; rw [if_pos rfl]
  unfold zeroFreq
  rw [if_neg h2]
  by_cases ha : amp (c 1) = 0
  · rw [if_pos ha]
    exact ⟨_, rfl, by rw [h0]; rfl, hk _⟩
  · rw [if_neg ha, if_neg h4]
    exact ⟨_, rfl, by rw [h0], hk _⟩

theorem clear_val (iwmax len : ℕ) (c : ℕ → ℂ) (m : ℕ) : clear iwmax len c m = if iwmax ≤ m ∧ m < len then 0 else c m := by
  unfold clear
  have : ∀ n, forN n (fun d c => aset c (iwmax + d) (0 : ℂ)) c m = if iwmax ≤ m ∧ m < iwmax + n then 0 else c m := by
    intro n
    induction n with
    | zero =>
      have : ¬ (iwmax ≤ m ∧ m < iwmax + 0) := by omega
      rw [forN_zero, if_neg this]
    | succ n ih =>
      rw [forN_succ]
      unfold aset
      by_cases h : m = iwmax + n
      · have h2 : iwmax ≤ m ∧ m < iwmax + (n + 1) := by omega
        rw [if_pos h, if_pos h2]
      · unfold aset at ih
        rw [if_neg h, ih]
        refine if_congr ?_ rfl rfl
        omega
  rw [this]
  refine if_congr ?_ rfl rfl
  omega

/-- The integral of the band-limited function. -/
def prim (N : ℕ) (ds : ℝ) (x : ℕ → ℝ) (t : ℝ) : ℝ :=
  1 / N * ∑ k ∈ Icc 1 ((N - 1) / 2), 2 * ((I * (omega N ds k : ℝ))⁻¹ * Conv.spectrum N x k * exp (I * (omega N ds k * t : ℝ))).re

theorem prim_deriv {N : ℕ} (hN : 0 < N) {ds : ℝ} (hds : ds ≠ 0) (x : ℕ → ℝ) (t : ℝ) : HasDerivAt (prim N ds x) (band N ds x t) t := by
  unfold prim band
  refine HasDerivAt.const_mul _ (HasDerivAt.fun_sum fun k hk => ?_)
  refine HasDerivAt.const_mul _ ?_
  have hw : omega N ds k ≠ 0 := by
    rw [mem_Icc] at hk
    unfold omega
    have h1 : (N : ℝ) ≠ 0 := by exact_mod_cast hN.ne'
    have h2 : (k : ℝ) ≠ 0 := by exact_mod_cast (show k ≠ 0 by omega)
    have := Real.pi_ne_zero
    positivity
  generalize omega N ds k = w at hw
  generalize Conv.spectrum N x k = z
  have e : ∀ t : ℝ, ((I * (w : ℝ))⁻¹ * z * exp (I * (w * t : ℝ))).re = w⁻¹ * z.im * Real.cos (w * t) + w⁻¹ * z.re * Real.sin (w * t) := by
    intro t
    rw [re_exp, mul_inv, inv_I, ← ofReal_inv]
    generalize w⁻¹ = v
    simp
  rw [re_exp]
  have hf : (fun t : ℝ => ((I * (w : ℝ))⁻¹ * z * exp (I * (w * t : ℝ))).re) =
      fun t => w⁻¹ * z.im * Real.cos (w * t) + w⁻¹ * z.re * Real.sin (w * t) := funext e
  rw [hf]
  have hl : HasDerivAt (fun t : ℝ => w * t) w t := by simpa using (hasDerivAt_id t).const_mul w
  have := ((hl.cos).const_mul (w⁻¹ * z.im)).add ((hl.sin).const_mul (w⁻¹ * z.re))
  refine this.congr_deriv ?_
  field_simp
  ring

/-- There is something to play. -/
theorem plays_exists (p : Par) {N : ℕ} (hN : 0 < N) (hds : p.ds ≠ 0) (x : ℕ → ℝ) : ∃ V, p.Plays V (band N p.ds x) := by
  unfold Par.Plays
  cases p.rate
  · exact ⟨prim N p.ds x, fun t => prim_deriv hN hds x t⟩
  · exact ⟨_, rfl⟩

/-- Two functions with the same derivative differ by a constant. -/
theorem plays_unique {V W f : ℝ → ℝ} (hV : ∀ t, HasDerivAt V (f t) t) (hW : ∀ t, HasDerivAt W (f t) t) (a b : ℝ) : V a - V b = W a - W b := by
  have h : ∀ t, HasDerivAt (fun t => V t - W t) 0 t := fun t => by
    have := (hV t).sub (hW t)
    rwa [sub_self] at this
  have := is_const_of_deriv_eq_zero (fun t => (h t).differentiableAt) (fun t => (h t).deriv) a b
  linarith

/-- What is common to all lengths: `E` is the error of the inverse transform. -/
theorem wavelet_core (p : Par) (h6 : 6 ≤ p.ns) (h16 : p.ns ≤ 16384) (hds : 0 < p.ds) (hlen : p.nt ≠ p.ns → optncr p.ns ≤ p.nt)
    (E : ℕ → ℝ) (j1 j2 : Junk)
    (hcr : ∀ (c : ℕ → ℂ) (x : ℕ → ℝ) (s : St), (c 0).im = 0 → (∀ k, (optncr p.ns - 1) / 2 < k → k ≤ p.len / 2 → c k = 0) → Hist s →
      ∃ y s', cr1Fft p.len (p.len / 2 + 1) p.len 1 j2 c x s = some (y, s') ∧ Hist s' ∧
        ∀ t, t < p.len → y t = poly ((optncr p.ns - 1) / 2) p.len c t - E t)
    (x : ℕ → ℝ) (hx : NoNyquist (optncr p.ns) (Conv.pad p.ns x)) (s : St) (hs : Hist s) :
    ∃ w s', wavelet p j1 j2 x s = some (w, s') ∧ Hist s' ∧
      ∀ V, p.Plays V (band (optncr p.ns) p.ds (Conv.pad p.ns x)) → ∀ j, j < p.nt →
        w j = V (time (optncr p.ns) p.len p.ds (p.played j) - p.tau) - V (time (optncr p.ns) p.len p.ds p.base - p.tau)
          - (E (p.played j) - E p.base) / optncr p.ns := by
  have hge : p.ns ≤ optncr p.ns := optncr_ge_partial p.ns (by omega) h16
  have hinv : InvLen (optncr p.ns) := optncr_invLen p.ns (by omega) h16
  have hM : optncr p.ns ≤ p.len := by
    unfold Par.len
    by_cases h : p.nt ≠ p.ns
    · rw [if_pos h]; exact hlen h
    · rw [if_neg h]
  have hnt : p.nt ≤ p.len := by
    unfold Par.len
    by_cases h : p.nt ≠ p.ns
    · rw [if_pos h]
    · rw [if_neg h]; omega
  have hw : wavelet p j1 j2 x s = if p.len < p.ns then none else
      (rc1Fft (optncr p.ns) p.len (p.len / 2 + 1) (-1) j1 (Conv.pad p.ns x) (fun _ => 0) s).bind fun (c, s) =>
        (zeroFreq (p.len / 2 + 1) (if p.late then delayBy (2 * Real.pi * (1 / (optncr p.ns * p.ds))) (1 / 2 * p.dt + 1 / 2 * p.dz / p.cp)
            (optncr p.ns / 2 + 1) (if p.rate then c else integrate (2 * Real.pi * (1 / (optncr p.ns * p.ds))) (optncr p.ns / 2 + 1) c)
            else (if p.rate then c else integrate (2 * Real.pi * (1 / (optncr p.ns * p.ds))) (optncr p.ns / 2 + 1) c))).bind fun c =>
          (cr1Fft p.len (p.len / 2 + 1) p.len 1 j2 (clear (optncr p.ns / 2 + 1) (p.len / 2 + 1) c) (fun _ => 0) s).bind fun (t, s) =>
            if p.len < p.nt then none
            else some (fun j => if p.reverse then 1 / optncr p.ns * (t (p.nt - 1 - j) - t 0) else 1 / optncr p.ns * (t j - t (p.nt - 1)), s) := rfl
  rw [hw]
  clear hw
  generalize p.len = M at *
  generalize optncr p.ns = N at *
  have hN0 : 0 < N := by omega
  have hN' : (N : ℝ) ≠ 0 := by exact_mod_cast hN0.ne'
  have hM' : (M : ℝ) ≠ 0 := by exact_mod_cast (show M ≠ 0 by omega)
  have hdel : ∀ k : ℕ, 2 * Real.pi * (1 / (N * p.ds)) * k = omega N p.ds k := fun k => by unfold omega; field_simp
  have hb : ¬ M < p.ns := by omega
  have hb2 : ¬ M < p.nt := by omega
  obtain ⟨c1, s1, e1, hs1, a1, b1⟩ := rc1_fft_dft N M (M / 2 + 1) hinv.1 hM (by omega) (-1) (Or.inr rfl) j1 (Conv.pad p.ns x) (fun _ => 0) s hs
  rw [if_neg hb, e1, Option.bind_some]
  dsimp only
  -- the filter
  set F : ℕ → ℂ := fun k => exp (I * (-(omega N p.ds k * p.tau) : ℝ)) * (if p.rate then 1 else (I * (omega N p.ds k : ℝ))⁻¹) with hF
  set c2 : ℕ → ℂ := if p.late then delayBy (2 * Real.pi * (1 / (N * p.ds))) (1 / 2 * p.dt + 1 / 2 * p.dz / p.cp)
            (N / 2 + 1) (if p.rate then c1 else integrate (2 * Real.pi * (1 / (N * p.ds))) (N / 2 + 1) c1)
            else (if p.rate then c1 else integrate (2 * Real.pi * (1 / (N * p.ds))) (N / 2 + 1) c1) with hc2
  have v2 : ∀ k, 1 ≤ k → k ≤ N / 2 → c2 k = F k * Conv.spectrum N (Conv.pad p.ns x) k := by
    intro k k1 k2
    have hk : 1 ≤ k ∧ k ≤ N / 2 + 1 - 1 := by omega
    have v1 : (if p.rate then c1 else integrate (2 * Real.pi * (1 / (N * p.ds))) (N / 2 + 1) c1) k =
        (if p.rate then 1 else (I * (omega N p.ds k : ℝ))⁻¹) * Conv.spectrum N (Conv.pad p.ns x) k := by
      cases p.rate
      · rw [if_neg Bool.false_ne_true, if_neg Bool.false_ne_true, integrate_val, if_pos hk, a1 k k2, Conv.spectrum_dft, hdel]
      · rw [if_pos rfl, if_pos rfl, a1 k k2, Conv.spectrum_dft, one_mul]
    have ht : p.tau = if p.late then 1 / 2 * p.dt + 1 / 2 * p.dz / p.cp else 0 := by
      unfold Par.tau
      refine if_congr Iff.rfl ?_ rfl
      by_cases h0 : p.cp = 0
      · rw [h0]; simp; ring
      · field_simp
    rw [hF, hc2]
    dsimp only
    rw [ht]
    cases p.late
    · rw [if_neg Bool.false_ne_true, if_neg Bool.false_ne_true, v1, mul_zero, neg_zero, ofReal_zero, mul_zero, exp_zero, one_mul]
    · rw [if_pos rfl, if_pos rfl, delayBy_val, if_pos hk, v1, hdel, mul_assoc]
  clear_value c2
  obtain ⟨c3, e3, h30, v3⟩ := zeroFreq_val (len := M / 2 + 1) (by omega) c2
  rw [e3, Option.bind_some]
  have v4 : ∀ k, k ≤ N / 2 → clear (N / 2 + 1) (M / 2 + 1) c3 k = c3 k := fun k hk => by
    have : ¬ (N / 2 + 1 ≤ k ∧ k < M / 2 + 1) := by omega
    rw [clear_val, if_neg this]
  obtain ⟨y, s2, e4, hs2, hy⟩ := hcr (clear (N / 2 + 1) (M / 2 + 1) c3) (fun _ => 0) s1 (by rw [v4 0 (by omega)]; exact h30)
    (fun k h1 h2 => by
      by_cases h3 : k ≤ N / 2
      · have h4 : k = N / 2 := by omega
        rw [v4 k h3, v3 k (by omega), v2 k (by omega) h3, h4, hx (by omega), mul_zero]
      · have h4 : N / 2 + 1 ≤ k ∧ k < M / 2 + 1 := by omega
        rw [clear_val, if_pos h4]) hs1
  rw [e4, Option.bind_some]
  dsimp only
  rw [if_neg hb2]
  refine ⟨_, s2, rfl, hs2, ?_⟩
  -- the function
  set V0 : ℝ → ℝ := if p.rate then band N p.ds (Conv.pad p.ns x) else prim N p.ds (Conv.pad p.ns x) with hV0
  have hval : ∀ t, t < M → 1 / N * y t = (c3 0).re / N + V0 (time N M p.ds t - p.tau) - E t / N := by
    intro t ht
    rw [hy t ht]
    have : poly ((N - 1) / 2) M (clear (N / 2 + 1) (M / 2 + 1) c3) t = (c3 0).re + N * V0 (time N M p.ds t - p.tau) := by
      unfold poly
      rw [v4 0 (by omega)]
      congr 1
      have hG : V0 (time N M p.ds t - p.tau) = 1 / N * ∑ k ∈ Icc 1 ((N - 1) / 2), 2 * ((if p.rate then 1 else (I * (omega N p.ds k : ℝ))⁻¹) *
          Conv.spectrum N (Conv.pad p.ns x) k * exp (I * (omega N p.ds k * (time N M p.ds t - p.tau) : ℝ))).re := by
        rw [hV0]
        cases p.rate
        · rfl
        · rw [if_pos rfl]
          unfold band
          congr 1
          refine sum_congr rfl fun k _ => ?_
          rw [if_pos rfl, one_mul]
      rw [hG, ← mul_assoc, mul_one_div_cancel hN', one_mul]
      refine sum_congr rfl fun k hk => ?_
      rw [mem_Icc] at hk
      rw [v4 k (by omega), v3 k hk.1, v2 k hk.1 (by omega), hF]
      dsimp only
      have hexp : exp (I * (omega N p.ds k * (time N M p.ds t - p.tau) : ℝ)) =
          exp (I * (-(omega N p.ds k * p.tau) : ℝ)) * exp (I * (2 * Real.pi * (t * k : ℕ) / M : ℝ)) := by
        rw [← exp_add, ← mul_add, ← ofReal_add]
        congr 3
        unfold time omega
        push_cast
        field_simp
        ring
      rw [hexp]
      congr 2
      ring
    rw [this]
    field_simp
  intro V hV j hj
  have hVV : ∀ a b, V a - V b = V0 a - V0 b := by
    unfold Par.Plays at hV
    rw [hV0]
    revert hV
    cases p.rate
    · intro hV a b
      exact plays_unique hV (fun t => prim_deriv hN0 hds.ne' _ t) a b
    · intro hV a b
      rw [if_pos rfl] at hV
      rw [hV, if_pos rfl]
  rw [hVV]
  have hp : p.played j < M ∧ p.base < M := by unfold Par.played Par.base; cases p.reverse <;> simp <;> omega
  have : (if p.reverse then 1 / (N : ℝ) * (y (p.nt - 1 - j) - y 0) else 1 / N * (y j - y (p.nt - 1))) = 1 / N * y (p.played j) - 1 / N * y p.base := by
    unfold Par.played Par.base
    cases p.reverse
    · rw [if_neg Bool.false_ne_true, if_neg Bool.false_ne_true, if_neg Bool.false_ne_true]; ring
    · rw [if_pos rfl, if_pos rfl, if_pos rfl]; ring
  rw [this, hval _ hp.1, hval _ hp.2]
  ring

/-! ### Properties -/

/-- **What is played.**  The source plays the band-limited function through the samples of the wavelet (an integral of it for sources that are
not injection rates), sampled `len` times in the period, delayed by half a time step and half a grid distance for the sources that need it,
reversed when asked for, and shifted by a constant such that its last sample is zero.

Missing: wavelets with something at the Nyquist frequency, and lengths after interpolation without a fast transform (see
`wavelet_alternates`). -/
theorem wavelet_played_partial (p : Par) (h6 : 6 ≤ p.ns) (h16 : p.ns ≤ 16384) (hds : 0 < p.ds)
    (hlen : p.nt ≠ p.ns → optncr p.ns ≤ p.nt ∧ InvLen p.nt) (j1 j2 : Junk)
    (x : ℕ → ℝ) (hx : NoNyquist (optncr p.ns) (Conv.pad p.ns x)) (s : St) (hs : Hist s) :
    ∃ w s', wavelet p j1 j2 x s = some (w, s') ∧ Hist s' ∧
      ∀ V, p.Plays V (band (optncr p.ns) p.ds (Conv.pad p.ns x)) → ∀ j, j < p.nt →
        w j = V (time (optncr p.ns) p.len p.ds (p.played j) - p.tau) - V (time (optncr p.ns) p.len p.ds p.base - p.tau) := by
  have hge : p.ns ≤ optncr p.ns := optncr_ge_partial p.ns (by omega) h16
  have hinv : InvLen (optncr p.ns) := optncr_invLen p.ns (by omega) h16
  have hM : InvLen p.len ∧ optncr p.ns ≤ p.len := by
    unfold Par.len
    by_cases h : p.nt ≠ p.ns
    · rw [if_pos h]; exact ⟨(hlen h).2, (hlen h).1⟩
    · rw [if_neg h]; exact ⟨hinv, le_rfl⟩
  obtain ⟨w, s', e, hs', hw⟩ := wavelet_core p h6 h16 hds (fun h => (hlen h).1) (fun _ => 0) j1 j2
    (fun c y s h0 hz hs => by
      obtain ⟨y, s', e, hs', h⟩ := cr1_poly hM.1 (h := (optncr p.ns - 1) / 2) (by omega) j2 c h0 hz y s hs
      exact ⟨y, s', e, hs', fun t ht => by rw [h t ht, sub_zero]⟩) x hx s hs
  refine ⟨w, s', e, hs', fun V hV j hj => ?_⟩
  rw [hw V hV j hj]
  simp

/-- Two samples of eight, at 4 ms, for a modelling with 2 ms: the hypotheses are met. -/
example (j1 j2 : Junk) : ∃ w s', wavelet ⟨false, true, false, 8, 16, 1 / 250, 1 / 500, 5, 1500⟩ j1 j2 (fun j => if j < 2 then 1 else 0) St.init =
    some (w, s') ∧ w 15 = 0 := by
  have h8 : optncr 8 = 8 := Conv.optncr_pow2 3
  set p : Par := ⟨false, true, false, 8, 16, 1 / 250, 1 / 500, 5, 1500⟩ with hp
  have hN : optncr p.ns = 8 := h8
  have hx : NoNyquist (optncr p.ns) (Conv.pad p.ns (fun j => if j < 2 then 1 else 0)) := by
    intro _
    rw [hN, hp, Conv.spectrum_root]
    have hr : root (-1) 8 ^ 4 = -1 := by
      rw [root_pow, show (((-1 : ℤ) : ℂ) * (2 * Real.pi * I * (4 : ℕ) / (8 : ℕ))) = -(Real.pi * I) by push_cast; ring, exp_neg, exp_pi_mul_I]
      norm_num
    have hr' : ∀ j, root (-1) 8 ^ (j * (8 / 2)) = (-1) ^ j := fun j => by
      rw [show j * (8 / 2) = 4 * j by omega, pow_mul, hr]
    simp only [sum_range_succ, sum_range_zero, hr', Conv.pad]
    norm_num
  obtain ⟨w, s', e, _, h⟩ := wavelet_played_partial p (by rw [hp]; norm_num) (by rw [hp]; norm_num) (by rw [hp]; norm_num)
    (fun _ => ⟨by rw [hN, hp]; norm_num, ⟨by rw [hp]; norm_num, fun m hm => by
      have : (2 : ℕ) ^ 4 = 2 ^ m := hm
      have := Nat.pow_right_injective (le_refl 2) this
      omega⟩, Or.inl ⟨4, rfl⟩⟩) j1 j2 _ hx St.init .start
  obtain ⟨V, hV⟩ := plays_exists p (N := optncr p.ns) (by rw [hN]; norm_num) (by rw [hp]; norm_num) (Conv.pad p.ns (fun j => if j < 2 then 1 else 0))
  refine ⟨w, s', e, ?_⟩
  rw [h V hV 15 (by rw [hp]; norm_num)]
  exact sub_self _

/-- **Injection rates at the time step of the modelling** are played as they are in the file, but for the constant; with any content at the
Nyquist frequency. -/
theorem wavelet_plain (p : Par) (hr : p.rate = true) (hl : p.late = false) (hnt : p.nt = p.ns) (h6 : 6 ≤ p.ns) (h16 : p.ns ≤ 16384)
    (j1 j2 : Junk) (x : ℕ → ℝ) (s : St) (hs : Hist s) :
    ∃ w s', wavelet p j1 j2 x s = some (w, s') ∧ Hist s' ∧ ∀ j, j < p.ns →
      w j = if p.reverse then x (p.ns - 1 - j) - x 0 else x j - x (p.ns - 1) := by
  have hge : p.ns ≤ optncr p.ns := optncr_ge_partial p.ns (by omega) h16
  have hinv : InvLen (optncr p.ns) := optncr_invLen p.ns (by omega) h16
  unfold wavelet
  have hne : ¬ p.nt ≠ p.ns := not_not_intro hnt
  dsimp only
  rw [if_neg hne, hr, hl, hnt]
  generalize optncr p.ns = N at *
  have hN0 : 0 < N := by omega
  have hN' : (N : ℂ) ≠ 0 := by exact_mod_cast hN0.ne'
  have hb : ¬ N < p.ns := by omega
  obtain ⟨c1, s1, e1, hs1, a1, b1⟩ := rc1_fft_dft N N (N / 2 + 1) hinv.1 le_rfl (by omega) (-1) (Or.inr rfl) j1
    (fun j => if j < p.ns then x j else 0) (fun _ => 0) s hs
  rw [if_neg hb, e1, Option.bind_some]
  dsimp only
  rw [if_pos rfl, if_neg Bool.false_ne_true]
  obtain ⟨c3, e3, h30, v3⟩ := zeroFreq_val (len := N / 2 + 1) (by omega) c1
  rw [e3, Option.bind_some]
  set X := Conv.spectrum N (Conv.pad p.ns x) with hX
  have hQ : ∀ k, 1 ≤ k → aset X 0 (c3 0) k = X k := fun k hk => by
    have : k ≠ 0 := by omega
    unfold aset; rw [if_neg this]
  have hQ0 : aset X 0 (c3 0) 0 = c3 0 := by unfold aset; rw [if_pos rfl]
  obtain ⟨y, s2, e4, hs2, hy, _⟩ := cr1_fft_dft N (N / 2 + 1) N hinv le_rfl (by omega) 1 (Or.inl rfl) j2 (aset X 0 (c3 0))
    (clear (N / 2 + 1) (N / 2 + 1) c3) (by rw [hQ0]; exact h30)
    (fun k k0 kN => by rw [hQ _ (by omega), hQ _ (by omega)]; exact Conv.spectrum_herm N hN0 _ k kN.le)
    (fun k hk => by
      have : ¬ (N / 2 + 1 ≤ k ∧ k < N / 2 + 1) := by omega
      rw [clear_val, if_neg this]
      rcases Nat.eq_zero_or_pos k with h | h
      · rw [h, hQ0]
      · rw [hQ k h, v3 k h, a1 k hk, hX, Conv.spectrum_dft]; rfl) (fun _ => 0) s1 hs1
  rw [e4, Option.bind_some]
  dsimp only
  rw [if_neg hb]
  refine ⟨_, s2, rfl, hs2, fun j hj => ?_⟩
  have hd : ∀ t, dft 1 N (aset X 0 (c3 0)) t = dft 1 N X t + (c3 0 - X 0) := by
    intro t
    obtain ⟨m, rfl⟩ : ∃ m, N = m + 1 := ⟨N - 1, by omega⟩
    unfold dft
    rw [sum_range_succ', sum_range_succ', hQ0]
    have : ∀ k ∈ range m, aset X 0 (c3 0) (k + 1) * exp (((1 : ℤ) : ℂ) * (2 * Real.pi * I * ((k + 1 : ℕ) * t) / (m + 1 : ℕ))) =
        X (k + 1) * exp (((1 : ℤ) : ℂ) * (2 * Real.pi * I * ((k + 1 : ℕ) * t) / (m + 1 : ℕ))) := fun k _ => by rw [hQ _ (by omega)]
    rw [sum_congr rfl this]
    simp
  have hval : ∀ t u, t < p.ns → u < p.ns → 1 / (N : ℝ) * (y t - y u) = x t - x u := by
    intro t u ht hu
    have h1 := hy t (by omega)
    have h2 := hy u (by omega)
    rw [hd, hX, Conv.spectrum_inv N hN0 _ _ (by omega)] at h1 h2
    unfold Conv.pad at h1 h2
    rw [if_pos ht] at h1
    rw [if_pos hu] at h2
    have h3 : ((1 / (N : ℝ) * (y t - y u) : ℝ) : ℂ) = ((x t - x u : ℝ) : ℂ) := by
      push_cast
      rw [h1, h2]
      field_simp
      ring
    exact_mod_cast h3
  rw [hval _ _ (by omega) (by omega), hval _ _ (by omega) (by omega)]

example (j1 j2 : Junk) (x : ℕ → ℝ) : ∃ w s', wavelet ⟨true, false, true, 8, 8, 1 / 250, 1 / 250, 5, 1500⟩ j1 j2 x St.init = some (w, s') ∧
    w 0 = x 7 - x 0 := by
  obtain ⟨w, s', e, _, h⟩ := wavelet_plain ⟨true, false, true, 8, 8, 1 / 250, 1 / 250, 5, 1500⟩ rfl rfl rfl (by norm_num) (by norm_num) j1 j2 x
    St.init .start
  exact ⟨w, s', e, h 0 (by norm_num)⟩

/-- **The alternating error.**  When the length after interpolation is even and has no fast transform, half of the ratio of the lengths is
subtracted from every second sample, whatever the amplitude of the wavelet. -/
theorem wavelet_alternates (p : Par) (h6 : 6 ≤ p.ns) (h16 : p.ns ≤ 16384) (hds : 0 < p.ds) (hnt : optncr p.ns ≤ p.nt) (hns : p.nt ≠ p.ns)
    (hev : p.nt % 2 = 0) (hp2 : ∀ m, p.nt ≠ 2 ^ m) (hpf : npfar p.nt ≠ p.nt) (hrev : p.reverse = false) (j1 j2 : Junk)
    (x : ℕ → ℝ) (hx : NoNyquist (optncr p.ns) (Conv.pad p.ns x)) (s : St) (hs : Hist s) :
    ∃ w s', wavelet p j1 j2 x s = some (w, s') ∧
      ∀ V, p.Plays V (band (optncr p.ns) p.ds (Conv.pad p.ns x)) → ∀ j, j < p.nt →
        w j = V (time (optncr p.ns) p.nt p.ds j - p.tau) - V (time (optncr p.ns) p.nt p.ds (p.nt - 1) - p.tau)
          - if j % 2 = 0 then (p.nt / optncr p.ns : ℝ) / 2 else 0 := by
  have hge : p.ns ≤ optncr p.ns := optncr_ge_partial p.ns (by omega) h16
  have hl : p.len = p.nt := by unfold Par.len; rw [if_pos hns]
  obtain ⟨w, s', e, _, hw⟩ := wavelet_core p h6 h16 hds (fun _ => hnt) (fun t => (-1) ^ t * (p.nt / 4)) j1 j2
    (fun c y s _ hz hs => by
      rw [hl] at hz ⊢
      exact cr1_poly_even hev hp2 hpf (h := (optncr p.ns - 1) / 2) (by omega) j2 c hz y s hs) x hx s hs
  refine ⟨w, s', e, fun V hV j hj => ?_⟩
  rw [hw V hV j hj, hl]
  have hpl : p.played j = j := by unfold Par.played; rw [hrev, if_neg Bool.false_ne_true]
  have hba : p.base = p.nt - 1 := by unfold Par.base; rw [hrev, if_neg Bool.false_ne_true]
  rw [hpl, hba]
  congr 1
  have hodd : Odd (p.nt - 1) := Nat.odd_iff.mpr (by omega)
  rw [hodd.neg_one_pow]
  by_cases hj2 : j % 2 = 0
  · rw [if_pos hj2, (Nat.even_iff.mpr hj2).neg_one_pow]; ring
  · rw [if_neg hj2, (Nat.odd_iff.mpr (by omega)).neg_one_pow]; ring

theorem optncr_1000 : optncr 1000 = 1008 := by
  have h1 : 1024 ≤ pow2Len 1000 := by
    have h := pow2Len_ge (n := 1000) (by norm_num) (by norm_num)
    unfold pow2Len at h ⊢
    generalize (⌊Real.logb 2 (1000 : ℕ) + 9999 / 10000⌋).toNat = k at h ⊢
    have : 10 ≤ k := by
      by_contra hk
      have := Nat.pow_le_pow_right (show 0 < 2 by norm_num) (show k ≤ 9 by omega)
      omega
    exact Nat.pow_le_pow_right (show 0 < 2 by norm_num) this
  have h2 : npfar ((1000 : ℕ) : ℤ) = 1008 := by decide +kernel
  unfold optncr
  dsimp only
  have h3 : pow2Len 1000 ≠ 1000 := by omega
  rw [if_pos h3, h2]
  have h4 : ((1008 : ℕ) : ℤ) - (1000 : ℕ) < (pow2Len 1000 : ℤ) - (1000 : ℕ) := by omega
  rw [if_pos h4]

theorem npfar_3024 : npfar (3024 : ℕ) ≠ 3024 := by decide +kernel

/-- A silent wavelet of 1000 samples at 3 ms, modelled with 1 ms: `-3/2` on every second sample. -/
theorem wavelet_silent_wrong (p : Par) (hp : p = ⟨true, false, false, 1000, 3024, 3 / 1000, 1 / 1000, 5, 1500⟩) (j1 j2 : Junk) (s : St)
    (hs : Hist s) : resample 1000 (optncr 1000) (3 / 1000) (1 / 1000) = (3024, 1 / 1000) ∧
    ∃ w s', wavelet p j1 j2 (fun _ => 0) s = some (w, s') ∧ ∀ j, j < 3024 → w j = if j % 2 = 0 then -(3 / 2) else 0 := by
  constructor
  · rw [optncr_1000]
    unfold resample NINT
    norm_num
    rfl
  · have hz : Conv.pad 1000 (fun _ => 0) = fun _ => 0 := by funext j; unfold Conv.pad; split <;> rfl
    have hpow : ∀ m, 3024 ≠ 2 ^ m := fun m h => by
      rcases Nat.lt_or_ge m 12 with h1 | h1
      · have := Nat.pow_le_pow_right (show 0 < 2 by norm_num) (show m ≤ 11 by omega)
        omega
      · have := Nat.pow_le_pow_right (show 0 < 2 by norm_num) h1
        omega
    have hns : p.ns = 1000 := by rw [hp]
    have hnt : p.nt = 3024 := by rw [hp]
    have hN : optncr p.ns = 1008 := by rw [hns, optncr_1000]
    have hb : band (optncr p.ns) p.ds (Conv.pad p.ns (fun _ => 0)) = fun _ => 0 := by
      funext t; rw [hns, hz]; unfold band Conv.spectrum; simp
    obtain ⟨w, s', e, h⟩ := wavelet_alternates p (by omega) (by omega) (by rw [hp]; norm_num) (by omega) (by omega) (by omega)
      (by rw [hnt]; exact hpow) (by rw [hnt]; exact npfar_3024) (by rw [hp]) j1 j2 (fun _ => 0)
      (fun _ => by rw [hns, hz]; unfold Conv.spectrum; simp) s hs
    refine ⟨w, s', e, fun j hj => ?_⟩
    rw [h (fun _ => 0) (by unfold Par.Plays; rw [hp]; rw [hp] at hb; rw [hb]; rfl) j (by omega), hN, hnt]
    split <;> norm_num

/-- **The time scale.**  A wavelet that is interpolated gets the samples of the steps `ds / ⌊ds/dt⌋`, which are played every `dt`; these agree
when the step of the wavelet is a multiple of that of the modelling. -/
theorem resample_steps (ns optn : ℕ) (ho : 0 < optn) {ds dt : ℚ} (hdt : 0 < dt) (hgt : dt < ds)
    (hne : NINT (ds * 1000000) ≠ NINT (dt * 1000000)) :
    (resample ns optn ds dt).2 = dt ∧ (optn * ds / (resample ns optn ds dt).1 : ℚ) = ds / ⌊ds / dt⌋ ∧
      (ds / ⌊ds / dt⌋ = dt ↔ ∃ q : ℕ, ds = q * dt) := by
  have h1 : (1 : ℤ) ≤ ⌊ds / dt⌋ := Int.le_floor.mpr (by rw [Int.cast_one, le_div_iff₀ hdt, one_mul]; exact hgt.le)
  unfold resample
  rw [if_pos hne, if_pos hgt]
  obtain ⟨q, hq⟩ : ∃ q : ℕ, ⌊ds / dt⌋ = q := ⟨⌊ds / dt⌋.toNat, by omega⟩
  have hq0 : (q : ℚ) ≠ 0 := by
    rw [hq] at h1
    exact_mod_cast (show q ≠ 0 by omega)
  have ho0 : (optn : ℚ) ≠ 0 := by exact_mod_cast ho.ne'
  refine ⟨rfl, ?_, ?_⟩
  · dsimp only
    rw [hq]
    have : ⌊((q : ℤ) : ℚ) * optn⌋.toNat = q * optn := by
      have : (((q : ℤ) : ℚ) * optn) = ((q * optn : ℕ) : ℚ) := by push_cast; ring
      rw [this, Int.floor_natCast, Int.toNat_natCast]
    rw [this]
    push_cast
    field_simp
  · rw [hq, Int.cast_natCast]
    constructor
    · intro h
      refine ⟨q, ?_⟩
      field_simp at h
      rw [h]
    · rintro ⟨r, hr⟩
      have : (q : ℤ) = r := by rw [← hq, hr, mul_div_assoc, div_self hdt.ne', mul_one, Int.floor_natCast]
      have : q = r := by exact_mod_cast this
      rw [this, hr]
      have : (r : ℚ) ≠ 0 := by rw [← this]; exact hq0
      field_simp

/-- 4 ms and 1 ms fit, ... -/
example : (resample 1024 1024 (4 / 1000) (1 / 1000)) = (4096, 1 / 1000) := by unfold resample NINT; norm_num; rfl

/-- ... 4 ms and 2.5 ms do not: the wavelet is not interpolated (to the same number of samples) and is played in 5/8 of its time. -/
theorem resample_compressed : resample 1024 1024 (4 / 1000) (25 / 10000) = (1024, 25 / 10000) := by unfold resample NINT; norm_num; rfl

/-- A wavelet with smaller steps than the modelling is played with its own samples at the steps of the modelling, that is, slower. -/
theorem resample_stretched (ns optn : ℕ) {ds dt : ℚ} (hlt : ds < dt) (hne : NINT (ds * 1000000) ≠ NINT (dt * 1000000)) :
    resample ns optn ds dt = (ns, dt) := by
  unfold resample
  have : ¬ ds > dt := not_lt.mpr hlt.le
  rw [if_pos hne, if_neg this]

example : resample 1024 1024 (1 / 1000) (2 / 1000) = (1024, 2 / 1000) := resample_stretched _ _ (by norm_num) (by unfold NINT; norm_num)

/-! ### Small samples -/

theorem maxampl_ge {nt : ℕ} (w : ℕ → ℝ) {j : ℕ} (hj : j < nt) : |w j| ≤ maxampl nt w := by
  unfold maxampl
  induction nt with
  | zero => omega
  | succ n ih =>
    rw [forN_succ]
    rcases Nat.lt_succ_iff_lt_or_eq.mp hj with h | h
    · exact (ih h).trans (le_max_left _ _)
    · rw [h]; exact le_max_right _ _

theorem maxampl_mem (nt : ℕ) (w : ℕ → ℝ) : maxampl nt w = 0 ∨ ∃ j, j < nt ∧ maxampl nt w = |w j| := by
  unfold maxampl
  induction nt with
  | zero => exact Or.inl rfl
  | succ n ih =>
    rw [forN_succ]
    rcases max_choice (forN n (fun j m => max m |w j|) 0) |w n| with h | h
    · rw [h]
      rcases ih with h2 | ⟨j, hj, h2⟩
      · exact Or.inl h2
      · exact Or.inr ⟨j, by omega, h2⟩
    · rw [h]; exact Or.inr ⟨n, by omega, rfl⟩

theorem last_max (nx nt : ℕ) (w : ℕ → ℕ → ℝ) : forN (nx + 1) (fun i (_ : ℝ) => maxampl nt (w i)) 0 = maxampl nt (w nx) := rfl

/-- **Small samples** are set to zero: no sample changes by more than `1e-5` of the largest sample of the last wavelet. -/
theorem cutSmall_near (nx nt : ℕ) (w : ℕ → ℕ → ℝ) (i j : ℕ) (hw : ∃ l, l < nt ∧ w nx l ≠ 0) :
    ∃ l, l < nt ∧ |cutSmall (nx + 1) nt w i j - w i j| ≤ 1 / 100000 * |w nx l| := by
  have hmax : ∃ l, l < nt ∧ maxampl nt (w nx) = |w nx l| := by
    rcases maxampl_mem nt (w nx) with h | h
    · obtain ⟨l, hl, hne⟩ := hw
      have := maxampl_ge (w nx) hl
      rw [h] at this
      exact absurd (abs_nonpos_iff.mp this) hne
    · exact h
  obtain ⟨l, hl, e⟩ := hmax
  refine ⟨l, hl, ?_⟩
  unfold cutSmall
  rw [last_max, e]
  by_cases h : i < nx + 1 ∧ j < nt ∧ |w i j| < 1 / 100000 * |w nx l|
  · rw [if_pos h, zero_sub, abs_neg]; exact h.2.2.le
  · rw [if_neg h, sub_self, abs_zero]; positivity

/-- With several wavelets it is the last one that counts: one a million times weaker is silenced, ... -/
theorem cutSmall_silenced : ∀ j, cutSmall 2 1 (fun i _ => if i = 0 then 1 / 1000000 else 1) 0 j = if j < 1 then 0 else 1 / 1000000 := by
  intro j
  unfold cutSmall
  rw [last_max]
  have : maxampl 1 (fun _ : ℕ => (if (1 : ℕ) = 0 then 1 / 1000000 else 1 : ℝ)) = 1 := by unfold maxampl; simp [forN_succ]
  rw [this]
  by_cases hj : j < 1
  · have : 0 < 2 ∧ j < 1 ∧ |(if (0 : ℕ) = 0 then 1 / 1000000 else 1 : ℝ)| < 1 / 100000 * 1 := ⟨by norm_num, hj, by rw [if_pos rfl, abs_of_pos (by norm_num)]; norm_num⟩
    rw [if_pos this, if_pos hj]
  · have : ¬ (0 < 2 ∧ j < 1 ∧ |(if (0 : ℕ) = 0 then 1 / 1000000 else 1 : ℝ)| < 1 / 100000 * 1) := fun h => hj h.2.1
    rw [if_neg this, if_neg hj]; rfl

/-- ... and with a silent one in the end nothing is cut. -/
theorem cutSmall_last_silent (nx nt : ℕ) (w : ℕ → ℕ → ℝ) (h0 : ∀ j, w nx j = 0) (i j : ℕ) : cutSmall (nx + 1) nt w i j = w i j := by
  unfold cutSmall
  rw [last_max]
  have : maxampl nt (w nx) = 0 := by
    rcases maxampl_mem nt (w nx) with h | ⟨l, _, h⟩
    · exact h
    · rw [h, h0, abs_zero]
  rw [this, mul_zero]
  have : ¬ (i < nx + 1 ∧ j < nt ∧ |w i j| < 0) := fun h => absurd h.2.2 (not_lt.mpr (abs_nonneg _))
  rw [if_neg this]

end Verif.Fd.Wav

import Verif.Fd.Wavelet
import Mathlib.Analysis.SpecialFunctions.Pow.Real
import Mathlib.Analysis.SpecialFunctions.Exp
import Mathlib.Analysis.Complex.ExponentialBounds

/-!
# The wavelets of makewave

`freqwave` fills a spectrum, transforms it to time and scales the result.  Reals in place of floats.
-/

noncomputable section
namespace Verif.FreqWave
open Complex Finset Verif Verif.Fft Verif.Fft.Lib Verif.Fd.Wav

/-! ### Model -/

/-- utils/freqwave.c:6. -/
def nint (x : ℝ) : ℤ := if x > 0 then ⌊x + 1 / 2⌋ else ⌈x - 1 / 2⌉

/-- The branches of utils/freqwave.c:52-336. -/
inductive Kind where
  | g0 | g1 | fw | mon | sqrtg2 | g2
  deriving DecidableEq

/-- The choice by `strstr`, utils/freqwave.c:52, 88, 132, 153, 217, 236, 282; `none` is the branch `cs`, which is not modelled. -/
def kindOf (w : List Char) : Option Kind :=
  let has (s : String) : Bool := decide (s.toList <:+: w)
  if has "g0" then some .g0 else if has "g1" then some .g1 else if has "cs" then none else if has "fw" then some .fw
  else if has "mon" then some .mon else if has "sqrtg2" then some .sqrtg2 else some .g2

/-- The arguments of `freqwave`.  `shift` of the kind `fw` is not modelled, nor is `inverse=2`; frequencies are not negative, except `fp`. -/
structure Par where
  kind : Kind
  nt : ℕ
  dt : ℝ
  fp : ℝ
  fmin : ℝ
  flef : ℝ
  frig : ℝ
  fmax : ℝ
  t0 : ℝ
  db : ℝ
  shift : Bool
  scale : ℝ
  scfft : Bool
  inverse : Bool
  eps : ℝ
  alpha : ℝ

/-- utils/freqwave.c:43-46. -/
def Par.optn (p : Par) : ℕ := optncr p.nt
def Par.nfreq (p : Par) : ℕ := 1 + p.optn / 2
def Par.df (p : Par) : ℝ := 1 / (p.dt * p.optn)
def Par.att (p : Par) : ℝ := (10 : ℝ) ^ (p.db / 20)

/-- utils/freqwave.c:406-454. -/
def gauss2time (t f : ℝ) : ℝ := (1 - 2 * Real.pi * Real.pi * f * f * t * t) * Real.exp (-Real.pi * Real.pi * f * f * t * t)
def gauss1time (t f : ℝ) : ℝ := -t * Real.exp (-Real.pi * Real.pi * f * f * t * t) * (Real.sqrt 2 * f * Real.pi * Real.exp (1 / 2))
def gauss0time (t f : ℝ) : ℝ := Real.exp (-Real.pi * Real.pi * f * f * t * t)
def gauss2freq (f freq : ℝ) : ℝ := f * f / (freq * freq) * (Real.exp 1 * Real.exp (-(f * f / (freq * freq))))
def gauss1freq (f freq : ℝ) : ℝ := Real.sqrt (2 * Real.exp 1) * f * Real.exp (-(f * f / (2 * freq * freq))) / (Real.sqrt 2 * freq)
def gauss0freq (f freq : ℝ) : ℝ := Real.exp (-(f * f / (freq * freq)))

open Classical in
/-- The loops downwards with `stored`, utils/freqwave.c:54-60, 91-97, 239-245, 285-291. -/
def search (i : ℤ) (ok : ℕ → Prop) : Option ℕ :=
  forN i.toNat (fun d s => if ok (i.toNat - d) ∧ s = none then some (i.toNat - d) else s) none

open Classical in
/-- The loops upwards with `stored`, utils/freqwave.c:63-70, 104-112, 253-261, 299-307. -/
def first (a n : ℕ) (ok : ℕ → Prop) : Option ℕ :=
  forN (n - a) (fun d s => if ok (a + d) ∧ s = none then some (a + d) else s) none

open Classical in
/-- `freq`, utils/freqwave.c:53-61, 89-100, 237-248, 283-294; `none` is `verr`. -/
def Par.peak (p : Par) : Option ℝ :=
  match p.kind with
  | .g0 => (search (nint (p.fmax / p.df)) fun k => gauss0freq p.fmax (k * p.df) < p.att).map fun k : ℕ => (k : ℝ) * p.df
  | .g1 => if p.fp < 0 then (search (nint (p.fmax / p.df)) fun k => gauss1freq p.fmax (k * p.df) < p.att).map fun k : ℕ => (k : ℝ) * p.df
      else some p.fp
  | .sqrtg2 | .g2 =>
      if p.fp < 0 then (search (nint (p.fmax / (2 * p.df))) fun k => gauss2freq p.fmax (k * p.df) < p.att).map fun k : ℕ => (k : ℝ) * p.df
      else some p.fp
  | .fw | .mon => some 0

/-- The time of the peak, utils/freqwave.c:62-70, 102-112, 250-261, 297-307. -/
def Par.tpeak (p : Par) (freq : ℝ) : ℝ :=
  if p.shift then
    match (match p.kind with
      | .g0 => first 0 p.optn fun i => |gauss0time (i * p.dt) freq| < 1 / 1000
      | .g1 => first 1 p.optn fun i => |gauss1time (i * p.dt) freq| + |gauss1time (i * p.dt + p.dt) freq| < 1 / 10000
      | .sqrtg2 | .g2 => first 0 p.optn fun i => |gauss2time (i * p.dt) freq| + |gauss2time (i * p.dt + p.dt) freq| < 1 / 1000
      | .fw | .mon => none) with
    | some i => i * p.dt
    | none => p.t0
  else p.t0

/-- One of the loops utils/freqwave.c:158-177 over the real parts. -/
def fill (a b : ℕ) (g : ℕ → ℝ) (c : ℕ → ℝ) : ℕ → ℝ := forN (b - a) (fun d c => aset c (a + d) (g (a + d))) c

/-- The real parts of utils/freqwave.c:154-177; `c` is the content of the new array, which has `nfreq` entries. -/
def Par.flat (p : Par) (c : ℕ → ℝ) : Option (ℕ → ℝ) :=
  let ifmin1 := ⌊p.fmin / p.df⌋₊
  let ifmin2 := ⌊p.flef / p.df⌋₊
  let ifmax2 := ⌊p.frig / p.df⌋₊
  let ifmax1 := ⌊p.fmax / p.df⌋₊
  if ifmin1 ≤ p.nfreq ∧ (ifmin1 < ifmin2 → ifmin2 ≤ p.nfreq) ∧ (ifmin2 < ifmax2 → ifmax2 ≤ p.nfreq) ∧ (ifmax2 < ifmax1 → ifmax1 ≤ p.nfreq) then
    let c := fill 0 ifmin1 (fun _ => 0) c
    let c := fill ifmin1 ifmin2 (fun j => (Real.cos (Real.pi * ((j : ℝ) - ifmin2) / ((ifmin1 : ℝ) - ifmin2)) + 1) / 2) c
    let c := fill ifmin2 ifmax2 (fun _ => 1) c
    let c := fill ifmax2 ifmax1 (fun j => (Real.cos (Real.pi * ((j : ℝ) - ifmax2) / ((ifmax1 : ℝ) - ifmax2)) + 1) / 2) c
    some (fill ifmax1 p.nfreq (fun _ => 0) c)
  else none

/-- `cwave`: utils/freqwave.c:71-77, 114-120, 196-202, 218-224, 263-269, 308-314; `none` is an access outside the array. -/
def Par.cwave (p : Par) (freq t0 : ℝ) (c : ℕ → ℝ) : Option (ℕ → ℂ) :=
  match p.kind with
  | .g0 => some fun k => let f := k * p.df; let fact := Real.exp (-(f * f / (freq * freq)))
      ⟨fact * Real.cos (2 * Real.pi * f * t0), -fact * Real.sin (2 * Real.pi * f * t0)⟩
  | .g1 => some fun k => let f := k * p.df; let alfa := Real.sqrt 2 * freq; let fact := f * Real.exp (-(f * f / (alfa * alfa))) / alfa
      ⟨fact * Real.sin (2 * Real.pi * f * t0), fact * Real.cos (2 * Real.pi * f * t0)⟩
  | .g2 => some fun k => let f := k * p.df; let fact := f * f / (freq * freq); let fact := fact * Real.exp (-fact)
      ⟨fact * Real.cos (2 * Real.pi * f * t0), -fact * Real.sin (2 * Real.pi * f * t0)⟩
  | .sqrtg2 => some fun k => let f := k * p.df; let fact := f / freq; let fact := fact * Real.exp (-(1 / 2) * fact * fact)
      ⟨fact * Real.cos (2 * Real.pi * f * t0), -fact * Real.sin (2 * Real.pi * f * t0)⟩
  | .fw => (p.flat c).map fun a k => let f := k * p.df
      ⟨a k * Real.cos (2 * Real.pi * f * t0), -a k * Real.sin (2 * Real.pi * f * t0)⟩
  | .mon => let i := nint (p.fp / p.df)
      if 0 ≤ i ∧ i < p.nfreq then some (aset (fun _ => 0) i.toNat
        ⟨1 / 2 * Real.cos (2 * Real.pi * i * p.df * t0), -(1 / 2) * Real.sin (2 * Real.pi * i * p.df * t0)⟩)
      else none

/-- utils/freqwave.c:337-346. -/
def invert (nfreq : ℕ) (eps : ℝ) (c : ℕ → ℂ) : ℕ → ℂ :=
  aset (forN (nfreq - 1) (fun d c => let fact := (c (d + 1)).re * (c (d + 1)).re + (c (d + 1)).im * (c (d + 1)).im
    aset c (d + 1) ⟨(c (d + 1)).re / (fact + eps), -(c (d + 1)).im / (fact + eps)⟩) c) 0 0

/-- The wavelet with the state of the transforms, an error message, an access outside an array, or a division by zero. -/
inductive Out where
  | wave (w : ℕ → ℝ) (s : St)
  | refused
  | ub
  | nan

open Classical in
/-- utils/freqwave.c:386-387. -/
def largest (nt : ℕ) (r : ℕ → ℝ) : ℝ := forN nt (fun i m => if r i > m then r i else m) (r 0)

open Classical in
/-- utils/freqwave.c:34-404. -/
def freqwave (p : Par) (junk : Junk) (c0 : ℕ → ℝ) (s : St) : Out :=
  if nint ((if p.fp < 0 then p.fmax else p.fp) / p.df) > p.nfreq then .refused else
  match p.peak with
  | none => .refused
  | some freq =>
    match p.cwave freq (p.tpeak freq) c0 with
    | none => .ub
    | some c =>
      match cr1Fft p.optn p.nfreq (p.optn + 2) 1 junk (if p.inverse then invert p.nfreq p.eps c else c) (fun _ => 0) s with
      | none => .ub
      | some (r, s) =>
        if p.optn < p.nt then .ub else
        if p.scale ≠ 0 ∧ largest p.nt r = 0 then .nan else
        .wave (fun i => r i * (if p.scale = 0 then (if p.scfft then p.df else 1 / p.nt) else p.scale / largest p.nt r) *
          Real.exp (-p.alpha * (i * p.dt))) s

/-! ### Specification -/

/-- The amplitude spectra: a Gaussian, its first derivative, the square root of its second derivative, and its second derivative (Ricker). -/
def shape : Kind → ℝ → ℝ → ℝ
  | .g0, F, f => Real.exp (-(f / F) ^ 2)
  | .g1, F, f => f / (Real.sqrt 2 * F) * Real.exp (-(f / F) ^ 2 / 2)
  | .sqrtg2, F, f => f / F * Real.exp (-(f / F) ^ 2 / 2)
  | .g2, F, f => (f / F) ^ 2 * Real.exp (-(f / F) ^ 2)
  | _, _, _ => 0

/-- A wavelet without phase, with amplitudes `A`, at `τ` samples from its centre: the period is `N` samples. -/
def zeroPhase (N : ℕ) (A : ℕ → ℝ) (τ : ℝ) : ℝ :=
  A 0 + ∑ k ∈ Icc 1 ((N - 1) / 2), 2 * A k * Real.cos (2 * Real.pi * k * τ / N) + if N % 2 = 0 then A (N / 2) * Real.cos (Real.pi * τ) else 0

/-- The amplitudes between `fmin`, `flef`, `frig` and `fmax`: zero outside, one in the middle, half periods of a cosine in between. -/
def trapezoid (a b c d k : ℕ) : ℝ :=
  if k < a then 0
  else if k < b then (1 - Real.cos (Real.pi * ((k : ℝ) - a) / ((b : ℝ) - a))) / 2
  else if k < c then 1
  else if k < d then (1 + Real.cos (Real.pi * ((k : ℝ) - c) / ((d : ℝ) - c))) / 2
  else 0

open Classical in
/-- The amplitude that frequency number `k` should have. -/
def Par.amplitude (p : Par) (F : ℝ) (k : ℕ) : ℝ :=
  match p.kind with
  | .fw => trapezoid ⌊p.fmin / p.df⌋₊ ⌊p.flef / p.df⌋₊ ⌊p.frig / p.df⌋₊ ⌊p.fmax / p.df⌋₊ k
  | .mon => if (k : ℤ) = nint (p.fp / p.df) then 1 / 2 else 0
  | K => shape K F (k * p.df)

/-- The frequencies make sense: they are ordered and within the band for `fw`, and `fp` is within the band for `mon`. -/
def Par.Fits (p : Par) : Prop :=
  (p.kind = .fw → p.fmin ≤ p.flef ∧ p.flef ≤ p.frig ∧ p.frig ≤ p.fmax ∧ ⌊p.fmax / p.df⌋₊ ≤ p.nfreq) ∧
  (p.kind = .mon → 0 ≤ nint (p.fp / p.df) ∧ nint (p.fp / p.df) < p.nfreq)

/-! ### The transform -/

/-- The imaginary part at the Nyquist frequency does not matter. -/
theorem cr1_nyquist {n : ℕ} (hn : InvLen n) (lenc lenr : ℕ) (sign : ℤ) (junk : Junk) (c d : ℕ → ℂ) (x : ℕ → ℝ) (s : St)
    (h : ∀ k, 2 * k ≠ n → c k = d k) (hr : (c (n / 2)).re = (d (n / 2)).re) :
    cr1Fft n lenc lenr sign junk c x s = cr1Fft n lenc lenr sign junk d x s := by
  by_cases hodd : n % 2 = 1
  · have : c = d := funext fun k => h k (by omega)
    rw [this]
  have hre : ∀ k, (c k).re = (d k).re := fun k => by
    by_cases hk : 2 * k = n
    · rw [show k = n / 2 by omega]; exact hr
    · rw [h k hk]
  unfold cr1Fft
  split
  · split
    · rename_i hp2
      split
      · rename_i hnp
        have e : Pfa.pfacr sign n lenc lenr (Pfa.unview c) x = Pfa.pfacr sign n lenc lenr (Pfa.unview d) x := by
          have u : ∀ i, i ≤ n → Pfa.unview c i = Pfa.unview d i := fun i hi => by
            unfold Pfa.unview
            split
            · exact hre _
            · rw [h (i / 2) (by omega)]
          unfold Pfa.pfacr
          dsimp only
          rw [u 0 (by omega), u n le_rfl, forN_congr (f := fun i z => upd z (i + 2) (Pfa.unview c (i + 2))) (g := fun i z => upd z (i + 2) (Pfa.unview d (i + 2))) (fun k hk s => by rw [u (k + 2) (by omega)])]
        rw [e]
      · exfalso
        rename_i hnp
        obtain ⟨hf, ⟨m, e⟩ | ⟨N, hv, e⟩ | e⟩ := hn
        · exact hp2 (isPow2_iff.mpr ⟨m, e⟩)
        · exact hnp (by rw [e]; exact npfar_of hv)
        · omega
    · have e : Mayer.cr1Pow2 n sign (fun i => (c i).re) (fun i => (c i).im) junk.buf x s.trig =
          Mayer.cr1Pow2 n sign (fun i => (d i).re) (fun i => (d i).im) junk.buf x s.trig := by
        unfold Mayer.cr1Pow2
        dsimp only
        have hpos : 0 < n := hn.1.1
        obtain ⟨m, hm⟩ : ∃ m, n / 2 = m + 1 := ⟨n / 2 - 1, by omega⟩
        have uu : ∀ (X : ℕ → ℝ) (j : ℕ) (a b : ℝ), upd (upd X j a) j b = upd X j b := fun X j a b => by
          funext i; unfold upd; split <;> rfl
        have key : ∀ e : ℕ → ℂ, upd (forN (n / 2) (fun j D => upd (upd D j (e j).re) (n - 1 - j) (e (j + 1)).im) junk.buf) (n / 2) (e (n / 2)).re =
            upd (upd (forN m (fun j D => upd (upd D j (e j).re) (n - 1 - j) (e (j + 1)).im) junk.buf) m (e m).re) (m + 1) (e (m + 1)).re := fun e => by
          rw [hm, forN_succ, show n - 1 - m = m + 1 by omega, uu]
        rw [key c, key d, hre m, hre (m + 1), forN_congr (n := m) (f := fun j D => upd (upd D j (c j).re) (n - 1 - j) (c (j + 1)).im)
          (g := fun j D => upd (upd D j (d j).re) (n - 1 - j) (d (j + 1)).im) (fun k hk D => by rw [h k (by omega), h (k + 1) (by omega)])]
      rw [e]
  · rfl

theorem pow_neg_one (t : ℕ) : (-1 : ℝ) ^ t = Real.cos (Real.pi * t) := by
  rw [mul_comm, Real.cos_nat_mul_pi]

/-- The inverse transform as a sum of cosines. -/
theorem cr1_synth {M : ℕ} (hM : InvLen M) (lenr : ℕ) (hr : M ≤ lenr) (junk : Junk) (c : ℕ → ℂ) (h0 : (c 0).im = 0) (x : ℕ → ℝ) (s : St)
    (hs : Hist s) : ∃ y s', cr1Fft M (M / 2 + 1) lenr 1 junk c x s = some (y, s') ∧ Hist s' ∧
      ∀ t, t < M → y t = poly ((M - 1) / 2) M c t + if M % 2 = 0 then (c (M / 2)).re * Real.cos (Real.pi * t) else 0 := by
  have hpos : 0 < M := hM.1.1
  set d : ℕ → ℂ := fun k => if 2 * k = M then ((c k).re : ℂ) else c k with hd
  have hdn : ∀ k, 2 * k ≠ M → d k = c k := fun k hk => by rw [hd]; dsimp only; rw [if_neg hk]
  have hde : ∀ k, 2 * k = M → d k = ((c k).re : ℂ) := fun k hk => by rw [hd]; dsimp only; rw [if_pos hk]
  set X : ℕ → ℂ := fun k => if k ≤ M / 2 then d k else (starRingEnd ℂ) (d (M - k)) with hX
  have hXl : ∀ k, k ≤ M / 2 → X k = d k := fun k hk => by rw [hX]; dsimp only; rw [if_pos hk]
  have hXr : ∀ k, M / 2 < k → X k = (starRingEnd ℂ) (d (M - k)) := fun k hk => by
    have : ¬ k ≤ M / 2 := by omega
    rw [hX]; dsimp only; rw [if_neg this]
  have herm : ∀ k, 0 < k → k < M → X (M - k) = (starRingEnd ℂ) (X k) := by
    intro k k0 kM
    rcases lt_trichotomy (2 * k) M with h1 | h1 | h1
    · rw [hXr (M - k) (by omega), hXl k (by omega), show M - (M - k) = k by omega]
    · rw [show M - k = k by omega, hXl k (by omega), hde k h1, conj_ofReal]
    · rw [hXl (M - k) (by omega), hXr k (by omega), conj_conj]
  have hX0 : (X 0).im = 0 := by rw [hXl 0 (by omega), hdn 0 (by omega), h0]
  obtain ⟨y, s', e, hs', a, _⟩ := cr1_fft_dft M (M / 2 + 1) lenr hM hr (by omega) 1 (Or.inl rfl) junk X d hX0 herm (fun k hk => (hXl k hk).symm) x s hs
  refine ⟨y, s', ?_, hs', fun t ht => ?_⟩
  · rw [← e]
    refine cr1_nyquist hM _ _ _ _ _ _ _ _ (fun k hk => (hdn k hk).symm) ?_
    by_cases hk : 2 * (M / 2) = M
    · rw [hde _ hk, ofReal_re]
    · rw [hdn _ hk]
  · have hy := a t ht
    set Y : ℕ → ℂ := fun k => if 2 * k = M then 0 else X k with hY
    have hYn : ∀ k, 2 * k ≠ M → Y k = X k := fun k hk => by rw [hY]; dsimp only; rw [if_neg hk]
    have hYe : ∀ k, 2 * k = M → Y k = 0 := fun k hk => by rw [hY]; dsimp only; rw [if_pos hk]
    have split1 : dft 1 M X t = dft 1 M Y t + if M % 2 = 0 then (((c (M / 2)).re * Real.cos (Real.pi * t) : ℝ) : ℂ) else 0 := by
      by_cases he : M % 2 = 0
      · rw [if_pos he]
        have hm : M / 2 ∈ range M := mem_range.mpr (by omega)
        have hMc : (M : ℂ) ≠ 0 := by exact_mod_cast hpos.ne'
        unfold dft
        rw [← add_sum_erase _ _ hm, ← add_sum_erase (range M) (fun j => Y j * _) hm, hYe (M / 2) (by omega), zero_mul, zero_add, add_comm]
        congr 1
        · refine sum_congr rfl fun k hk => ?_
          rw [mem_erase] at hk
          rw [hYn k (by omega)]
        · rw [hXl _ le_rfl, hde _ (by omega), ofReal_mul]
          congr 1
          have h2 : ((M / 2 : ℕ) : ℂ) = M / 2 := by
            have : M = 2 * (M / 2) := by omega
            have h3 : (M : ℂ) = 2 * ((M / 2 : ℕ) : ℂ) := by exact_mod_cast this
            rw [h3]; ring
          have h4 : ((1 : ℤ) : ℂ) * (2 * Real.pi * I * (((M / 2 : ℕ) : ℂ) * t) / M) = (Real.pi * t : ℝ) * I := by
            rw [h2]; push_cast; field_simp
          rw [h4]
          apply Complex.ext
          · rw [exp_ofReal_mul_I_re, ofReal_re]
          · rw [exp_ofReal_mul_I_im, ofReal_im, mul_comm, Real.sin_nat_mul_pi]
      · rw [if_neg he, add_zero]
        congr 1
        funext k
        rw [hYn k (by omega)]
    rw [split1, dft_fold (h := (M - 1) / 2) (by omega) Y (by rw [hYn 0 (by omega), hX0])
      (fun k k0 kM => by
        by_cases hk : 2 * k = M
        · rw [hYe k hk, hYe (M - k) (by omega), map_zero]
        · rw [hYn k hk, hYn (M - k) (by omega), herm k k0 kM])
      (fun k h1 h2 => hYe k (by omega))] at hy
    have e2 : poly ((M - 1) / 2) M Y t = poly ((M - 1) / 2) M c t :=
      poly_congr (fun k hk => by rw [hYn k (by omega), hXl k (by omega), hdn k (by omega)]) t
    rw [e2] at hy
    by_cases he : M % 2 = 0
    · rw [if_pos he] at hy ⊢
      exact_mod_cast hy
    · rw [if_neg he] at hy ⊢
      exact_mod_cast hy

/-! ### The spectrum -/

theorem fill_val (a b : ℕ) (g c : ℕ → ℝ) (m : ℕ) : fill a b g c m = if a ≤ m ∧ m < b then g m else c m := by
  unfold fill
  have key : ∀ n, forN n (fun d c => aset c (a + d) (g (a + d))) c m = if a ≤ m ∧ m < a + n then g m else c m := by
    intro n
    induction n with
    | zero =>
      have : ¬ (a ≤ m ∧ m < a + 0) := by omega
      rw [forN_zero, if_neg this]
    | succ n ih =>
      rw [forN_succ]
      generalize forN n (fun d c => aset c (a + d) (g (a + d))) c = q at ih
      unfold aset
      by_cases h : m = a + n
      · have h2 : a ≤ m ∧ m < a + (n + 1) := by omega
        rw [if_pos h, if_pos h2, h]
      · rw [if_neg h, ih]
        exact if_congr (by omega) rfl rfl
  rw [key]
  exact if_congr (by omega) rfl rfl

theorem cos_up {a b k : ℕ} (h : a < b) : (Real.cos (Real.pi * ((k : ℝ) - b) / ((a : ℝ) - b)) + 1) / 2 =
    (1 - Real.cos (Real.pi * ((k : ℝ) - a) / ((b : ℝ) - a))) / 2 := by
  have h1 : (b : ℝ) - a ≠ 0 := by
    have : (a : ℝ) < b := by exact_mod_cast h
    linarith
  have h2 : (a : ℝ) - b ≠ 0 := fun h => h1 (by linarith)
  have : Real.pi * ((k : ℝ) - b) / ((a : ℝ) - b) = Real.pi - Real.pi * ((k : ℝ) - a) / ((b : ℝ) - a) := by
    rw [show (a : ℝ) - b = -((b : ℝ) - a) by ring, div_neg]
    field_simp
    ring
  rw [this, Real.cos_pi_sub]
  ring

theorem flat_val (p : Par) (hdf : 0 < p.df) (h : p.Fits) (hk : p.kind = .fw) (c0 : ℕ → ℝ) :
    ∃ a, p.flat c0 = some a ∧ ∀ F k, k < p.nfreq → a k = p.amplitude F k := by
  obtain ⟨h1, h2, h3, h4⟩ := h.1 hk
  have m1 : ⌊p.fmin / p.df⌋₊ ≤ ⌊p.flef / p.df⌋₊ := Nat.floor_mono (by gcongr)
  have m2 : ⌊p.flef / p.df⌋₊ ≤ ⌊p.frig / p.df⌋₊ := Nat.floor_mono (by gcongr)
  have m3 : ⌊p.frig / p.df⌋₊ ≤ ⌊p.fmax / p.df⌋₊ := Nat.floor_mono (by gcongr)
  unfold Par.flat Par.amplitude
  rw [hk]
  dsimp only
  generalize ⌊p.fmin / p.df⌋₊ = a at *
  generalize ⌊p.flef / p.df⌋₊ = b at *
  generalize ⌊p.frig / p.df⌋₊ = c at *
  generalize ⌊p.fmax / p.df⌋₊ = d at *
  have hif : a ≤ p.nfreq ∧ (a < b → b ≤ p.nfreq) ∧ (b < c → c ≤ p.nfreq) ∧ (c < d → d ≤ p.nfreq) := by omega
  rw [if_pos hif]
  refine ⟨_, rfl, fun F k hkn => ?_⟩
  rw [fill_val, fill_val, fill_val, fill_val, fill_val]
  unfold trapezoid
  by_cases ha : k < a
  · have e1 : ¬ (d ≤ k ∧ k < p.nfreq) := by omega
    have e2 : ¬ (c ≤ k ∧ k < d) := by omega
    have e3 : ¬ (b ≤ k ∧ k < c) := by omega
    have e4 : ¬ (a ≤ k ∧ k < b) := by omega
    rw [if_neg e1, if_neg e2, if_neg e3, if_neg e4, if_pos ⟨Nat.zero_le _, ha⟩, if_pos ha]
  rw [if_neg ha]
  by_cases hb : k < b
  · have e1 : ¬ (d ≤ k ∧ k < p.nfreq) := by omega
    have e2 : ¬ (c ≤ k ∧ k < d) := by omega
    have e3 : ¬ (b ≤ k ∧ k < c) := by omega
    have e4 : a ≤ k ∧ k < b := by omega
    rw [if_neg e1, if_neg e2, if_neg e3, if_pos e4, if_pos hb, cos_up (by omega)]
  rw [if_neg hb]
  by_cases hc : k < c
  · have e1 : ¬ (d ≤ k ∧ k < p.nfreq) := by omega
    have e2 : ¬ (c ≤ k ∧ k < d) := by omega
    have e3 : b ≤ k ∧ k < c := by omega
    rw [if_neg e1, if_neg e2, if_pos e3, if_pos hc]
  rw [if_neg hc]
  by_cases hd : k < d
  · have e1 : ¬ (d ≤ k ∧ k < p.nfreq) := by omega
    have e2 : c ≤ k ∧ k < d := by omega
    rw [if_neg e1, if_pos e2, if_pos hd, add_comm]
  · have e1 : d ≤ k ∧ k < p.nfreq := by omega
    rw [if_neg hd, if_pos e1]

/-- The spectra without phase. -/
theorem cwave_zero (p : Par) (hdf : 0 < p.df) (h : p.Fits) (hk : p.kind ≠ .g1) (F t0 : ℝ) (c0 : ℕ → ℝ) :
    ∃ c, p.cwave F t0 c0 = some c ∧ ∀ k, k < p.nfreq → c k = ⟨p.amplitude F k * Real.cos (2 * Real.pi * (k * p.df) * t0),
      -(p.amplitude F k * Real.sin (2 * Real.pi * (k * p.df) * t0))⟩ := by
  unfold Par.cwave
  cases hK : p.kind with
  | g1 => exact absurd hK hk
  | g0 =>
    refine ⟨_, rfl, fun k _ => ?_⟩
    have : p.amplitude F k = Real.exp (-((k : ℝ) * p.df * (k * p.df) / (F * F))) := by
      unfold Par.amplitude; rw [hK]; dsimp only [shape]; congr 2; rw [div_pow, sq, sq]
    dsimp only
    rw [this, neg_mul]
  | g2 =>
    refine ⟨_, rfl, fun k _ => ?_⟩
    have : p.amplitude F k = (k : ℝ) * p.df * (k * p.df) / (F * F) * Real.exp (-((k : ℝ) * p.df * (k * p.df) / (F * F))) := by
      unfold Par.amplitude; rw [hK]; dsimp only [shape]; rw [div_pow, sq, sq]
    dsimp only
    rw [this, neg_mul]
  | sqrtg2 =>
    refine ⟨_, rfl, fun k _ => ?_⟩
    have : p.amplitude F k = (k : ℝ) * p.df / F * Real.exp (-(1 / 2) * ((k : ℝ) * p.df / F) * ((k : ℝ) * p.df / F)) := by
      unfold Par.amplitude; rw [hK]; dsimp only [shape]; congr 2; ring
    dsimp only
    rw [this]
    congr 1
    rw [neg_mul (_ / F * _)]
  | fw =>
    obtain ⟨a, e, ha⟩ := flat_val p hdf h hK c0
    rw [e]
    refine ⟨_, rfl, fun k hkn => ?_⟩
    dsimp only
    rw [ha F k hkn, neg_mul]
  | mon =>
    have h' := h.2 hK
    dsimp only
    rw [if_pos h']
    refine ⟨_, rfl, fun k _ => ?_⟩
    have hA : p.amplitude F k = if (k : ℤ) = nint (p.fp / p.df) then 1 / 2 else 0 := by unfold Par.amplitude; rw [hK]
    rw [hA]
    unfold aset
    by_cases hki : (k : ℤ) = nint (p.fp / p.df)
    · have e : k = (nint (p.fp / p.df)).toNat := by omega
      rw [if_pos e, if_pos hki, ← hki]
      push_cast
      rw [neg_mul, mul_assoc (2 * Real.pi) (k : ℝ) p.df]
    · have e : ¬ k = (nint (p.fp / p.df)).toNat := by omega
      rw [if_neg e, if_neg hki, zero_mul, zero_mul, neg_zero]
      rfl

/-- Half the spectrum to a wavelet without phase. -/
theorem synth_zero {N : ℕ} (hN : 0 < N) {dt df t0 : ℝ} (hdt : 0 < dt) (hdf : df = 1 / (dt * N)) (A : ℕ → ℝ) (c : ℕ → ℂ)
    (hc : ∀ k, k < 1 + N / 2 → c k = ⟨A k * Real.cos (2 * Real.pi * (k * df) * t0), -(A k * Real.sin (2 * Real.pi * (k * df) * t0))⟩) (t : ℕ) :
    poly ((N - 1) / 2) N c t + (if N % 2 = 0 then (c (N / 2)).re * Real.cos (Real.pi * t) else 0) = zeroPhase N A (t - t0 / dt) := by
  have hN' : (N : ℝ) ≠ 0 := by exact_mod_cast hN.ne'
  unfold poly zeroPhase
  congr 1
  · congr 1
    · rw [hc 0 (by omega)]; simp
    · refine sum_congr rfl fun k hk => ?_
      rw [mem_Icc] at hk
      rw [re_exp, hc k (by omega), hdf]
      dsimp only
      have : 2 * Real.pi * (k : ℝ) * (t - t0 / dt) / N = 2 * Real.pi * (t * k : ℕ) / N - 2 * Real.pi * (k * (1 / (dt * N))) * t0 := by
        push_cast; field_simp
      rw [this, Real.cos_sub]
      ring
  · by_cases he : N % 2 = 0
    · rw [if_pos he, if_pos he, hc (N / 2) (by omega), hdf]
      dsimp only
      have h2 : ((N / 2 : ℕ) : ℝ) = N / 2 := by
        have : N = 2 * (N / 2) := by omega
        have h3 : (N : ℝ) = 2 * ((N / 2 : ℕ) : ℝ) := by exact_mod_cast this
        rw [h3]; ring
      have h4 : 2 * Real.pi * (((N / 2 : ℕ) : ℝ) * (1 / (dt * N))) * t0 = Real.pi * (t0 / dt) := by
        rw [h2]; field_simp
      rw [h4, mul_sub, Real.cos_sub, mul_comm Real.pi (t : ℝ), Real.sin_nat_mul_pi, zero_mul, add_zero]
      ring
    · rw [if_neg he, if_neg he]

/-! ### Running the program -/

theorem largest_ge (nt : ℕ) (r : ℕ → ℝ) (i : ℕ) (hi : i < nt) : r i ≤ largest nt r := by
  unfold largest
  have key : ∀ n, ∀ i, i < n → r i ≤ forN n (fun i m => if r i > m then r i else m) (r 0) := by
    intro n
    induction n with
    | zero => intro i hi; omega
    | succ n ih =>
      intro i hi
      rw [forN_succ]
      split
      · rename_i h
        rcases Nat.lt_succ_iff_lt_or_eq.mp hi with h' | h'
        · exact (ih i h').trans h.le
        · rw [h']
      · rename_i h
        rcases Nat.lt_succ_iff_lt_or_eq.mp hi with h' | h'
        · exact ih i h'
        · rw [h']; exact not_lt.mp h
  exact key nt i hi

theorem largest_mem (nt : ℕ) (hnt : 0 < nt) (r : ℕ → ℝ) : ∃ i, i < nt ∧ largest nt r = r i := by
  unfold largest
  have key := forN_inv (n := nt) (s := r 0) (body := fun i m => if r i > m then r i else m) (fun _ m => ∃ i, i < nt ∧ m = r i)
    ⟨0, hnt, rfl⟩ (fun k hk m hm => ?_)
  · exact key
  · split
    · exact ⟨k, hk, rfl⟩
    · exact hm

/-- The sizes and frequencies for which the program gets to the transform. -/
structure Par.Ok (p : Par) (F : ℝ) : Prop where
  three : 3 ≤ p.nt
  long : p.nt ≤ 16384
  step : 0 < p.dt
  band : nint ((if p.fp < 0 then p.fmax else p.fp) / p.df) ≤ p.nfreq
  found : p.peak = some F

theorem Par.Ok.df {p : Par} {F : ℝ} (h : p.Ok F) : 0 < p.df := by
  have := optncr_ge_partial p.nt (by have := h.three; omega) h.long
  have h3 : 0 < p.optn := by have := h.three; unfold Par.optn; omega
  have h4 : (0 : ℝ) < p.optn := by exact_mod_cast h3
  have := h.step
  unfold Par.df
  positivity

theorem run (p : Par) (F : ℝ) (h : p.Ok F) (junk : Junk) (c0 : ℕ → ℝ) (s : St) (hs : Hist s) (c : ℕ → ℂ)
    (hc : p.cwave F (p.tpeak F) c0 = some c) (h0 : ((if p.inverse then invert p.nfreq p.eps c else c) 0).im = 0) :
    ∃ r s', Hist s' ∧ (∀ t, t < p.optn → r t = poly ((p.optn - 1) / 2) p.optn (if p.inverse then invert p.nfreq p.eps c else c) t +
        if p.optn % 2 = 0 then ((if p.inverse then invert p.nfreq p.eps c else c) (p.optn / 2)).re * Real.cos (Real.pi * t) else 0) ∧
      p.nt ≤ p.optn ∧ freqwave p junk c0 s = if p.scale ≠ 0 ∧ largest p.nt r = 0 then .nan else
        .wave (fun i => r i * (if p.scale = 0 then (if p.scfft then p.df else 1 / p.nt) else p.scale / largest p.nt r) *
          Real.exp (-p.alpha * (i * p.dt))) s' := by
  have hle := optncr_ge_partial p.nt (by have := h.three; omega) h.long
  obtain ⟨r, s', e, hs', hr⟩ := cr1_synth (M := p.optn) (optncr_invLen p.nt h.three h.long) (p.optn + 2) (by omega) junk
    (if p.inverse then invert p.nfreq p.eps c else c) h0 (fun _ => 0) s hs
  refine ⟨r, s', hs', hr, hle, ?_⟩
  unfold freqwave
  have hb : ¬ nint ((if p.fp < 0 then p.fmax else p.fp) / p.df) > p.nfreq := not_lt.mpr h.band
  rw [if_neg hb, h.found]
  dsimp only
  rw [hc]
  dsimp only
  rw [show p.nfreq = p.optn / 2 + 1 from Nat.add_comm _ _] at e ⊢
  rw [e]
  dsimp only
  have hlt : ¬ p.optn < p.nt := not_lt.mpr hle
  rw [if_neg hlt]

theorem zeroPhase_even (N : ℕ) (A : ℕ → ℝ) (τ : ℝ) : zeroPhase N A (-τ) = zeroPhase N A τ := by
  unfold zeroPhase
  congr 1
  · congr 1
    refine sum_congr rfl fun k _ => ?_
    rw [show 2 * Real.pi * (k : ℝ) * -τ / N = -(2 * Real.pi * k * τ / N) by ring, Real.cos_neg]
  · rw [mul_neg, Real.cos_neg]

theorem zeroPhase_le (N : ℕ) (A : ℕ → ℝ) (hA : ∀ k, 0 ≤ A k) (τ : ℝ) : |zeroPhase N A τ| ≤ zeroPhase N A 0 := by
  have t1 : ∀ (a x : ℝ), 0 ≤ a → |a * Real.cos x| ≤ a := fun a x ha => by
    rw [abs_mul, abs_of_nonneg ha]
    exact mul_le_of_le_one_right ha (Real.abs_cos_le_one x)
  have e0 : zeroPhase N A 0 = A 0 + ∑ k ∈ Icc 1 ((N - 1) / 2), 2 * A k + if N % 2 = 0 then A (N / 2) else 0 := by
    unfold zeroPhase
    simp
  rw [e0]
  unfold zeroPhase
  refine (abs_add_le _ _).trans (add_le_add ((abs_add_le _ _).trans (add_le_add (abs_of_nonneg (hA 0)).le ?_)) ?_)
  · exact (abs_sum_le_sum_abs _ _).trans (sum_le_sum fun k _ => t1 _ _ (by have := hA k; positivity))
  · split
    · exact t1 _ _ (hA _)
    · rw [abs_zero]

theorem cos_half (x : ℝ) : 0 ≤ (1 + Real.cos x) / 2 ∧ 0 ≤ (1 - Real.cos x) / 2 := by
  have := Real.neg_one_le_cos x
  have := Real.cos_le_one x
  constructor <;> linarith

theorem amplitude_nonneg (p : Par) (F : ℝ) (hF : 0 ≤ F) (hdf : 0 < p.df) (k : ℕ) : 0 ≤ p.amplitude F k := by
  unfold Par.amplitude
  cases p.kind with
  | g0 => exact (Real.exp_pos _).le
  | g1 => dsimp only [shape]; positivity
  | g2 => dsimp only [shape]; positivity
  | sqrtg2 => dsimp only [shape]; positivity
  | mon => dsimp only; split <;> norm_num
  | fw =>
    dsimp only
    unfold trapezoid
    split
    · exact le_rfl
    · split
      · exact (cos_half _).2
      · split
        · exact zero_le_one
        · split
          · exact (cos_half _).1
          · exact le_rfl

/-! ### Properties -/

/-- **The peak** of a wavelet without phase is at the time asked for, has the value asked for, and the wavelet is symmetric around it. -/
theorem freqwave_peak (p : Par) (F : ℝ) (hF : 0 ≤ F) (h : p.Ok F) (hk : p.kind ≠ .g1) (hfit : p.Fits) (hinv : p.inverse = false) (hα : p.alpha = 0)
    (hsc : 0 < p.scale) (i0 : ℕ) (hi0 : i0 < p.nt) (ht : p.tpeak F = i0 * p.dt) (hpos : 0 < zeroPhase p.optn (p.amplitude F) 0)
    (junk : Junk) (c0 : ℕ → ℝ) (s : St) (hs : Hist s) : ∃ w s', freqwave p junk c0 s = .wave w s' ∧ Hist s' ∧ w i0 = p.scale ∧
      (∀ i, i < p.nt → |w i| ≤ p.scale ∧ w i = p.scale * (zeroPhase p.optn (p.amplitude F) (i - i0) / zeroPhase p.optn (p.amplitude F) 0)) ∧
      ∀ d, d ≤ i0 → i0 + d < p.nt → w (i0 + d) = w (i0 - d) := by
  have hN : 0 < p.optn := by
    have := optncr_ge_partial p.nt (by have := h.three; omega) h.long
    have := h.three
    unfold Par.optn; omega
  obtain ⟨c, hc, hcv⟩ := cwave_zero p h.df hfit hk F (p.tpeak F) c0
  obtain ⟨r, s', hs', hr, hle, e⟩ := run p F h junk c0 s hs c hc (by
    rw [hinv, if_neg Bool.false_ne_true, hcv 0 (by unfold Par.nfreq; omega)]
    simp)
  rw [hinv] at hr
  have hr' : ∀ t, t < p.optn → r t = zeroPhase p.optn (p.amplitude F) (t - i0) := fun t htl => by
    rw [hr t htl, if_neg Bool.false_ne_true, synth_zero hN h.step rfl (p.amplitude F) c hcv t, ht]
    congr 2
    have := h.step
    field_simp
  set Z := zeroPhase p.optn (p.amplitude F) with hZ
  have hri : r i0 = Z 0 := by rw [hr' i0 (by omega), sub_self]
  have hA := amplitude_nonneg p F hF h.df
  have hmax : largest p.nt r = Z 0 := by
    apply le_antisymm
    · obtain ⟨i, hi, ei⟩ := largest_mem p.nt (by omega) r
      rw [ei, hr' i (by omega)]
      exact (le_abs_self _).trans (zeroPhase_le _ _ hA _)
    · rw [← hri]; exact largest_ge p.nt r i0 hi0
  have hnn : ¬ (p.scale ≠ 0 ∧ largest p.nt r = 0) := fun h => by rw [hmax] at h; exact hpos.ne' h.2
  rw [if_neg hnn, if_neg hsc.ne', hmax] at e
  refine ⟨_, s', e, hs', ?_, ?_, ?_⟩
  · rw [hri, hα]
    simp only [neg_zero, zero_mul, Real.exp_zero, mul_one]
    field_simp
  · intro i hi
    have ew : r i * (p.scale / Z 0) * Real.exp (-p.alpha * (i * p.dt)) = p.scale * (Z (i - i0) / Z 0) := by
      rw [hr' i (by omega), hα]
      simp only [neg_zero, zero_mul, Real.exp_zero, mul_one]
      ring
    rw [ew]
    refine ⟨?_, rfl⟩
    rw [abs_mul, abs_of_pos hsc, abs_div, abs_of_pos hpos]
    refine mul_le_of_le_one_right hsc.le ?_
    rw [div_le_one hpos]
    exact zeroPhase_le _ _ hA _
  · intro d hd hd'
    rw [hr' (i0 + d) (by omega), hr' (i0 - d) (by omega), hα]
    simp only [neg_zero, zero_mul, Real.exp_zero, mul_one]
    congr 1
    rw [Nat.cast_sub hd, Nat.cast_add, show (i0 : ℝ) - d - i0 = -((i0 : ℝ) + d - i0) by ring]
    exact (zeroPhase_even _ _ _).symm

/-- **Scaling**: the largest sample is `scale`, unless all samples are negative; then it is the smallest one. -/
theorem freqwave_scaled (p : Par) (hnt : 0 < p.nt) (hα : p.alpha = 0) (hsc : 0 < p.scale) (junk : Junk) (c0 : ℕ → ℝ) (s : St) (w : ℕ → ℝ) (s' : St)
    (e : freqwave p junk c0 s = .wave w s') :
    (∃ i, i < p.nt ∧ w i = p.scale) ∧ ((∀ i, i < p.nt → w i ≤ p.scale) ∨ ∀ i, i < p.nt → p.scale ≤ w i) := by
  unfold freqwave at e
  generalize (if p.fp < 0 then p.fmax else p.fp) = q at e
  split at e
  · exact Out.noConfusion e
  split at e
  · exact Out.noConfusion e
  split at e
  · exact Out.noConfusion e
  split at e
  · exact Out.noConfusion e
  rename_i r s1 _
  split at e
  · exact Out.noConfusion e
  split at e
  · exact Out.noConfusion e
  rename_i hnn
  have hm : largest p.nt r ≠ 0 := fun h => hnn ⟨hsc.ne', h⟩
  rw [if_neg hsc.ne'] at e
  injection e with e1 _
  have hw : ∀ i, w i = r i * (p.scale / largest p.nt r) := fun i => by rw [← e1, hα]; simp
  refine ⟨?_, ?_⟩
  · obtain ⟨i, hi, ei⟩ := largest_mem p.nt hnt r
    refine ⟨i, hi, ?_⟩
    rw [hw, ← ei]
    field_simp
  · rcases lt_or_gt_of_ne hm with hneg | hpos
    · right
      intro i hi
      have := largest_ge p.nt r i hi
      rw [hw, mul_div_assoc', le_div_iff_of_neg hneg]
      nlinarith
    · left
      intro i hi
      have := largest_ge p.nt r i hi
      rw [hw, mul_div_assoc', div_le_iff₀ hpos]
      nlinarith

/-- **Without scaling** the wavelet is the sum of its frequencies, times `df` or divided by the number of samples that are written, which
may be fewer than those of the transform. -/
theorem freqwave_unscaled (p : Par) (F : ℝ) (h : p.Ok F) (hk : p.kind ≠ .g1) (hfit : p.Fits) (hinv : p.inverse = false)
    (hsc : p.scale = 0) (junk : Junk) (c0 : ℕ → ℝ) (s : St) (hs : Hist s) : ∃ w s', freqwave p junk c0 s = .wave w s' ∧ Hist s' ∧
      ∀ i, i < p.nt → w i = zeroPhase p.optn (p.amplitude F) (i - p.tpeak F / p.dt) * (if p.scfft then p.df else 1 / p.nt) * Real.exp (-p.alpha * (i * p.dt)) := by
  have hN : 0 < p.optn := by
    have := optncr_ge_partial p.nt (by have := h.three; omega) h.long
    have := h.three
    unfold Par.optn; omega
  obtain ⟨c, hc, hcv⟩ := cwave_zero p h.df hfit hk F (p.tpeak F) c0
  obtain ⟨r, s', hs', hr, hle, e⟩ := run p F h junk c0 s hs c hc (by
    rw [hinv, if_neg Bool.false_ne_true, hcv 0 (by unfold Par.nfreq; omega)]
    simp)
  rw [hinv] at hr
  have hnn : ¬ (p.scale ≠ 0 ∧ largest p.nt r = 0) := fun h => h.1 hsc
  rw [if_neg hnn, if_pos hsc] at e
  refine ⟨_, s', e, hs', fun i hi => ?_⟩
  rw [hr i (by omega), if_neg Bool.false_ne_true, synth_zero hN h.step rfl (p.amplitude F) c hcv i]

/-- **The derivative of a Gaussian** is zero at the time of its "peak", and antisymmetric around it. -/
theorem freqwave_g1 (p : Par) (F : ℝ) (h : p.Ok F) (hk : p.kind = .g1) (hinv : p.inverse = false) (hα : p.alpha = 0) (i0 : ℕ)
    (ht : p.tpeak F = i0 * p.dt) (junk : Junk) (c0 : ℕ → ℝ) (s : St) (hs : Hist s) (w : ℕ → ℝ) (s' : St)
    (e : freqwave p junk c0 s = .wave w s') (d : ℕ) (hd : d ≤ i0) (hd' : i0 + d < p.nt) : w (i0 + d) = -w (i0 - d) := by
  have hN : 0 < p.optn := by
    have := optncr_ge_partial p.nt (by have := h.three; omega) h.long
    have := h.three
    unfold Par.optn; omega
  have hN' : (p.optn : ℝ) ≠ 0 := by exact_mod_cast hN.ne'
  obtain ⟨c, A, hc, hcv⟩ : ∃ (c : ℕ → ℂ) (A : ℕ → ℝ), p.cwave F (p.tpeak F) c0 = some c ∧ ∀ k, c k =
      ⟨A k * Real.sin (2 * Real.pi * (k * p.df) * p.tpeak F), A k * Real.cos (2 * Real.pi * (k * p.df) * p.tpeak F)⟩ ∧ A 0 = 0 := by
    unfold Par.cwave
    rw [hk]
    refine ⟨_, fun k => (k : ℝ) * p.df * Real.exp (-((k : ℝ) * p.df * (k * p.df) / (Real.sqrt 2 * F * (Real.sqrt 2 * F)))) / (Real.sqrt 2 * F), rfl, fun k => ⟨rfl, ?_⟩⟩
    simp
  obtain ⟨r, s1, hs', hr, hle, e'⟩ := run p F h junk c0 s hs c hc (by
    rw [hinv, if_neg Bool.false_ne_true, (hcv 0).1, (hcv 0).2]
    simp)
  rw [hinv] at hr
  have hr' : ∀ t, t < p.optn → r t = -∑ k ∈ Icc 1 ((p.optn - 1) / 2), 2 * A k * Real.sin (2 * Real.pi * k * ((t : ℝ) - i0) / p.optn) := fun t htl => by
    have hst := h.step
    rw [hr t htl, if_neg Bool.false_ne_true]
    have ny : (if p.optn % 2 = 0 then (c (p.optn / 2)).re * Real.cos (Real.pi * t) else 0) = 0 := by
      split
      · rename_i he
        have h2 : ((p.optn / 2 : ℕ) : ℝ) = p.optn / 2 := by
          have : p.optn = 2 * (p.optn / 2) := by omega
          have h3 : (p.optn : ℝ) = 2 * ((p.optn / 2 : ℕ) : ℝ) := by exact_mod_cast this
          linarith
        have h4 : 2 * Real.pi * (((p.optn / 2 : ℕ) : ℝ) * p.df) * p.tpeak F = i0 * Real.pi := by
          rw [h2, ht]; unfold Par.df; field_simp
        rw [(hcv _).1]
        dsimp only
        rw [h4, Real.sin_nat_mul_pi, mul_zero, zero_mul]
      · rfl
    rw [ny, add_zero]
    unfold poly
    rw [(hcv 0).1, (hcv 0).2]
    dsimp only
    rw [zero_mul, zero_add, ← sum_neg_distrib]
    refine sum_congr rfl fun k _ => ?_
    rw [re_exp, (hcv k).1, ht]
    dsimp only
    have : 2 * Real.pi * (k : ℝ) * ((t : ℝ) - i0) / p.optn = 2 * Real.pi * (t * k : ℕ) / p.optn - 2 * Real.pi * (k * p.df) * (i0 * p.dt) := by
      unfold Par.df; push_cast; field_simp
    rw [this, Real.sin_sub]
    ring
  rw [e'] at e
  split at e
  · exact Out.noConfusion e
  injection e with e1 _
  rw [← e1]
  dsimp only
  have hneg : r (i0 + d) = -r (i0 - d) := by
    rw [hr' _ (by omega), hr' _ (by omega), ← sum_neg_distrib, ← sum_neg_distrib, ← sum_neg_distrib]
    refine sum_congr rfl fun k _ => ?_
    rw [Nat.cast_sub hd, Nat.cast_add, show 2 * Real.pi * (k : ℝ) * ((i0 : ℝ) - d - i0) / p.optn = -(2 * Real.pi * (k : ℝ) * ((i0 : ℝ) + d - i0) / p.optn) by ring,
      Real.sin_neg]
    ring
  rw [hneg, hα]
  simp only [neg_zero, zero_mul, Real.exp_zero, mul_one]
  ring

/-- Gaussian wavelets are not silent. -/
theorem gauss_positive (p : Par) (F : ℝ) (hF : 0 < F) (h : p.Ok F) (hK : p.kind = .g0 ∨ p.kind = .sqrtg2 ∨ p.kind = .g2) :
    0 < zeroPhase p.optn (p.amplitude F) 0 := by
  have hA := amplitude_nonneg p F hF.le h.df
  have hdf := h.df
  have h1 : 0 < p.amplitude F 1 := by
    unfold Par.amplitude
    rcases hK with hK | hK | hK <;> rw [hK] <;> dsimp only [shape] <;> positivity
  have hN : 3 ≤ p.optn := by
    have := optncr_ge_partial p.nt (by have := h.three; omega) h.long
    have := h.three
    unfold Par.optn; omega
  have e0 : zeroPhase p.optn (p.amplitude F) 0 = p.amplitude F 0 + ∑ k ∈ Icc 1 ((p.optn - 1) / 2), 2 * p.amplitude F k +
      if p.optn % 2 = 0 then p.amplitude F (p.optn / 2) else 0 := by
    unfold zeroPhase
    simp
  rw [e0]
  have h2 : 2 * p.amplitude F 1 ≤ ∑ k ∈ Icc 1 ((p.optn - 1) / 2), 2 * p.amplitude F k :=
    single_le_sum (f := fun k => 2 * p.amplitude F k) (fun k _ => by have := hA k; positivity) (mem_Icc.mpr ⟨le_rfl, by omega⟩)
  have h3 : 0 ≤ if p.optn % 2 = 0 then p.amplitude F (p.optn / 2) else 0 := by split <;> [exact hA _; exact le_rfl]
  have := hA 0
  linarith

/-! ### The kind and the time of the peak -/

open Classical in
theorem first_spec (a n : ℕ) (ok : ℕ → Prop) : match first a n ok with
    | some i => a ≤ i ∧ i < n ∧ ok i ∧ ∀ j, a ≤ j → j < i → ¬ ok j
    | none => ∀ j, a ≤ j → j < n → ¬ ok j := by
  have h := forN_inv (n := n - a) (body := fun d s => if ok (a + d) ∧ s = none then some (a + d) else s) (s := none)
    (fun k (s : Option ℕ) => match s with
      | some i => a ≤ i ∧ i < a + k ∧ ok i ∧ ∀ j, a ≤ j → j < i → ¬ ok j
      | none => ∀ j, a ≤ j → j < a + k → ¬ ok j) (fun j h1 h2 => by omega) (by
    intro k hk s hs
    cases s with
    | some i =>
      rw [if_neg (by simp)]
      exact ⟨hs.1, by omega, hs.2.2⟩
    | none =>
      by_cases h : ok (a + k)
      · rw [if_pos ⟨h, rfl⟩]
        exact ⟨by omega, by omega, h, hs⟩
      · rw [if_neg (by tauto)]
        intro j h1 h2
        rcases Nat.lt_or_ge j (a + k) with h3 | h3
        · exact hs j h1 h3
        · rw [show j = a + k by omega]; exact h)
  unfold first
  revert h
  generalize forN (n - a) _ none = r
  intro h
  cases r with
  | some i => exact ⟨h.1, by have := h.2.1; omega, h.2.2⟩
  | none => exact fun j h1 h2 => h j h1 (by omega)

/-- How small the tail of a wavelet centred at time zero has to be at sample `i`. -/
def Par.Faded (p : Par) (F : ℝ) (i : ℕ) : Prop :=
  match p.kind with
  | .g0 => |gauss0time (i * p.dt) F| < 1 / 1000
  | .g1 => |gauss1time (i * p.dt) F| + |gauss1time ((i + 1 : ℕ) * p.dt) F| < 1 / 10000
  | _ => |gauss2time (i * p.dt) F| + |gauss2time ((i + 1 : ℕ) * p.dt) F| < 1 / 1000

/-- **`shift=1`** puts the peak of a Gaussian wavelet at the first sample at which the wavelet centred at time zero has
faded (for `g1` from sample one on, as its middle is zero); if it has not faded anywhere, or without `shift`, the peak is at `t0`. -/
theorem tpeak_shift (p : Par) (F : ℝ) (hk : p.kind ≠ .fw ∧ p.kind ≠ .mon) (hs : p.shift = true) (i : ℕ)
    (hi : i < p.optn) (h1 : p.kind = .g1 → 1 ≤ i) (hf : p.Faded F i)
    (hmin : ∀ j, j < i → (p.kind = .g1 → 1 ≤ j) → ¬ p.Faded F j) : p.tpeak F = i * p.dt := by
  unfold Par.tpeak
  rw [if_pos hs]
  have key : ∀ (a : ℕ) (ok : ℕ → Prop), a ≤ i → ok i → (∀ j, a ≤ j → j < i → ¬ ok j) → first a p.optn ok = some i := by
    intro a ok ha ho hj
    have := first_spec a p.optn ok
    revert this
    cases first a p.optn ok with
    | none => exact fun h => absurd ho (h i ha hi)
    | some k =>
      intro ⟨k1, k2, k3, k4⟩
      rcases lt_trichotomy k i with h | h | h
      · exact absurd k3 (hj k k1 h)
      · rw [h]
      · exact absurd ho (k4 i ha h)
  have e : ∀ j : ℕ, (j : ℝ) * p.dt + p.dt = ((j + 1 : ℕ) : ℝ) * p.dt := fun j => by push_cast; ring
  unfold Par.Faded at hf hmin
  simp only [e]
  cases hK : p.kind <;> rw [hK] at hf hk h1 <;> simp only [hK] at hmin ⊢
  · rw [key 0 _ (by omega) hf (fun j _ hj => hmin j hj (by simp))]
  · rw [key 1 _ (h1 rfl) hf (fun j h0 hj => hmin j hj (fun _ => h0))]
  all_goals first
    | exact absurd rfl hk.1
    | exact absurd rfl hk.2
    | rw [key 0 _ (by omega) hf (fun j _ hj => hmin j hj (by simp))]

theorem tpeak_plain (p : Par) (F : ℝ) (h : p.shift = false ∨ ∀ i, i < p.optn → ¬ p.Faded F i) :
    p.tpeak F = p.t0 := by
  unfold Par.tpeak
  rcases h with h | h
  · rw [h]; rfl
  have key : ∀ (a : ℕ) (ok : ℕ → Prop), (∀ j, j < p.optn → ¬ ok j) → first a p.optn ok = none := by
    intro a ok hj
    have := first_spec a p.optn ok
    revert this
    cases first a p.optn ok with
    | none => intro _; rfl
    | some k => exact fun h => absurd h.2.2.1 (hj k h.2.1)
  have e : ∀ j : ℕ, (j : ℝ) * p.dt + p.dt = ((j + 1 : ℕ) : ℝ) * p.dt := fun j => by push_cast; ring
  unfold Par.Faded at h
  simp only [e]
  split
  · cases hK : p.kind <;> simp only [hK] at h ⊢
    all_goals rw [key _ _ h]
  · rfl

/-- **The name** of the wavelet chooses its kind: the six documented names are told apart, and a name that contains several of
them counts as the first of `g0`, `g1`, `fw`, `mon`, `sqrtg2`; any other name is a Ricker wavelet. -/
theorem kind_chosen (w : List Char) (hcs : ¬ "cs".toList <:+: w) : kindOf w =
    if "g0".toList <:+: w then some .g0 else if "g1".toList <:+: w then some .g1 else if "fw".toList <:+: w then some .fw
    else if "mon".toList <:+: w then some .mon else if "sqrtg2".toList <:+: w then some .sqrtg2 else some .g2 := by
  unfold kindOf
  simp only [hcs, decide_false, decide_eq_true_eq]
  split_ifs <;> simp_all

theorem kind_names : kindOf "g0".toList = some .g0 ∧ kindOf "g1".toList = some .g1 ∧ kindOf "g2".toList = some .g2 ∧
    kindOf "sqrtg2".toList = some .sqrtg2 ∧ kindOf "fw".toList = some .fw ∧ kindOf "mon".toList = some .mon := by
  decide +kernel

/-- A Gaussian of 1 Hz sampled at 2 s has faded after one sample. -/
example (p : Par) (hk : p.kind = .g0) (hdt : p.dt = 2) (hs : p.shift = true) (ho : 1 < p.optn) : p.tpeak 1 = 2 := by
  have := tpeak_shift p 1 (by rw [hk]; decide) hs 1 ho (by omega) (by
    unfold Par.Faded gauss0time; rw [hk, hdt]
    have h9 : (4 : ℝ) ≤ Real.pi * Real.pi := by nlinarith [Real.two_le_pi]
    have h2 : (2 : ℝ) < Real.exp 1 := by have := Real.exp_one_gt_d9; linarith
    have h3 : Real.exp (-9) = (Real.exp 1 ^ 9)⁻¹ := by rw [Real.exp_neg, ← Real.exp_nat_mul]; norm_num
    have h5 : (1000 : ℝ) < Real.exp 1 ^ 9 := by
      have h27 : (5 / 2 : ℝ) < Real.exp 1 := by have := Real.exp_one_gt_d9; linarith
      have := pow_lt_pow_left₀ h27 (by norm_num) (n := 9) (by norm_num)
      have h8 : (1000 : ℝ) < (5 / 2) ^ 9 := by norm_num
      linarith
    have h6 : Real.exp (-9) < 1 / 1000 := by
      rw [h3, one_div]; exact inv_strictAnti₀ (by norm_num) h5
    rw [abs_of_pos (Real.exp_pos _)]
    refine lt_of_le_of_lt (Real.exp_le_exp.mpr ?_) h6
    push_cast; nlinarith) (fun j hj _ => by
    have : j = 0 := by omega
    subst this
    unfold Par.Faded gauss0time; rw [hk, hdt]; norm_num)
  rw [this, hdt]; norm_num

/-- A Ricker wavelet of 30 Hz with its peak at a quarter of a second. -/
def ricker : Par := ⟨.g2, 256, 1 / 256, 30, 10, 20, 50, 60, 1 / 4, -20, false, 1, true, false, 1, 0⟩

theorem ricker_optn : ricker.optn = 256 := Conv.optncr_pow2 8

theorem ricker_df : ricker.df = 1 := by
  unfold Par.df; rw [ricker_optn]; simp only [ricker]; norm_num

theorem ricker_ok : ricker.Ok 30 where
  three := by simp only [ricker]; norm_num
  long := by simp only [ricker]; norm_num
  step := by simp only [ricker]; norm_num
  band := by
    rw [ricker_df]; unfold Par.nfreq; rw [ricker_optn]; simp only [ricker]; unfold nint; norm_num
  found := by unfold Par.peak; simp only [ricker]; norm_num

example (junk : Junk) : ∃ w s', freqwave ricker junk (fun _ => 0) St.init = .wave w s' ∧ w 64 = 1 ∧ ∀ i, i < 256 → |w i| ≤ 1 := by
  obtain ⟨w, s', e, _, a, b, _⟩ := freqwave_peak ricker 30 (by norm_num) ricker_ok (by decide) ⟨fun h => absurd h (by decide), fun h => absurd h (by decide)⟩ rfl rfl
    (by simp only [ricker]; norm_num) 64 (by decide) (by unfold Par.tpeak; simp only [ricker]; norm_num)
    (gauss_positive ricker 30 (by norm_num) ricker_ok (Or.inr (Or.inr rfl))) junk (fun _ => 0) St.init .start
  exact ⟨w, s', e, a, fun i hi => (b i hi).1⟩

theorem ricker_wave (junk : Junk) : ∃ w s', freqwave ricker junk (fun _ => 0) St.init = .wave w s' := by
  obtain ⟨w, s', e, _⟩ := freqwave_peak ricker 30 (by norm_num) ricker_ok (by decide) ⟨fun h => absurd h (by decide), fun h => absurd h (by decide)⟩ rfl rfl
    (by simp only [ricker]; norm_num) 64 (by decide) (by unfold Par.tpeak; simp only [ricker]; norm_num)
    (gauss_positive ricker 30 (by norm_num) ricker_ok (Or.inr (Or.inr rfl))) junk (fun _ => 0) St.init .start
  exact ⟨w, s', e⟩

example (junk : Junk) : ∃ w s' i, freqwave ricker junk (fun _ => 0) St.init = .wave w s' ∧ i < 256 ∧ w i = 1 := by
  obtain ⟨w, s', e⟩ := ricker_wave junk
  obtain ⟨⟨i, hi, h⟩, _⟩ := freqwave_scaled ricker (by decide) rfl (by simp only [ricker]; norm_num) junk _ _ w s' e
  exact ⟨w, s', i, e, hi, h⟩

/-- The same wavelet without scaling, and a first derivative. -/
theorem plain_ok (K : Kind) (hK : K = .g1 ∨ K = .g2) : Par.Ok { ricker with kind := K, scale := 0 } 30 where
  three := ricker_ok.three
  long := ricker_ok.long
  step := ricker_ok.step
  band := ricker_ok.band
  found := by
    unfold Par.peak
    have h : ¬ ricker.fp < 0 := by simp only [ricker]; norm_num
    rcases hK with rfl | rfl <;> dsimp only <;> rw [if_neg h] <;> rfl

example (junk : Junk) : ∃ w s', freqwave { ricker with kind := .g2, scale := 0 } junk (fun _ => 0) St.init = .wave w s' ∧ Hist s' := by
  obtain ⟨w, s', e, h, _⟩ := freqwave_unscaled { ricker with kind := .g2, scale := 0 } 30 (plain_ok .g2 (Or.inr rfl)) (by decide)
    ⟨fun h => absurd h (by decide), fun h => absurd h (by decide)⟩ rfl rfl junk (fun _ => 0) St.init .start
  exact ⟨w, s', e, h⟩

example (junk : Junk) : ∃ w s', freqwave { ricker with kind := .g1, scale := 0 } junk (fun _ => 0) St.init = .wave w s' ∧ w 64 = 0 := by
  obtain ⟨r, s', _, _, _, e⟩ := run { ricker with kind := .g1, scale := 0 } 30 (plain_ok .g1 (Or.inl rfl)) junk (fun _ => 0) St.init .start _ rfl
    (by rw [if_neg (by decide)]; dsimp only; simp)
  rw [if_neg (by simp)] at e
  refine ⟨_, s', e, ?_⟩
  have := freqwave_g1 { ricker with kind := .g1, scale := 0 } 30 (plain_ok .g1 (Or.inl rfl)) rfl rfl rfl 64
    (by unfold Par.tpeak; simp only [ricker]; norm_num) junk _ _ .start _ s' e 0 (by norm_num) (by decide)
  rw [Nat.add_zero, Nat.sub_zero] at this
  linarith

/-! ### The peak of the spectrum -/

theorem mul_exp_lt {x : ℝ} (h : x ≠ 1) : x * Real.exp (-x) < Real.exp (-1) := by
  have := Real.add_one_lt_exp (x := x - 1) (by intro h'; apply h; linarith)
  rw [sub_add_cancel] at this
  calc x * Real.exp (-x) < Real.exp (x - 1) * Real.exp (-x) := by have := Real.exp_pos (-x); gcongr
    _ = Real.exp (-1) := by rw [← Real.exp_add]; congr 1; ring

theorem mul_exp_half_lt {q : ℝ} (h : q ≠ 1) : q * Real.exp (-q ^ 2 / 2) < Real.exp (-1 / 2) := by
  have h1 := Real.add_one_le_exp ((q ^ 2 - 1) / 2)
  have h2 : 0 < (q - 1) ^ 2 := by have : q - 1 ≠ 0 := sub_ne_zero.mpr h; positivity
  have h3 : q < Real.exp ((q ^ 2 - 1) / 2) := by nlinarith
  calc q * Real.exp (-q ^ 2 / 2) < Real.exp ((q ^ 2 - 1) / 2) * Real.exp (-q ^ 2 / 2) := by have := Real.exp_pos (-q ^ 2 / 2); gcongr
    _ = Real.exp (-1 / 2) := by rw [← Real.exp_add]; congr 1; ring

/-- **The largest amplitude** of the derivatives of a Gaussian is at the peak frequency, and only there. -/
theorem shape_peak (K : Kind) (hK : K = .g1 ∨ K = .sqrtg2 ∨ K = .g2) (F : ℝ) (hF : 0 < F) (f : ℝ) (hf : 0 ≤ f) (hne : f ≠ F) :
    shape K F f < shape K F F := by
  have hq : f / F ≠ 1 := fun h => hne (by rw [div_eq_one_iff_eq hF.ne'] at h; exact h)
  have h1 : F / F = 1 := div_self hF.ne'
  rcases hK with rfl | rfl | rfl
  · dsimp only [shape]
    have e : ∀ g : ℝ, g / (Real.sqrt 2 * F) * Real.exp (-(g / F) ^ 2 / 2) = 1 / Real.sqrt 2 * (g / F * Real.exp (-(g / F) ^ 2 / 2)) := fun g => by
      field_simp
    rw [e, e, h1]
    have := mul_exp_half_lt hq
    have h2 : (0 : ℝ) < 1 / Real.sqrt 2 := by positivity
    rw [one_pow, one_mul]
    exact mul_lt_mul_of_pos_left this h2
  · dsimp only [shape]
    rw [h1, one_pow, one_mul]
    exact mul_exp_half_lt hq
  · dsimp only [shape]
    rw [h1, one_pow, one_mul]
    refine mul_exp_lt fun h => hq ?_
    have h0 : 0 ≤ f / F := by positivity
    nlinarith [sq_nonneg (f / F - 1)]

/-- That of a Gaussian is at zero. -/
theorem shape_peak_g0 (F : ℝ) (hF : 0 < F) (f : ℝ) (hne : f ≠ 0) : shape .g0 F f < shape .g0 F 0 := by
  dsimp only [shape]
  rw [zero_div]
  apply Real.exp_lt_exp.mpr
  have : 0 < (f / F) ^ 2 := by have : f / F ≠ 0 := div_ne_zero hne hF.ne'; positivity
  nlinarith

example : shape .g2 30 20 < shape .g2 30 30 := shape_peak .g2 (Or.inr (Or.inr rfl)) 30 (by norm_num) 20 (by norm_num) (by norm_num)

/-! ### The attenuation at the maximum frequency -/

open Classical in
theorem search_some {i : ℤ} {ok : ℕ → Prop} {k : ℕ} (h : search i ok = some k) :
    1 ≤ k ∧ k ≤ i.toNat ∧ ok k ∧ ∀ j, k < j → j ≤ i.toNat → ¬ ok j := by
  unfold search at h
  generalize i.toNat = n at h ⊢
  have key : ∀ m, m ≤ n → ∀ k, forN m (fun d s => if ok (n - d) ∧ s = none then some (n - d) else s) none = some k →
      n - m < k ∧ k ≤ n ∧ ok k ∧ ∀ j, k < j → j ≤ n → ¬ ok j := by
    intro m
    induction m with
    | zero => intro _ k h; exact absurd h (by simp)
    | succ m ih =>
      intro hm k h
      rw [forN_succ] at h
      have hnone : ∀ m', m' ≤ n → forN m' (fun d s => if ok (n - d) ∧ s = none then some (n - d) else s) none = none → ∀ j, n - m' < j → j ≤ n → ¬ ok j := by
        intro m'
        induction m' with
        | zero => intro _ _ j h1 h2; omega
        | succ m' ih' =>
          intro hm' h' j h1 h2
          rw [forN_succ] at h'
          split at h'
          · exact absurd h' (by simp)
          · rename_i hno
            by_cases hj : j = n - m'
            · rw [hj]; exact fun hok => hno ⟨hok, h'⟩
            · exact ih' (by omega) h' j (by omega) h2
      split at h
      · rename_i hok
        injection h with h
        subst h
        exact ⟨by omega, by omega, hok.1, fun j h1 h2 => hnone m (by omega) hok.2 j h1 h2⟩
      · obtain ⟨a, b, c⟩ := ih (by omega) k h
        exact ⟨by omega, b, c⟩
  obtain ⟨a, b, c⟩ := key n le_rfl k h
  exact ⟨by omega, b, c⟩

/-- The frequency at which the amplitude is largest. -/
def Kind.top : Kind → ℝ → ℝ
  | .g0, _ => 0
  | _, F => F

/-- The multiples of `df` that are tried. -/
def Par.limit (p : Par) : ℤ :=
  match p.kind with
  | .g0 | .g1 => nint (p.fmax / p.df)
  | _ => nint (p.fmax / (2 * p.df))

theorem gauss0_rel (F f : ℝ) : gauss0freq f F = shape .g0 F f / shape .g0 F (Kind.top .g0 F) := by
  dsimp only [shape, Kind.top]
  unfold gauss0freq
  rw [zero_div, div_pow, sq, sq]
  simp

theorem gauss1_rel {F : ℝ} (hF : 0 < F) (f : ℝ) : gauss1freq f F = shape .g1 F f / shape .g1 F (Kind.top .g1 F) := by
  dsimp only [shape, Kind.top]
  unfold gauss1freq
  have e1 : Real.sqrt (2 * Real.exp 1) = Real.sqrt 2 * Real.exp (1 / 2) := by
    rw [Real.sqrt_mul (by norm_num), Real.exp_half]
  have e2 : Real.exp (-(f * f / (2 * F * F))) = Real.exp (-(f / F) ^ 2 / 2) := by congr 1; field_simp
  have e3 : Real.exp (-(F / F) ^ 2 / 2) = 1 / Real.exp (1 / 2) := by
    rw [div_self hF.ne', one_div (Real.exp _), ← Real.exp_neg]; congr 1; norm_num
  have h2 : Real.sqrt 2 ≠ 0 := by positivity
  rw [e1, e2, e3]
  have := Real.exp_ne_zero (1 / 2)
  generalize Real.exp (1 / 2) = a at *
  generalize Real.exp (-(f / F) ^ 2 / 2) = b
  field_simp

theorem gauss2_rel {F : ℝ} (hF : 0 < F) (f : ℝ) : gauss2freq f F = shape .g2 F f / shape .g2 F (Kind.top .g2 F) := by
  dsimp only [shape, Kind.top]
  unfold gauss2freq
  have e3 : Real.exp (-(F / F) ^ 2) = 1 / Real.exp 1 := by
    rw [div_self hF.ne', one_div, ← Real.exp_neg]; congr 1; norm_num
  rw [e3, div_self hF.ne', div_pow, sq f, sq F]
  have := Real.exp_ne_zero 1
  field_simp

theorem top_pos (K : Kind) (hK : K = .g0 ∨ K = .g1 ∨ K = .g2) {F : ℝ} (hF : 0 < F) : 0 < shape K F (K.top F) := by
  rcases hK with rfl | rfl | rfl <;> dsimp only [shape, Kind.top] <;> positivity

/-- **The attenuation at `fmax`**, when the wavelet is described by it: the amplitude there is below the largest one by more than `db`, and the
peak frequency is the highest of those that are tried for which this is so. -/
theorem peak_attenuated (p : Par) (hK : p.kind = .g0 ∨ p.kind = .g1 ∨ p.kind = .g2) (hfp : p.fp < 0) (hdf : 0 < p.df) (F : ℝ) (h : p.peak = some F) :
    0 < F ∧ (∃ k : ℕ, F = k * p.df) ∧ shape p.kind F p.fmax < (10 : ℝ) ^ (p.db / 20) * shape p.kind F (p.kind.top F) ∧
      ∀ k : ℕ, F < k * p.df → k ≤ p.limit →
        (10 : ℝ) ^ (p.db / 20) * shape p.kind (k * p.df) (p.kind.top (k * p.df)) ≤ shape p.kind (k * p.df) p.fmax := by
  obtain ⟨i, G, hG, hi, k, hk, eF⟩ : ∃ (i : ℤ) (G : ℝ → ℝ → ℝ), (∀ F, 0 < F → ∀ f, G f F = shape p.kind F f / shape p.kind F (p.kind.top F)) ∧ i = p.limit ∧
      ∃ k, search i (fun k => G p.fmax (k * p.df) < p.att) = some k ∧ F = k * p.df := by
    unfold Par.peak at h
    unfold Par.limit
    rcases hK with hK | hK | hK <;> rw [hK] at h ⊢ <;> dsimp only at h ⊢
    · obtain ⟨k, hk, e⟩ := Option.map_eq_some_iff.mp h
      exact ⟨_, gauss0freq, fun F _ f => gauss0_rel F f, rfl, k, hk, e.symm⟩
    · rw [if_pos hfp] at h
      obtain ⟨k, hk, e⟩ := Option.map_eq_some_iff.mp h
      exact ⟨_, gauss1freq, fun F hF f => gauss1_rel hF f, rfl, k, hk, e.symm⟩
    · rw [if_pos hfp] at h
      obtain ⟨k, hk, e⟩ := Option.map_eq_some_iff.mp h
      exact ⟨_, gauss2freq, fun F hF f => gauss2_rel hF f, rfl, k, hk, e.symm⟩
  obtain ⟨h1, h2, h3, h4⟩ := search_some hk
  have pos : ∀ j : ℕ, 1 ≤ j → 0 < (j : ℝ) * p.df := fun j hj => by
    have : (0 : ℝ) < j := by exact_mod_cast hj
    positivity
  subst hi
  subst eF
  refine ⟨pos k h1, ⟨k, rfl⟩, ?_, fun j hj hjl => ?_⟩
  · rw [hG _ (pos k h1), div_lt_iff₀ (top_pos _ hK (pos k h1))] at h3
    exact h3
  · have hkj : k < j := by
      by_contra hlt
      have : (j : ℝ) ≤ k := by exact_mod_cast not_lt.mp hlt
      nlinarith
    have := h4 j hkj (by omega)
    rw [hG _ (pos j (by omega)), div_lt_iff₀ (top_pos _ hK (pos j (by omega)))] at this
    exact not_lt.mp this

/-- A Ricker wavelet given by its maximum frequency. -/
def rickerMax (db : ℝ) (K : Kind) : Par := ⟨K, 256, 1 / 256, -1, 10, 20, 50, 4, 0, db, false, 1, true, false, 1, 0⟩

theorem rickerMax_optn (db : ℝ) (K : Kind) : (rickerMax db K).optn = 256 := Conv.optncr_pow2 8

theorem rickerMax_df (db : ℝ) (K : Kind) : (rickerMax db K).df = 1 := by
  unfold Par.df; rw [rickerMax_optn]; simp only [rickerMax]; norm_num

theorem nint_two : nint 2 = 2 := by
  unfold nint
  rw [if_pos (by norm_num), Int.floor_eq_iff]
  norm_num

theorem exp_three : (16 : ℝ) < Real.exp 3 ∧ Real.exp 3 < 64 := by
  have h1 := Real.exp_one_gt_d9
  have h2 := Real.exp_one_lt_d9
  have e : Real.exp 3 = Real.exp 1 ^ 3 := by rw [← Real.exp_nat_mul]; norm_num
  rw [e]
  have p0 := Real.exp_pos 1
  constructor
  · have : (2.7 : ℝ) ^ 3 < Real.exp 1 ^ 3 := by gcongr; linarith
    norm_num at this ⊢; linarith
  · have : Real.exp 1 ^ 3 < (3 : ℝ) ^ 3 := by gcongr; linarith
    norm_num at this ⊢; linarith

theorem att_quarter (K : Kind) : (rickerMax (20 * Real.logb 10 (1 / 4)) K).att = 1 / 4 := by
  unfold Par.att
  simp only [rickerMax]
  rw [mul_div_cancel_left₀ _ (by norm_num), Real.rpow_logb (by norm_num) (by norm_num) (by norm_num)]

theorem gauss2_42 : gauss2freq 4 2 = 4 / Real.exp 3 := by
  unfold gauss2freq
  rw [← Real.exp_add, div_eq_mul_inv 4 (Real.exp 3), ← Real.exp_neg]
  norm_num

theorem rickerMax_peak (K : Kind) (hK : K = .g2 ∨ K = .sqrtg2) : (rickerMax (20 * Real.logb 10 (1 / 4)) K).peak = some 2 := by
  have key : (if (-1 : ℝ) < 0 then (search (nint (4 / (2 * 1))) fun k => gauss2freq 4 (k * 1) < 1 / 4).map fun k : ℕ => (k : ℝ) * 1 else some (-1)) = some 2 := by
    rw [if_pos (by norm_num), show (4 : ℝ) / (2 * 1) = 2 by norm_num, nint_two]
    unfold search
    have h1 : gauss2freq 4 ((2 : ℕ) * 1) < 1 / 4 := by
      rw [show ((2 : ℕ) : ℝ) * 1 = 2 by norm_num, gauss2_42, div_lt_iff₀ (Real.exp_pos 3)]
      have := exp_three.1
      linarith
    have e2 : (2 : ℤ).toNat = 2 := rfl
    rw [e2, forN_succ, forN_succ, forN_zero]
    have c1 : (gauss2freq 4 (((2 - 0 : ℕ) : ℝ) * 1) < 1 / 4) ∧ (none : Option ℕ) = none := ⟨h1, rfl⟩
    rw [if_pos c1]
    simp
  unfold Par.peak
  rw [att_quarter, rickerMax_df]
  rcases hK with rfl | rfl <;> simp only [rickerMax] <;> exact key

example : shape .g2 2 4 < (10 : ℝ) ^ ((20 * Real.logb 10 (1 / 4)) / 20) * shape .g2 2 2 :=
  (peak_attenuated (rickerMax (20 * Real.logb 10 (1 / 4)) .g2) (Or.inr (Or.inr rfl)) (by simp only [rickerMax]; norm_num)
    (by rw [rickerMax_df]; norm_num) 2 (rickerMax_peak .g2 (Or.inl rfl))).2.2.1

/-- **The square root** of the second derivative is attenuated by half as many dB. -/
theorem sqrtg2_ratio {F f : ℝ} (hF : 0 < F) (hf : 0 ≤ f) :
    shape .sqrtg2 F f / shape .sqrtg2 F F = Real.sqrt (shape .g2 F f / shape .g2 F F) := by
  dsimp only [shape]
  rw [div_self hF.ne', one_pow, one_mul, one_mul, eq_comm, Real.sqrt_eq_iff_eq_sq (by positivity) (by positivity)]
  have e1 : Real.exp (-(f / F) ^ 2) = Real.exp (-(f / F) ^ 2 / 2) ^ 2 := by rw [← Real.exp_nat_mul]; congr 1; push_cast; ring
  have e2 : Real.exp (-1) = Real.exp (-1 / 2) ^ 2 := by rw [← Real.exp_nat_mul]; congr 1; push_cast; ring
  rw [e1, e2, ← mul_pow, ← div_pow]

/-- With `w=sqrtg2` the amplitude at `fmax` is not below the largest one by `db`. -/
theorem sqrtg2_not_attenuated : ∃ (p : Par) (F : ℝ), p.kind = .sqrtg2 ∧ p.fp < 0 ∧ p.peak = some F ∧
    (10 : ℝ) ^ (p.db / 20) * shape .sqrtg2 F F < shape .sqrtg2 F p.fmax := by
  refine ⟨rickerMax (20 * Real.logb 10 (1 / 4)) .sqrtg2, 2, rfl, by simp only [rickerMax]; norm_num, rickerMax_peak _ (Or.inr rfl), ?_⟩
  have ha := att_quarter .sqrtg2
  unfold Par.att at ha
  rw [ha]
  have e : (rickerMax (20 * Real.logb 10 (1 / 4)) .sqrtg2).fmax = 4 := rfl
  rw [e]
  have hp : (0 : ℝ) < shape .sqrtg2 2 2 := by dsimp only [shape]; positivity
  rw [← lt_div_iff₀ hp, sqrtg2_ratio (by norm_num) (by norm_num)]
  have g : shape .g2 2 4 / shape .g2 2 2 = 4 / Real.exp 3 := by
    rw [← gauss2_42, gauss2_rel (by norm_num : (0 : ℝ) < 2)]
    rfl
  rw [g]
  apply Real.lt_sqrt_of_sq_lt
  rw [lt_div_iff₀ (Real.exp_pos 3)]
  have := exp_three.2
  norm_num
  linarith

/-! ### Accesses outside the spectrum -/

/-- **A frequency outside the spectrum** passes the check, and is written to. -/
theorem mon_ub (p : Par) (hk : p.kind = .mon) (hband : nint ((if p.fp < 0 then p.fmax else p.fp) / p.df) ≤ p.nfreq)
    (hout : nint (p.fp / p.df) < 0 ∨ (p.nfreq : ℤ) ≤ nint (p.fp / p.df)) (junk : Junk) (c0 : ℕ → ℝ) (s : St) : freqwave p junk c0 s = .ub := by
  unfold freqwave
  have hb : ¬ nint ((if p.fp < 0 then p.fmax else p.fp) / p.df) > p.nfreq := not_lt.mpr hband
  have hp : p.peak = some 0 := by unfold Par.peak; rw [hk]
  have hc : p.cwave 0 (p.tpeak 0) c0 = none := by
    unfold Par.cwave
    rw [hk]
    dsimp only
    have : ¬ (0 ≤ nint (p.fp / p.df) ∧ nint (p.fp / p.df) < p.nfreq) := by omega
    rw [if_neg this]
  rw [if_neg hb, hp]
  dsimp only
  rw [hc]

/-- `makewave w=mon` with the defaults of all other parameters. -/
theorem mon_default_ub (junk : Junk) (c0 : ℕ → ℝ) (s : St) :
    freqwave ⟨.mon, 256, 1 / 250, -1, 10, 20, 50, 60, 0, -20, false, 1, true, false, 1, 0⟩ junk c0 s = .ub := by
  have ho : ∀ q : Par, q.nt = 256 → q.optn = 256 := fun q hq => by unfold Par.optn; rw [hq]; exact Conv.optncr_pow2 8
  refine mon_ub _ rfl ?_ (Or.inl ?_) junk c0 s
  · unfold Par.df Par.nfreq
    rw [ho _ rfl]
    dsimp only
    norm_num
    unfold nint
    rw [if_pos (by norm_num)]
    have : ⌊(1536 / 25 : ℝ) + 1 / 2⌋ < 62 := by rw [Int.floor_lt]; norm_num
    omega
  · unfold Par.df
    rw [ho _ rfl]
    dsimp only
    norm_num
    unfold nint
    rw [if_neg (by norm_num)]
    have : ⌈(-(128 / 125) : ℝ) - 1 / 2⌉ ≤ -1 := by rw [Int.ceil_le]; norm_num
    omega

/-- One frequency too many is let through: that of index `nfreq`. -/
theorem mon_above_ub (p : Par) (hk : p.kind = .mon) (hdf : 0 < p.df) (hfp : p.fp = p.nfreq * p.df) (junk : Junk) (c0 : ℕ → ℝ) (s : St) :
    freqwave p junk c0 s = .ub := by
  have hn : nint (p.fp / p.df) = p.nfreq := by
    rw [hfp, mul_div_cancel_right₀ _ hdf.ne']
    have hpos : (0 : ℝ) < p.nfreq := by unfold Par.nfreq; push_cast; positivity
    unfold nint
    rw [if_pos hpos, Int.floor_eq_iff]
    push_cast
    constructor <;> linarith
  have hnn : ¬ p.fp < 0 := by rw [hfp]; exact not_lt.mpr (by positivity)
  refine mon_ub p hk ?_ (Or.inr hn.ge) junk c0 s
  rw [if_neg hnn, hn]

example (junk : Junk) (c0 : ℕ → ℝ) (s : St) : freqwave { ricker with kind := .mon, fp := 129 } junk c0 s = .ub := by
  refine mon_above_ub _ rfl ?_ ?_ junk c0 s
  · exact ricker_df ▸ zero_lt_one
  · have h1 : Par.df { ricker with kind := .mon, fp := 129 } = 1 := ricker_df
    have h2 : Par.nfreq { ricker with kind := .mon, fp := 129 } = 129 := by
      unfold Par.nfreq
      have : Par.optn { ricker with kind := .mon, fp := 129 } = 256 := ricker_optn
      rw [this]
    rw [h1, h2]
    norm_num

/-- **Flat spectrum**: with `fp` given only `fp` is compared with the Nyquist frequency, and the spectrum is written up to `fmax`. -/
theorem fw_ub (p : Par) (hk : p.kind = .fw) (hfp : 0 ≤ p.fp) (hband : nint (p.fp / p.df) ≤ p.nfreq) (hlt : ⌊p.frig / p.df⌋₊ < ⌊p.fmax / p.df⌋₊)
    (hout : p.nfreq < ⌊p.fmax / p.df⌋₊) (junk : Junk) (c0 : ℕ → ℝ) (s : St) : freqwave p junk c0 s = .ub := by
  unfold freqwave
  have hb : ¬ nint ((if p.fp < 0 then p.fmax else p.fp) / p.df) > p.nfreq := by rw [if_neg (not_lt.mpr hfp)]; exact not_lt.mpr hband
  have hp : p.peak = some 0 := by unfold Par.peak; rw [hk]
  have hc : p.cwave 0 (p.tpeak 0) c0 = none := by
    unfold Par.cwave
    rw [hk]
    dsimp only
    have : p.flat c0 = none := by
      unfold Par.flat
      dsimp only
      have : ¬ (⌊p.fmin / p.df⌋₊ ≤ p.nfreq ∧ (⌊p.fmin / p.df⌋₊ < ⌊p.flef / p.df⌋₊ → ⌊p.flef / p.df⌋₊ ≤ p.nfreq) ∧
        (⌊p.flef / p.df⌋₊ < ⌊p.frig / p.df⌋₊ → ⌊p.frig / p.df⌋₊ ≤ p.nfreq) ∧ (⌊p.frig / p.df⌋₊ < ⌊p.fmax / p.df⌋₊ → ⌊p.fmax / p.df⌋₊ ≤ p.nfreq)) := fun h => by
        have := h.2.2.2 hlt; omega
      rw [if_neg this]
    rw [this, Option.map_none]
  rw [if_neg hb, hp]
  dsimp only
  rw [hc]

/-- `makewave w=fw dt=0.02 fp=20` with the defaults for the others. -/
example (junk : Junk) (c0 : ℕ → ℝ) (s : St) :
    freqwave ⟨.fw, 256, 1 / 50, 20, 10, 20, 50, 60, 0, -20, false, 1, true, false, 1, 0⟩ junk c0 s = .ub := by
  have ho : ∀ q : Par, q.nt = 256 → q.optn = 256 := fun q hq => by unfold Par.optn; rw [hq]; exact Conv.optncr_pow2 8
  have hd : ∀ q : Par, q.nt = 256 → q.dt = 1 / 50 → q.df = 25 / 128 := fun q hq hd => by unfold Par.df; rw [ho q hq, hd]; norm_num
  have hn : ∀ q : Par, q.nt = 256 → q.nfreq = 129 := fun q hq => by unfold Par.nfreq; rw [ho q hq]
  have f1 : ⌊(60 : ℝ) / (25 / 128)⌋₊ = 307 := by rw [Nat.floor_eq_iff (by norm_num)]; norm_num
  have f2 : ⌊(50 : ℝ) / (25 / 128)⌋₊ = 256 := by rw [Nat.floor_eq_iff (by norm_num)]; norm_num
  refine fw_ub _ rfl (by norm_num) ?_ ?_ ?_ junk c0 s
  · rw [hn _ rfl, hd _ rfl rfl]
    unfold nint
    rw [if_pos (by norm_num)]
    have : ⌊(20 : ℝ) / (25 / 128) + 1 / 2⌋ < 104 := by rw [Int.floor_lt]; norm_num
    dsimp only
    omega
  · rw [hd _ rfl rfl]; dsimp only; rw [f1, f2]; norm_num
  · rw [hn _ rfl, hd _ rfl rfl]; dsimp only; rw [f1]; norm_num

/-! ### The inverse -/

/-- **The inverse filter**: its product with the spectrum is real, between 0 and 1, and closer to 1 the smaller `eps`. -/
theorem invert_spec (n : ℕ) (eps : ℝ) (heps : 0 < eps) (c : ℕ → ℂ) (k : ℕ) (h1 : 1 ≤ k) (hk : k < n) :
    c k * invert n eps c k = ((normSq (c k) / (normSq (c k) + eps) : ℝ) : ℂ) ∧ invert n eps c 0 = 0 := by
  have key : ∀ m, forN m (fun d c => aset c (d + 1) ⟨(c (d + 1)).re / ((c (d + 1)).re * (c (d + 1)).re + (c (d + 1)).im * (c (d + 1)).im + eps),
      -(c (d + 1)).im / ((c (d + 1)).re * (c (d + 1)).re + (c (d + 1)).im * (c (d + 1)).im + eps)⟩) c k =
      if k < m + 1 then ⟨(c k).re / (normSq (c k) + eps), -(c k).im / (normSq (c k) + eps)⟩ else c k := by
    intro m
    have := shiftedLoop (n := m) (fun _ z => ⟨z.re / (z.re * z.re + z.im * z.im + eps), -z.im / (z.re * z.re + z.im * z.im + eps)⟩) c k
    refine this.trans ?_
    rw [normSq_apply]
    refine if_congr ?_ rfl rfl
    omega
  have e : invert n eps c k = ⟨(c k).re / (normSq (c k) + eps), -(c k).im / (normSq (c k) + eps)⟩ := by
    unfold invert
    dsimp only
    have := key (n - 1)
    generalize forN (n - 1) _ c = q at this ⊢
    unfold aset
    have hk0 : ¬ k = 0 := by omega
    have hk1 : k < n - 1 + 1 := by omega
    rw [if_neg hk0, this, if_pos hk1]
  constructor
  · rw [e]
    have hs := normSq_apply (c k)
    have hp : 0 ≤ normSq (c k) := normSq_nonneg _
    generalize normSq (c k) = S at *
    have hne : S + eps ≠ 0 := by positivity
    apply Complex.ext
    · rw [mul_re, ofReal_re]
      dsimp only
      rw [hs] at hne ⊢
      field_simp
      ring
    · rw [mul_im, ofReal_im]
      dsimp only
      field_simp
      ring
  · unfold invert aset
    rw [if_pos rfl]

example : (⟨3, 4⟩ : ℂ) * invert 2 1 (fun _ => ⟨3, 4⟩) 1 = ((25 / 26 : ℝ) : ℂ) := by
  have := (invert_spec 2 1 one_pos (fun _ => ⟨3, 4⟩) 1 le_rfl (by norm_num)).1
  rw [this, normSq_mk]
  norm_num

end Verif.FreqWave

import Verif.Fft.Lib
import Verif.Fft.OptN
import Verif.Base.Writes

/-!
# Correlation, convolution, deconvolution, power and coherence: `utils/fconv.c`

The six functions of `fconv.c` that combine two gathers of `nrec` traces of `nsam` samples through the frequency domain.  Arithmetic is
exact (real numbers), `PI` is `π`; an access beyond an array is `none`, and so is a division by zero.  What `malloc` delivers is a
parameter (`Work`).  The state of the Fourier library is passed along.
-/

namespace Verif.Conv

open Complex Verif Verif.Fft Verif.Fft.Lib

noncomputable section

/-- What the `malloc`s of one call deliver, and what is in the temporaries of the transforms and in the local `scl` (`fconv.c:894`). -/
structure Work where
  c1 : Nat → ℂ
  c2 : Nat → ℂ
  q : Nat → ℂ
  r1 : Nat → ℝ
  r2 : Nat → ℝ
  scl : ℝ
  j1 : Nat → Junk
  j2 : Nat → Junk
  j3 : Nat → Junk

/-- The loops of `pad_data`, fconv.c:1007-1012. -/
def padLoop (nsam nrec nsamout : Nat) (data datout : Nat → ℝ) : Nat → ℝ :=
  forN nrec (fun ix o =>
    let o := forN nsam (fun it o => aset o (ix * nsamout + it) (data (ix * nsam + it))) o
    forN (nsamout - nsam) (fun d o => aset o (ix * nsamout + (nsam + d)) 0) o) datout

open Classical in
/-- `pad_data`, fconv.c:1004-1013, with `lenin` numbers in `data` and room for `lenout` in `datout`. -/
def padData (nsam nrec nsamout lenin lenout : Nat) (data datout : Nat → ℝ) : Option (Nat → ℝ) :=
  if (∀ ix it, ix < nrec → it < nsam → ix * nsam + it < lenin ∧ ix * nsamout + it < lenout) ∧
      (∀ ix it, ix < nrec → nsam ≤ it → it < nsamout → ix * nsamout + it < lenout) then
    some (padLoop nsam nrec nsamout data datout)
  else none

/-- The loops of `scl_data`, fconv.c:1018-1021. -/
def sclLoop (nsam nrec : Nat) (scl : ℝ) (nsamout : Nat) (data datout : Nat → ℝ) : Nat → ℝ :=
  forN nrec (fun ix o => forN nsamout (fun it o => aset o (ix * nsamout + it) (scl * data (ix * nsam + it))) o) datout

open Classical in
/-- `scl_data`, fconv.c:1015-1022. -/
def sclData (nsam nrec : Nat) (scl : ℝ) (nsamout lenin lenout : Nat) (data datout : Nat → ℝ) : Option (Nat → ℝ) :=
  if ∀ ix it, ix < nrec → it < nsamout → ix * nsam + it < lenin ∧ ix * nsamout + it < lenout then
    some (sclLoop nsam nrec scl nsamout data datout)
  else none

/-! ### What is done at each frequency -/

/-- fconv.c:481-498 (`corr`). -/
def corrLoop (n : Nat) (p1 p2 q : Nat → ℂ) : Nat → ℂ :=
  forN n (fun j q => aset q j ⟨(p1 j).re * (p2 j).re + (p1 j).im * (p2 j).im, (p1 j).im * (p2 j).re - (p1 j).re * (p2 j).im⟩) q

/-- fconv.c:571-586 (`corr3`): only the real part is written. -/
def corr3Loop (n : Nat) (p1 p2 q : Nat → ℂ) : Nat → ℂ :=
  forN n (fun j q => aset q j ⟨(p1 j).re * (p2 j).re - (p1 j).im * (p2 j).im, (q j).im⟩) q

/-- fconv.c:753-770 (`power`). -/
def powerLoop (n : Nat) (p1 p2 q : Nat → ℂ) : Nat → ℂ :=
  forN n (fun j q => aset q j ⟨(p1 j).re * (p2 j).re + (p1 j).im * (p2 j).im, 0⟩) q

/-- fconv.c:841-858 (`convol`). -/
def convLoop (n : Nat) (p1 p2 q : Nat → ℂ) : Nat → ℂ :=
  forN n (fun j q => aset q j ⟨(p2 j).re * (p1 j).re - (p2 j).im * (p1 j).im, (p2 j).re * (p1 j).im + (p2 j).im * (p1 j).re⟩) q

/-- `den[j]` of `deconv`, fconv.c:651. -/
def denDec (p2 : Nat → ℂ) (j : Nat) : ℝ := (p2 j).re * (p2 j).re + (p2 j).im * (p2 j).im

/-- `maxden`, fconv.c:649-655, and, for one trace, fconv.c:948-951: the largest of `den[0..n-1]` and zero. -/
def maxLoop (n : Nat) (den : Nat → ℝ) : ℝ := forN n (fun j m => if den j > m then den j else m) 0

/-- fconv.c:664-679 (`deconv`): both branches, a division each. -/
def decLoop (n : Nat) (leps : ℝ) (p1 p2 q : Nat → ℂ) : Nat → ℂ :=
  forN n (fun j q =>
    if |(p2 j).re| ≥ |(p2 j).im| then
      aset q j ⟨((p2 j).re * (p1 j).re + (p2 j).im * (p1 j).im) / (denDec p2 j + leps),
        ((p2 j).re * (p1 j).im - (p2 j).im * (p1 j).re) / (denDec p2 j + leps)⟩
    else
      aset q j ⟨((p1 j).re * (p2 j).re + (p1 j).im * (p2 j).im) / (denDec p2 j + leps),
        ((p1 j).im * (p2 j).re - (p1 j).re * (p2 j).im) / (denDec p2 j + leps)⟩) q

/-- `den[j]` of `cohr`, fconv.c:932-934. -/
def denCoh (p1 p2 : Nat → ℂ) (j : Nat) : ℝ :=
  Real.sqrt ((p1 j).re * (p1 j).re + (p1 j).im * (p1 j).im) * Real.sqrt ((p2 j).re * (p2 j).re + (p2 j).im * (p2 j).im)

/-- fconv.c:956-958: `scl` keeps its value when no condition holds.  `none`: division by zero. -/
def cohScl (epsmax leps maxden den scl : ℝ) : Option ℝ :=
  open Classical in
  if den > epsmax * maxden then (if den = 0 then none else some (1 / den))
  else if den < epsmax * maxden ∧ den ≠ 0 then (if den + leps = 0 then none else some (1 / (den + leps)))
  else if den = 0 then some 1
  else some scl

/-- One frequency of `cohr`, fconv.c:956-961, on element `m`. -/
def cohStep (epsmax leps maxden : ℝ) (p1 p2 : Nat → ℂ) (m : Nat) (s : (Nat → ℂ) × ℝ) : Option ((Nat → ℂ) × ℝ) :=
  (cohScl epsmax leps maxden (denCoh p1 p2 m) s.2).map fun scl =>
    (aset s.1 m ⟨((p1 m).re * (p2 m).re + (p1 m).im * (p2 m).im) * scl, ((p1 m).im * (p2 m).re - (p1 m).re * (p2 m).im) * scl⟩, scl)

/-- fconv.c:947-969. -/
def cohLoop (nrec nfreq : Nat) (epsmax eps reps : ℝ) (p1 p2 : Nat → ℂ) (s : (Nat → ℂ) × ℝ) : Option ((Nat → ℂ) × ℝ) :=
  forNM nrec (fun i s =>
    let maxden := maxLoop nfreq (fun j => denCoh p1 p2 (j + i * nfreq))
    forNM nfreq (fun j s => cohStep epsmax (reps * maxden + eps) maxden p1 p2 (j + i * nfreq) s) s) s

/-! ### The shift of time zero to the middle -/

/-- fconv.c:508-516 (and 690-698, 867-875, 980-988): the phase shift by `tau`, `om` stepped by `dw`. -/
def shiftLoop (nrec nfreq : Nat) (dw tau : ℝ) (q : Nat → ℂ) : Nat → ℂ :=
  forN nrec (fun j q => (forN nfreq (fun i (s : (Nat → ℂ) × ℝ) =>
    let c := s.1 (j * nfreq + i)
    (aset s.1 (j * nfreq + i) ⟨c.re * Real.cos (s.2 * tau) + c.im * Real.sin (s.2 * tau),
      c.im * Real.cos (s.2 * tau) - c.re * Real.sin (s.2 * tau)⟩, s.2 + dw)) (q, 0)).1) q

/-- fconv.c:779-786 (`power`): first the imaginary part, then the real part, both from the real part. -/
def shiftPow (nrec nfreq : Nat) (dw tau : ℝ) (q : Nat → ℂ) : Nat → ℂ :=
  forN nrec (fun j q => (forN nfreq (fun i (s : (Nat → ℂ) × ℝ) =>
    let c := s.1 (j * nfreq + i)
    (aset s.1 (j * nfreq + i) ⟨c.re * Real.cos (-s.2 * tau), c.re * Real.sin (-s.2 * tau)⟩, s.2 + dw)) (q, 0)).1) q

/-- `dw` and `tau`, fconv.c:504-506. -/
def dwOf (dt : ℝ) (optn : Nat) : ℝ := 2 * Real.pi * (1 / (dt * optn))
/-- `tau`, fconv.c:506; `nsam/2` is an integer division. -/
def tauOf (dt : ℝ) (nsam : Nat) : ℝ := dt * (nsam / 2 : Nat)

/-! ### The functions -/

/-- The part all six have in common, fconv.c:456-479, 519-523 (`corr`): pad both gathers, transform, combine (`comb`), shift (`shf`),
transform back, scale and cut off at `ntout` samples.  `lend` numbers are in each of `data1`, `data2`; `lenc` fit into `cov`. -/
def through (nrec nsam ntout lend lenc : Nat) (dt : ℝ) (comb : (Nat → ℂ) → (Nat → ℂ) → Option (Nat → ℂ)) (shf : (Nat → ℂ) → Nat → ℂ)
    (w : Work) (data1 data2 cov : Nat → ℝ) (s : St) : Option ((Nat → ℝ) × St) :=
  let optn := optncr nsam
  let nfreq := optn / 2 + 1
  (padData nsam nrec optn lend (optn * nrec) data1 w.r1).bind fun r1 =>
  (padData nsam nrec optn lend (optn * nrec) data2 w.r2).bind fun r2 =>
  (rcmFft optn nrec optn nfreq (optn * nrec) (nfreq * nrec) (-1) w.j1 r1 w.c1 s).bind fun (c1, s) =>
  (rcmFft optn nrec optn nfreq (optn * nrec) (nfreq * nrec) (-1) w.j2 r2 w.c2 s).bind fun (c2, s) =>
  (comb c1 c2).bind fun q =>
  (crmFft optn nrec nfreq optn (nfreq * nrec) (optn * nrec) 1 w.j3 (shf q) r1 s).bind fun (r1, s) =>
  (sclData optn nrec (dt / optn) ntout (optn * nrec) lenc r1 cov).map fun cov => (cov, s)

/-- The shift all but `corr3` do: `if (shift)`, fconv.c:503-517. -/
def shifted (nrec nsam : Nat) (dt : ℝ) (shift : Bool) (q : Nat → ℂ) : Nat → ℂ :=
  if shift then shiftLoop nrec (optncr nsam / 2 + 1) (dwOf dt (optncr nsam)) (tauOf dt nsam) q else q

/-- `corr`, fconv.c:450-529. -/
def corr (nrec nsam lend lenc : Nat) (dt : ℝ) (shift : Bool) (w : Work) (data1 data2 cov : Nat → ℝ) (s : St) : Option ((Nat → ℝ) × St) :=
  through nrec nsam nsam lend lenc dt (fun p1 p2 => some (corrLoop (nrec * (optncr nsam / 2 + 1)) p1 p2 w.q))
    (shifted nrec nsam dt shift) w data1 data2 cov s

/-- `corr3`, fconv.c:539-600; `ccov` is from `calloc`, and `nsam/2` samples are delivered. -/
def corr3 (nrec nsam lend lenc : Nat) (dt : ℝ) (w : Work) (data1 data2 cov : Nat → ℝ) (s : St) : Option ((Nat → ℝ) × St) :=
  through nrec nsam (nsam / 2) lend lenc dt (fun p1 p2 => some (corr3Loop (nrec * (optncr nsam / 2 + 1)) p1 p2 fun _ => 0)) id
    w data1 data2 cov s

/-- `convol`, fconv.c:809-888. -/
def convol (nrec nsam lend lenc : Nat) (dt : ℝ) (shift : Bool) (w : Work) (data1 data2 cov : Nat → ℝ) (s : St) : Option ((Nat → ℝ) × St) :=
  through nrec nsam nsam lend lenc dt (fun p1 p2 => some (convLoop (nrec * (optncr nsam / 2 + 1)) p1 p2 w.q))
    (shifted nrec nsam dt shift) w data1 data2 cov s

/-- `power`, fconv.c:721-799. -/
def power (nrec nsam lend lenc : Nat) (dt : ℝ) (shift : Bool) (w : Work) (data1 data2 cov : Nat → ℝ) (s : St) : Option ((Nat → ℝ) × St) :=
  through nrec nsam nsam lend lenc dt (fun p1 p2 => some (powerLoop (nrec * (optncr nsam / 2 + 1)) p1 p2 w.q))
    (fun q => if shift then shiftPow nrec (optncr nsam / 2 + 1) (dwOf dt (optncr nsam)) (tauOf dt nsam) q else q) w data1 data2 cov s

open Classical in
/-- The frequency part of `deconv`, fconv.c:643-679; a zero denominator is `none`. -/
def decComb (n : Nat) (eps reps : ℝ) (p1 p2 q : Nat → ℂ) : Option (Nat → ℂ) :=
  let leps := reps * maxLoop n (denDec p2) + eps
  if ∀ j, j < n → denDec p2 j + leps ≠ 0 then some (decLoop n leps p1 p2 q) else none

/-- `deconv`, fconv.c:609-710. -/
def deconv (nrec nsam lend lenc : Nat) (dt eps reps : ℝ) (shift : Bool) (w : Work) (data1 data2 cov : Nat → ℝ) (s : St) :
    Option ((Nat → ℝ) × St) :=
  through nrec nsam nsam lend lenc dt (fun p1 p2 => decComb (nrec * (optncr nsam / 2 + 1)) eps reps p1 p2 w.q)
    (shifted nrec nsam dt shift) w data1 data2 cov s

/-- `cohr`, fconv.c:891-1001. -/
def cohr (nrec nsam lend lenc : Nat) (dt epsmax eps reps : ℝ) (shift : Bool) (w : Work) (data1 data2 cov : Nat → ℝ) (s : St) :
    Option ((Nat → ℝ) × St) :=
  through nrec nsam nsam lend lenc dt
    (fun p1 p2 => (cohLoop nrec (optncr nsam / 2 + 1) epsmax eps reps p1 p2 (w.q, w.scl)).map (·.1))
    (shifted nrec nsam dt shift) w data1 data2 cov s

end

end Verif.Conv

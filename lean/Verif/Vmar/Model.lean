import Verif.Conv.Through
import Verif.Base.Loop
import Verif.Base.Writes

/-!
# Model of the iterations of `vmar` (vmar/Marchenko_Iterations.c, vmar/vmar.c)

Square geometry (`square=1`): `nstationA = nstationB = nshots = n`, so all address expressions
`iB*n*ntfft+iA*ntfft+it` and `iw*n*n+iB*n+iA` number the elements of three-index arrays, which the model
uses instead.  Real and complex numbers are exact.  `rc1fft` and `cr1fft` are the exact sums that
`rc1_fft_dft` and `cr1_fft_dft` (C80) prove of the library, `cgemm` is the matrix product.
The OpenMP loops over `iB` are `schedule(static)` over the same `n` iterations in one parallel region: a
thread gets the same consecutive iterations in each of them.
-/

namespace Verif.Vmar
open Verif Conv Fft Finset

noncomputable section

/-- Arrays by shot `iB`, station `iA` and sample. -/
abbrev Data := ℕ → ℕ → ℕ → ℝ

/-- The arguments.  `refl iw i k` is `Reflw[iw*n*n+k*n+i]`, element (receiver `i`, shot `k`) of the matrix
of frequency `nw_low+iw`; `cj` is `cjReflw`.  `last iB` is the last iteration of the thread that does `iB`. -/
structure Par where
  n : ℕ
  nt : ℕ
  low : ℕ
  nw : ℕ
  scl : ℝ
  refl : ℕ → ℕ → ℕ → ℂ
  cj : ℕ → ℕ → ℕ → ℂ
  winA : Data
  winB : Data
  inif : Data
  last : ℕ → ℕ

/-- The four arrays that the iterations update. -/
structure St where
  vp : Data
  vm : Data
  gp : Data
  gm : Data

/-- The thread's `ctrace` when it is transformed back: the band holds the product (lines 199-221 and
283-305), the other frequencies what the loop before left there, the spectrum of the last
trace that this thread transformed (lines 181-195, 264-279). -/
def ctrace (p : Par) (R : ℕ → ℕ → ℕ → ℂ) (x : Data) (iB iA f : ℕ) : ℂ :=
  if p.low ≤ f ∧ f < p.low + p.nw then ∑ k ∈ range p.n, R (f - p.low) iA k * spectrum p.nt (x iB k) f
  else spectrum p.nt (x (p.last iB) (p.n - 1)) f

/-- The frequencies above the Nyquist frequency that `cr1fft` leaves implicit. -/
def herm (n : ℕ) (c : ℕ → ℂ) (k : ℕ) : ℂ := if k ≤ n / 2 then c k else (starRingEnd ℂ) (c (n - k))

/-- `trace` after `cr1fft(ctrace,trace,ntfft,1)` (lines 222, 306). -/
def back (p : Par) (R : ℕ → ℕ → ℕ → ℂ) (x : Data) (iB iA it : ℕ) : ℝ :=
  (dft 1 p.nt (herm p.nt (ctrace p R x iB iA)) it).re

/-- One pass of the loop of lines 224-229: first `rdatavp[it]`, then `rdatagp[it]` from `rdatavp[ntfft-1-it]`. -/
def downSample (nt : ℕ) (scl : ℝ) (win inif D : ℕ → ℝ) (it : ℕ) (s : (ℕ → ℝ) × (ℕ → ℝ)) : (ℕ → ℝ) × (ℕ → ℝ) :=
  let vp := aset s.1 it (D it * (win it * scl) + inif it)
  (vp, aset s.2 it (-1 * (D (nt - 1 - it) * scl - vp (nt - 1 - it))))

/-- The update of the down-going focusing function, odd iterations, lines 154-238. -/
def down (p : Par) (s : St) : St :=
  let r := fun iB iA => forN p.nt (downSample p.nt p.scl (p.winA iB iA) (p.inif iB iA) (back p p.cj s.vm iB iA))
    (s.vp iB iA, s.gp iB iA)
  { s with vp := fun iB iA => (r iB iA).1, gp := fun iB iA => (r iB iA).2 }

/-- The update of the up-going focusing function, even iterations, lines 239-321. -/
def up (p : Par) (s : St) : St :=
  let r := fun iB iA => forN p.nt (fun it (t : (ℕ → ℝ) × (ℕ → ℝ)) =>
      let vm := aset t.1 it (back p p.refl s.vp iB iA it * (p.winB iB iA it * p.scl))
      (vm, aset t.2 it (back p p.refl s.vp iB iA it * p.scl - vm it))) (s.vm iB iA, s.gm iB iA)
  { s with vm := fun iB iA => (r iB iA).1, gm := fun iB iA => (r iB iA).2 }

/-- `for (iter=0; iter<=niter; iter++)` (line 153). -/
def iterations (p : Par) (niter : ℕ) (s : St) : St :=
  forN (niter + 1) (fun iter s => if iter % 2 = 1 then down p s else up p s) s

/-- The arrays that vmar.c:330-338 and 396-399 hands over: `v+` is the initial focusing function, the
others are zero. -/
def start (p : Par) : St := ⟨p.inif, fun _ _ _ => 0, fun _ _ _ => 0, fun _ _ _ => 0⟩

/-- The pass of the single-shot version, lines 392-397. -/
def downSample0 (nt : ℕ) (scl : ℝ) (win inif D : ℕ → ℝ) (it : ℕ) (s : (ℕ → ℝ) × (ℕ → ℝ)) : (ℕ → ℝ) × (ℕ → ℝ) :=
  let vp := aset s.1 it (D it * (win it * scl) + inif it)
  (vp, aset s.2 (nt - 1 - it) (-1 * (D it * scl - vp it)))

/-- The element of `cTemp1` that `cgemv` multiplies with column `k` of the matrix of frequency `iw` in the
single-shot version (lines 370-381, 447-458): `none` outside the `nstationA*nw` elements. -/
def gemvAt (nst nw iw k : ℕ) : Option ℕ := if iw * nst + k < nst * nw then some (iw * nst + k) else none

end

end Verif.Vmar

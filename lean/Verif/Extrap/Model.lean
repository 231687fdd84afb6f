import Verif.Toep.Model
import Verif.Fft.Lib
import Mathlib.Analysis.SpecialFunctions.Trigonometric.Basic

/-!
# Model of the short extrapolation operators of extrap: shortoper.c, weightfunct.c, trunc1D.c, kxwfilter.c (wrap)

Arithmetic is exact.  A real array element that was never set is `none`; an access outside an array makes the whole call `none`.
-/

namespace Verif.Extrap

open Verif Verif.Toep

noncomputable section

/-- Conversion of `float` to `int`. -/
def toInt (x : ℝ) : ℤ := if 0 ≤ x then ⌊x⌋ else ⌈x⌉

/-- An array of `n` elements, some of them not set. -/
abbrev Arr := ℕ → Option ℝ

/-- Assignment `a[i] = v` to an array of `n` elements. -/
def put (n : ℕ) (a : Arr) (i : ℤ) (v : ℝ) : Option Arr :=
  if 0 ≤ i ∧ i < n then some (fun k => if (k : ℤ) = i then some v else a k) else none

/-- `for (ikx = lo; ikx < hi; ikx++) a[(nkx/2)-1+ikx] = v`. -/
def fill (nkx : ℕ) (lo hi : ℤ) (v : ℝ) (a : Arr) : Option Arr :=
  forIM lo hi (fun ikx a => put nkx a (((nkx / 2 : ℕ) : ℤ) - 1 + ikx) v) a

/-- `wrap`, kxwfilter.c:126-150: the copy `rdata` is `a` itself; the two loops as functions of the position. -/
def wrap (nsam : ℕ) (a : Arr) : Arr :=
  let n := if nsam % 2 = 1 then (nsam + 1) / 2 else nsam / 2
  let ne := if nsam % 2 = 1 then n else n + 1
  let a1 := forN ne (fun j (d : Arr) => fun k => if k = j then a (n - 1 + j) else d k) a
  forN (n - 1) (fun j (d : Arr) => fun k => if k = ne + j then a j else d k) a1

/-- `weightfunct`, weightfunct.c:5-38. -/
def weightfunct (weight : Arr) (k dx : ℝ) (nkx : ℕ) (alfa1 alfa2 scale : ℝ) : Option Arr :=
  let kneg := k * Real.sin (Real.pi * alfa1 / 180)
  let kpos := k * Real.sin (Real.pi * alfa2 / 180)
  let kxnyq := Real.pi / dx
  let dkx := 2 * Real.pi / (nkx * dx)
  if kneg > kxnyq then some weight
  else
    let kpos := if kpos > 85 / 100 * kxnyq then 85 / 100 * kxnyq else kpos
    let kneg := if kneg < -(85 / 100) * kxnyq then -(85 / 100) * kxnyq else kneg
    let kxfmax := min kpos kxnyq
    let kxfmin := max kneg (-kxnyq)
    let ikxmin1 := toInt (kxfmin / dkx)
    let ikxmax1 := toInt (kxfmax / dkx)
    do
      let w ← fill nkx (-((nkx / 2 : ℕ) : ℤ) + 1) (ikxmin1 + 1) scale weight
      let w ← fill nkx (ikxmin1 + 1) ikxmax1 1 w
      let w ← fill nkx ikxmax1 (((nkx / 2 : ℕ) : ℤ) + 1) scale w
      some (wrap nkx w)

/-- All elements of an array have been set. -/
def values (n : ℕ) (a : Arr) : Option (ℕ → ℝ) :=
  if ∀ i < n, (a i).isSome then some (fun i => (a i).getD 0) else none

/-- What memory contains that was never set, and the buffers of the transforms. -/
structure Junk where
  dcx : ℕ → ℂ
  gh : ℕ → ℂ
  dcy : ℕ → ℂ
  dcr : ℕ → ℂ
  fft1 : Fft.Lib.Junk
  fft2 : Fft.Lib.Junk

/-- The least-squares part of `shortoper` (shortoper.c:55-84) for given weights; `opl` is at least one.  The result is the state of
the transforms and the outcome of the solver. -/
def wlsq (nkx opl : ℕ) (weight : ℕ → ℝ) (kxwop : ℕ → ℂ) (junk : Junk) (s : Fft.Lib.St) : Option (Out ℂ × Fft.Lib.St) := do
  let hopl := (opl - 1) / 2
  let (y, s) ← Fft.Lib.cc1Fft nkx nkx (-1) junk.fft1 (fun i => kxwop i * weight i) s
  let (w, s) ← Fft.Lib.cc1Fft nkx nkx (-1) junk.fft2 (fun i => (weight i : ℂ)) s
  let dcy ← forNM hopl (fun i dcy =>
    if hopl ≤ nkx then (rd nkx y (nkx - hopl + i)).bind fun v => wr opl dcy i v else none) junk.dcy
  let dcy ← forNM (hopl + 1) (fun i dcy => (rd nkx y i).bind fun v => wr opl dcy (hopl + i) v) dcy
  let dcr ← forNM opl (fun i dcr => (rd nkx w i).bind fun v => wr opl dcr i v) junk.dcr
  some (toeplitz opl dcr dcy junk.dcx junk.gh, s)

/-- `trunc1D`, trunc1D.c:13-42; `xwop` has `len` elements. -/
def trunc1D (kxwop xwop : ℕ → ℂ) (oplength nkx len : ℕ) (junk : Fft.Lib.Junk) (s : Fft.Lib.St) :
    Option ((ℕ → ℂ) × Fft.Lib.St) := do
  let hop := if oplength % 2 = 1 then (oplength - 1) / 2 else oplength / 2
  let invnx : ℂ := 1 / (nkx : ℂ)
  let (data, s) ← Fft.Lib.cc1Fft nkx nkx (-1) junk kxwop s
  let x ← forNM (hop + 1) (fun j x => (rd nkx data j).bind fun v => wr len x (hop + j) (v * invnx)) xwop
  let x ← forNM hop (fun j x =>
    if hop ≤ nkx + j then (rd nkx data (nkx + j - hop)).bind fun v => wr len x j (v * invnx) else none) x
  some (x, s)

/-- `shortoper` without the filter (shortoper.c:23-94, `filter` is 0; with `scale` above 0.999 also `perc` is not below 10.0001).
The result array has `opl` elements and is given element by element.  Weights that were never set are `none`. -/
def shortoper (kxwop : ℕ → ℂ) (nkx opl : ℕ) (xwop : ℕ → ℂ) (dx kw alfa1 alfa2 scale : ℝ) (junk : Junk) (s : Fft.Lib.St) :
    Option (Out ℂ × Fft.Lib.St) :=
  if scale > 999 / 1000 then (trunc1D kxwop xwop opl nkx opl junk.fft1 s).map fun r => (.done r.1, r.2)
  else do
    let w ← weightfunct (fun _ => none) kw dx nkx alfa1 alfa2 scale
    let w ← values nkx w
    wlsq nkx opl w kxwop junk s

end

end Verif.Extrap

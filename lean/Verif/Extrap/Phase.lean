import Verif.Extrap.Model

/-!
# Model of forwExtr.c (extrap): extrapolation operators in the wavenumber domain

`forwExtr`, `forwExtr_smooth`, `spline3` and `froot`.  Arithmetic is exact.  Elements that were never set are `none`; an access outside
an array, the use of a value that was never set, a division by zero and the root of a negative number make the whole call `none`.
-/

namespace Verif.Extrap

open Verif

noncomputable section

/-- A complex array, some elements not set. -/
abbrev CArr := ℕ → Option ℂ

/-- `a[i] = v`. -/
def cput (n : ℕ) (a : CArr) (i : ℤ) (v : ℂ) : Option CArr :=
  if 0 ≤ i ∧ i < n then some (fun k => if (k : ℤ) = i then some v else a k) else none

/-- The value of `a[i]`. -/
def cget (n : ℕ) (a : CArr) (i : ℤ) : Option ℂ := if 0 ≤ i ∧ i < n then a i.toNat else none

/-- `froot`, forwExtr.c:420-433. -/
def froot (x : ℝ) : ℂ := if x ≥ 0 then ⟨Real.sqrt x, 0⟩ else ⟨0, -Real.sqrt (-x)⟩

/-- `forwExtr`, forwExtr.c:6-32. -/
def forwExtr (oper : CArr) (k dx dz : ℝ) (nkx : ℕ) : Option CArr := do
  let k2 := k * k
  let dkx := 2 * Real.pi / (nkx * dx)
  if nkx * dx = 0 then none else
  let oper ← forIM 0 (((nkx / 2 : ℕ) : ℤ) + 1) (fun ikx oper =>
    let kx := ikx * dkx
    let kz := froot (k2 - kx * kx)
    let jr := kz.im * dz
    let ji := -kz.re * dz
    let a := Real.exp jr
    cput nkx oper ikx ⟨a * Real.cos ji, a * Real.sin ji⟩) oper
  forIM (((nkx / 2 : ℕ) : ℤ) + 1) nkx (fun ikx oper =>
    (cget nkx oper (nkx - ikx)).bind fun v => cput nkx oper ikx v) oper

/-- Coefficients of a cubic; `none`: not set. -/
structure Cubic where
  a : ℝ
  b : ℝ
  c : ℝ
  d : ℝ

/-- `spline3`, forwExtr.c:396-418; `old` is what the variables of the caller contain. -/
def spline3 (x1 x2 z1 z2 dzdx1 dzdx2 : ℝ) (old : Option Cubic) : Option Cubic :=
  if x1 = x2 then
    if z1 = z2 ∧ dzdx1 = dzdx2 then some ⟨0, 0, dzdx1, z1 - dzdx1 * x1⟩ else old
  else
    let a := (dzdx1 + dzdx2 - 2 * (z1 - z2) / (x1 - x2)) / ((x1 - x2) * (x1 - x2))
    let b := 1 / 2 * (dzdx1 - dzdx2) / (x1 - x2) - 3 / 2 * a * (x1 + x2)
    let c := (z1 - z2 - a * (x1 * x1 * x1 - x2 * x2 * x2) - b * (x1 * x1 - x2 * x2)) / (x1 - x2)
    some ⟨a, b, c, z1 - a * x1 * x1 * x1 - b * x1 * x1 - c * x1⟩

/-- `a*kx3 + b*kx2 + c*kx + d`. -/
def Cubic.at (p : Cubic) (x : ℝ) : ℝ := p.a * (x * x * x) + p.b * (x * x) + p.c * x + p.d

/-- Phase and slope of the phase shift at `x`, or zero (forwExtr.c:72-79, 131-138). -/
def edge (k dz x : ℝ) : ℝ × ℝ :=
  if x * x < k * k then (Real.sqrt (k * k - x * x) * dz, -1 * x * dz / Real.sqrt (k * k - x * x)) else (0, 0)

/-- `oper[ikx] = ampl*(cos(phase), -sin(phase))` from two cubics (forwExtr.c:97-105, 153-161). -/
def splineLoop (nkx : ℕ) (dkx : ℝ) (ph am : Option Cubic) (lo hi : ℤ) (oper : CArr) : Option CArr :=
  forIM lo hi (fun ikx oper =>
    let kx := ((ikx - ((nkx / 2 : ℕ) : ℤ) + 1 : ℤ) : ℝ) * dkx
    am.bind fun am => ph.bind fun ph =>
      cput nkx oper ikx ⟨am.at kx * Real.cos (ph.at kx), -am.at kx * Real.sin (ph.at kx)⟩) oper

/-- `oper[ikx] = 0` (forwExtr.c:93-96, 163-166). -/
def zeroLoop (nkx : ℕ) (lo hi : ℤ) (oper : CArr) : Option CArr := forIM lo hi (fun ikx oper => cput nkx oper ikx 0) oper

/-- The phase shift between `k1` and `k2` (forwExtr.c:112-119). -/
def shiftLoop (nkx : ℕ) (dkx k dz : ℝ) (lo hi : ℤ) (oper : CArr) : Option CArr :=
  forIM lo hi (fun ikx oper =>
    let kx := ((ikx - ((nkx / 2 : ℕ) : ℤ) + 1 : ℤ) : ℝ) * dkx
    let kz2 := k * k - kx * kx
    if kz2 < 0 then none
    else cput nkx oper ikx ⟨Real.cos (Real.sqrt kz2 * dz), -Real.sin (Real.sqrt kz2 * dz)⟩) oper

/-- The rearrangement at the end (forwExtr.c:170-194), as `wrap` of kxwfilter.c. -/
def cwrap (nsam : ℕ) (a : CArr) : CArr :=
  let n := if nsam % 2 = 1 then (nsam + 1) / 2 else nsam / 2
  let ne := if nsam % 2 = 1 then n else n + 1
  let a1 := forN ne (fun j (d : CArr) => fun k => if k = j then a (n - 1 + j) else d k) a
  forN (n - 1) (fun j (d : CArr) => fun k => if k = ne + j then a j else d k) a1

/-- Limits of the band (forwExtr.c:51-61): `ik1`, `ik2` and `perc`, each
with its last assignment. -/
def smoothBand (nkx : ℕ) (dkx k1 k2 : ℝ) : ℤ × ℤ × ℝ :=
  let lo := toInt (-(85 / 100) * nkx / 2)
  let hi := toInt (85 / 100 * nkx / 2)
  let i1 := toInt (k1 / dkx)
  let i2 := toInt (k2 / dkx)
  (if i1 < lo then lo else i1, if i2 > hi then hi else i2, if i2 > hi then 1 / 10 else if i1 < lo then 1 / 10 else 45 / 100)

/-- `forwExtr_smooth`, forwExtr.c:34-196. -/
def forwExtrSmooth (oper : CArr) (k dx dz : ℝ) (nkx : ℕ) (k1 k2 : ℝ) : Option CArr := do
  let dkx := 2 * Real.pi / (nkx * dx)
  if nkx * dx = 0 then none else
  let h : ℤ := ((nkx / 2 : ℕ) : ℤ)
  let (ik1, ik2, perc) := smoothBand nkx dkx k1 k2
  let ikxmax := toInt (max (-(h : ℝ)) (ik1 - perc * nkx / 2))
  let x1 := ikxmax * dkx
  let x2 := ((ik1 - 1 : ℤ) : ℝ) * dkx
  let (z2, s2) := edge k dz x2
  let ph := spline3 x1 x2 0 z2 0 s2 none
  let am := spline3 x1 x2 0 1 0 0 none
  let oper ← zeroLoop nkx 0 (h + ikxmax) oper
  let oper ← splineLoop nkx dkx ph am (h + ikxmax) (h + ik1 - 1) oper
  let oper ← shiftLoop nkx dkx k dz (h + ik1 - 1) (h + ik2) oper
  let ikxmax := toInt (min (h : ℝ) (ik2 + perc * nkx / 2))
  let x1 := ((ik2 + 1 : ℤ) : ℝ) * dkx
  let (z1, s1) := edge k dz x1
  let x2 := ikxmax * dkx
  let ph := spline3 x1 x2 z1 0 s1 0 ph
  let am := spline3 x1 x2 1 0 0 0 am
  let oper ← splineLoop nkx dkx ph am (h + ik2) (h + ikxmax - 1) oper
  let oper ← zeroLoop nkx (h + ikxmax - 1) nkx oper
  some (cwrap nkx oper)

end

end Verif.Extrap

import Verif.Base.Num
import Verif.Med.Model
import Mathlib.Algebra.Order.Field.Basic

/-!
# Model of snapshots and beams (fdelmodc/writeSnapTimes.c, getBeamTimes.c, getParameters.c:1059-1079)

Arithmetic is exact.  The arrays are flat, `column*naz+row`; an access outside `nax*naz` elements is the outcome `none`.  Opening and closing
of files is not modelled; what is written to a file is a list of traces.
-/

namespace Verif.Snap

open Verif

/-- `for (i=lo; i<=hi; i+=step)`: the values of `i`.  A step of 0 or less does not occur (getParameters.c:1062-1064). -/
def loop (lo hi step : ℤ) : List ℤ :=
  if _h : lo ≤ hi ∧ 0 < step then lo :: loop (lo + step) hi step else []
termination_by (hi + 1 - lo).toNat
decreasing_by omega

/-! ## Parameters -/

/-- What the user asks for and the model it is asked of. -/
structure Ask where
  tsnap1 : ℚ
  tsnap2 : ℚ
  dtsnap : ℚ
  dxsnap : ℚ
  dzsnap : ℚ
  xsnap1 : ℚ
  xsnap2 : ℚ
  zsnap1 : ℚ
  zsnap2 : ℚ
  x0 : ℚ
  z0 : ℚ
  dx : ℚ
  dz : ℚ
  dt : ℚ
  nx : ℤ
  nz : ℤ
  nt : ℤ

/-- The part of `snaPar` used here. -/
structure Sna where
  nsnap : ℤ
  skipdt : ℤ
  delay : ℤ
  skipdx : ℤ
  skipdz : ℤ
  x1 : ℤ
  x2 : ℤ
  z1 : ℤ
  z2 : ℤ
  nx : ℤ
  nz : ℤ

/-- getParameters.c:1059-1079.  `xmax`, `zmax` are those of lines 247-248.  Quotients of integers are those of C. -/
def snaPar (a : Ask) : Option Sna :=
  if a.tsnap2 ≥ a.tsnap1 then
    let nrsna := 1 + NINT ((a.tsnap2 - a.tsnap1) / a.dtsnap)
    let skipdt := max 1 (NINT (a.dtsnap / a.dt))
    let skipdx := max 1 (NINT (a.dxsnap / a.dx))
    let skipdz := max 1 (NINT (a.dzsnap / a.dz))
    let delay := NINT (a.tsnap1 / a.dt)
    let isnapmax1 := (nrsna - 1) * skipdt
    let isnapmax2 := (a.nt - (delay + 1)).tdiv skipdt * skipdt
    let isnapmax := delay + 1 + min isnapmax1 isnapmax2
    let nsnap := (isnapmax - (delay + 1)).tdiv skipdt + 1
    let xmax := a.x0 + (a.nx - 1) * a.dx
    let zmax := a.z0 + (a.nz - 1) * a.dz
    let x1 := NINT ((min (max a.x0 a.xsnap1) xmax - a.x0) / a.dx)
    let x2 := NINT ((min (max a.x0 a.xsnap2) xmax - a.x0) / a.dx)
    let z1 := NINT ((min (max a.z0 a.zsnap1) zmax - a.z0) / a.dz)
    let z2 := NINT ((min (max a.z0 a.zsnap2) zmax - a.z0) / a.dz)
    some ⟨nsnap, skipdt, delay, skipdx, skipdz, x1, x2, z1, z2, 1 + (x2 - x1).tdiv skipdx, 1 + (z2 - z1).tdiv skipdz⟩
  else none

/-! ## Times -/

/-- writeSnapTimes.c:68-72: the number of the snapshot to be written at this time step. -/
def snapAt (s : Sna) (itime : ℤ) : Option ℤ :=
  if (itime - s.delay).tmod s.skipdt = 0 ∧ itime ≥ s.delay ∧ itime ≤ s.delay + (s.nsnap - 1) * s.skipdt then
    some (NINT (((itime - s.delay).tdiv s.skipdt : ℤ) : ℚ))
  else none

/-- The time loop of one shot (fdelmodc.c:575, 688-690): which snapshot is written at which step.  `fldr` is the number plus one
(writeSnapTimes.c:104). -/
def shotSnaps (s : Sna) (it1 : ℕ) : List (ℤ × ℤ) :=
  (List.range it1).filterMap fun it : ℕ => (snapAt s it).map fun k => (k + 1, (it : ℤ))

/-- A file and the static variable `first` (writeSnapTimes.c:38, 78-84): the first snapshot of the run opens the file anew, all others append. -/
def fileStep {S : Type} (st : Bool × List S) (snap : S) : Bool × List S :=
  if st.1 then (false, [snap]) else (false, st.2 ++ [snap])

/-! ## Samples -/

section
variable {K : Type} [Field K]

/-- The wave field: arrays of `nax*naz` elements. -/
structure Wave where
  vx : ℤ → K
  vz : ℤ → K
  tzz : ℤ → K
  txx : ℤ → K
  txz : ℤ → K

/-- What can be written. -/
inductive Kind
  | vx | vz | p | tzz | txx | txz | pp | ss | dxvx | dzvz
deriving DecidableEq, Repr

/-- `a[ix*n1+iz]`. -/
def at_ (p : Med.Par) (a : ℤ → K) (ix iz : ℤ) : Option K :=
  if 0 ≤ ix * p.naz + iz ∧ ix * p.naz + iz < p.nax * p.naz then some (a (ix * p.naz + iz)) else none

/-- The right-hand sides of writeSnapTimes.c:150-219. -/
def value (p : Med.Par) (f : Wave (K := K)) (sdx : K) (k : Kind) (ix ix2 iz : ℤ) : Option K :=
  match k with
  | .vx => at_ p f.vx ix2 iz
  | .vz => at_ p f.vz ix (iz + 1)
  | .p => at_ p f.tzz ix iz
  | .tzz => at_ p f.tzz ix iz
  | .txx => at_ p f.txx ix iz
  | .txz => at_ p f.txz ix2 (iz + 1)
  | .pp => do
    return sdx * (((← at_ p f.vx (ix + 1) iz) - (← at_ p f.vx ix iz)) + ((← at_ p f.vz ix (iz + 1)) - (← at_ p f.vz ix iz)))
  | .ss => do
    return sdx * (((← at_ p f.vx ix iz) - (← at_ p f.vx ix (iz - 1))) - ((← at_ p f.vz ix iz) - (← at_ p f.vz (ix - 1) iz)))
  | .dxvx => do
    return sdx * (9 / 8 * ((← at_ p f.vx (ix + 1) iz) - (← at_ p f.vx ix iz)) +
      -1 / 24 * ((← at_ p f.vx (ix + 2) iz) - (← at_ p f.vx (ix - 1) iz)))
  | .dzvz => do
    return sdx * (9 / 8 * ((← at_ p f.vz ix (iz + 1)) - (← at_ p f.vz ix iz)) +
      -1 / 24 * ((← at_ p f.vz ix (iz + 2)) - (← at_ p f.vz ix (iz - 1))))

/-- A written trace: the number in the snapshot, the running number, the receiver position `gx` before conversion to an integer, and the
samples. -/
structure Trace where
  tracf : ℤ
  tracl : ℤ
  gx : ℚ
  samples : List K

/-- The first row of the loop of a kind (writeSnapTimes.c:137-146, 157, 162, 183, 188): with borders `izs` depends on the kinds that are
written and on those that come before. -/
def startRow (p : Med.Par) (s : Sna) (withbnd : Bool) (typ : Kind → Bool) (k : Kind) : ℤ :=
  if withbnd then
    let izs := if typ .vz || typ .txz then -1 else 0
    match k with
    | .vx => izs
    | .vz => -1
    | .p | .tzz | .txx => if typ .vz then 0 else izs
    | .txz => -1
    | .pp | .ss | .dxvx | .dzvz => if typ .vz || typ .txz then 0 else izs
  else s.z1 + p.ioXz

/-- One trace: fill `snap` (`nz+1` elements, line 126) and write `nz` of them.  Filling more than there are elements, or writing an element that
was not filled, is `none`. -/
def trace (p : Med.Par) (f : Wave (K := K)) (sdx : K) (k : Kind) (ix ix2 izs ize skipdz nz : ℤ) : Option (List K) := do
  let vs ← (loop izs ize skipdz).mapM fun iz => value p f sdx k ix ix2 iz
  if vs.length > nz + 1 ∨ vs.length < nz then none else some (vs.take nz.toNat)

/-- The range with borders (writeSnapTimes.c:55-65). -/
def withBorders (p : Med.Par) (s : Sna) (withbnd : Bool) : Sna :=
  if withbnd then { s with nz := p.naz, z1 := 0, z2 := p.naz - 1, skipdz := 1, nx := p.nax, x1 := 0, x2 := p.nax - 1, skipdx := 1 } else s

/-- The traces of one kind of snapshot number `isnap` (writeSnapTimes.c:126-221), `g` the origin and spacing in x. -/
def snapshot (p : Med.Par) (g : ℚ × ℚ) (s : Sna) (withbnd : Bool) (typ : Kind → Bool) (f : Wave (K := K)) (sdx : K) (isnap : ℤ) (k : Kind) :
    Option (List (Trace (K := K))) :=
  let s := withBorders p s withbnd
  ((loop s.x1 s.x2 s.skipdx).zipIdx).mapM fun t => do
    let ixs := t.1
    let ix := if withbnd then ixs else ixs + p.ioXx
    let ix2 := if withbnd then ix else ix + 1
    let ize := if withbnd then s.z2 else s.z2 + p.ioXz
    let gx := if withbnd ∧ p.lef % 2 = 0 then 1000 * (g.1 - p.npml * g.2) else 1000 * (g.1 + ixs * g.2)
    let vs ← trace p f sdx k ix ix2 (startRow p s withbnd typ k) ize s.skipdz s.nz
    pure ⟨t.2 + 1, isnap * s.nx + t.2 + 1, gx, vs⟩

/-! ## Beams -/

/-- The quantities of which the beam is made (getBeamTimes.c:52-99). -/
def beamValue (p : Med.Par) (f : Wave (K := K)) (sdx : K) (k : Kind) (ix iz : ℤ) : Option K :=
  match k with
  | .vx => at_ p f.vx (ix + 1) iz
  | .vz => at_ p f.vz ix (iz + 1)
  | .p => at_ p f.tzz ix iz
  | .tzz => at_ p f.tzz ix iz
  | .txx => at_ p f.txx ix iz
  | .txz => at_ p f.txz (ix + 1) (iz + 1)
  | .pp => do
    return sdx * (((← at_ p f.vx (ix + 1) iz) - (← at_ p f.vx ix iz)) + ((← at_ p f.vz ix (iz + 1)) - (← at_ p f.vz ix iz)))
  | .ss => do
    return sdx * (((← at_ p f.vx (ix + 1) (iz + 1)) - (← at_ p f.vx (ix + 1) iz)) -
      ((← at_ p f.vz (ix + 1) (iz + 1)) - (← at_ p f.vz ix (iz + 1))))
  | .dxvx | .dzvz => none

/-- `beam[i*nz+j] += sqrt(v*v)` for an array of `nx*nz` elements (fdelmodc.c:442). -/
def addBeam [LinearOrder K] (s : Sna) (i j : ℤ) (v : K) (b : ℤ → K) : Option (ℤ → K) :=
  if 0 ≤ i * s.nz + j ∧ i * s.nz + j < s.nz * s.nx then some (fun n => if n = i * s.nz + j then b n + |v| else b n) else none

/-- One call of getBeamTimes.c:33-101 for one kind.  Line 45 adds `ioPx` to the row; it equals `ioPz`. -/
def beamStep [LinearOrder K] (p : Med.Par) (s : Sna) (f : Wave (K := K)) (sdx : K) (k : Kind) (b : ℤ → K) : Option (ℤ → K) :=
  ((loop s.x1 s.x2 s.skipdx).zipIdx).foldlM (fun b t =>
    ((loop (s.z1 + p.ioPx) (s.z2 + p.ioPz) s.skipdz).zipIdx).foldlM (fun b u => do
      let v ← beamValue p f sdx k (t.1 + p.ioPx) u.1
      addBeam s t.2 u.2 v b) b) b

/-- All time steps of a shot (fdelmodc.c:693-697). -/
def beamShot [LinearOrder K] (p : Med.Par) (s : Sna) (fs : List (Wave (K := K))) (sdx : K) (k : Kind) (b : ℤ → K) : Option (ℤ → K) :=
  fs.foldlM (fun b f => beamStep p s f sdx k b) b

/-- The position `gx` in the header of beam trace `ix` before conversion (getBeamTimes.c:157). -/
def beamGx (g : ℚ × ℚ) (s : Sna) (ix : ℤ) : ℚ := 1000 * (g.1 + (s.x1 + ix) * g.2)

end

end Verif.Snap

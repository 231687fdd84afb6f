import Verif.Base.Loop
import Mathlib.Algebra.Order.Field.Basic
import Mathlib.Algebra.BigOperators.Group.Finset.Basic

/-!
# Model of the reverse time migration loop of `fdacrtmc`

The snapshots of the source wavefield (`fdacrtmc/extractMigrationSnapshots.c`), the imaging
conditions (`fdacrtmc/rtmImagingCondition.c`, modes 1 to 3) and the loop over the shots
(`fdacrtmc/fdacrtmc.c`).  The wavefields themselves are inputs: `fw it` is what the arrays hold
after forward step `it`, `bw it` after the backward step with the same number.  Values are exact
elements of an ordered field, `size_t` is unbounded.  `none` is an access outside an array, a read
of a snapshot that is not there, or `mig->it--` at zero.  `compress=0` throughout.
-/

namespace Verif.Rtm
open Verif

variable {K : Type} [Field K] [LinearOrder K]

/-- The grid offsets of `modPar` used by the snapshots. -/
structure Grid where
  nax : ℕ
  naz : ℕ
  ioPx : ℕ
  ioPz : ℕ
  ioXx : ℕ
  ioXz : ℕ
  ioZx : ℕ
  ioZz : ℕ

/-- getParameters.c:194-296: the offsets and sizes for a model of `nx` by `nz` points; the flags say
which of the boundaries have `ntap` extra points (boundary type 2 or 4). -/
def grid (nx nz iorder ntap : ℕ) (top bot lef rig : Bool) : Grid where
  nax := nx + iorder / 2 + 1 + (if lef then ntap else 0) + (if rig then ntap else 0)
  naz := nz + iorder / 2 + 1 + (if top then ntap else 0) + (if bot then ntap else 0)
  ioPx := iorder / 2 - 1 + (if lef then ntap else 0)
  ioPz := iorder / 2 - 1 + (if top then ntap else 0)
  ioXx := iorder / 2 + (if lef then ntap else 0)
  ioXz := iorder / 2 - 1 + (if top then ntap else 0)
  ioZx := iorder / 2 - 1 + (if lef then ntap else 0)
  ioZz := iorder / 2 + (if top then ntap else 0)

/-- The members of `migPar` that the loop uses. -/
structure Mig (K : Type) where
  mode : ℕ
  orient : ℕ
  backscatter : Bool
  x1 : ℕ
  z1 : ℕ
  nx : ℕ
  nz : ℕ
  skipdx : ℕ
  skipdz : ℕ
  skipdt : ℕ
  dt : K

/-- getParameters.c:584-604 for one axis, from the first and last grid point and the step: the
number of image points, `none` for the integer division by zero of a step that rounds to 0. -/
def axis (i1 i2 skip : ℕ) : Option ℕ := if skip = 0 then none else some ((i2 - i1) / skip + 1)

/-- getParameters.c:601 and fdacrtmc.c:329: the number of snapshots that `mig.wav` can hold. -/
def migNt (nt skipdt : ℕ) : ℕ := if skipdt > 1 then nt / skipdt + 1 else nt

/-- `wavPar`: the arrays of one wavefield. -/
structure Wav (K : Type) where
  tzz : Buf K
  vx : Buf K
  vz : Buf K

/-- `mig->wav[i]`: the arrays of one snapshot, `none` for a pointer that is not set. -/
structure Snap (K : Type) where
  tzz : Option (Buf K)
  vx : Option (Buf K)
  vz : Option (Buf K)

/-- The part of the program state that the loop changes. -/
structure St (K : Type) where
  it : ℕ
  wav : ℕ → Snap K
  image : Buf K
  mig : Buf K

/-- The double loop over the image points, e.g. extractMigrationSnapshots.c:19-23. -/
def overImage (m : Mig K) (body : ℕ → ℕ → Buf K → Option (Buf K)) (d : Buf K) : Option (Buf K) :=
  forNM m.nx (fun ix d => forNM m.nz (fun iz d => body ix iz d) d) d

/-- `ix1*mod->naz+iz1` with `ix1=ox+mig->x1` stepped by `skipdx` and `iz1=oz+mig->z1` stepped by
`skipdz`. -/
def pos (g : Grid) (m : Mig K) (ox oz ix iz : ℕ) : Int :=
  ((ox + m.x1 + ix * m.skipdx) * g.naz + (oz + m.z1 + iz * m.skipdz) : ℕ)

/-- Place of an image point, `ix*mig->nz+iz`. -/
def pt (m : Mig K) (ix iz : ℕ) : Int := (ix * m.nz + iz : ℕ)

/-- storePressureSnapshot, extractMigrationSnapshots.c:10-30. -/
def storeP (g : Grid) (m : Mig K) (w : Wav K) : Option (Buf K) :=
  overImage m (fun ix iz d => (w.tzz.rd (pos g m g.ioPx g.ioPz ix iz)).bind fun v => d.wr (pt m ix iz) v)
    ⟨m.nx * m.nz, fun _ => 0⟩

/-- storeHorizontalParticleVelocitySnapshot, extractMigrationSnapshots.c:32-52. -/
def storeVx (g : Grid) (m : Mig K) (w : Wav K) : Option (Buf K) :=
  overImage m (fun ix iz d =>
    (w.vx.rd (pos g m g.ioXx g.ioXz ix iz)).bind fun a =>
    (w.vx.rd (pos g m g.ioXx g.ioXz ix iz + g.naz)).bind fun b => d.wr (pt m ix iz) ((a + b) / 2))
    ⟨m.nx * m.nz, fun _ => 0⟩

/-- storeVerticalParticleVelocitySnapshot, extractMigrationSnapshots.c:54-74. -/
def storeVz (g : Grid) (m : Mig K) (w : Wav K) : Option (Buf K) :=
  overImage m (fun ix iz d =>
    (w.vz.rd (pos g m g.ioZx g.ioZz ix iz)).bind fun a =>
    (w.vz.rd (pos g m g.ioZx g.ioZz ix iz + 1)).bind fun b => d.wr (pt m ix iz) ((a + b) / 2))
    ⟨m.nx * m.nz, fun _ => 0⟩

/-- The snapshot that `extractMigrationSnapshots` stores, extractMigrationSnapshots.c:79-110: the old
pointers stay where nothing is stored (mode 3). -/
def snapshot (g : Grid) (m : Mig K) (w : Wav K) (old : Snap K) : Option (Snap K) :=
  if m.mode = 3 then some old
  else if m.mode = 2 then
    (storeP g m w).bind fun p =>
      if m.orient = 0 then
        (storeVz g m w).bind fun z => (storeVx g m w).bind fun x => some ⟨some p, some x, some z⟩
      else if m.orient = 1 then (storeVz g m w).bind fun z => some ⟨some p, old.vx, some z⟩
      else if m.orient = 2 then (storeVx g m w).bind fun x => some ⟨some p, some x, old.vz⟩
      else some ⟨some p, old.vx, old.vz⟩
  else (storeP g m w).bind fun p => some ⟨some p, old.vx, old.vz⟩

/-- `extractMigrationSnapshots`, extractMigrationSnapshots.c:76-230; `cap` is the size of `mig.wav`
(the slot is not touched in mode 3). -/
def extract (g : Grid) (m : Mig K) (cap : ℕ) (w : Wav K) (s : St K) : Option (St K) :=
  if m.mode ≠ 3 ∧ ¬ s.it < cap then none
  else (snapshot g m w (s.wav s.it)).bind fun e =>
    some { s with it := s.it + 1, wav := fun k => if k = s.it then e else s.wav k }

/-- `mig->image[..]+=mig->dt*(wav->tzz[..]*farr[..])`, rtmImagingCondition.c:34. -/
def correlate (g : Grid) (m : Mig K) (w : Wav K) (p : Buf K) (ix iz : ℕ) (d : Buf K) : Option (Buf K) :=
  (w.tzz.rd (pos g m g.ioPx g.ioPz ix iz)).bind fun r =>
  (p.rd (pt m ix iz)).bind fun f =>
  (d.rd (pt m ix iz)).bind fun v => d.wr (pt m ix iz) (v + m.dt * (r * f))

/-- The horizontal flux of the source field, rtmImagingCondition.c:48. -/
def srcX (m : Mig K) (p vx : Buf K) (ix iz : ℕ) : Option K :=
  (p.rd (pt m ix iz)).bind fun a => (vx.rd (pt m ix iz)).bind fun b => some (a * b)

/-- The horizontal flux of the receiver field, rtmImagingCondition.c:51. -/
def rcvX (g : Grid) (m : Mig K) (w : Wav K) (ix iz : ℕ) : Option K :=
  (w.tzz.rd (pos g m g.ioPx g.ioPz ix iz)).bind fun a =>
  (w.vx.rd (pos g m g.ioPx g.ioPz ix iz)).bind fun b =>
  (w.vx.rd (pos g m g.ioPx g.ioPz ix iz + g.naz)).bind fun c => some (a * (b + c) / 2)

/-- The vertical flux of the receiver field, rtmImagingCondition.c:52. -/
def rcvZ (g : Grid) (m : Mig K) (w : Wav K) (ix iz : ℕ) : Option K :=
  (w.tzz.rd (pos g m g.ioPx g.ioPz ix iz)).bind fun a =>
  (w.vz.rd (pos g m g.ioPx g.ioPz ix iz)).bind fun b =>
  (w.vz.rd (pos g m g.ioPx g.ioPz ix iz + 1)).bind fun c => some (a * (b + c) / 2)

/-- Orientation 0, rtmImagingCondition.c:42-75. -/
def poyntBoth (g : Grid) (m : Mig K) (w : Wav K) (p vx vz : Buf K) (ix iz : ℕ) (d : Buf K) :
    Option (Buf K) :=
  (srcX m p vx ix iz).bind fun pxf => (srcX m p vz ix iz).bind fun pzf =>
  (rcvX g m w ix iz).bind fun pxb => (rcvZ g m w ix iz).bind fun pzb =>
  if m.backscatter then
    (if 0 < pxf * pxb ∧ 0 < pzf * pzb then correlate g m w p ix iz d else some d)
  else (if pxf * pxb < 0 ∨ pzf * pzb < 0 then correlate g m w p ix iz d else some d)

/-- Orientation 1, rtmImagingCondition.c:76-89. -/
def poyntUpDown (g : Grid) (m : Mig K) (w : Wav K) (p vz : Buf K) (ix iz : ℕ) (d : Buf K) :
    Option (Buf K) :=
  (srcX m p vz ix iz).bind fun pzf => (rcvZ g m w ix iz).bind fun pzb =>
  if 0 < pzf * pzb then correlate g m w p ix iz d else some d

/-- Orientation 2, rtmImagingCondition.c:90-103. -/
def poyntLeftRight (g : Grid) (m : Mig K) (w : Wav K) (p vx : Buf K) (ix iz : ℕ) (d : Buf K) :
    Option (Buf K) :=
  (srcX m p vx ix iz).bind fun pxf => (rcvX g m w ix iz).bind fun pxb =>
  if pxf * pxb < 0 then correlate g m w p ix iz d else some d

/-- The image after one imaging step and the snapshot pointers that are left: rtmImagingCondition.c:
21-117 for the modes 1, 2 and 3 (`free` unsets the pointer; other modes are not in this model). -/
def condition (g : Grid) (m : Mig K) (w : Wav K) (e : Snap K) (d : Buf K) : Option (Buf K × Snap K) :=
  if m.mode = 1 then
    e.tzz.bind fun p => (overImage m (correlate g m w p) d).bind fun d => some (d, { e with tzz := none })
  else if m.mode = 2 then
    (if m.orient = 0 then
      e.tzz.bind fun p => e.vx.bind fun x => e.vz.bind fun z =>
        (overImage m (poyntBoth g m w p x z) d).bind fun d => some (d, ⟨none, none, none⟩)
    else if m.orient = 1 then
      e.tzz.bind fun p => e.vz.bind fun z =>
        (overImage m (poyntUpDown g m w p z) d).bind fun d => some (d, { e with tzz := none, vz := none })
    else if m.orient = 2 then
      e.tzz.bind fun p => e.vx.bind fun x =>
        (overImage m (poyntLeftRight g m w p x) d).bind fun d => some (d, { e with tzz := none, vx := none })
    else e.tzz.bind fun _ => some (d, { e with tzz := none }))
  else some (d, e)

/-- `rtmImagingCondition`, rtmImagingCondition.c:14: `mig->it--`, the condition on the snapshot of
that number. -/
def imaging (g : Grid) (m : Mig K) (cap : ℕ) (w : Wav K) (s : St K) : Option (St K) :=
  if s.it = 0 then none
  else if m.mode ≠ 3 ∧ ¬ s.it - 1 < cap then none
  else (condition g m w (s.wav (s.it - 1)) s.image).bind fun r =>
    some { s with it := s.it - 1, image := r.1, wav := fun k => if k = s.it - 1 then r.2 else s.wav k }

/-- One shot: its number of time steps and its two wavefields. -/
structure Shot (K : Type) where
  nt : ℕ
  fw : ℕ → Wav K
  bw : ℕ → Wav K

/-- fdacrtmc.c:401-477: the forward loop. -/
def forward (g : Grid) (m : Mig K) (h : Shot K) (n : ℕ) (s : St K) : Option (St K) :=
  forNM n (fun it s => if it % m.skipdt = 0 then extract g m (migNt h.nt m.skipdt) (h.fw it) s else some s) s

/-- fdacrtmc.c:542-609: the backward loop `for(it=mod.nt;it-->0;)`. -/
def backward (g : Grid) (m : Mig K) (h : Shot K) (n : ℕ) (s : St K) : Option (St K) :=
  forNM n (fun j s =>
    if (h.nt - 1 - j) % m.skipdt = 0 then imaging g m (migNt h.nt m.skipdt) (h.bw (h.nt - 1 - j)) s
    else some s) s

/-- `for(it=0;it<mig.sizem;it++) mig.mig[it]+=mig.image[it];` (fdacrtmc.c:631). -/
def stack (m : Mig K) (image mig : Buf K) : Option (Buf K) :=
  forNM (m.nx * m.nz) (fun i d => (image.rd i).bind fun v => (d.rd i).bind fun o => d.wr i (o + v)) mig

/-- One pass of the loop over the shots, fdacrtmc.c:320-632 (`mig.it=0`, both loops, the stack and the
cleared image).  The array `mig.wav` has room for the `mig.nt` of this shot, which fdacrtmc.c:326-340
reallocates whenever the number of steps changes. -/
def shot (g : Grid) (m : Mig K) (s : St K) (h : Shot K) : Option (St K) :=
  (forward g m h h.nt { s with it := 0 }).bind fun s =>
  (backward g m h h.nt s).bind fun s =>
  (stack m s.image s.mig).bind fun t =>
  some { s with mig := t, image := { s.image with val := fun _ => 0 } }

/-- The loop over the shots, fdacrtmc.c:319-640. -/
def shots (g : Grid) (m : Mig K) (l : List (Shot K)) (s : St K) : Option (St K) := l.foldlM (shot g m) s

/-- The state before the first shot: empty images and no snapshot. -/
def start (m : Mig K) : St K :=
  ⟨0, fun _ => ⟨none, none, none⟩, ⟨m.nx * m.nz, fun _ => 0⟩, ⟨m.nx * m.nz, fun _ => 0⟩⟩

end Verif.Rtm

import Verif.Base.Loop
import Mathlib.Analysis.SpecialFunctions.Trigonometric.Basic

/-!
# Model of `marchenko/applyMute.c` and `marchenko/mapj.c`

The data cube is a `Buf ℝ` (exact reals in place of `float`), the index tables are `Buf Int`.
C `int`s are unbounded integers; every array access goes through `Buf.rd`/`Buf.wr`, so an
out-of-range access makes the whole call `none`.
-/

namespace Verif.Mute
open Verif

/-- marchenko/mapj.c:1-8 -/
def mapj (j nt : Int) : Int :=
  if nt ≤ j then j - nt else if j < 0 then nt + j else j

/-- The taper table, marchenko/applyMute.c:22-28.  For `smooth = 0` nothing is allocated; the
table then has size 0, so any access would be `none`. -/
noncomputable def costaper (smooth : Nat) : Buf ℝ :=
  ⟨smooth, fun i => 1 / 2 * (1 + Real.cos ((i + 1) * (Real.pi / ((smooth : ℝ) + 1))))⟩

/-- `for (j=lo; j<hi; j++) data[base+mapj(j,nt)] = 0.0;` (e.g. applyMute.c:36-38, 56-58). -/
def zeroLoop (base nt lo hi : Int) (d : Buf ℝ) : Option (Buf ℝ) :=
  forIM lo hi (fun j d => d.wr (base + mapj j nt) 0) d

/-- `for (j=lo,l=0; j<hi; j++,l++) data[base+mapj(j,nt)] *= costaper[l];`
(e.g. applyMute.c:53-55). -/
def fallLoop (ct : Buf ℝ) (base nt lo hi : Int) (d : Buf ℝ) : Option (Buf ℝ) :=
  forIM lo hi (fun j d => (ct.rd (j - lo)).bind fun c =>
    (d.rd (base + mapj j nt)).bind fun v => d.wr (base + mapj j nt) (v * c)) d

/-- `for (j=lo,l=0; j<hi; j++,l++) data[base+mapj(j,nt)] *= costaper[smooth-l-1];`
(e.g. applyMute.c:39-41). -/
def riseLoop (ct : Buf ℝ) (smooth : Int) (base nt lo hi : Int) (d : Buf ℝ) : Option (Buf ℝ) :=
  forIM lo hi (fun j d => (ct.rd (smooth - (j - lo) - 1)).bind fun c =>
    (d.rd (base + mapj j nt)).bind fun v => d.wr (base + mapj j nt) (v * c)) d

/-- `memset(&data[base],0,sizeof(float)*nt)` (applyMute.c:50). -/
def clearTrace (base nt : Int) (d : Buf ℝ) : Option (Buf ℝ) :=
  forIM 0 nt (fun j d => d.wr (base + j) 0) d

/-- The per-trace bodies of the `above` branches, applyMute.c:31-224, given the trace offset
`base = isyn*nxs*nt+i*nt`, the mute time and the time shift of the trace.  A value of `above`
that is not listed leaves the data alone, as in C. -/
noncomputable def gate (above : Int) (smooth : Nat) (shift nt base tmute ts : Int) (d : Buf ℝ) :
    Option (Buf ℝ) :=
  let s : Int := smooth
  let ct := costaper smooth
  if above = 1 then            -- applyMute.c:31-43
    (zeroLoop base nt 0 (-2*ts+tmute-shift-s) d).bind
    (riseLoop ct s base nt (-2*ts+tmute-shift-s) (-2*ts+tmute-shift))
  else if above = 0 then       -- applyMute.c:44-63
    if nt / 2 ≤ tmute then clearTrace base nt d
    else ((fallLoop ct base nt (-2*ts+tmute-shift-s) (-2*ts+tmute-shift) d).bind
      (zeroLoop base nt (-2*ts+tmute-shift) (nt+1-tmute+shift+2*ts))).bind
      (riseLoop ct s base nt (nt+1-tmute+shift+2*ts) (nt+1-tmute+shift+2*ts+s))
  else if above = 4 ∨ above = -4 then   -- applyMute.c:64-82
    (((zeroLoop base nt 0 (tmute-2*ts-shift-s) d).bind
      (riseLoop ct s base nt (-2*ts+tmute-shift-s) (-2*ts+tmute-shift))).bind
      (fallLoop ct base nt (nt+1-tmute+shift+2*ts) (nt+1-tmute+shift+2*ts+s))).bind
      (zeroLoop base nt (nt+1-tmute+shift+2*ts+s) nt)
  else if above = 6 then       -- applyMute.c:83-102
    if nt / 2 ≤ tmute then clearTrace base nt d
    else ((fallLoop ct base nt (-2*ts+tmute+shift-s) (-2*ts+tmute+shift) d).bind
      (zeroLoop base nt (-2*ts+tmute+shift) (nt-tmute+shift))).bind
      (riseLoop ct s base nt (nt-tmute+shift) (nt-tmute+shift+s))
  else if above = -6 then      -- applyMute.c:103-122
    if nt / 2 ≤ tmute then clearTrace base nt d
    else ((fallLoop ct base nt (-2*ts+tmute-shift-s) (-2*ts+tmute-shift) d).bind
      (zeroLoop base nt (-2*ts+tmute-shift) (nt-tmute-shift))).bind
      (riseLoop ct s base nt (nt-tmute-shift) (nt-tmute-shift+s))
  else if above = 10 then      -- applyMute.c:123-140
    (((zeroLoop base nt 0 (tmute+shift-s) d).bind
      (riseLoop ct s base nt (tmute+shift-s) (tmute+shift))).bind
      (fallLoop ct base nt (nt-tmute+shift) (nt-tmute+shift+s))).bind
      (zeroLoop base nt (nt-tmute+shift+s) nt)
  else if above = -2 then      -- applyMute.c:141-160
    if nt / 2 ≤ tmute then clearTrace base nt d
    else ((fallLoop ct base nt (-2*ts+tmute+shift) (-2*ts+tmute+shift+s) d).bind
      (zeroLoop base nt (-2*ts+tmute+shift+s+1) (nt+1-tmute-shift-s))).bind
      (riseLoop ct s base nt (nt-tmute-shift-s) (nt-tmute-shift))
  else if above = -1 then      -- applyMute.c:161-173
    (fallLoop ct base nt (ts+tmute-shift) (ts+tmute-shift+s) d).bind
    (zeroLoop base nt (ts+tmute-shift+s) nt)
  else if above = 2 ∨ above = 7 then   -- applyMute.c:174-191 and 192-209 (identical bodies)
    (((zeroLoop base nt 0 (tmute-shift-s) d).bind
      (riseLoop ct s base nt (tmute-shift-s) (tmute-shift))).bind
      (fallLoop ct base nt (tmute+shift) (tmute+shift+s))).bind
      (zeroLoop base nt (tmute+shift+s) nt)
  else if above = -7 then      -- applyMute.c:210-224
    ((fallLoop ct base nt (tmute-shift-s) (tmute-shift) d).bind
      (zeroLoop base nt (tmute-shift) (tmute+shift))).bind
      (riseLoop ct s base nt (tmute+shift) (tmute+shift+s))
  else some d

/-- Parameters of a call (applyMute.c:16). -/
structure Args where
  mute : Buf Int
  smooth : Nat
  above : Int
  Nfoc : Nat
  nxs : Nat
  nt : Nat
  ixpos : Buf Int
  npos : Nat
  shift : Int
  tsynW : Buf Int

/-- Body of the trace loop: look up `imute`, `tmute`, `ts` and apply the gate
(applyMute.c:33-35 and the other branches).  Simplification: `tsynW` is read in all branches,
also in those (10, 2, 7, -7) in which C does not use it. -/
noncomputable def traceBody (a : Args) (isyn i : Nat) (d : Buf ℝ) : Option (Buf ℝ) :=
  (a.ixpos.rd i).bind fun imute =>
  (a.mute.rd (isyn*a.nxs+imute)).bind fun tmute =>
  (a.tsynW.rd (isyn*a.nxs+imute)).bind fun ts =>
  gate a.above a.smooth a.shift a.nt (isyn*a.nxs*a.nt+i*a.nt) tmute ts d

/-- marchenko/applyMute.c:16-230 -/
noncomputable def applyMute (a : Args) (d : Buf ℝ) : Option (Buf ℝ) :=
  forNM a.Nfoc (fun isyn d => forNM a.npos (fun i d => traceBody a isyn i d) d) d

end Verif.Mute

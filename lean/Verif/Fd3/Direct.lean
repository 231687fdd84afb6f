import Mathlib.Algebra.Order.Field.Rat
import Mathlib.Tactic.Linarith
import Mathlib.Tactic.LinearCombination
import Mathlib.Tactic.Ring
import Mathlib.Tactic.NormNum

/-!
# C217: recording of fdelmodc3D at grid points

fdelmodc3D/getRecTimes3D.c:350-487 for pressure and velocities.  Arrays are functions of `(iy, ix, iz)`, so the index `ix2*n1+iz`
without `iy*n1*n2` is the element `(0, ix2, iz)`; floats are exact rationals.
-/

namespace Verif.Fd3.Direct

/-- `a iy ix iz` is `a[iy*n1*n2+ix*n1+iz]`. -/
abbrev Field := Int → Int → Int → Rat

/-- Wavefields and medium. -/
structure State where
  tzz : Field
  vx : Field
  vy : Field
  vz : Field
  l2m : Field
  rox : Field
  roz : Field

/-- `c1` and `c2` (fdelmodc3D/getRecTimes3D.c:41-42). -/
def c1 : Rat := 9 / 8
@[inherit_doc c1] def c2 : Rat := -1 / 24

/-- `dvx+dvy+dvz` (fdelmodc3D/getRecTimes3D.c:358-363). -/
def div (s : State) (iy ix iz : Int) : Rat :=
  (c1 * (s.vx iy (ix+1) iz - s.vx iy ix iz) + c2 * (s.vx iy (ix+2) iz - s.vx iy (ix-1) iz)) +
  (c1 * (s.vy (iy+1) ix iz - s.vy iy ix iz) + c2 * (s.vy (iy+2) ix iz - s.vy (iy-1) ix iz)) +
  (c1 * (s.vz iy ix (iz+1) - s.vz iy ix iz) + c2 * (s.vz iy ix (iz+2) - s.vz iy ix (iz-1)))

/-- Differences of the pressure in x and z (fdelmodc3D/getRecTimes3D.c:442-443, 472-473). -/
def gradX (s : State) (iy ix iz : Int) : Rat :=
  c1 * (s.tzz iy ix iz - s.tzz iy (ix-1) iz) + c2 * (s.tzz iy (ix+1) iz - s.tzz iy (ix-2) iz)
@[inherit_doc gradX] def gradZ (s : State) (iy ix iz : Int) : Rat :=
  c1 * (s.tzz iy ix iz - s.tzz iy ix (iz-1)) + c2 * (s.tzz iy ix (iz+1) - s.tzz iy ix (iz-2))

/-- `rec_p` (fdelmodc3D/getRecTimes3D.c:355-403).  The second term of `int_p == 2` has `l2m[iy][ix][iz]`. -/
def recP (s : State) (intP ischeme : Int) (iy ix iz : Int) : Rat :=
  if intP = 1 then
    if ischeme = 1 then
      1/2 * ((s.tzz iy ix iz + 1/2 * s.l2m iy ix iz * div s iy ix iz) + (s.tzz iy ix (iz-1) + 1/2 * s.l2m iy ix (iz-1) * div s iy ix (iz-1)))
    else 1/2 * (s.tzz iy ix (iz-1) + s.tzz iy ix iz)
  else if intP = 2 then
    if ischeme = 1 then
      1/2 * ((s.tzz iy ix iz + 1/2 * s.l2m iy ix iz * div s iy ix iz) + (s.tzz iy (ix-1) iz + 1/2 * s.l2m iy ix iz * div s iy (ix-1) iz))
    else 1/2 * (s.tzz iy (ix-1) iz + s.tzz iy ix iz)
  else s.tzz iy ix iz

/-- `rec_vz` for `int_vz` other than 1 (fdelmodc3D/getRecTimes3D.c:439-457). -/
def recVz (s : State) (intV ischeme : Int) (iy ix iz : Int) : Rat :=
  if intV = 2 then
    if ischeme = 1 then
      1/2 * ((s.vz iy ix iz - 1/2 * s.roz iy ix iz * gradZ s iy ix iz) + (s.vz iy ix (iz+1) - 1/2 * s.roz iy ix (iz+1) * gradZ s iy ix (iz+1)))
    else 1/2 * (s.vz iy ix (iz+1) + s.vz iy ix iz)
  else s.vz iy ix (iz+1)

/-- `rec_vx` for `int_vx` other than 1 (fdelmodc3D/getRecTimes3D.c:469-485).  Line 474 has `vx[ix2*n1+iz]`. -/
def recVx (s : State) (intV ischeme : Int) (iy ix iz : Int) : Rat :=
  if intV = 2 then
    if ischeme = 1 then
      1/2 * ((s.vx iy ix iz - 1/2 * s.rox iy ix iz * gradX s iy ix iz) + (s.vx 0 (ix+1) iz - 1/2 * s.rox iy (ix+1) iz * gradX s iy (ix+1) iz))
    else 1/2 * (s.vx iy (ix+1) iz + s.vx iy ix iz)
  else s.vx iy (ix+1) iz

/-- Traces of one receiver and time. -/
structure Rec where
  p : Rat
  vx : Rat
  vy : Rat
  vz : Rat

/-- The components asked for. -/
structure Types where
  p : Bool
  vx : Bool
  vy : Bool
  vz : Bool

/-- One receiver and sample (fdelmodc3D/getRecTimes3D.c:350-487): there is no statement for `rec.type.vy`.  `o` is the array before. -/
def record (s : State) (t : Types) (intP intVx intVz ischeme iy ix iz : Int) (o : Rec) : Rec :=
  { p := if t.p then recP s intP ischeme iy ix iz else o.p
    vx := if t.vx then recVx s intVx ischeme iy ix iz else o.vx
    vy := o.vy
    vz := if t.vz then recVz s intVz ischeme iy ix iz else o.vz }

/-- Specification: `p'` is the pressure of the time step before, from which the scheme made `tzz` (acoustic4_3D.c:147-157). -/
def Before (s : State) (p' : Field) : Prop := ∀ iy ix iz, s.tzz iy ix iz = p' iy ix iz - s.l2m iy ix iz * div s iy ix iz

/-- Specification: the velocities of the next time step (acoustic4_3D.c:84-123). -/
def NextX (s : State) (v' : Field) : Prop := ∀ iy ix iz, v' iy ix iz = s.vx iy ix iz - s.rox iy ix iz * gradX s iy ix iz
@[inherit_doc NextX] def NextZ (s : State) (v' : Field) : Prop := ∀ iy ix iz, v' iy ix iz = s.vz iy ix iz - s.roz iy ix iz * gradZ s iy ix iz

/-- **C217.** `int_p=1` in the acoustic scheme: the pressure between two nodes in depth and between two time steps, the place and time
of `vz`: the mean of the four values around it. -/
theorem recP_z (s : State) (p' : Field) (h : Before s p') (iy ix iz : Int) :
    recP s 1 1 iy ix iz = (s.tzz iy ix iz + p' iy ix iz + s.tzz iy ix (iz-1) + p' iy ix (iz-1)) / 4 := by
  unfold recP
  rw [if_pos rfl, if_pos rfl]
  linear_combination (1/4) * h iy ix iz + 1/4 * h iy ix (iz-1)

/-- **C217.** `int_p=2`: the same in x, if the two nodes have the same medium.  Missing: other media (`recP_x_error`). -/
theorem recP_x_partial (s : State) (p' : Field) (h : Before s p') (iy ix iz : Int) (hm : s.l2m iy (ix-1) iz = s.l2m iy ix iz) :
    recP s 2 1 iy ix iz = (s.tzz iy ix iz + p' iy ix iz + s.tzz iy (ix-1) iz + p' iy (ix-1) iz) / 4 := by
  have h2 := h iy (ix-1) iz
  rw [hm] at h2
  unfold recP
  rw [if_neg (by decide), if_pos rfl, if_pos rfl]
  linear_combination (1/4) * h iy ix iz + 1/4 * h2

/-- **C217 violated.** Otherwise the value is wrong by a quarter of the difference of the media times the divergence. -/
theorem recP_x_error (s : State) (p' : Field) (h : Before s p') (iy ix iz : Int) :
    recP s 2 1 iy ix iz - (s.tzz iy ix iz + p' iy ix iz + s.tzz iy (ix-1) iz + p' iy (ix-1) iz) / 4 =
      (s.l2m iy ix iz - s.l2m iy (ix-1) iz) * div s iy (ix-1) iz / 4 := by
  unfold recP
  rw [if_neg (by decide), if_pos rfl, if_pos rfl]
  linear_combination (1/4) * h iy ix iz + 1/4 * h iy (ix-1) iz

/-- **C217.** `int_vz=2` in the acoustic scheme: `vz` at the place and time of the pressure, the mean of the four values around it. -/
theorem recVz_p (s : State) (v' : Field) (h : NextZ s v') (iy ix iz : Int) :
    recVz s 2 1 iy ix iz = (s.vz iy ix iz + v' iy ix iz + s.vz iy ix (iz+1) + v' iy ix (iz+1)) / 4 := by
  unfold recVz
  rw [if_pos rfl, if_pos rfl]
  linear_combination (-1/4) * h iy ix iz - 1/4 * h iy ix (iz+1)

/-- **C217 violated for `vx`.** `int_vx=2` in the acoustic scheme: the value differs from the mean of the four around the node by half the
difference of `vx` between the first plane of the array and the plane of the receiver. -/
theorem recVx_error (s : State) (v' : Field) (h : NextX s v') (iy ix iz : Int) :
    recVx s 2 1 iy ix iz - (s.vx iy ix iz + v' iy ix iz + s.vx iy (ix+1) iz + v' iy (ix+1) iz) / 4 =
      (s.vx 0 (ix+1) iz - s.vx iy (ix+1) iz) / 2 := by
  unfold recVx
  rw [if_pos rfl, if_pos rfl]
  linear_combination (-1/4) * h iy ix iz - 1/4 * h iy (ix+1) iz

/-- **C217, `vx`.** It is right where `vx` is the same in the two planes.  Missing: all other fields (`recVx_error`). -/
theorem recVx_p_partial (s : State) (v' : Field) (h : NextX s v') (iy ix iz : Int) (he : s.vx 0 (ix+1) iz = s.vx iy (ix+1) iz) :
    recVx s 2 1 iy ix iz = (s.vx iy ix iz + v' iy ix iz + s.vx iy (ix+1) iz + v' iy (ix+1) iz) / 4 := by
  have := recVx_error s v' h iy ix iz
  rw [he, sub_self, zero_div, sub_eq_zero] at this
  exact this

/-- **C217.** Without interpolation, the element of the pressure at the node and those of the velocities half a grid point past it; in other schemes
`int = 2` gives the mean of two neighbours. -/
theorem rec_plain (s : State) (sch iy ix iz : Int) (hs : sch ≠ 1) :
    recP s 0 sch iy ix iz = s.tzz iy ix iz ∧ recVx s 0 sch iy ix iz = s.vx iy (ix+1) iz ∧ recVz s 0 sch iy ix iz = s.vz iy ix (iz+1) ∧
    recP s 1 sch iy ix iz = (s.tzz iy ix (iz-1) + s.tzz iy ix iz) / 2 ∧ recP s 2 sch iy ix iz = (s.tzz iy (ix-1) iz + s.tzz iy ix iz) / 2 ∧
    recVx s 2 sch iy ix iz = (s.vx iy ix iz + s.vx iy (ix+1) iz) / 2 ∧ recVz s 2 sch iy ix iz = (s.vz iy ix iz + s.vz iy ix (iz+1)) / 2 := by
  unfold recP recVx recVz
  simp only [if_neg hs]
  refine ⟨by norm_num, by norm_num, by norm_num, ?_, ?_, ?_, ?_⟩ <;> norm_num <;> ring

/-- **C217 violated for `vy`.** Without `rec_int_p=3` nothing is recorded for `vy`, whatever the field: a trace that begins as zeros stays zero. -/
theorem record_vy (s : State) (t : Types) (a b c d iy ix iz : Int) (o : Rec) : (record s t a b c d iy ix iz o).vy = o.vy := rfl

/-- **C217.** The components asked for are stored and the others left as they were. -/
theorem record_rest (s : State) (t : Types) (a b c d iy ix iz : Int) (o : Rec) :
    (t.p = true → (record s t a b c d iy ix iz o).p = recP s a d iy ix iz) ∧ (t.p = false → (record s t a b c d iy ix iz o).p = o.p) ∧
    (t.vx = true → (record s t a b c d iy ix iz o).vx = recVx s b d iy ix iz) ∧ (t.vx = false → (record s t a b c d iy ix iz o).vx = o.vx) ∧
    (t.vz = true → (record s t a b c d iy ix iz o).vz = recVz s c d iy ix iz) ∧ (t.vz = false → (record s t a b c d iy ix iz o).vz = o.vz) := by
  unfold record
  refine ⟨?_, ?_, ?_, ?_, ?_, ?_⟩ <;> intro h <;> simp [h]

/-- A medium and fields that vary in all directions. -/
def sample : State where
  tzz := fun iy ix iz => ix * ix + iy - 2 * iz
  vx := fun iy ix iz => 3 * iy + ix * iz
  vy := fun iy ix iz => ix - iy * iy + iz
  vz := fun _ ix iz => ix + iz * iz
  l2m := fun _ ix iz => 1 + ix + iz
  rox := fun _ _ iz => 2 + iz
  roz := fun iy _ _ => 3 + iy

/-- The hypotheses of the theorems hold for it: there is a pressure before and there are velocities after. -/
example : (∃ p', Before sample p') ∧ (∃ v', NextX sample v') ∧ ∃ v', NextZ sample v' :=
  ⟨⟨fun iy ix iz => sample.tzz iy ix iz + sample.l2m iy ix iz * div sample iy ix iz, fun _ _ _ => by ring⟩, ⟨_, fun _ _ _ => rfl⟩, ⟨_, fun _ _ _ => rfl⟩⟩

/-- In plane 2 the recorded `vx` is wrong by 3. -/
theorem recVx_wrong (v' : Field) (h : NextX sample v') :
    recVx sample 2 1 2 4 5 = (sample.vx 2 4 5 + v' 2 4 5 + sample.vx 2 5 5 + v' 2 5 5) / 4 - 3 := by
  have := recVx_error sample v' h 2 4 5
  have e : (sample.vx 0 (4+1) 5 - sample.vx 2 (4+1) 5) / 2 = -3 := by norm_num [sample]
  rw [e] at this
  have e2 : (4 : Int) + 1 = 5 := rfl
  rw [e2] at this
  linarith

end Verif.Fd3.Direct

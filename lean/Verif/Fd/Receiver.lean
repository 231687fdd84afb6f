import Mathlib.Data.Rat.Floor
import Mathlib.Tactic.Ring
import Mathlib.Tactic.Linarith
import Mathlib.Tactic.NormNum
import Mathlib.Tactic.FieldSimp
import Mathlib.Tactic.LinearCombination

/-! # C31: the values recorded at a receiver

Exact rational arithmetic in place of `float`. -/

namespace Verif.Fd.Receiver

/-- The arrays `getRecTimes` reads (getRecTimes.c:20), each of `nax*naz` elements (fdelmodc.c:340-420). `txx`, `txz` and `lam` are only
allocated for the elastic schemes (fdelmodc.c:415-418). -/
structure Mem where
  nax : Int
  naz : Int
  vx : Int → Rat
  vz : Int → Rat
  tzz : Int → Rat
  l2m : Int → Rat
  rox : Int → Rat
  roz : Int → Rat
  txx : Option (Int → Rat)
  txz : Option (Int → Rat)
  lam : Option (Int → Rat)

/-- `f[ix*n1+iz]`; `none` outside the array. -/
def Mem.at (m : Mem) (f : Int → Rat) (ix iz : Int) : Option Rat :=
  if 0 ≤ ix * m.naz + iz ∧ ix * m.naz + iz < m.nax * m.naz then some (f (ix * m.naz + iz)) else none

/-- The same through a pointer that may be `NULL`. -/
def Mem.atP (m : Mem) (f : Option (Int → Rat)) (ix iz : Int) : Option Rat :=
  match f with
  | some f => m.at f ix iz
  | none => none

/-- getRecTimes.c:39-40 -/
def c1 : Rat := 9 / 8
def c2 : Rat := -1 / 24

/-- Recorded `vz` (getRecTimes.c:263-296). -/
def recVz (m : Mem) (intVz ischeme : Int) (ix iz : Int) : Option Rat :=
  let ix1 := ix - 1
  let iz2 := iz + 1
  if intVz = 1 then do
    return (1 / 4) * ((← m.at m.vz ix iz2) + (← m.at m.vz ix1 iz2) + (← m.at m.vz ix iz) + (← m.at m.vz ix1 iz))
  else if intVz = 2 then
    if ischeme ≤ 2 then do
      let field := (← m.at m.vz ix iz) - (1 / 2) * (← m.at m.roz ix iz) *
        (c1 * ((← m.at m.tzz ix iz) - (← m.at m.tzz ix (iz - 1))) +
         c2 * ((← m.at m.tzz ix (iz + 1)) - (← m.at m.tzz ix (iz - 2))))
      let field := field + ((← m.at m.vz ix iz2) - (1 / 2) * (← m.at m.roz ix iz2) *
        (c1 * ((← m.at m.tzz ix iz2) - (← m.at m.tzz ix (iz2 - 1))) +
         c2 * ((← m.at m.tzz ix (iz2 + 1)) - (← m.at m.tzz ix (iz2 - 2)))))
      return (1 / 2) * field
    else do
      let field := (← m.at m.vz ix iz) - (1 / 2) * (← m.at m.roz ix iz) *
        (c1 * ((← m.at m.tzz ix iz) - (← m.at m.tzz ix (iz - 1)) +
               (← m.atP m.txz (ix + 1) iz) - (← m.atP m.txz ix iz)) +
         c2 * ((← m.at m.tzz ix (iz + 1)) - (← m.at m.tzz ix (iz - 2)) +
               (← m.atP m.txz (ix + 2) iz) - (← m.atP m.txz (ix - 1) iz)))
      let field := field + ((← m.at m.vz ix iz2) - (1 / 2) * (← m.at m.roz ix iz2) *
        (c1 * ((← m.at m.tzz ix iz2) - (← m.at m.tzz ix (iz2 - 1)) +
               (← m.atP m.txz (ix + 1) iz2) - (← m.atP m.txz ix iz2)) +
         c2 * ((← m.at m.tzz ix (iz2 + 1)) - (← m.at m.tzz ix (iz2 - 2)) +
               (← m.atP m.txz (ix + 2) iz2) - (← m.atP m.txz (ix - 1) iz2))))
      return (1 / 2) * field
  else m.at m.vz ix iz2

/-- Recorded `vx` (getRecTimes.c:297-330). The second assignment to `field` of the elastic branch is `=`, not `+=`. -/
def recVx (m : Mem) (intVx ischeme : Int) (ix iz : Int) : Option Rat :=
  let iz1 := iz - 1
  let ix2 := ix + 1
  if intVx = 1 then do
    return (1 / 4) * ((← m.at m.vx ix2 iz) + (← m.at m.vx ix2 iz1) + (← m.at m.vx ix iz) + (← m.at m.vx ix iz1))
  else if intVx = 2 then
    if ischeme = 1 then do
      let field := (← m.at m.vx ix iz) - (1 / 2) * (← m.at m.rox ix iz) *
        (c1 * ((← m.at m.tzz ix iz) - (← m.at m.tzz (ix - 1) iz)) +
         c2 * ((← m.at m.tzz (ix + 1) iz) - (← m.at m.tzz (ix - 2) iz)))
      let field := field + ((← m.at m.vx ix2 iz) - (1 / 2) * (← m.at m.rox ix2 iz) *
        (c1 * ((← m.at m.tzz ix2 iz) - (← m.at m.tzz (ix2 - 1) iz)) +
         c2 * ((← m.at m.tzz (ix2 + 1) iz) - (← m.at m.tzz (ix2 - 2) iz))))
      return (1 / 2) * field
    else do
      let _field := (← m.at m.vx ix iz) - (1 / 2) * (← m.at m.rox ix iz) *
        (c1 * ((← m.atP m.txx ix iz) - (← m.atP m.txx (ix - 1) iz) +
               (← m.atP m.txz ix (iz + 1)) - (← m.atP m.txz ix iz)) +
         c2 * ((← m.atP m.txx (ix + 1) iz) - (← m.atP m.txx (ix - 2) iz) +
               (← m.atP m.txz ix (iz + 2)) - (← m.atP m.txz ix (iz - 1))))
      let field := (← m.at m.vx ix2 iz) - (1 / 2) * (← m.at m.rox ix2 iz) *
        (c1 * ((← m.atP m.txx ix2 iz) - (← m.atP m.txx (ix2 - 1) iz) +
               (← m.atP m.txz ix2 (iz + 1)) - (← m.atP m.txz ix2 iz)) +
         c2 * ((← m.atP m.txx (ix2 + 1) iz) - (← m.atP m.txx (ix2 - 2) iz) +
               (← m.atP m.txz ix2 (iz + 2)) - (← m.atP m.txz ix2 (iz - 1))))
      return (1 / 2) * field
  else m.at m.vx ix2 iz

/-- Half a time step back of the pressure at one point (getRecTimes.c:172-176, 182-186): `a` is the column of the outermost right `vx`
sample. -/
def halfBack (m : Mem) (ischeme : Int) (a ix iz : Int) : Option Rat := do
  let dvx := c1 * ((← m.at m.vx (ix + 1) iz) - (← m.at m.vx ix iz)) + c2 * ((← m.at m.vx a iz) - (← m.at m.vx (ix - 1) iz))
  let dvz := c1 * ((← m.at m.vz ix (iz + 1)) - (← m.at m.vz ix iz)) + c2 * ((← m.at m.vz ix (iz + 2)) - (← m.at m.vz ix (iz - 1)))
  if ischeme = 1 then return (← m.at m.tzz ix iz) + (1 / 2) * (← m.at m.l2m ix iz) * (dvx + dvz)
  else return (← m.at m.tzz ix iz) + (1 / 2) * ((← m.at m.l2m ix iz) * dvz + (← m.atP m.lam ix iz) * dvx)

/-- Recorded pressure on the grid (getRecTimes.c:168-230). For `int_p == 2` the second point takes column `ix+2` where `ix1+2` was meant
(lines 206 and 219). -/
def recP (m : Mem) (intP ischeme : Int) (ix iz : Int) : Option Rat :=
  if intP = 1 then do
    let field := (← halfBack m ischeme (ix + 2) ix iz) + (← halfBack m ischeme (ix + 2) ix (iz - 1))
    return (1 / 2) * field
  else if intP = 2 then do
    let field := (← halfBack m ischeme (ix + 2) ix iz) + (← halfBack m ischeme (ix + 2) (ix - 1) iz)
    return (1 / 2) * field
  else m.at m.tzz ix iz

/-- Recorded `txz` (getRecTimes.c:241-250). -/
def recTxz (m : Mem) (intVx intVz : Int) (ix iz : Int) : Option Rat :=
  let ix2 := ix + 1
  let iz2 := iz + 1
  if intVz = 2 ∨ intVx = 2 then do
    return (1 / 4) * ((← m.atP m.txz ix iz2) + (← m.atP m.txz ix2 iz2) + (← m.atP m.txz ix iz) + (← m.atP m.txz ix2 iz))
  else m.atP m.txz ix2 iz2

/-- Bilinear interpolation between four samples (getRecTimes.c:95-96). -/
def bilin (C00 C10 C01 C11 rdx rdz : Rat) : Rat :=
  C00 * (1 - rdx) * (1 - rdz) + C10 * rdx * (1 - rdz) + C01 * (1 - rdx) * rdz + C11 * rdx * rdz

/-- Recording at the exact receiver position, `int_p == 3` (getRecTimes.c:63-72, 89-163): `xr`, `zr` are measured from the first grid point of the model,
`ox`, `oz` is the offset of the samples that are combined: (0,0) for `p`, `txx`, `tzz`, (1,0) for `vx`, (0,1) for `vz`, (1,1) for `txz`. -/
def recExact (m : Mem) (f : Int → Rat) (ibndx ibndz : Int) (dx dz xr zr : Rat) (ox oz : Int) : Option Rat := do
  let iz := ⌊zr / dz⌋ + ibndz
  let ix := ⌊xr / dx⌋ + ibndx
  let rdz := (zr - (iz - ibndz) * dz) / dz
  let rdx := (xr - (ix - ibndx) * dx) / dx
  return bilin (← m.at f (ix + ox) (iz + oz)) (← m.at f (ix + ox + 1) (iz + oz)) (← m.at f (ix + ox) (iz + oz + 1))
    (← m.at f (ix + ox + 1) (iz + oz + 1)) rdx rdz

/-! ## Specification

Positions on the grid, in units of the grid spacing: `p`, `txx`, `tzz` at `(ix, iz)`, `vx` half a point to the left, `vz` half a point
above, `txz` both (manual of fdelmodc, figure of the staggered grid; applySource.c, getParameters.c:414-447). -/

/-- `f` holds the samples of the function `u` at the points `(ix - sx, iz - sz)`. -/
def Samples (m : Mem) (f : Int → Rat) (sx sz : Rat) (u : Rat → Rat → Rat) : Prop :=
  ∀ ix iz : Int, 0 ≤ iz → iz < m.naz → f (ix * m.naz + iz) = u (ix - sx) (iz - sz)

/-- A function that is linear over a cell. -/
def affine (a b c : Rat) (x z : Rat) : Rat := a + b * x + c * z

/-- A function that is linear along every grid line. -/
def bilinear (a b c d : Rat) (x z : Rat) : Rat := a + b * x + c * z + d * x * z

/-- The receiver keeps a distance of two points to every side of the array. -/
def Inside (m : Mem) (ix iz : Int) : Prop := 2 ≤ ix ∧ ix + 2 < m.nax ∧ 2 ≤ iz ∧ iz + 2 < m.naz

/-! ## Lemmas -/

theorem at_in (m : Mem) (f : Int → Rat) (ix iz : Int) (h0 : 0 ≤ ix) (h1 : ix < m.nax) (h2 : 0 ≤ iz) (h3 : iz < m.naz) :
    m.at f ix iz = some (f (ix * m.naz + iz)) := by
  refine if_pos ⟨?_, ?_⟩
  · have := mul_nonneg h0 (show (0 : Int) ≤ m.naz by omega)
    omega
  · have : (ix + 1) * m.naz ≤ m.nax * m.naz := Int.mul_le_mul_of_nonneg_right (by omega) (by omega)
    have e : (ix + 1) * m.naz = ix * m.naz + m.naz := by ring
    omega

theorem atP_in (m : Mem) (f : Int → Rat) (ix iz : Int) (h0 : 0 ≤ ix) (h1 : ix < m.nax) (h2 : 0 ≤ iz) (h3 : iz < m.naz) :
    m.atP (some f) ix iz = some (f (ix * m.naz + iz)) := at_in m f ix iz h0 h1 h2 h3

/-! ## Property theorems -/

/-- `rec_int_vz=1`: the mean of four values of `vz`, taken at the position of `vx`: exact for every function that is linear there. -/
theorem vz_to_vx {m : Mem} {ix iz : Int} (h : Inside m ix iz) (a b c : Rat) (hs : Samples m m.vz 0 (1 / 2) (affine a b c)) (ischeme : Int) :
    recVz m 1 ischeme ix iz = some (affine a b c (ix - 1 / 2) iz) := by
  obtain ⟨h0, h1, h2, h3⟩ := h
  simp only [recVz, if_true]
  simp (disch := omega) only [at_in, hs _ _, Option.bind_eq_bind, Option.bind_some, Option.pure_def]
  simp only [affine, Option.some.injEq]; push_cast; ring

/-- `rec_int_vx=1`: the mean of four values of `vx`, taken at the position of `vz`. -/
theorem vx_to_vz {m : Mem} {ix iz : Int} (h : Inside m ix iz) (a b c : Rat) (hs : Samples m m.vx (1 / 2) 0 (affine a b c)) (ischeme : Int) :
    recVx m 1 ischeme ix iz = some (affine a b c ix (iz - 1 / 2)) := by
  obtain ⟨h0, h1, h2, h3⟩ := h
  simp only [recVx, if_true]
  simp (disch := omega) only [at_in, hs _ _, Option.bind_eq_bind, Option.bind_some, Option.pure_def]
  simp only [affine, Option.some.injEq]; push_cast; ring

/-- Next value of `vz` in the acoustic scheme with Taylor coefficients. -/
def nextVz (m : Mem) (ix iz : Int) : Rat :=
  m.vz (ix * m.naz + iz) - m.roz (ix * m.naz + iz) *
    (9 / 8 * (m.tzz (ix * m.naz + iz) - m.tzz (ix * m.naz + (iz - 1))) - 1 / 24 * (m.tzz (ix * m.naz + (iz + 1)) - m.tzz (ix * m.naz + (iz - 2))))

/-- Next value of `vx` in the acoustic scheme with Taylor coefficients. -/
def nextVx (m : Mem) (ix iz : Int) : Rat :=
  m.vx (ix * m.naz + iz) - m.rox (ix * m.naz + iz) *
    (9 / 8 * (m.tzz (ix * m.naz + iz) - m.tzz ((ix - 1) * m.naz + iz)) - 1 / 24 * (m.tzz ((ix + 1) * m.naz + iz) - m.tzz ((ix - 2) * m.naz + iz)))

/-- `rec_int_vz=2`, acoustic: the mean over the two neighbours in depth and over this and the next time step. -/
theorem vz_to_p_acoustic {m : Mem} {ix iz : Int} (h : Inside m ix iz) (ischeme : Int) (hsch : ischeme ≤ 2) :
    recVz m 2 ischeme ix iz = some ((m.vz (ix * m.naz + iz) + nextVz m ix iz + m.vz (ix * m.naz + (iz + 1)) + nextVz m ix (iz + 1)) / 4) := by
  obtain ⟨h0, h1, h2, h3⟩ := h
  simp only [recVz, if_true, if_pos hsch, show ¬((2 : Int) = 1) by decide, if_false]
  simp (disch := omega) only [at_in, Option.bind_eq_bind, Option.bind_some, Option.pure_def]
  simp only [nextVz, c1, c2, Option.some.injEq]; ring_nf

/-- `rec_int_vx=2`, acoustic. -/
theorem vx_to_p_acoustic {m : Mem} {ix iz : Int} (h : Inside m ix iz) :
    recVx m 2 1 ix iz = some ((m.vx (ix * m.naz + iz) + nextVx m ix iz + m.vx ((ix + 1) * m.naz + iz) + nextVx m (ix + 1) iz) / 4) := by
  obtain ⟨h0, h1, h2, h3⟩ := h
  simp only [recVx, if_true, show ¬((2 : Int) = 1) by decide, if_false]
  simp (disch := omega) only [at_in, Option.bind_eq_bind, Option.bind_some, Option.pure_def]
  simp only [nextVx, c1, c2, Option.some.injEq]; ring_nf

/-- Next value of `vz` in the elastic scheme with Taylor coefficients. -/
def nextVzE (m : Mem) (txz : Int → Rat) (ix iz : Int) : Rat :=
  m.vz (ix * m.naz + iz) - m.roz (ix * m.naz + iz) *
    (9 / 8 * (m.tzz (ix * m.naz + iz) - m.tzz (ix * m.naz + (iz - 1)) + txz ((ix + 1) * m.naz + iz) - txz (ix * m.naz + iz))
     - 1 / 24 * (m.tzz (ix * m.naz + (iz + 1)) - m.tzz (ix * m.naz + (iz - 2)) + txz ((ix + 2) * m.naz + iz) - txz ((ix - 1) * m.naz + iz)))

/-- `rec_int_vz=2`, elastic. -/
theorem vz_to_p_elastic {m : Mem} {ix iz : Int} (h : Inside m ix iz) (ischeme : Int) (hsch : 2 < ischeme) (txz : Int → Rat) (ht : m.txz = some txz) :
    recVz m 2 ischeme ix iz =
      some ((m.vz (ix * m.naz + iz) + nextVzE m txz ix iz + m.vz (ix * m.naz + (iz + 1)) + nextVzE m txz ix (iz + 1)) / 4) := by
  obtain ⟨h0, h1, h2, h3⟩ := h
  simp only [recVz, if_true, if_neg (not_le.mpr hsch), show ¬((2 : Int) = 1) by decide, if_false, ht]
  simp (disch := omega) only [at_in, atP_in, Option.bind_eq_bind, Option.bind_some, Option.pure_def]
  simp only [nextVzE, c1, c2, Option.some.injEq]; ring_nf

/-- `txz` with interpolation: the mean of four values, at the position of `p`. -/
theorem txz_to_p {m : Mem} {ix iz : Int} (h : Inside m ix iz) (txz : Int → Rat) (ht : m.txz = some txz) (a b c : Rat)
    (hs : Samples m txz (1 / 2) (1 / 2) (affine a b c)) (intVx intVz : Int) (hi : intVz = 2 ∨ intVx = 2) :
    recTxz m intVx intVz ix iz = some (affine a b c ix iz) := by
  obtain ⟨h0, h1, h2, h3⟩ := h
  simp only [recTxz, if_pos hi, ht]
  simp (disch := omega) only [atP_in, hs _ _, Option.bind_eq_bind, Option.bind_some, Option.pure_def]
  simp only [affine, Option.some.injEq]; push_cast; ring

/-- `rec_int_p=1`, acoustic: the mean over two depths and over this and the previous pressure. `prev` is the pressure one time step before. -/
theorem p_to_vz {m : Mem} {ix iz : Int} (h : Inside m ix iz) (prev : Int → Int → Rat)
    (hp : ∀ z, z = iz ∨ z = iz - 1 → m.tzz (ix * m.naz + z) = prev ix z - m.l2m (ix * m.naz + z) *
      ((9 / 8 * (m.vx ((ix + 1) * m.naz + z) - m.vx (ix * m.naz + z)) - 1 / 24 * (m.vx ((ix + 2) * m.naz + z) - m.vx ((ix - 1) * m.naz + z))) +
       (9 / 8 * (m.vz (ix * m.naz + (z + 1)) - m.vz (ix * m.naz + z)) - 1 / 24 * (m.vz (ix * m.naz + (z + 2)) - m.vz (ix * m.naz + (z - 1)))))) :
    recP m 1 1 ix iz =
      some ((m.tzz (ix * m.naz + iz) + prev ix iz + m.tzz (ix * m.naz + (iz - 1)) + prev ix (iz - 1)) / 4) := by
  obtain ⟨h0, h1, h2, h3⟩ := h
  have e1 := hp iz (.inl rfl)
  have e2 := hp (iz - 1) (.inr rfl)
  simp only [recP, if_true, halfBack]
  simp (disch := omega) only [at_in, Option.bind_eq_bind, Option.bind_some, Option.pure_def]
  simp only [c1, c2, Option.some.injEq]
  linear_combination (1 / 4) * e1 + (1 / 4) * e2

/-- Recording at the exact position: for `p`, `txx` and `tzz` the value at the receiver of every function that is linear along the grid lines. -/
theorem exact_position {m : Mem} {f : Int → Rat} {ibndx ibndz : Int} {dx dz xr zr : Rat} (hdx : 0 < dx) (hdz : 0 < dz) (a b c d : Rat)
    (hx : 0 ≤ ⌊xr / dx⌋ + ibndx ∧ ⌊xr / dx⌋ + ibndx + 1 < m.nax) (hz : 0 ≤ ⌊zr / dz⌋ + ibndz ∧ ⌊zr / dz⌋ + ibndz + 1 < m.naz)
    (hs : Samples m f 0 0 (bilinear a b c d)) :
    recExact m f ibndx ibndz dx dz xr zr 0 0 = some (bilinear a b c d (xr / dx + ibndx) (zr / dz + ibndz)) := by
  unfold recExact
  obtain ⟨ix, hix⟩ : ∃ ix, ix = ⌊xr / dx⌋ + ibndx := ⟨_, rfl⟩
  obtain ⟨iz, hiz⟩ : ∃ iz, iz = ⌊zr / dz⌋ + ibndz := ⟨_, rfl⟩
  rw [← hix] at hx; rw [← hiz] at hz
  simp only [← hix, ← hiz, add_zero]
  simp (disch := omega) only [at_in, hs _ _, Option.bind_eq_bind, Option.bind_some, Option.pure_def]
  simp only [bilinear, bilin, Option.some.injEq]; push_cast
  field_simp; ring

/-- At a grid point the recorded value is the sample itself. -/
theorem exact_at_node {m : Mem} {f : Int → Rat} {ibndx ibndz : Int} {dx dz : Rat} (hdx : 0 < dx) (hdz : 0 < dz) (jx jz : Int)
    (hx : 0 ≤ jx + ibndx ∧ jx + ibndx + 1 < m.nax) (hz : 0 ≤ jz + ibndz ∧ jz + ibndz + 1 < m.naz) :
    recExact m f ibndx ibndz dx dz (jx * dx) (jz * dz) 0 0 = some (f ((jx + ibndx) * m.naz + (jz + ibndz))) := by
  unfold recExact
  simp only [mul_div_cancel_right₀ _ hdx.ne', mul_div_cancel_right₀ _ hdz.ne', Int.floor_intCast, add_zero]
  simp (disch := omega) only [at_in, Option.bind_eq_bind, Option.bind_some, Option.pure_def]
  simp only [bilin, Option.some.injEq]; push_cast
  ring

/-! ## Where the property fails -/

/-- A 10 by 10 grid with a given `vx` and nothing else. -/
def gridVx (vx : Int → Rat) : Mem :=
  { nax := 10, naz := 10, vx := vx, vz := fun _ => 0, tzz := fun _ => 0, l2m := fun _ => 1, rox := fun _ => 1, roz := fun _ => 1,
    txx := some fun _ => 0, txz := some fun _ => 0, lam := some fun _ => 0 }

/-- Elastic `rec_int_vx=2`: one of the two values is dropped, a constant velocity is recorded at half its value. -/
theorem vx_to_p_elastic_wrong (ischeme : Int) (h : 2 < ischeme) : recVx (gridVx fun _ => 1) 2 ischeme 4 4 = some (1 / 2) := by
  have : ischeme ≠ 1 := by omega
  simp [recVx, this, gridVx, Mem.at, Mem.atP, c1, c2]

/-- `rec_int_vx=2` in the visco-acoustic scheme reads through the unallocated stress arrays. -/
theorem vx_to_p_visco_null (m : Mem) (h : m.txx = none) (ix iz : Int) : recVx m 2 2 ix iz = none := by
  simp only [recVx, show ¬((2 : Int) = 1) by decide, if_false, if_true, h]
  cases m.at m.vx ix iz <;> cases m.at m.rox ix iz <;> rfl

/-- `rec_int_p=1` and `=2` in an acoustic scheme other than 1 read through the unallocated `lam`. -/
theorem p_null (m : Mem) (h : m.lam = none) (intP ischeme : Int) (hi : intP = 1 ∨ intP = 2) (hs : ischeme ≠ 1) (ix iz : Int) :
    recP m intP ischeme ix iz = none := by
  have hb : ∀ a x z, halfBack m ischeme a x z = none := by
    intro a x z
    simp only [halfBack, if_neg hs, h, Mem.atP]
    simp
  rcases hi with rfl | rfl <;> simp [recP, hb]

/-- `vx = x` on the grid of 10 by 10 points. -/
def ramp : Mem := gridVx fun i => ((i / 10 : Int) : Rat) - 1 / 2

theorem ramp_samples : Samples ramp ramp.vx (1 / 2) 0 (affine 0 1 0) := by
  intro ix iz h0 h1
  have h1' : iz < 10 := h1
  have : (ix * 10 + iz) / 10 = ix := by omega
  simp only [ramp, gridVx, affine, this]
  ring

/-- `rec_int_p=2`: a wrong column enters. In the velocity field `vx = x` with zero pressure and unit `l2m` the pressure half a time step
earlier is 1/2 everywhere; `rec_int_p=1` records it, `rec_int_p=2` records 1/2 - 1/96. -/
theorem p_to_vx_wrong : Inside ramp 4 4 ∧ Samples ramp ramp.vx (1 / 2) 0 (affine 0 1 0) ∧
    recP ramp 1 1 4 4 = some (1 / 2) ∧ recP ramp 2 1 4 4 = some (1 / 2 - 1 / 96) := by
  refine ⟨by simp [Inside, ramp, gridVx], ramp_samples, ?_, ?_⟩
  · simp [recP, halfBack, ramp, gridVx, Mem.at, c1, c2]; norm_num
  · simp [recP, halfBack, ramp, gridVx, Mem.at, c1, c2]; norm_num

/-- A receiver on the first column of a model without absorbing layer on the left: `rec_int_vx=2` reads before the start of the
pressure array (column 1 is the first of the model, getParameters.c:429). -/
theorem vx_to_p_left_edge (m : Mem) (iz : Int) (hz : iz < m.naz) : recVx m 2 1 1 iz = none := by
  have : m.at m.tzz (1 - 2) iz = none := by
    refine if_neg ?_
    rintro ⟨h, _⟩
    have : (1 - 2 : Int) * m.naz = -m.naz := by ring
    omega
  simp only [recVx, if_true, show ¬((2 : Int) = 1) by decide, if_false, this]
  simp

/-- The options do not bring the components together: `rec_int_vz=1` takes `vz` to the point half a cell left of the receiver, `vx` itself is
recorded half a cell right of it. For the field `x` in both components the two records differ by a full cell. -/
theorem vz_vx_apart {m : Mem} {ix iz : Int} (h : Inside m ix iz) (ischeme : Int) (hx : Samples m m.vx (1 / 2) 0 (affine 0 1 0))
    (hz : Samples m m.vz 0 (1 / 2) (affine 0 1 0)) :
    recVz m 1 ischeme ix iz = some ((ix : Rat) - 1 / 2) ∧ recVx m 0 ischeme ix iz = some ((ix : Rat) + 1 / 2) := by
  refine ⟨?_, ?_⟩
  · rw [vz_to_vx h 0 1 0 hz]; simp [affine]
  · obtain ⟨h0, h1, h2, h3⟩ := h
    simp (disch := omega) only [recVx, at_in, hx _ _, show ¬((0 : Int) = 1) by decide, show ¬((0 : Int) = 2) by decide, if_false]
    simp only [affine, Option.some.injEq]; push_cast; ring

/-- Recording at the exact position: `vx` is taken half a cell to the right of the receiver. -/
theorem exact_vx_shifted {m : Mem} {ibndx ibndz : Int} {dx dz xr zr : Rat} (hdx : 0 < dx) (hdz : 0 < dz) (a b c d : Rat)
    (hx : 0 ≤ ⌊xr / dx⌋ + ibndx ∧ ⌊xr / dx⌋ + ibndx + 2 < m.nax) (hz : 0 ≤ ⌊zr / dz⌋ + ibndz ∧ ⌊zr / dz⌋ + ibndz + 1 < m.naz)
    (hs : Samples m m.vx (1 / 2) 0 (bilinear a b c d)) :
    recExact m m.vx ibndx ibndz dx dz xr zr 1 0 = some (bilinear a b c d (xr / dx + ibndx + 1 / 2) (zr / dz + ibndz)) := by
  unfold recExact
  obtain ⟨ix, hix⟩ : ∃ ix, ix = ⌊xr / dx⌋ + ibndx := ⟨_, rfl⟩
  obtain ⟨iz, hiz⟩ : ∃ iz, iz = ⌊zr / dz⌋ + ibndz := ⟨_, rfl⟩
  rw [← hix] at hx; rw [← hiz] at hz
  simp only [← hix, ← hiz, add_zero]
  simp (disch := omega) only [at_in, hs _ _, Option.bind_eq_bind, Option.bind_some, Option.pure_def]
  simp only [bilinear, bilin, Option.some.injEq]; push_cast
  field_simp; ring

/-- The hypotheses are met by the ramp. -/
example : Inside ramp 4 4 ∧ recVx ramp 1 1 4 4 = some 4 := by
  refine ⟨p_to_vx_wrong.1, ?_⟩
  rw [vx_to_vz p_to_vx_wrong.1 0 1 0 ramp_samples]
  norm_num [affine]

end Verif.Fd.Receiver

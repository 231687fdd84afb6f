import Mathlib.Data.Rat.Floor
import Mathlib.Tactic.Linarith
import Mathlib.Tactic.LinearCombination
import Mathlib.Tactic.Ring
import Mathlib.Tactic.NormNum

/-!
# C216: recording of fdelmodc3D between the grid points (`rec_int_p=3`)

fdelmodc3D/getRecTimes3D.c:69-347, pressure, stresses and velocities.  Arrays are functions of `(iy, ix, iz)`; floats are exact rationals.
-/

namespace Verif.Fd3.Tri

/-- An array of the 3D grid: `a iy ix iz` is `a[iy*n1*n2+ix*n1+iz]`. -/
abbrev Field := Int → Int → Int → Rat

/-- `(long)floorf(r/d)+ibnd` (fdelmodc3D/getRecTimes3D.c:71-73). -/
def cell (r d : Rat) (ibnd : Int) : Int := ⌊r / d⌋ + ibnd

/-- `rdz`, `rdy`, `rdx` (fdelmodc3D/getRecTimes3D.c:74-76). -/
def frac (r d : Rat) (ibnd : Int) : Rat := (r - ((cell r d ibnd - ibnd : Int) : Rat) * d) / d

/-- The sum over eight corners from `a[iy][ix][iz]` on, used for every component (fdelmodc3D/getRecTimes3D.c:101-116). -/
def corners (a : Field) (iy ix iz : Int) (rdy rdx rdz : Rat) : Rat :=
  let C000 := a iy ix iz
  let C100 := a iy (ix+1) iz
  let C010 := a iy ix (iz+1)
  let C001 := a (iy+1) ix iz
  let C110 := a iy (ix+1) (iz+1)
  let C101 := a (iy+1) (ix+1) iz
  let C011 := a (iy+1) ix (iz+1)
  let C111 := a (iy+1) (ix+1) (iz+1)
  C000*(1-rdx)*(1-rdz)*(1-rdy) + C100*rdx*(1-rdz)*(1-rdy) + C010*(1-rdx)*rdz*(1-rdy) + C001*(1-rdx)*(1-rdz)*rdy +
    C110*rdx*rdz*(1-rdy) + C101*rdx*(1-rdz)*rdy + C011*(1-rdx)*rdz*rdy + C111*rdx*rdz*rdy

/-- Spacings and begin of the model in the arrays. -/
structure Grid where
  dx : Rat
  dy : Rat
  dz : Rat
  bx : Int
  by' : Int
  bz : Int

/-- Pressure and the stresses at `(x, y, z)` (fdelmodc3D/getRecTimes3D.c:99-225). -/
def recP (g : Grid) (a : Field) (x y z : Rat) : Rat :=
  corners a (cell y g.dy g.by') (cell x g.dx g.bx) (cell z g.dz g.bz) (frac y g.dy g.by') (frac x g.dx g.bx) (frac z g.dz g.bz)

/-- `rec_vz` (fdelmodc3D/getRecTimes3D.c:294-311): corners from `iz2 = iz+1`. -/
def recVz (g : Grid) (_vx _vy vz : Field) (x y z : Rat) : Rat :=
  corners vz (cell y g.dy g.by') (cell x g.dx g.bx) (cell z g.dz g.bz + 1) (frac y g.dy g.by') (frac x g.dx g.bx) (frac z g.dz g.bz)

/-- `rec_vy` (fdelmodc3D/getRecTimes3D.c:312-329): corners from `iy2 = iy+1`. -/
def recVy (g : Grid) (_vx vy _vz : Field) (x y z : Rat) : Rat :=
  corners vy (cell y g.dy g.by' + 1) (cell x g.dx g.bx) (cell z g.dz g.bz) (frac y g.dy g.by') (frac x g.dx g.bx) (frac z g.dz g.bz)

/-- `rec_vx` (fdelmodc3D/getRecTimes3D.c:330-347): corners from `ix2 = ix+1`, of the array `vy`. -/
def recVx (g : Grid) (_vx vy _vz : Field) (x y z : Rat) : Rat :=
  corners vy (cell y g.dy g.by') (cell x g.dx g.bx + 1) (cell z g.dz g.bz) (frac y g.dy g.by') (frac x g.dx g.bx) (frac z g.dz g.bz)

theorem frac_eq (r d : Rat) (b : Int) (hd : 0 < d) : frac r d b = r / d - ((⌊r / d⌋ : Int) : Rat) := by
  have h : cell r d b - b = ⌊r / d⌋ := by unfold cell; ring
  unfold frac
  rw [h, sub_div, mul_div_assoc, div_self (ne_of_gt hd), mul_one]

theorem frac_range (r d : Rat) (b : Int) (hd : 0 < d) : 0 ≤ frac r d b ∧ frac r d b < 1 := by
  rw [frac_eq r d b hd]
  have h1 := Int.floor_le (r / d)
  have h2 := Int.lt_floor_add_one (r / d)
  constructor <;> linarith

theorem cell_add_frac (r d : Rat) (b : Int) (hd : 0 < d) : ((cell r d b : Int) : Rat) + frac r d b = r / d + (b : Rat) := by
  rw [frac_eq r d b hd]
  unfold cell
  push_cast
  ring

theorem cell_node (k : Int) (d : Rat) (b : Int) (hd : 0 < d) : cell (k * d) d b = k + b ∧ frac (k * d) d b = 0 := by
  have h : (k : Rat) * d / d = (k : Rat) := by rw [mul_div_assoc, div_self (ne_of_gt hd), mul_one]
  constructor
  · unfold cell; rw [h, Int.floor_intCast]
  · rw [frac_eq _ _ _ hd, h, Int.floor_intCast, sub_self]

/-- **C216.** A field that is linear in the three grid coordinates is recorded exactly, at any position. -/
theorem recP_linear (g : Grid) (hx : 0 < g.dx) (hy : 0 < g.dy) (hz : 0 < g.dz) (c0 cx cy cz x y z : Rat) :
    recP g (fun iy ix iz => c0 + cx * ix + cy * iy + cz * iz) x y z =
      c0 + cx * (x / g.dx + g.bx) + cy * (y / g.dy + g.by') + cz * (z / g.dz + g.bz) := by
  rw [← cell_add_frac x g.dx g.bx hx, ← cell_add_frac y g.dy g.by' hy, ← cell_add_frac z g.dz g.bz hz]
  unfold recP corners
  push_cast
  ring

/-- **C216.** At a node of the grid the value of that node is recorded, for every field. -/
theorem recP_node (g : Grid) (hx : 0 < g.dx) (hy : 0 < g.dy) (hz : 0 < g.dz) (a : Field) (i j k : Int) :
    recP g a (i * g.dx) (j * g.dy) (k * g.dz) = a (j + g.by') (i + g.bx) (k + g.bz) := by
  unfold recP
  rw [(cell_node i g.dx g.bx hx).1, (cell_node i g.dx g.bx hx).2, (cell_node j g.dy g.by' hy).1,
    (cell_node j g.dy g.by' hy).2, (cell_node k g.dz g.bz hz).1, (cell_node k g.dz g.bz hz).2]
  unfold corners
  ring

/-- **C216.** The value recorded lies between any bounds of the field. -/
theorem recP_between (g : Grid) (hx : 0 < g.dx) (hy : 0 < g.dy) (hz : 0 < g.dz) (a : Field) (lo hi x y z : Rat)
    (h : ∀ iy ix iz, lo ≤ a iy ix iz ∧ a iy ix iz ≤ hi) : lo ≤ recP g a x y z ∧ recP g a x y z ≤ hi := by
  unfold recP
  obtain ⟨x0, x1⟩ := frac_range x g.dx g.bx hx
  obtain ⟨y0, y1⟩ := frac_range y g.dy g.by' hy
  obtain ⟨z0, z1⟩ := frac_range z g.dz g.bz hz
  generalize frac x g.dx g.bx = p at *
  generalize frac y g.dy g.by' = q at *
  generalize frac z g.dz g.bz = r at *
  generalize cell x g.dx g.bx = ix
  generalize cell y g.dy g.by' = iy
  generalize cell z g.dz g.bz = iz
  have mix : ∀ (l m t lo hi : Rat), 0 ≤ t → t < 1 → lo ≤ l ∧ l ≤ hi → lo ≤ m ∧ m ≤ hi →
      lo ≤ l * (1 - t) + m * t ∧ l * (1 - t) + m * t ≤ hi := by
    intro l m t lo hi t0 t1 hl hm
    have s0 : 0 ≤ 1 - t := by linarith
    have a1 := mul_le_mul_of_nonneg_right hl.1 s0
    have a2 := mul_le_mul_of_nonneg_right hl.2 s0
    have a3 := mul_le_mul_of_nonneg_right hm.1 t0
    have a4 := mul_le_mul_of_nonneg_right hm.2 t0
    constructor <;> nlinarith
  have k := mix _ _ q lo hi y0 y1
    (mix _ _ r lo hi z0 z1 (mix _ _ p lo hi x0 x1 (h iy ix iz) (h iy (ix+1) iz)) (mix _ _ p lo hi x0 x1 (h iy ix (iz+1)) (h iy (ix+1) (iz+1))))
    (mix _ _ r lo hi z0 z1 (mix _ _ p lo hi x0 x1 (h (iy+1) ix iz) (h (iy+1) (ix+1) iz))
      (mix _ _ p lo hi x0 x1 (h (iy+1) ix (iz+1)) (h (iy+1) (ix+1) (iz+1))))
  have hh : corners a iy ix iz q p r =
      ((a iy ix iz * (1 - p) + a iy (ix+1) iz * p) * (1 - r) + (a iy ix (iz+1) * (1 - p) + a iy (ix+1) (iz+1) * p) * r) * (1 - q) +
      ((a (iy+1) ix iz * (1 - p) + a (iy+1) (ix+1) iz * p) * (1 - r) + (a (iy+1) ix (iz+1) * (1 - p) + a (iy+1) (ix+1) (iz+1) * p) * r) * q := by
    unfold corners; ring
  rw [hh]
  exact k

/-- **C216, velocities.** At a node, `vz` is the element one further in z and `vy` the element one further in y. -/
theorem recV_node_partial (g : Grid) (hx : 0 < g.dx) (hy : 0 < g.dy) (hz : 0 < g.dz) (vx vy vz : Field) (i j k : Int) :
    recVz g vx vy vz (i * g.dx) (j * g.dy) (k * g.dz) = vz (j + g.by') (i + g.bx) (k + g.bz + 1) ∧
    recVy g vx vy vz (i * g.dx) (j * g.dy) (k * g.dz) = vy (j + g.by' + 1) (i + g.bx) (k + g.bz) := by
  unfold recVz recVy
  rw [(cell_node i g.dx g.bx hx).1, (cell_node i g.dx g.bx hx).2, (cell_node j g.dy g.by' hy).1,
    (cell_node j g.dy g.by' hy).2, (cell_node k g.dz g.bz hz).1, (cell_node k g.dz g.bz hz).2]
  unfold corners
  constructor <;> ring

/-- **C216, the defect.** The recorded horizontal velocity `vx` does not depend on the field `vx`. -/
theorem recVx_ignores (g : Grid) (vx vx' vy vz : Field) (x y z : Rat) : recVx g vx vy vz x y z = recVx g vx' vy vz x y z := rfl

/-- **C216, the defect.** At a node it is the value of `vy` one element further in x. -/
theorem recVx_node (g : Grid) (hx : 0 < g.dx) (hy : 0 < g.dy) (hz : 0 < g.dz) (vx vy vz : Field) (i j k : Int) :
    recVx g vx vy vz (i * g.dx) (j * g.dy) (k * g.dz) = vy (j + g.by') (i + g.bx + 1) (k + g.bz) := by
  unfold recVx
  rw [(cell_node i g.dx g.bx hx).1, (cell_node i g.dx g.bx hx).2, (cell_node j g.dy g.by' hy).1,
    (cell_node j g.dy g.by' hy).2, (cell_node k g.dz g.bz hz).1, (cell_node k g.dz g.bz hz).2]
  unfold corners
  ring

/-- A wave with `vx = 1` everywhere and no other component is recorded as `vx = 0`. -/
theorem recVx_wrong : recVx ⟨5, 5, 5, 2, 2, 2⟩ (fun _ _ _ => 1) (fun _ _ _ => 0) (fun _ _ _ => 0) 12 7 3 = 0 := by
  unfold recVx corners; ring

/-- `C000` of `rec_pp`; the other corners are the same one further (fdelmodc3D/getRecTimes3D.c:227-250).  All differences are divided by
`mod.dx`. -/
def divAt (g : Grid) (vx vy vz : Field) : Field := fun iy ix iz =>
  (vx iy (ix+1) iz - vx iy ix iz + vy (iy+1) ix iz - vy iy ix iz + vz iy ix (iz+1) - vz iy ix iz) / g.dx

/-- `rec_pp` (fdelmodc3D/getRecTimes3D.c:226-259). -/
def recPP (g : Grid) (vx vy vz : Field) (x y z : Rat) : Rat := recP g (divAt g vx vy vz) x y z

/-- Specification: the samples of a field `f` of position at points displaced by `(sx, sy, sz)` grid points from those of the pressure. -/
def sampled (g : Grid) (f : Rat → Rat → Rat → Rat) (sx sy sz : Rat) : Field := fun iy ix iz =>
  f ((ix - g.bx + sx) * g.dx) ((iy - g.by' + sy) * g.dy) ((iz - g.bz + sz) * g.dz)

/-- Specification: a field linear in position. -/
def lin (c0 cx cy cz : Rat) (x y z : Rat) : Rat := c0 + cx * x + cy * y + cz * z

theorem sampled_lin (g : Grid) (c0 cx cy cz sx sy sz : Rat) :
    sampled g (lin c0 cx cy cz) sx sy sz = fun (iy ix iz : Int) =>
      (c0 + cx * (sx - g.bx) * g.dx + cy * (sy - g.by') * g.dy + cz * (sz - g.bz) * g.dz)
        + cx * g.dx * ix + cy * g.dy * iy + cz * g.dz * iz := by
  funext iy ix iz
  unfold sampled lin
  ring

theorem pos_back (r d : Rat) (b s : Rat) (hd : 0 < d) : (s - b) * d + d * (r / d + b) = r + s * d := by
  have : d * (r / d) = r := mul_div_cancel₀ r (ne_of_gt hd)
  linarith

/-- **C216.** The pressure of a field linear in position is recorded exactly at the position of the receiver, on the grid or not. -/
theorem recP_sampled (g : Grid) (hx : 0 < g.dx) (hy : 0 < g.dy) (hz : 0 < g.dz) (c0 cx cy cz sx sy sz x y z : Rat) :
    recP g (sampled g (lin c0 cx cy cz) sx sy sz) x y z = lin c0 cx cy cz (x + sx * g.dx) (y + sy * g.dy) (z + sz * g.dz) := by
  rw [sampled_lin, recP_linear g hx hy hz]
  rw [← pos_back x g.dx g.bx sx hx, ← pos_back y g.dy g.by' sy hy, ← pos_back z g.dz g.bz sz hz]
  unfold lin
  ring

theorem recVz_shift (g : Grid) (vx vy vz : Field) (x y z : Rat) :
    recVz g vx vy vz x y z = recP g (fun iy ix iz => vz iy ix (iz+1)) x y z := by
  unfold recVz recP corners
  simp only [add_assoc]

theorem recVy_shift (g : Grid) (vx vy vz : Field) (x y z : Rat) :
    recVy g vx vy vz x y z = recP g (fun iy ix iz => vy (iy+1) ix iz) x y z := by
  unfold recVy recP corners
  simp only [add_assoc]

/-- **C216 violated for `vz` and `vy`.** Their samples lie half a grid point before those of the pressure (acoustic4_3D.c); the value
recorded is that of half a grid point past the receiver, for every linear field and every position. -/
theorem recV_half (g : Grid) (hx : 0 < g.dx) (hy : 0 < g.dy) (hz : 0 < g.dz) (vx v vz : Field) (c0 cx cy cz x y z : Rat) :
    recVz g vx v (sampled g (lin c0 cx cy cz) 0 0 (-1/2)) x y z = lin c0 cx cy cz x y (z + g.dz / 2) ∧
    recVy g vx (sampled g (lin c0 cx cy cz) 0 (-1/2) 0) vz x y z = lin c0 cx cy cz x (y + g.dy / 2) z := by
  constructor
  · rw [recVz_shift]
    have e : (fun (iy ix iz : Int) => sampled g (lin c0 cx cy cz) 0 0 (-1/2) iy ix (iz+1)) = sampled g (lin c0 cx cy cz) 0 0 (1/2) := by
      funext iy ix iz; unfold sampled; push_cast; congr 2; ring
    rw [e, recP_sampled g hx hy hz]
    unfold lin; ring
  · rw [recVy_shift]
    have e : (fun (iy ix iz : Int) => sampled g (lin c0 cx cy cz) 0 (-1/2) 0 (iy+1) ix iz) = sampled g (lin c0 cx cy cz) 0 (1/2) 0 := by
      funext iy ix iz; unfold sampled; push_cast; congr 2; ring
    rw [e, recP_sampled g hx hy hz]
    unfold lin; ring

/-- **C216, divergence.** Of velocities linear in position, each sampled half a grid point before the pressure, the sum of the
derivatives weighted by `dx/dx`, `dy/dx` and `dz/dx` is recorded. -/
theorem recPP_linear (g : Grid) (hx : 0 < g.dx) (hy : 0 < g.dy) (hz : 0 < g.dz) (u v w : Rat × Rat × Rat × Rat) (x y z : Rat) :
    recPP g (sampled g (lin u.1 u.2.1 u.2.2.1 u.2.2.2) (-1/2) 0 0) (sampled g (lin v.1 v.2.1 v.2.2.1 v.2.2.2) 0 (-1/2) 0)
      (sampled g (lin w.1 w.2.1 w.2.2.1 w.2.2.2) 0 0 (-1/2)) x y z = u.2.1 + v.2.2.1 * (g.dy / g.dx) + w.2.2.2 * (g.dz / g.dx) := by
  have n := ne_of_gt hx
  have e : divAt g (sampled g (lin u.1 u.2.1 u.2.2.1 u.2.2.2) (-1/2) 0 0) (sampled g (lin v.1 v.2.1 v.2.2.1 v.2.2.2) 0 (-1/2) 0)
      (sampled g (lin w.1 w.2.1 w.2.2.1 w.2.2.2) 0 0 (-1/2)) =
      fun (iy ix iz : Int) => (u.2.1 + v.2.2.1 * (g.dy / g.dx) + w.2.2.2 * (g.dz / g.dx)) + 0 * ix + 0 * iy + 0 * iz := by
    funext iy ix iz
    unfold divAt sampled lin
    push_cast
    rw [div_eq_iff n]
    have k1 : g.dy / g.dx * g.dx = g.dy := div_mul_cancel₀ _ n
    have k2 : g.dz / g.dx * g.dx = g.dz := div_mul_cancel₀ _ n
    linear_combination (-v.2.2.1) * k1 - w.2.2.2 * k2
  unfold recPP
  rw [e, recP_linear g hx hy hz]
  ring

/-- **C216, divergence.** With the same spacing in all directions it is the divergence. -/
theorem recPP_cubic_partial (g : Grid) (hx : 0 < g.dx) (hy : g.dy = g.dx) (hz : g.dz = g.dx) (u v w : Rat × Rat × Rat × Rat) (x y z : Rat) :
    recPP g (sampled g (lin u.1 u.2.1 u.2.2.1 u.2.2.2) (-1/2) 0 0) (sampled g (lin v.1 v.2.1 v.2.2.1 v.2.2.2) 0 (-1/2) 0)
      (sampled g (lin w.1 w.2.1 w.2.2.1 w.2.2.2) 0 0 (-1/2)) x y z = u.2.1 + v.2.2.1 + w.2.2.2 := by
  rw [recPP_linear g hx (by rw [hy]; exact hx) (by rw [hz]; exact hx), hy, hz, div_self (ne_of_gt hx), mul_one, mul_one]

/-- **C216 violated for the divergence.** With `dz = 2 dx`, a field of divergence zero is recorded as different from zero. -/
theorem recPP_wrong : recPP ⟨1, 1, 2, 0, 0, 0⟩ (sampled ⟨1, 1, 2, 0, 0, 0⟩ (lin 0 1 0 0) (-1/2) 0 0)
    (sampled ⟨1, 1, 2, 0, 0, 0⟩ (lin 0 0 0 0) 0 (-1/2) 0) (sampled ⟨1, 1, 2, 0, 0, 0⟩ (lin 0 0 0 (-1)) 0 0 (-1/2)) 3 4 5 = -1 := by
  have := recPP_linear ⟨1, 1, 2, 0, 0, 0⟩ (by norm_num) (by norm_num) (by norm_num) (0,1,0,0) (0,0,0,0) (0,0,0,-1) 3 4 5
  rw [this]; norm_num

/-- The hypotheses hold for a grid with spacing 5, and a field that varies in all directions. -/
example : recP ⟨5, 5, 5, 2, 2, 2⟩ (fun iy ix iz => 1 + 2 * ix + 3 * iy + 4 * iz) 12 7 3 = 1 + 2 * (12/5 + 2) + 3 * (7/5 + 2) + 4 * (3/5 + 2) := by
  have := recP_linear ⟨5, 5, 5, 2, 2, 2⟩ (by norm_num) (by norm_num) (by norm_num) 1 2 3 4 12 7 3
  simpa using this

example : recP ⟨5, 5, 5, 2, 2, 2⟩ (fun iy ix iz => ix * iy + iz) ((3 : Int) * 5) ((1 : Int) * 5) ((4 : Int) * 5) = 21 := by
  rw [recP_node ⟨5, 5, 5, 2, 2, 2⟩ (by norm_num) (by norm_num) (by norm_num)]; norm_num

end Verif.Fd3.Tri

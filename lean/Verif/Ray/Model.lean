import Mathlib.Analysis.Real.Sqrt
import Verif.Base.Loop

/-!
# Model of vidale.c (raytime): travel times by finite differences

`vidale`, `near_source`, `side`, `corner` and `rm_head`.  Arithmetic is exact.  A travel time that was never computed (`Infinity` in the
C code) is `none`.  An access outside the grid, and the use of a travel time that was never computed for anything but the comparison at
the end of `corner`, make the whole call `none`.  An access with a column outside `0..nx-1` counts as outside the grid, also where the flat
index of C would be inside the array.
-/

namespace Verif.Ray

open Verif

noncomputable section

/-- Travel times by column and row. -/
abbrev Field := ℤ → ℤ → Option ℝ

/-- Size, spacing and slowness by column and row (vidale.c:35-38, 43-50; the transposition is left out). -/
structure Grid where
  nx : ℤ
  nz : ℤ
  h : ℝ
  slow : ℤ → ℤ → ℝ

/-- Column `x`, row `z` is on the grid. -/
def Grid.Has (g : Grid) (x z : ℤ) : Prop := 0 ≤ x ∧ x < g.nx ∧ 0 ≤ z ∧ z < g.nz

instance (g : Grid) (x z : ℤ) : Decidable (g.Has x z) := by unfold Grid.Has; infer_instance

/-- `ttime[z*nx+x]`. -/
def tget (g : Grid) (T : Field) (x z : ℤ) : Option ℝ := if g.Has x z then T x z else none

/-- `ttime[z*nx+x] = v`. -/
def tput (g : Grid) (T : Field) (x z : ℤ) (v : ℝ) : Option Field :=
  if g.Has x z then some (fun a b => if a = x ∧ b = z then some v else T a b) else none

/-- `slow[z*nx+x]`. -/
def sget (g : Grid) (x z : ℤ) : Option ℝ := if g.Has x z then some (g.slow x z) else none

/-- The new time of the corner stencil (vidale.c:516-533). -/
def cornerNew (h a b t sa sb so si : ℝ) : ℝ :=
  let dt := a - b
  let s := 1 / 4 * (sa + sb + so + si)
  let operand := 2 * h * h * s * s - dt * dt
  if operand < 0 then
    let n := b + h * (1 / 2 * (sb + so))
    let m := a + h * (1 / 2 * (sa + so))
    let n := if m < n then m else n
    let m := t + Real.sqrt 2 * h * (1 / 2 * (so + si))
    if m < n then m else n
  else t + Real.sqrt operand

/-- `corner`, vidale.c:501-552, from point `(ix, iz)` to `(ox, oz)`. -/
def corner (g : Grid) (ix iz ox oz : ℤ) (T : Field) : Option Field := do
  let a ← tget g T ix oz
  let b ← tget g T ox iz
  let t ← tget g T ix iz
  let sa ← sget g ix oz
  let sb ← sget g ox iz
  let so ← sget g ox oz
  let si ← sget g ix iz
  let v := cornerNew g.h a b t sa sb so si
  match T ox oz with
  | none => tput g T ox oz v
  | some w => if v < w then tput g T ox oz v else some T

/-- The new time of the side stencil (vidale.c:431-449, 453-470): `p`, `m` are the neighbours after and before. -/
def sideNew (h p m t sp sm si so : ℝ) : ℝ :=
  let dt := p - m
  let s := 1 / 4 * (sp + sm + si + so)
  let operand := h * h * s * s - 1 / 4 * dt * dt
  if operand < 0 then
    let n := m + Real.sqrt 2 * h * (1 / 2 * (sm + so))
    let k := p + Real.sqrt 2 * h * (1 / 2 * (sp + so))
    let n := if k < n then k else n
    let k := t + h * (1 / 2 * (si + so))
    if k < n then k else n
  else t + Real.sqrt operand

/-- A point of an edge of the ring: `al` along the edge, `ac` across; `vert` for the right and the left edge. -/
def px (vert : Bool) (al ac : ℤ) : ℤ := if vert then ac else al
def pz (vert : Bool) (al ac : ℤ) : ℤ := if vert then al else ac

/-- `side`, vidale.c:412-476, from `(al, inn)` to `(al, out)`. -/
def side (g : Grid) (vert : Bool) (inn out al : ℤ) (T : Field) : Option Field := do
  let p ← tget g T (px vert (al + 1) inn) (pz vert (al + 1) inn)
  let m ← tget g T (px vert (al - 1) inn) (pz vert (al - 1) inn)
  let t ← tget g T (px vert al inn) (pz vert al inn)
  let sp ← sget g (px vert (al + 1) inn) (pz vert (al + 1) inn)
  let sm ← sget g (px vert (al - 1) inn) (pz vert (al - 1) inn)
  let si ← sget g (px vert al inn) (pz vert al inn)
  let so ← sget g (px vert al out) (pz vert al out)
  tput g T (px vert al out) (pz vert al out) (sideNew g.h p m t sp sm si so)

/-- Time of a point of the edge. -/
def eget (g : Grid) (vert : Bool) (T : Field) (al ac : ℤ) : Option ℝ := tget g T (px vert al ac) (pz vert al ac)

/-- `corner` from `(al, inn)` to `(al', out)`. -/
def ecorner (g : Grid) (vert : Bool) (inn out al al' : ℤ) (T : Field) : Option Field :=
  corner g (px vert al inn) (pz vert al inn) (px vert al' out) (pz vert al' out) T

/-- The end of an edge where the neighbour is not earlier (vidale.c:91-95, 119-123 and their copies). -/
def eput (g : Grid) (vert : Bool) (inn out al : ℤ) (T : Field) : Option Field := do
  let t ← eget g vert T al inn
  let so ← sget g (px vert al out) (pz vert al out)
  let si ← sget g (px vert al inn) (pz vert al inn)
  tput g T (px vert al out) (pz vert al out) (t + 1 / 2 * g.h * (so + si))

/-- The first end of an edge (vidale.c:90-101); the state is `ascending` and the times. -/
def edgeLo (g : Grid) (vert : Bool) (inn out lo : ℤ) (T : Field) : Option (Bool × Field) := do
  let a ← eget g vert T lo inn
  let b ← eget g vert T (lo + 1) inn
  let T ← if a ≤ b then eput g vert inn out lo T else some T
  let a ← eget g vert T lo inn
  let b ← eget g vert T (lo + 1) inn
  if a < b then do
    let T ← ecorner g vert inn out lo (lo + 1) T
    some (true, T)
  else some (false, T)

/-- Body of the loop upwards (vidale.c:102-117). -/
def edgeUp (g : Grid) (vert : Bool) (inn out al : ℤ) (s : Bool × Field) : Option (Bool × Field) := do
  let a ← eget g vert s.2 al inn
  let b ← eget g vert s.2 (al + 1) inn
  let T ← if a = b then side g vert inn out al s.2 else some s.2
  let a ← eget g vert T al inn
  let b ← eget g vert T (al + 1) inn
  if a < b then do
    let T ← if s.1 = false then side g vert inn out al T else some T
    let T ← ecorner g vert inn out al (al + 1) T
    some (true, T)
  else some (false, T)

/-- The other end (vidale.c:119-123). -/
def edgeHi (g : Grid) (vert : Bool) (inn out hi : ℤ) (T : Field) : Option Field := do
  let a ← eget g vert T hi inn
  let b ← eget g vert T (hi - 1) inn
  if a ≤ b then eput g vert inn out hi T else some T

/-- Body of the loop downwards (vidale.c:124-130). -/
def edgeDown (g : Grid) (vert : Bool) (inn out al : ℤ) (T : Field) : Option Field := do
  let a ← eget g vert T al inn
  let b ← eget g vert T (al - 1) inn
  if a < b then ecorner g vert inn out al (al - 1) T else some T

/-- One edge of the ring (vidale.c:85-132 and the three copies up to line 279): from the line `inn` to the line `out`. -/
def edge (g : Grid) (vert : Bool) (inn out lo hi : ℤ) (T : Field) : Option Field := do
  let s ← edgeLo g vert inn out lo T
  let s ← forIM (lo + 1) hi (edgeUp g vert inn out) s
  let T ← edgeHi g vert inn out hi s.2
  forNM (hi - lo).toNat (fun j => edgeDown g vert inn out (hi - j)) T

/-- The box inside the ring. -/
structure Box where
  xl : ℤ
  xh : ℤ
  zl : ℤ
  zh : ℤ

/-- `if (c) f`. -/
def doIf (c : Prop) [Decidable c] (f : Field → Option Field) (T : Field) : Option Field := if c then f T else some T

/-- The four edges (vidale.c:85-279). -/
def edges (g : Grid) (b : Box) (T : Field) : Option Field := do
  let T ← doIf (b.xh < g.nx - 1) (edge g true b.xh (b.xh + 1) b.zl b.zh) T
  let T ← doIf (b.xl > 0) (edge g true b.xl (b.xl - 1) b.zl b.zh) T
  let T ← doIf (b.zh < g.nz - 1) (edge g false b.zh (b.zh + 1) b.xl b.xh) T
  doIf (b.zl > 0) (edge g false b.zl (b.zl - 1) b.xl b.xh) T

/-- The four corners (vidale.c:281-311). -/
def corners (g : Grid) (b : Box) (T : Field) : Option Field := do
  let xr := if b.xh < g.nx - 1 then b.xh else g.nx - 2
  let xl := if b.xl > 0 then b.xl else 1
  let zr := if b.zh < g.nz - 1 then b.zh else g.nz - 2
  let zl := if b.zl > 0 then b.zl else 1
  let T ← doIf (b.xh < g.nx - 1 ∨ b.zh < g.nz - 1) (corner g xr zr (xr + 1) (zr + 1)) T
  let T ← doIf (b.xl > 0 ∨ b.zh < g.nz - 1) (corner g xl zr (xl - 1) (zr + 1)) T
  let T ← doIf (b.xh < g.nx - 1 ∨ b.zl > 0) (corner g xr zl (xr + 1) (zl - 1)) T
  doIf (b.xl > 0 ∨ b.zl > 0) (corner g xl zl (xl - 1) (zl - 1)) T

/-- The next box (vidale.c:313-316). -/
def grow (g : Grid) (b : Box) : Box :=
  ⟨max (b.xl - 1) 0, min (b.xh + 1) (g.nx - 1), max (b.zl - 1) 0, min (b.zh + 1) (g.nz - 1)⟩

/-- `while (!finished)` (vidale.c:82-318) with at most `fuel` passes; a loop that is not finished then is `none`. -/
def rings (g : Grid) : ℕ → Box → Field → Option Field
  | 0, _, _ => none
  | fuel + 1, b, T => do
    let T ← edges g b T
    let T ← corners g b T
    if b.xh < g.nx - 1 ∨ b.xl > 0 ∨ b.zh < g.nz - 1 ∨ b.zl > 0 then rings g fuel (grow g b) T else some T

/-- The box around the source (vidale.c:72-75, 366-369). -/
def startBox (g : Grid) (sx sz order : ℤ) : Box :=
  ⟨max (sx - order) 0, min (sx + order) (g.nx - 1), max (sz - order) 0, min (sz + order) (g.nz - 1)⟩

/-- `near_source`, vidale.c:354-386. -/
def nearSource (g : Grid) (sx sz order : ℤ) (T : Field) : Option Field := do
  let b := startBox g sx sz order
  let s0 ← sget g sx sz
  let t0 ← tget g T sx sz
  forIM b.zl (b.zh + 1) (fun iz T =>
    forIM b.xl (b.xh + 1) (fun ix T => do
      let dist := Real.sqrt (((ix - sx : ℤ) * g.h) ^ 2 + ((iz - sz : ℤ) * g.h) ^ 2)
      let s ← sget g ix iz
      tput g T ix iz (1 / 2 * dist * (s + s0) + t0)) T) T

/-- `while ((brd == val) && more(iz)) { iz += d; brd = slow[iz*nx+x]; }` (vidale.c:571, 589) with at most `fuel` passes. -/
def seek (g : Grid) (x : ℤ) (val : ℝ) (d : ℤ) (more : ℤ → Bool) : ℕ → ℤ → ℝ → Option (ℤ × ℝ)
  | 0, _, _ => none
  | fuel + 1, iz, brd =>
    if brd = val ∧ more iz then (sget g x (iz + d)).bind fun b => seek g x val d more fuel (iz + d) b
    else some (iz, brd)

/-- One row: `brd` is replaced by `val` (vidale.c:575-580, 594-599); the state is the slowness and `lprev`. -/
def rowSub (g : Grid) (brd val : ℝ) (l : ℤ) (s : (ℤ → ℤ → ℝ) × ℤ) : Option ((ℤ → ℤ → ℝ) × ℤ) :=
  forIM 0 g.nx (fun k s =>
    if g.Has k l then some (if s.1 k l = brd then (fun a b => if a = k ∧ b = l then val else s.1 a b, l) else s)
    else none) s

/-- The loop over rows (vidale.c:574-582, 593-601) with at most `fuel` passes. -/
def rowsSub (g : Grid) (brd val : ℝ) (d : ℤ) (more : ℤ → Bool) : ℕ → ℤ → (ℤ → ℤ → ℝ) × ℤ → Option (ℤ → ℤ → ℝ)
  | 0, _, _ => none
  | fuel + 1, l, s =>
    if more l then (rowSub g brd val l s).bind fun s =>
      if s.2 ≠ l then some s.1 else rowsSub g brd val d more fuel (l + d) s
    else some s.1

/-- `rm_head`, vidale.c:555-609: the slowness afterwards. -/
def rmHead (g : Grid) (sx sz mzrcv : ℤ) : Option (ℤ → ℤ → ℝ) :=
  let fuel := g.nz.toNat + 1
  if sz = 0 then some g.slow
  else if sz ≥ mzrcv then do
    let brd ← sget g sx sz
    let val ← sget g sx (sz - 1)
    let (iz, brd) ← seek g sx val 1 (fun iz => iz < g.nz - 1) fuel sz brd
    rowsSub g brd val (-1) (fun l => l > 0) fuel iz (g.slow, iz)
  else do
    let brd ← sget g sx sz
    let val ← sget g sx (sz + 1)
    let (iz, brd) ← seek g sx val (-1) (fun iz => iz > 0) fuel sz brd
    if iz < g.nz then rowsSub g brd val 1 (fun l => l < g.nz) fuel iz (g.slow, iz) else some g.slow

/-- `vidale`, vidale.c:25-328, with the slowness after `rm_head`; the time of the source is 0 (vidale.c:54-59).  The number of
rows that `rm_head` changes in `grid` is not used afterwards: the sizes were copied before (vidale.c:37-38). -/
def eikonal (g : Grid) (sx sz order : ℤ) : Option Field := do
  let T ← tput g (fun _ _ => none) sx sz 0
  let T ← nearSource g sx sz order T
  rings g (g.nx + g.nz).toNat (startBox g sx sz order) T

/-- `vidale`, vidale.c:25-328. -/
def vidale (g : Grid) (sx sz order mzrcv : ℤ) : Option Field := do
  let s ← rmHead g sx sz mzrcv
  eikonal { g with slow := s } sx sz order

end

end Verif.Ray

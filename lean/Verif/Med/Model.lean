import Verif.Base.Loop
import Mathlib.Algebra.Order.Field.Basic

/-!
# Model of readModel.c (fdelmodc): from velocities and density to the medium parameters of the staggered grids

Arithmetic is exact (a linearly ordered field instead of `float`).  The five arrays are addressed by column and row; an
access outside `0 ≤ column < nax`, `0 ≤ row < naz` is the outcome `none` (in C the arrays are flat, `column*naz+row`; an
access that is in range here is the element of that flat array with the same column and row).  Reading the files
(readModel.c:77-217) is modelled in `Verif.Med.Files`; here the samples are given as functions of column and row.  The
relaxation times (`tss`, `tep`, `tes`) are modelled in `Verif.Med.Visco` and `Verif.Med.Relax`.
-/

namespace Verif.Med

/-- What `getParameters` passes on: size of the model, order of the scheme, width of the absorbing borders, rows added for a
moving surface, scheme number, and the kinds of the four sides (1 free, 2 PML, 3 rigid, 4 taper, 5 moving surface). -/
structure Par where
  nx : Int
  nz : Int
  iorder : Int
  npml : Int
  topadd : Int
  ischeme : Int
  lef : Int
  rig : Int
  top : Int
  bot : Int

namespace Par
variable (p : Par)

/-- Points added at a side that absorbs (getParameters.c:454, 483, 489, 502). -/
def pad (side : Int) : Int := if side = 4 ∨ side = 2 then p.npml else 0
/-- Rows added above a moving surface (getParameters.c:469-482). -/
def add : Int := if p.top = 5 then p.topadd else 0

/-- `mod.naz` (getParameters.c:449, 455, 475, 484). -/
def naz : Int := p.nz + p.iorder + p.pad p.top + p.add + p.pad p.bot
/-- `mod.nax` (getParameters.c:450, 490, 503). -/
def nax : Int := p.nx + p.iorder + p.pad p.lef + p.pad p.rig
/-- `mod.ioXx` (getParameters.c:423, 491). -/
def ioXx : Int := p.iorder / 2 + p.pad p.lef
/-- `mod.ioXz` (getParameters.c:424, 456, 476). -/
def ioXz : Int := p.iorder / 2 - 1 + p.pad p.top + p.add
/-- `mod.ioZx` (getParameters.c:426, 492). -/
def ioZx : Int := p.iorder / 2 - 1 + p.pad p.lef
/-- `mod.ioZz` (getParameters.c:427, 457, 477). -/
def ioZz : Int := p.iorder / 2 + p.pad p.top + p.add
/-- `mod.ioPx`, `mod.ioPz` (getParameters.c:429-430). -/
def ioPx : Int := p.iorder / 2 - 1
def ioPz : Int := p.iorder / 2 - 1
/-- `mod.ioTx`, `mod.ioTz` (getParameters.c:432-433). -/
def ioTx : Int := p.iorder / 2
def ioTz : Int := p.iorder / 2
/-- `mod.ieXx` (getParameters.c:437, 493). -/
def ieXx : Int := p.nx + p.iorder / 2 + p.pad p.lef
/-- `mod.ieXz` (getParameters.c:438, 458, 478). -/
def ieXz : Int := p.nz + (p.iorder / 2 - 1) + p.pad p.top + p.add
/-- `mod.ieZx` (getParameters.c:440, 494). -/
def ieZx : Int := p.nx + (p.iorder / 2 - 1) + p.pad p.lef
/-- `mod.ieZz` (getParameters.c:441, 459, 479). -/
def ieZz : Int := p.nz + p.iorder / 2 + p.pad p.top + p.add
/-- `mod.iePx` (getParameters.c:443, 499, 505). -/
def iePx : Int := p.nx + (p.iorder / 2 - 1) + p.pad p.lef + p.pad p.rig
/-- `mod.iePz` (getParameters.c:444, 464, 480, 486). -/
def iePz : Int := p.nz + (p.iorder / 2 - 1) + p.pad p.top + p.add + p.pad p.bot
/-- `mod.ieTx` (getParameters.c:446, 500, 506). -/
def ieTx : Int := p.nx + p.iorder / 2 + p.pad p.lef + p.pad p.rig
/-- `mod.ieTz` (getParameters.c:447, 465, 481, 487). -/
def ieTz : Int := p.nz + p.iorder / 2 + p.pad p.top + p.add + p.pad p.bot

/-- The local `ioPx`, `ioPz`, `ioTx`, `ioTz` of readModel.c:58-75. -/
def rPx : Int := p.ioPx + p.pad p.lef
def rPz : Int := p.ioPz + p.pad p.top + p.add
def rTx : Int := p.ioTx + p.pad p.lef
def rTz : Int := p.ioTz + p.pad p.top + p.add

end Par

/-- The arrays: buoyancies of the horizontal and the vertical velocity, `lambda+2mu`, `lambda` and `mu`, each times
`dt/dx`. -/
inductive Arr
  | rox | roz | l2m | lam | muu
  deriving DecidableEq, Repr

/-- The contents of the arrays, by column and row. -/
abbrev Mem (K : Type) := Arr → Int → Int → K

/-- The samples of the files: P velocity, S velocity, density, by trace and sample. -/
structure Inp (K : Type) where
  cp : Int → Int → K
  cs : Int → Int → K
  ro : Int → Int → K

section
variable {K : Type}

/-- The element exists. -/
def Par.inG (p : Par) (x z : Int) : Prop := (0 ≤ x ∧ x < p.nax) ∧ (0 ≤ z ∧ z < p.naz)

instance (p : Par) (x z : Int) : Decidable (p.inG x z) := by unfold Par.inG; infer_instance

/-- Read an element. -/
def rd (p : Par) (m : Mem K) (a : Arr) (x z : Int) : Option K := if p.inG x z then some (m a x z) else none

/-- Replace an element. -/
def set (m : Mem K) (a : Arr) (x z : Int) (v : K) : Mem K :=
  fun a' x' z' => if a' = a ∧ x' = x ∧ z' = z then v else m a' x' z'

/-- Write an element. -/
def wr (p : Par) (a : Arr) (x z : Int) (v : K) (m : Mem K) : Option (Mem K) :=
  if p.inG x z then some (set m a x z v) else none

/-- Read a sample: `f[ix*nz+iz]` of an array of `nx*nz` elements, filled trace by trace. -/
def smp (p : Par) (f : Int → Int → K) (ix iz : Int) : Option K :=
  if (0 ≤ ix ∧ ix < p.nx) ∧ (0 ≤ iz ∧ iz < p.nz) then some (f ix iz) else none

variable [Field K] [LinearOrder K]

/-- `if (cs11 > 0.0) mul = 4.0/(1.0/cs11+1.0/cs12+1.0/cs21+1.0/cs22); else mul = 0.0;` (readModel.c:246-251, 277-282,
331-336).  A zero among the other three makes the sum infinite in `float` and the quotient zero. -/
def harm4 (cs11 cs12 cs21 cs22 : K) : K :=
  if cs11 > 0 then
    if cs12 = 0 ∨ cs21 = 0 ∨ cs22 = 0 then 0
    else 4 / (1 / cs11 + 1 / cs12 + 1 / cs21 + 1 / cs22)
  else 0

/-- The stores of the elastic loops (readModel.c:258-262, 289-293, 304-308, 343-347). -/
def put5 (p : Par) (ix iz : Int) (x z l la mu : K) (m : Mem K) : Option (Mem K) := do
  let m ← wr p .rox (ix + p.ioXx) (iz + p.ioXz) x m
  let m ← wr p .roz (ix + p.ioZx) (iz + p.ioZz) z m
  let m ← wr p .l2m (ix + p.rPx) (iz + p.rPz) l m
  let m ← wr p .lam (ix + p.rPx) (iz + p.rPz) la m
  wr p .muu (ix + p.rTx) (iz + p.rTz) mu m

/-- The stores of the acoustic loops (readModel.c:452-454, 467-469, 477-479, 491-493). -/
def put3 (p : Par) (ix iz : Int) (x z l : K) (m : Mem K) : Option (Mem K) := do
  let m ← wr p .rox (ix + p.ioXx) (iz + p.ioXz) x m
  let m ← wr p .roz (ix + p.ioZx) (iz + p.ioZz) z m
  wr p .l2m (ix + p.rPx) (iz + p.rPz) l m

/-- Body of the loop over the last row, elastic (readModel.c:234-263). -/
def elaRow (p : Par) (q : Inp K) (fac : K) (ix : Int) (m : Mem K) : Option (Mem K) := do
  let iz := p.nz - 1
  let cp ← smp p q.cp ix iz
  let cs ← smp p q.cs ix iz
  let csa ← smp p q.cs (ix + 1) iz
  let r ← smp p q.ro ix iz
  let ra ← smp p q.ro (ix + 1) iz
  let mul := harm4 (cs * cs * r) (cs * cs * r) (csa * csa * ra) (csa * csa * ra)
  let mu := cs * cs * r
  let lamda2mu := cp * cp * r
  put5 p ix iz (fac / (1 / 2 * (r + ra))) (fac / r) (fac * lamda2mu) (fac * (lamda2mu - 2 * mu)) (fac * mul) m

/-- Body of the loop over the last column, elastic (readModel.c:265-294). -/
def elaCol (p : Par) (q : Inp K) (fac : K) (iz : Int) (m : Mem K) : Option (Mem K) := do
  let ix := p.nx - 1
  let cp ← smp p q.cp ix iz
  let cs ← smp p q.cs ix iz
  let csb ← smp p q.cs ix (iz + 1)
  let r ← smp p q.ro ix iz
  let rb ← smp p q.ro ix (iz + 1)
  let mul := harm4 (cs * cs * r) (csb * csb * rb) (cs * cs * r) (csb * csb * rb)
  let mu := cs * cs * r
  let lamda2mu := cp * cp * r
  put5 p ix iz (fac / r) (fac / (1 / 2 * (r + rb))) (fac * lamda2mu) (fac * (lamda2mu - 2 * mu)) (fac * mul) m

/-- The corner, elastic (readModel.c:295-308). -/
def elaCorner (p : Par) (q : Inp K) (fac : K) (m : Mem K) : Option (Mem K) := do
  let ix := p.nx - 1
  let iz := p.nz - 1
  let cp ← smp p q.cp ix iz
  let cs ← smp p q.cs ix iz
  let r ← smp p q.ro ix iz
  let mu := cs * cs * r
  let lamda2mu := cp * cp * r
  put5 p ix iz (fac / r) (fac / r) (fac * lamda2mu) (fac * (lamda2mu - 2 * mu)) (fac * mu) m

/-- Body of the loop over the other points, elastic (readModel.c:312-347). -/
def elaPoint (p : Par) (q : Inp K) (fac : K) (ix iz : Int) (m : Mem K) : Option (Mem K) := do
  let cp ← smp p q.cp ix iz
  let cs ← smp p q.cs ix iz
  let csa ← smp p q.cs (ix + 1) iz
  let csb ← smp p q.cs ix (iz + 1)
  let csc ← smp p q.cs (ix + 1) (iz + 1)
  let r ← smp p q.ro ix iz
  let ra ← smp p q.ro (ix + 1) iz
  let rb ← smp p q.ro ix (iz + 1)
  let mul := harm4 (cs * cs * r) (csb * csb * rb) (csa * csa * r) (csc * csc * rb)
  let mu := cs * cs * r
  let lamda2mu := cp * cp * r
  put5 p ix iz (fac / (1 / 2 * (r + ra))) (fac / (1 / 2 * (r + rb))) (fac * lamda2mu) (fac * (lamda2mu - 2 * mu))
    (fac * mul) m

/-- The elastic grids (readModel.c:233-349). -/
def elaFill (p : Par) (q : Inp K) (fac : K) (m : Mem K) : Option (Mem K) := do
  let m ← forIM 0 (p.nx - 1) (elaRow p q fac) m
  let m ← forIM 0 (p.nz - 1) (elaCol p q fac) m
  let m ← elaCorner p q fac m
  forIM 0 (p.nx - 1) (fun ix => forIM 0 (p.nz - 1) (elaPoint p q fac ix)) m

/-- Body of the loop over the last row, acoustic (readModel.c:442-455). -/
def acoRow (p : Par) (q : Inp K) (fac : K) (ix : Int) (m : Mem K) : Option (Mem K) := do
  let iz := p.nz - 1
  let cp ← smp p q.cp ix iz
  let r ← smp p q.ro ix iz
  let ra ← smp p q.ro (ix + 1) iz
  put3 p ix iz (fac / (1 / 2 * (r + ra))) (fac / r) (fac * (cp * cp * r)) m

/-- Body of the loop over the last column, acoustic (readModel.c:457-470). -/
def acoCol (p : Par) (q : Inp K) (fac : K) (iz : Int) (m : Mem K) : Option (Mem K) := do
  let ix := p.nx - 1
  let cp ← smp p q.cp ix iz
  let r ← smp p q.ro ix iz
  let rb ← smp p q.ro ix (iz + 1)
  put3 p ix iz (fac / r) (fac / (1 / 2 * (r + rb))) (fac * (cp * cp * r)) m

/-- The corner, acoustic (readModel.c:471-479). -/
def acoCorner (p : Par) (q : Inp K) (fac : K) (m : Mem K) : Option (Mem K) := do
  let ix := p.nx - 1
  let iz := p.nz - 1
  let cp ← smp p q.cp ix iz
  let r ← smp p q.ro ix iz
  put3 p ix iz (fac / r) (fac / r) (fac * (cp * cp * r)) m

/-- Body of the loop over the other points, acoustic (readModel.c:483-493). -/
def acoPoint (p : Par) (q : Inp K) (fac : K) (ix iz : Int) (m : Mem K) : Option (Mem K) := do
  let cp ← smp p q.cp ix iz
  let r ← smp p q.ro ix iz
  let ra ← smp p q.ro (ix + 1) iz
  let rb ← smp p q.ro ix (iz + 1)
  put3 p ix iz (fac / (1 / 2 * (r + ra))) (fac / (1 / 2 * (r + rb))) (fac * (cp * cp * r)) m

/-- The acoustic grids (readModel.c:441-496). -/
def acoFill (p : Par) (q : Inp K) (fac : K) (m : Mem K) : Option (Mem K) := do
  let m ← forIM 0 (p.nx - 1) (acoRow p q fac) m
  let m ← forIM 0 (p.nz - 1) (acoCol p q fac) m
  let m ← acoCorner p q fac m
  forIM 0 (p.nx - 1) (fun ix => forIM 0 (p.nz - 1) (acoPoint p q fac ix)) m

/-- Body of the loop that clears the buoyancies where the velocity is zero (readModel.c:502-505). -/
def airBody (p : Par) (ix iz : Int) (m : Mem K) : Option (Mem K) := do
  let l ← rd p m .l2m (ix + p.rPx) (iz + p.rPz)
  if l = 0 then do
    let m ← wr p .rox (ix + p.ioXx) (iz + p.ioXz) 0 m
    wr p .roz (ix + p.ioZx) (iz + p.ioZz) 0 m
  else some m

/-- The loop that clears the buoyancies (readModel.c:499-508). -/
def air (p : Par) (m : Mem K) : Option (Mem K) :=
  forIM 0 p.nx (fun ix => forIM 0 p.nz (airBody p ix)) m

omit [Field K] [LinearOrder K] in
/-- `a[x][z] = a[sx][sz]` for each array of a list in turn. -/
def copy1 (p : Par) (x z : Int) (src : Arr → Int × Int) : List Arr → Mem K → Option (Mem K)
  | [], m => some m
  | a :: as, m => do
    let v ← rd p m a (src a).1 (src a).2
    let m ← wr p a x z v m
    copy1 p x z src as m

/-- `for (ix=x0; ix<x1; ix++) for (iz=z0; iz<z1; iz++)` copy from `src` of the target. -/
def copyXZ (p : Par) (as : List Arr) (x0 x1 z0 z1 : Int) (src : Arr → Int → Int → Int × Int) (m : Mem K) :
    Option (Mem K) :=
  forIM x0 x1 (fun ix => forIM z0 z1 (fun iz => copy1 p ix iz (fun a => src a ix iz) as)) m

/-- The same with the rows in the outer loop. -/
def copyZX (p : Par) (as : List Arr) (x0 x1 z0 z1 : Int) (src : Arr → Int → Int → Int × Int) (m : Mem K) :
    Option (Mem K) :=
  forIM z0 z1 (fun iz => forIM x0 x1 (fun ix => copy1 p ix iz (fun a => src a ix iz) as)) m

/-- `if (c) f` on the memory. -/
def cond (c : Bool) (f : Mem K → Option (Mem K)) (m : Mem K) : Option (Mem K) := if c then f m else some m

/-- The first extension into the PML, elastic only: left (readModel.c:359-380). -/
def cpmlLef (p : Par) (m : Mem K) : Option (Mem K) := do
  let m ← copyXZ p [.rox, .roz] 0 p.ioXx 0 p.naz (fun _ _ z => (p.ioXx, z)) m
  let m ← copyXZ p [.l2m, .lam] 0 p.rPx 0 p.naz (fun _ _ z => (p.rPx, z)) m
  copyXZ p [.muu] 0 p.rTx 0 p.naz (fun _ _ z => (p.rTx, z)) m

/-- … right (readModel.c:381-403). -/
def cpmlRig (p : Par) (m : Mem K) : Option (Mem K) := do
  let m ← copyXZ p [.rox, .roz] (p.ioXx + p.nx - 1 + 1) p.nax 0 p.naz (fun _ _ z => (p.ioXx + p.nx - 1, z)) m
  let m ← copyXZ p [.l2m, .lam] (p.rPx + p.nx - 1 + 1) p.nax 0 p.naz (fun _ _ z => (p.rPx + p.nx - 1, z)) m
  copyXZ p [.muu] (p.rTx + p.nx - 1 + 1) p.nax 0 p.naz (fun _ _ z => (p.rTx + p.nx - 1, z)) m

/-- Source row of the first extension at the top (readModel.c:408-412); `roz` takes the row of `rox`. -/
def topSrc (p : Par) : Arr → Int
  | .rox => p.ioXz | .roz => p.ioXz | .l2m => p.rPz | .lam => p.rPz | .muu => p.rTz

/-- … top (readModel.c:405-415). -/
def cpmlTop (p : Par) (m : Mem K) : Option (Mem K) :=
  copyZX p [.rox, .roz, .l2m, .lam, .muu] 0 p.nax 0 p.rPz (fun a x _ => (x, topSrc p a)) m

/-- … bottom (readModel.c:417-438). -/
def cpmlBot (p : Par) (m : Mem K) : Option (Mem K) := do
  let m ← copyZX p [.rox, .roz] 0 p.nax (p.ioXz + p.nz - 1 + 1) p.naz (fun _ x _ => (x, p.ioXz + p.nz - 1)) m
  let m ← copyZX p [.l2m, .lam] 0 p.nax (p.rPz + p.nz - 1 + 1) p.naz (fun _ x _ => (x, p.rPz + p.nz - 1)) m
  copyZX p [.muu] 0 p.nax (p.rTz + p.nz - 1 + 1) p.naz (fun _ x _ => (x, p.rTz + p.nz - 1)) m

/-- The first extension (readModel.c:355-438). -/
def cpml (p : Par) (m : Mem K) : Option (Mem K) := do
  let m ← cond (p.lef = 2) (cpmlLef p) m
  let m ← cond (p.rig = 2) (cpmlRig p) m
  let m ← cond (p.top = 2) (cpmlTop p) m
  cond (p.bot = 2) (cpmlBot p) m

/-- Extension to the left (readModel.c:514-569). -/
def extLef (p : Par) (m : Mem K) : Option (Mem K) := do
  let m ← copyXZ p [.rox] (p.ioXx - p.npml) p.ioXx p.ioXz p.ieXz (fun _ _ z => (p.ioXx, z)) m
  let m ← copyXZ p [.roz] (p.ioZx - p.npml) p.ioZx p.ioZz p.ieZz (fun _ _ z => (p.ioZx, z)) m
  let m ← copyXZ p [.l2m] p.ioPx (p.ioPx + p.npml) p.ioPz p.iePz (fun _ _ z => (p.ioPx + p.npml, z)) m
  cond (p.ischeme > 2) (fun m => do
    let m ← copyXZ p [.lam] p.ioPx (p.ioPx + p.npml) p.ioPz p.iePz (fun _ _ z => (p.ioPx + p.npml, z)) m
    copyXZ p [.muu] p.ioTx (p.ioTx + p.npml) p.ioTz p.ieTz (fun _ _ z => (p.ioTx + p.npml, z)) m) m

/-- Extension to the right (readModel.c:603-658). -/
def extRig (p : Par) (m : Mem K) : Option (Mem K) := do
  let m ← copyXZ p [.rox] p.ieXx (p.ieXx + p.npml) p.ioXz p.ieXz (fun _ _ z => (p.ieXx - 1, z)) m
  let m ← copyXZ p [.roz] p.ieZx (p.ieZx + p.npml) p.ioZz p.ieZz (fun _ _ z => (p.ieZx - 1, z)) m
  let m ← copyXZ p [.l2m] (p.iePx - p.npml) p.iePx p.ioPz p.iePz (fun _ _ z => (p.iePx - p.npml - 1, z)) m
  cond (p.ischeme > 2) (fun m => do
    let m ← copyXZ p [.lam] (p.iePx - p.npml) p.iePx p.ioPz p.iePz (fun _ _ z => (p.iePx - p.npml - 1, z)) m
    copyXZ p [.muu] (p.ieTx - p.npml) p.ieTx p.ioTz p.ieTz (fun _ _ z => (p.ieTx - p.npml - 1, z)) m) m

/-- Extension to the top (readModel.c:692-752); `p.pad` is `npml` where the side absorbs and 0 elsewhere. -/
def extTop (p : Par) (m : Mem K) : Option (Mem K) := do
  let m ← copyXZ p [.rox] (p.ioXx - p.pad p.lef) (p.ieXx + p.pad p.rig) (p.ioXz - p.npml) p.ioXz
    (fun _ x _ => (x, p.ioXz)) m
  let m ← copyXZ p [.roz] (p.ioZx - p.pad p.lef) (p.ieZx + p.pad p.rig) (p.ioZz - p.npml) p.ioZz
    (fun _ x _ => (x, p.ioZz)) m
  let m ← copyXZ p [.l2m] p.ioPx p.iePx p.ioPz (p.ioPz + p.npml) (fun _ x _ => (x, p.ioPz + p.npml)) m
  cond (p.ischeme > 2) (fun m => do
    let m ← copyXZ p [.lam] p.ioPx p.iePx p.ioPz (p.ioPz + p.npml) (fun _ x _ => (x, p.ioPz + p.npml)) m
    copyXZ p [.muu] p.ioTx p.ieTx p.ioTz (p.ioTz + p.npml) (fun _ x _ => (x, p.ioTz + p.npml)) m) m

/-- Extension to the bottom (readModel.c:786-846). -/
def extBot (p : Par) (m : Mem K) : Option (Mem K) := do
  let m ← copyXZ p [.rox] (p.ioXx - p.pad p.lef) (p.ieXx + p.pad p.rig) p.ieXz (p.ieXz + p.npml)
    (fun _ x _ => (x, p.ieXz - 1)) m
  let m ← copyXZ p [.roz] (p.ioZx - p.pad p.lef) (p.ieZx + p.pad p.rig) p.ieZz (p.ieZz + p.npml)
    (fun _ x _ => (x, p.ieZz - 1)) m
  let m ← copyXZ p [.l2m] p.ioPx p.iePx (p.iePz - p.npml) p.iePz (fun _ x _ => (x, p.iePz - p.npml - 1)) m
  cond (p.ischeme > 2) (fun m => do
    let m ← copyXZ p [.lam] p.ioPx p.iePx (p.iePz - p.npml) p.iePz (fun _ x _ => (x, p.iePz - p.npml - 1)) m
    copyXZ p [.muu] p.ioTx p.ieTx (p.ieTz - p.npml) p.ieTz (fun _ x _ => (x, p.ieTz - p.npml - 1)) m) m

/-- `a[ix][iz] = 0.0` over a rectangle. -/
def clear (p : Par) (a : Arr) (x0 x1 z0 z1 : Int) (m : Mem K) : Option (Mem K) :=
  forIM x0 x1 (fun ix => forIM z0 z1 (fun iz => wr p a ix iz 0)) m

/-- The rows above a moving surface (readModel.c:879-921). -/
def extMov (p : Par) (m : Mem K) : Option (Mem K) := do
  let m ← clear p .rox (p.ioXx - p.pad p.lef) (p.ieXx + p.pad p.rig) (p.ioXz - p.topadd) p.ioXz m
  let m ← clear p .roz (p.ioZx - p.pad p.lef) (p.ieZx + p.pad p.rig) (p.ioZz - p.topadd) p.ioZz m
  clear p .l2m p.ioPx p.iePx p.ioPz (p.ioPz + p.topadd) m

/-- The side absorbs. -/
def absorbs (side : Int) : Bool := side = 4 || side = 2

/-- The loops over the model points (readModel.c:233-497). -/
def fillGrids (p : Par) (q : Inp K) (fac : K) (m : Mem K) : Option (Mem K) :=
  if p.ischeme > 2 then (elaFill p q fac m).bind (cpml p) else acoFill p q fac m

/-- The grids of `readModel` from the samples (readModel.c:219-931), the arrays being cleared before (fdelmodc.c:355-366).
`fac` is `dt/dx`. -/
def grids (p : Par) (q : Inp K) (fac : K) : Option (Mem K) := do
  let m : Mem K := fun _ _ _ => 0
  let m ← fillGrids p q fac m
  let m ← air p m
  let m ← cond (absorbs p.lef) (extLef p) m
  let m ← cond (absorbs p.rig) (extRig p) m
  let m ← cond (absorbs p.top) (extTop p) m
  let m ← cond (absorbs p.bot) (extBot p) m
  cond (p.top = 5) (extMov p) m

end

end Verif.Med

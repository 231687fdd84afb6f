import Verif.Fd.Acoustic4
import Verif.Base.StencilAll

/-!
# Model of the elastic fourth-order time step (fdelmodc/elastic4.c, boundaries.c with `ischeme=3`), without source

Arithmetic is exact (a commutative ring instead of `float`), as in `Verif.Fd.Acoustic4`, whose grid (`Cfg`) is used here.
The coefficients of the interior stencil (elastic4.c:76-77) and of the boundary stencils (boundaries.c:33-34, 1215-1216) are
parameters.  Local variables are replaced by the expressions they hold.  Boundary types are 1 (free), 2 (PML), 3 (rigid),
4 (taper).  `bnd.surface` is flat (getParameters.c:527-531), so the tests `izp==iz` succeed and the loop over edges of the
surface (boundaries.c:1703-1739) does nothing.

Simplification: expressions have no division and no comparison.  On a free surface the code computes
`dp = l2m - lam*lam/l2m` where `l2m!=0` and leaves the element alone where `l2m==0`.  The model reads `dp` from an array
`frs` and writes `keep*old - dv*dp`, with an array `keep` that holds 0 where `l2m!=0` and 1 elsewhere; `FreeMed` says so.
-/

namespace Verif.Fd.Ela

open Verif.Sten
open Verif.Fd.Acou (Cfg Coef max0 minTo)

/-- The arrays: wave fields, memory variables of the PML, media, tapers, coefficients of the PML (`…f`: boundariesP,
`…c` and `…g`: boundariesV, where the latter are called `b_xf`, … again). -/
inductive Arr
  | vx | vz | txx | tzz | txz
  | psiVxX | psiVxZ | psiVzZ | psiVzX | psiPX | psiPZ | psiTX | psiTZ
  | rox | roz | l2m | lam | mul | frs | keep | tapx | tapz | tapxz
  | bxf | cxf | ikxf | bzf | czf | ikzf | bxc | cxc | ikxc | bzc | czc | ikzc | bxg | cxg | ikxg | bzg | czg | ikzg
  deriving DecidableEq, Repr

/-- An array element. -/
abbrev Cell := Arr × Int

/-- Wave fields and memory variables change; everything else is a parameter. -/
def fld : Cell → Bool
  | (.vx, _) => true | (.vz, _) => true | (.txx, _) => true | (.tzz, _) => true | (.txz, _) => true
  | (.psiVxX, _) => true | (.psiVxZ, _) => true | (.psiVzZ, _) => true | (.psiVzX, _) => true
  | (.psiPX, _) => true | (.psiPZ, _) => true | (.psiTX, _) => true | (.psiTZ, _) => true
  | _ => false

section Geometry
variable (g : Cfg)

/-- `mod.ioTx`, `mod.ioTz` (getParameters.c:432-433). -/
def ioTx (_g : Cfg) : Int := 2
def ioTz (_g : Cfg) : Int := 2
/-- `mod.ieTx` (getParameters.c:446,500,506). -/
def ieTx : Int := g.nx + 2 + g.pad g.lef + g.pad g.rig
/-- `mod.ieTz` (getParameters.c:447,465,487). -/
def ieTz : Int := g.nz + 2 + g.pad g.top + g.pad g.bot

/-- The ranges of the stress loops (elastic4.c:117-120). -/
def ix0 : Int := if g.lef = 2 then g.ioXx else g.ioPx
def ix1 : Int := if g.rig = 2 then g.ieXx else g.iePx
def iz0 : Int := if g.top = 2 then g.ioXz else g.ioPz
def iz1 : Int := if g.bot = 2 then g.ieXz else g.iePz

/-- Number of elements of the arrays (fdelmodc.c:355-366, 412-417; getParameters.c:388-390; boundaries.c:145-154,
1249-1266). -/
def size : Arr → Int
  | .tapx => g.npml | .tapz => g.npml | .tapxz => g.npml * g.npml
  | .bxf => g.nax | .cxf => g.nax | .ikxf => g.nax | .bxc => g.nax | .cxc => g.nax | .ikxc => g.nax
  | .bxg => g.nax | .cxg => g.nax | .ikxg => g.nax
  | .bzf => g.naz | .czf => g.naz | .ikzf => g.naz | .bzc => g.naz | .czc => g.naz | .ikzc => g.naz
  | .bzg => g.naz | .czg => g.naz | .ikzg => g.naz
  | _ => g.nax * g.naz

/-- The cell exists. -/
def ok (a : Cell) : Bool := 0 ≤ a.2 && a.2 < size g a.1

end Geometry

section Model
variable {K : Type} (g : Cfg)

/-- `a[ix*n1+iz]`. -/
def at' (a : Arr) (ix iz : Int) : Cell := (a, el g.naz ix iz)
/-- Read `a[ix*n1+iz]`. -/
def rd (a : Arr) (ix iz : Int) : Expr Cell K := .rd (a, el g.naz ix iz)
/-- Read `a[i]`. -/
def rd1 (a : Arr) (i : Int) : Expr Cell K := .rd (a, i)

/-- The update of `vx` (elastic4.c:85-89; the same in the tapers, boundaries.c:614-618). -/
def vxS (k1 k2 : K) (ix iz : Int) : Stmt Cell K :=
  ⟨(.vx, el g.naz ix iz), rd g .vx ix iz - rd g .rox ix iz * (
    .c k1 * (rd g .txx ix iz - rd g .txx (ix - 1) iz + rd g .txz ix (iz + 1) - rd g .txz ix iz) +
    .c k2 * (rd g .txx (ix + 1) iz - rd g .txx (ix - 2) iz + rd g .txz ix (iz + 2) - rd g .txz ix (iz - 1)))⟩

/-- The update of `vz` (elastic4.c:98-102; boundaries.c:675-679). -/
def vzS (k1 k2 : K) (ix iz : Int) : Stmt Cell K :=
  ⟨(.vz, el g.naz ix iz), rd g .vz ix iz - rd g .roz ix iz * (
    .c k1 * (rd g .tzz ix iz - rd g .tzz ix (iz - 1) + rd g .txz (ix + 1) iz - rd g .txz ix iz) +
    .c k2 * (rd g .tzz ix (iz + 1) - rd g .tzz ix (iz - 2) + rd g .txz (ix + 2) iz - rd g .txz (ix - 1) iz))⟩

/-- `dvx` and `dvz` of the normal stresses (elastic4.c:125-128; boundaries.c:1694-1695, 1760-1761). -/
def dvx (k1 k2 : K) (ix iz : Int) : Expr Cell K :=
  .c k1 * (rd g .vx (ix + 1) iz - rd g .vx ix iz) + .c k2 * (rd g .vx (ix + 2) iz - rd g .vx (ix - 1) iz)
def dvz (k1 k2 : K) (ix iz : Int) : Expr Cell K :=
  .c k1 * (rd g .vz ix (iz + 1) - rd g .vz ix iz) + .c k2 * (rd g .vz ix (iz + 2) - rd g .vz ix (iz - 1))

/-- The update of the normal stresses (elastic4.c:129-130). -/
def nrmS (k1 k2 : K) (ix iz : Int) : List (Stmt Cell K) :=
  [⟨(.txx, el g.naz ix iz), rd g .txx ix iz -
      (rd g .l2m ix iz * dvx g k1 k2 ix iz + rd g .lam ix iz * dvz g k1 k2 ix iz)⟩,
   ⟨(.tzz, el g.naz ix iz), rd g .tzz ix iz -
      (rd g .l2m ix iz * dvz g k1 k2 ix iz + rd g .lam ix iz * dvx g k1 k2 ix iz)⟩]

/-- The update of the shear stress (elastic4.c:142-146). -/
def shrS (k1 k2 : K) (ix iz : Int) : Stmt Cell K :=
  ⟨(.txz, el g.naz ix iz), rd g .txz ix iz - rd g .mul ix iz * (
    .c k1 * (rd g .vx ix iz - rd g .vx ix (iz - 1) + rd g .vz ix iz - rd g .vz (ix - 1) iz) +
    .c k2 * (rd g .vx ix (iz + 1) - rd g .vx ix (iz - 2) + rd g .vz (ix + 1) iz - rd g .vz (ix - 2) iz))⟩

/-- The two velocity loops (elastic4.c:80-104); the first one is `nowait`. -/
def velPhase (k : Coef K) : List (List (Stmt Cell K)) :=
  sweep g.ioXx g.ieXx g.ioXz g.ieXz (fun ix iz => [vxS g k.c1 k.c2 ix iz]) ++
  sweep g.ioZx g.ieZx g.ioZz g.ieZz (fun ix iz => [vzS g k.c1 k.c2 ix iz])

/-- `a[ix*n1+iz] = a[jx*n1+jz]`, `a[ix*n1+iz] = -a[jx*n1+jz]` and `a[ix*n1+iz] = 0`. -/
def cp (a : Arr) (ix iz jx jz : Int) : Stmt Cell K := ⟨(a, el g.naz ix iz), rd g a jx jz⟩
def ng (a : Arr) (ix iz jx jz : Int) : Stmt Cell K := ⟨(a, el g.naz ix iz), .zero - rd g a jx jz⟩
def zr (a : Arr) (ix iz : Int) : Stmt Cell K := ⟨(a, el g.naz ix iz), .zero⟩

/-- Rigid top (boundaries.c:62-75). -/
def rigidTop : List (List (Stmt Cell K)) :=
  if g.top = 3 then
    parfor 1 (g.nx + 1) fun ix =>
      ng g .vz ix g.ibnd ix (g.ibnd + 1) ::
      loop 1 (g.ibnd + 1) fun ib => [ng g .vz ix (g.ibnd - ib) ix (g.ibnd + 1 + ib)]
  else []

/-- Rigid right side (boundaries.c:77-92). -/
def rigidRig : List (List (Stmt Cell K)) :=
  if g.rig = 3 then
    parfor 1 (g.nz + 1) fun iz =>
      ng g .vx (g.nx + g.ibnd) iz (g.nx + g.ibnd - 1) iz ::
      loop 1 (g.ibnd + 1) fun ib => [ng g .vx (g.nx + g.ibnd + ib) iz (g.nx - ib) iz]
  else []

/-- Rigid bottom (boundaries.c:93-108). -/
def rigidBot : List (List (Stmt Cell K)) :=
  if g.bot = 3 then
    parfor 1 (g.nx + 1) fun ix =>
      ng g .vz ix (g.nz + g.ibnd) ix (g.nz + g.ibnd - 1) ::
      loop 1 (g.ibnd + 1) fun ib => [ng g .vz ix (g.nz + g.ibnd + ib) ix (g.nz - ib)]
  else []

/-- Rigid left side (boundaries.c:109-124). -/
def rigidLef : List (List (Stmt Cell K)) :=
  if g.lef = 3 then
    parfor 1 (g.nz + 1) fun iz =>
      ng g .vx g.ibnd iz (g.ibnd + 1) iz ::
      loop 1 (g.ibnd + 1) fun ib => [ng g .vx (ib - g.ibnd) iz (g.ibnd + 1 + ib) iz]
  else []

/-- These loops are all `nowait`; the barrier comes at boundaries.c:227.  (The copies of boundaries.c:47-57 are for the
acoustic schemes only.) -/
def wallPhase : List (List (Stmt Cell K)) := rigidTop g ++ rigidRig g ++ rigidBot g ++ rigidLef g

/-- `memset` of a memory variable (boundaries.c:353-356, 1496-1499), by the master thread. -/
def clear (a : Arr) : List (Stmt Cell K) := loop 0 (g.nax * g.naz) fun i => [⟨(a, i), .zero⟩]

/-- `i-1` and `i+1`, not before the first and not past the last one. -/
def lowr (i : Int) : Int := if i > 0 then i - 1 else i
def uppr (i n : Int) : Int := if i + 1 < n then i + 1 else i

/-- Differences of the stresses in the PML (boundaries.c:376-393, 422-439). -/
def dpxX (k : Coef K) (ix iz : Int) : Expr Cell K :=
  if ix ≥ 2 ∧ ix ≤ g.nax - 2 then
    .c k.d1 * (rd g .txx ix iz - rd g .txx (ix - 1) iz) + .c k.d2 * (rd g .txx (ix + 1) iz - rd g .txx (ix - 2) iz)
  else rd g .txx (uppr ix g.nax) iz - rd g .txx (lowr ix) iz
def dpzX (k : Coef K) (ix iz : Int) : Expr Cell K :=
  if iz ≥ 1 ∧ iz ≤ g.naz - 3 then
    .c k.d1 * (rd g .txz ix (iz + 1) - rd g .txz ix iz) + .c k.d2 * (rd g .txz ix (iz + 2) - rd g .txz ix (iz - 1))
  else rd g .txz ix (uppr iz g.naz) - rd g .txz ix (lowr iz)
def dpzZ (k : Coef K) (ix iz : Int) : Expr Cell K :=
  if iz ≥ 2 ∧ iz ≤ g.naz - 2 then
    .c k.d1 * (rd g .tzz ix iz - rd g .tzz ix (iz - 1)) + .c k.d2 * (rd g .tzz ix (iz + 1) - rd g .tzz ix (iz - 2))
  else rd g .tzz ix (uppr iz g.naz) - rd g .tzz ix (lowr iz)
def dpxZ (k : Coef K) (ix iz : Int) : Expr Cell K :=
  if ix ≥ 1 ∧ ix ≤ g.nax - 3 then
    .c k.d1 * (rd g .txz (ix + 1) iz - rd g .txz ix iz) + .c k.d2 * (rd g .txz (ix + 2) iz - rd g .txz (ix - 1) iz)
  else rd g .txz (uppr ix g.nax) iz - rd g .txz (lowr ix) iz

/-- Differences of the velocities in the PML: for the normal stresses (boundaries.c:1520-1538) and the shear stress
(boundaries.c:1567-1583). -/
def dvxN (k : Coef K) (ix iz : Int) : Expr Cell K :=
  if ix ≥ 1 ∧ ix ≤ g.nax - 3 then dvx g k.d1 k.d2 ix iz
  else rd g .vx (uppr ix g.nax) iz - rd g .vx (lowr ix) iz
def dvzN (k : Coef K) (ix iz : Int) : Expr Cell K :=
  if iz ≥ 1 ∧ iz ≤ g.naz - 3 then dvz g k.d1 k.d2 ix iz
  else rd g .vz ix (uppr iz g.naz) - rd g .vz ix (lowr iz)
def dvzT (k : Coef K) (ix iz : Int) : Expr Cell K :=
  if ix ≥ 2 ∧ ix ≤ g.nax - 2 then
    .c k.d1 * (rd g .vz ix iz - rd g .vz (ix - 1) iz) + .c k.d2 * (rd g .vz (ix + 1) iz - rd g .vz (ix - 2) iz)
  else rd g .vz ix iz - rd g .vz (lowr ix) iz
def dvxT (k : Coef K) (ix iz : Int) : Expr Cell K :=
  if iz ≥ 2 ∧ iz ≤ g.naz - 2 then
    .c k.d1 * (rd g .vx ix iz - rd g .vx ix (iz - 1)) + .c k.d2 * (rd g .vx ix (iz + 1) - rd g .vx ix (iz - 2))
  else rd g .vx ix iz - rd g .vx ix (lowr iz)

/-- `psi[i] = b[j]*psi[i] + c[j]*d` when `on` (boundaries.c:395-402). -/
def mem' (on : Bool) (psi b c : Arr) (j : Int) (ix iz : Int) (d : Expr Cell K) : List (Stmt Cell K) :=
  if on then [⟨(psi, el g.naz ix iz), rd1 b j * rd g psi ix iz + rd1 c j * d⟩] else []
/-- `ik[j]*d + psi[i]` when `on`, `d` otherwise. -/
def str (on : Bool) (psi ik : Arr) (j : Int) (ix iz : Int) (d : Expr Cell K) : Expr Cell K :=
  if on then rd1 ik j * d + rd g psi ix iz else d

/-- PML cell of `vx` (boundaries.c:376-403). -/
def vxPml (k : Coef K) (ix iz : Int) (inx inz : Bool) : List (Stmt Cell K) :=
  mem' g inx .psiVxX .bxf .cxf ix ix iz (dpxX g k ix iz) ++ mem' g inz .psiVxZ .bzf .czf iz ix iz (dpzX g k ix iz) ++
  [⟨(.vx, el g.naz ix iz), rd g .vx ix iz - rd g .rox ix iz *
    (str g inx .psiVxX .ikxf ix ix iz (dpxX g k ix iz) + str g inz .psiVxZ .ikzf iz ix iz (dpzX g k ix iz))⟩]

/-- PML cell of `vz` (boundaries.c:422-449). -/
def vzPml (k : Coef K) (ix iz : Int) (inx inz : Bool) : List (Stmt Cell K) :=
  mem' g inz .psiVzZ .bzf .czf iz ix iz (dpzZ g k ix iz) ++ mem' g inx .psiVzX .bxf .cxf ix ix iz (dpxZ g k ix iz) ++
  [⟨(.vz, el g.naz ix iz), rd g .vz ix iz - rd g .roz ix iz *
    (str g inz .psiVzZ .ikzf iz ix iz (dpzZ g k ix iz) + str g inx .psiVzX .ikxf ix ix iz (dpxZ g k ix iz))⟩]

/-- Normal stresses in the PML (boundaries.c:1520-1547). -/
def nrmPml (k : Coef K) (ix iz : Int) (inx inz : Bool) : List (Stmt Cell K) :=
  mem' g inx .psiPX .bxc .cxc ix ix iz (dvxN g k ix iz) ++ mem' g inz .psiPZ .bzc .czc iz ix iz (dvzN g k ix iz) ++
  [⟨(.txx, el g.naz ix iz), rd g .txx ix iz -
      (rd g .l2m ix iz * str g inx .psiPX .ikxc ix ix iz (dvxN g k ix iz) +
       rd g .lam ix iz * str g inz .psiPZ .ikzc iz ix iz (dvzN g k ix iz))⟩,
   ⟨(.tzz, el g.naz ix iz), rd g .tzz ix iz -
      (rd g .l2m ix iz * str g inz .psiPZ .ikzc iz ix iz (dvzN g k ix iz) +
       rd g .lam ix iz * str g inx .psiPX .ikxc ix ix iz (dvxN g k ix iz))⟩]

/-- Shear stress in the PML (boundaries.c:1567-1591). -/
def shrPml (k : Coef K) (ix iz : Int) (inx inz : Bool) : List (Stmt Cell K) :=
  mem' g inx .psiTX .bxg .cxg ix ix iz (dvzT g k ix iz) ++ mem' g inz .psiTZ .bzg .czg iz ix iz (dvxT g k ix iz) ++
  [⟨(.txz, el g.naz ix iz), rd g .txz ix iz - rd g .mul ix iz *
    (str g inx .psiTX .ikxg ix ix iz (dvzT g k ix iz) + str g inz .psiTZ .ikzg iz ix iz (dvxT g k ix iz))⟩]

/-- `in_x` and `in_z` for a grid whose interior is `lo ≤ i < hi`. -/
def inX (lo hi ix : Int) : Bool := (g.lef = 2 && ix < lo) || (g.rig = 2 && ix ≥ hi)
def inZ (lo hi iz : Int) : Bool := (g.top = 2 && iz < lo) || (g.bot = 2 && iz ≥ hi)

/-- A loop over the PML cells of a rectangle (boundaries.c:363-405): cells that are in no PML are skipped. -/
def pmlLoop (ixo ixe izo ize xlo xhi zlo zhi : Int) (body : Int → Int → Bool → Bool → List (Stmt Cell K)) :
    List (List (Stmt Cell K)) :=
  sweep ixo ixe izo ize fun ix iz =>
    if !inX g xlo xhi ix && !inZ g zlo zhi iz then [] else body ix iz (inX g xlo xhi ix) (inZ g zlo zhi iz)

/-- The PML loop over `vx` (boundaries.c:363-405). -/
def pmlVx (k : Coef K) : List (List (Stmt Cell K)) :=
  pmlLoop g (max0 (g.ioXx - g.npml)) (minTo (g.ieXx + g.npml) g.nax)
    (if g.top = 2 then max0 (g.ioXz - g.npml) else g.ioXz) (if g.bot = 2 then minTo (g.ieXz + g.npml) g.naz else g.ieXz)
    g.ioXx g.ieXx g.ioXz g.ieXz (vxPml g k)

/-- The PML loop over `vz` (boundaries.c:409-451). -/
def pmlVz (k : Coef K) : List (List (Stmt Cell K)) :=
  pmlLoop g (max0 (g.ioZx - g.npml)) (minTo (g.ieZx + g.npml) g.nax)
    (if g.top = 2 then max0 (g.ioZz - g.npml) else g.ioZz) (if g.bot = 2 then minTo (g.ieZz + g.npml) g.naz else g.ieZz)
    g.ioZx g.ieZx g.ioZz g.ieZz (vzPml g k)

/-- Ghost velocities at the left PML edge (boundaries.c:454-462). -/
def ghostLef : List (List (Stmt Cell K)) :=
  if g.lef = 2 then
    parfor 0 g.naz fun iz => [cp g .vx 1 iz 2 iz, cp g .vx 0 iz 2 iz, cp g .vz 1 iz 2 iz, cp g .vz 0 iz 2 iz]
  else []

/-- Ghost velocities at the top PML edge (boundaries.c:463-471). -/
def ghostTop : List (List (Stmt Cell K)) :=
  if g.top = 2 then
    parfor 0 g.nax fun ix => [cp g .vx ix 1 ix 2, cp g .vx ix 0 ix 2, cp g .vz ix 1 ix 2, cp g .vz ix 0 ix 2]
  else []

/-- The PML part of `boundariesP` (boundaries.c:349-472). -/
def pmlP (k : Coef K) (first : Bool) : List (List (List (Stmt Cell K))) :=
  if g.pml then
    (if first then [[clear g .psiVxX ++ clear g .psiVzZ ++ clear g .psiVxZ ++ clear g .psiVzX]] else []) ++
    [pmlVx g k, pmlVz g k, ghostLef g, ghostTop g]
  else []

/-- Multiplication with a taper value. -/
def tapS (a : Arr) (ix iz : Int) (t : Arr) (j : Int) : Stmt Cell K := ⟨(a, el g.naz ix iz), rd g a ix iz * rd1 t j⟩

/-- Tapered loops over `vx` and `vz`, with the taper `t[w ix iz]` (boundaries.c:611-622, 672-683). -/
def taperX (k : Coef K) (ixo ixe izo ize : Int) (t : Arr) (w : Int → Int → Int) : List (List (Stmt Cell K)) :=
  sweep ixo ixe izo ize fun ix iz => [vxS g k.d1 k.d2 ix iz, tapS g .vx ix iz t (w ix iz)]
def taperZ (k : Coef K) (ixo ixe izo ize : Int) (t : Arr) (w : Int → Int → Int) : List (List (Stmt Cell K)) :=
  sweep ixo ixe izo ize fun ix iz => [vzS g k.d1 k.d2 ix iz, tapS g .vz ix iz t (w ix iz)]

/-- Tapers at the top and its corners (boundaries.c:601-726). -/
def taperTop (k : Coef K) : List (List (List (Stmt Cell K))) :=
  if g.top = 4 then
    [taperX g k g.ioXx g.ieXx (g.ioXz - g.npml) g.ioXz .tapx fun _ iz => g.npml + (g.ioXz - g.npml) - 1 - iz] ++
    (if g.rig = 4 then
      [taperX g k g.ieXx (g.ieXx + g.npml) (g.ioXz - g.npml) g.ioXz .tapxz fun ix iz =>
        (ix - g.ieXx) * g.npml + (g.npml + (g.ioXz - g.npml) - 1 - iz)] else []) ++
    (if g.lef = 4 then
      [taperX g k (g.ioXx - g.npml) g.ioXx (g.ioXz - g.npml) g.ioXz .tapxz fun ix iz =>
        (g.npml + (g.ioXx - g.npml) - 1 - ix) * g.npml + (g.npml + (g.ioXz - g.npml) - 1 - iz)] else []) ++
    [taperZ g k g.ioZx g.ieZx (g.ioZz - g.npml) g.ioZz .tapz fun _ iz => g.npml + (g.ioZz - g.npml) - 1 - iz] ++
    (if g.rig = 4 then
      [taperZ g k g.ieZx (g.ieZx + g.npml) (g.ioZz - g.npml) g.ioZz .tapxz fun ix iz =>
        (ix - g.ieZx) * g.npml + (g.npml + (g.ioZz - g.npml) - 1 - iz)] else []) ++
    (if g.lef = 4 then
      [taperZ g k (g.ioZx - g.npml) g.ioZx (g.ioZz - g.npml) g.ioZz .tapxz fun ix iz =>
        (g.npml + (g.ioZx - g.npml) - 1 - ix) * g.npml + (g.npml + (g.ioZz - g.npml) - 1 - iz)] else [])
  else []

/-- Tapers at the bottom and its corners (boundaries.c:847-976). -/
def taperBot (k : Coef K) : List (List (List (Stmt Cell K))) :=
  if g.bot = 4 then
    [taperX g k g.ioXx g.ieXx g.ieXz (g.ieXz + g.npml) .tapx fun _ iz => iz - (g.ieXz + g.npml - g.npml)] ++
    (if g.rig = 4 then
      [taperX g k g.ieXx (g.ieXx + g.npml) g.ieXz (g.ieXz + g.npml) .tapxz fun ix iz =>
        (ix - g.ieXx) * g.npml + (iz - g.ieXz)] else []) ++
    (if g.lef = 4 then
      [taperX g k (g.ioXx - g.npml) g.ioXx g.ieXz (g.ieXz + g.npml) .tapxz fun ix iz =>
        (g.npml + (g.ioXx - g.npml) - 1 - ix) * g.npml + (iz - g.ieXz)] else []) ++
    [taperZ g k g.ioZx g.ieZx g.ieZz (g.ieZz + g.npml) .tapz fun _ iz => iz - (g.ieZz + g.npml - g.npml)] ++
    (if g.rig = 4 then
      [taperZ g k g.ieZx (g.ieZx + g.npml) g.ieZz (g.ieZz + g.npml) .tapxz fun ix iz =>
        (ix - g.ieZx) * g.npml + (iz - g.ieZz)] else []) ++
    (if g.lef = 4 then
      [taperZ g k (g.ioZx - g.npml) g.ioZx g.ieZz (g.ieZz + g.npml) .tapxz fun ix iz =>
        (g.npml + (g.ioZx - g.npml) - 1 - ix) * g.npml + (iz - g.ieZz)] else [])
  else []

/-- Tapers at the left (boundaries.c:1026-1069). -/
def taperLef (k : Coef K) : List (List (List (Stmt Cell K))) :=
  if g.lef = 4 then
    [taperX g k (g.ioXx - g.npml) g.ioXx g.ioXz g.ieXz .tapx fun ix _ => g.npml + (g.ioXx - g.npml) - 1 - ix,
     taperZ g k (g.ioZx - g.npml) g.ioZx g.ioZz g.ieZz .tapz fun ix _ => g.npml + (g.ioZx - g.npml) - 1 - ix]
  else []

/-- Tapers at the right (boundaries.c:1119-1160). -/
def taperRig (k : Coef K) : List (List (List (Stmt Cell K))) :=
  if g.rig = 4 then
    [taperX g k g.ieXx (g.ieXx + g.npml) g.ioXz g.ieXz .tapx fun ix _ => ix - (g.ieXx + g.npml - g.npml),
     taperZ g k g.ieZx (g.ieZx + g.npml) g.ioZz g.ieZz .tapz fun ix _ => ix - (g.ieZx + g.npml - g.npml)]
  else []

/-- The two stress loops (elastic4.c:121-148); the first one is `nowait`, and both use the same ranges. -/
def strPhase (k : Coef K) : List (List (Stmt Cell K)) :=
  sweep (ix0 g) (ix1 g) (iz0 g) (iz1 g) (fun ix iz => nrmS g k.c1 k.c2 ix iz) ++
  sweep (ix0 g) (ix1 g) (iz0 g) (iz1 g) (fun ix iz => [shrS g k.c1 k.c2 ix iz])

/-- The PML loop over the normal stresses (boundaries.c:1508-1549). -/
def pmlNrm (k : Coef K) : List (List (Stmt Cell K)) :=
  pmlLoop g g.ioPx (if g.rig = 2 then minTo (g.ieXx + g.npml) g.nax else g.iePx)
    (if g.top = 2 then g.ioPz else g.ioXz)
    (if g.bot = 2 then (if g.bot = 2 then minTo (g.ieXz + g.npml) g.naz else g.iePz) else g.ieXz)
    g.ioXx g.ieXx g.ioXz g.ieXz (nrmPml g k)

/-- The PML loop over the shear stress (boundaries.c:1554-1593). -/
def pmlShr (k : Coef K) : List (List (Stmt Cell K)) :=
  pmlLoop g (ioTx g) (if g.rig = 2 then minTo (g.ieXx + g.npml) g.nax else ieTx g)
    (if g.top = 2 then ioTz g else g.ioXz)
    (if g.bot = 2 then (if g.bot = 2 then minTo (g.ieXz + g.npml) g.naz else ieTz g) else g.ieXz)
    g.ioXx g.ieXx g.ioXz g.ieXz (shrPml g k)

/-- The PML part of `boundariesV` (boundaries.c:1490-1595). -/
def pmlV (k : Coef K) (first : Bool) : List (List (List (Stmt Cell K))) :=
  if g.pml then
    (if first then [[clear g .psiPX ++ clear g .psiPZ ++ clear g .psiTX ++ clear g .psiTZ]] else []) ++
    [pmlNrm g k, pmlShr g k]
  else []

/-- `if (l2m!=0) a = -dv*(l2m-lam*lam/l2m)` (boundaries.c:1692-1697), see the head of this file. -/
def surf (a : Arr) (ix iz : Int) (dv : Expr Cell K) : Stmt Cell K :=
  ⟨(a, el g.naz ix iz), rd g .keep ix iz * rd g a ix iz + (.zero - dv * rd g .frs ix iz)⟩

/-- Free surface at the top (boundaries.c:1661-1700). -/
def freeTop (k : Coef K) : List (List (List (Stmt Cell K))) :=
  if g.top = 1 then
    [parfor g.ioPx g.iePx fun ix => [zr g .tzz ix g.surface],
     parfor (ioTx g) (ieTx g) fun ix =>
       [ng g .txz ix g.surface ix (g.surface + 1), ng g .txz ix (g.surface - 1) ix (g.surface + 2)],
     parfor g.ioPx g.iePx fun ix => [surf g .txx ix g.surface (dvx g k.d1 k.d2 ix g.surface)]]
  else []

/-- Free surface at the right (boundaries.c:1743-1767). -/
def freeRig (k : Coef K) : List (List (List (Stmt Cell K))) :=
  if g.rig = 1 then
    [parfor g.ioPz g.iePz fun iz => [zr g .txx g.iePx iz],
     parfor (ioTz g) (ieTz g) fun iz =>
       [ng g .txz (g.iePx + 1) iz g.iePx iz, ng g .txz (g.iePx + 2) iz (g.iePx - 1) iz],
     parfor g.ioPz g.iePz fun iz => [surf g .tzz g.iePx iz (dvz g k.d1 k.d2 g.iePx iz)]]
  else []

/-- Free surface at the bottom (boundaries.c:1770-1794). -/
def freeBot (k : Coef K) : List (List (List (Stmt Cell K))) :=
  if g.bot = 1 then
    [parfor g.ioPx g.iePx fun ix => [zr g .tzz ix g.iePz],
     parfor (ioTx g) (ieTx g) fun ix =>
       [ng g .txz ix (g.iePz + 1) ix g.iePz, ng g .txz ix (g.iePz + 2) ix (g.iePz - 1)],
     parfor g.ioPx g.iePx fun ix => [surf g .txx ix g.iePz (dvx g k.d1 k.d2 ix g.iePz)]]
  else []

/-- Free surface at the left (boundaries.c:1796-1820). -/
def freeLef (k : Coef K) : List (List (List (Stmt Cell K))) :=
  if g.lef = 1 then
    [parfor g.ioPz g.iePz fun iz => [zr g .txx g.ioPx iz],
     parfor (ioTz g) (ieTz g) fun iz =>
       [ng g .txz g.ioPx iz (g.ioPx + 1) iz, ng g .txz (g.ioPx - 1) iz (g.ioPx + 2) iz],
     parfor g.ioPz g.iePz fun iz => [surf g .tzz g.ioPx iz (dvz g k.d1 k.d2 g.ioPx iz)]]
  else []

/-- The velocity half of a time step after the interior loops (boundariesP). -/
def bndP (k : Coef K) (first : Bool) : List (List (List (Stmt Cell K))) :=
  [wallPhase g] ++ pmlP g k first ++ taperTop g k ++ taperBot g k ++ taperLef g k ++ taperRig g k

/-- The free surfaces. -/
def free (k : Coef K) : List (List (List (Stmt Cell K))) := freeTop g k ++ freeRig g k ++ freeBot g k ++ freeLef g k

/-- One time step of `elastic4` without source: the phases between barriers (elastic4.c:20-170). -/
def phases (k : Coef K) (first : Bool) : List (List (List (Stmt Cell K))) :=
  [velPhase g k] ++ bndP g k first ++ [strPhase g k] ++ pmlV g k first ++ free g k

/-- The time step as a sequential program. -/
def stepProg (k : Coef K) (first : Bool) : List (Stmt Cell K) := seqOf (phases g k first)

/-- `n` time steps; the first one clears the memory variables. -/
def steps [CommRing K] (k : Coef K) : Nat → (Cell → K) → (Cell → K)
  | 0, m => m
  | n + 1, m => run (stepProg g k (n = 0)) (steps k n m)

/-- The arrays `keep` and `frs` hold what the code computes from `l2m` and `lam` on a free surface. -/
def FreeMed [CommRing K] (med : Cell → K) : Prop := ∀ i,
  (med (.l2m, i) = 0 → med (.keep, i) = 1 ∧ med (.frs, i) = 0) ∧
  (med (.l2m, i) ≠ 0 → med (.keep, i) = 0 ∧
    med (.frs, i) * med (.l2m, i) = med (.l2m, i) * med (.l2m, i) - med (.lam, i) * med (.lam, i))

end Model
end Verif.Fd.Ela

import Verif.Base.Stencil

/-!
# Model of the acoustic fourth-order time step (fdelmodc/acoustic4.c, boundaries.c), without source

Arithmetic is exact (a commutative ring instead of `float`).  The coefficients of the interior stencil (acoustic4.c:79-80)
and of the boundary stencils (boundaries.c:33-34, 1215-1216) are parameters.  Local variables (`dpx`, `dvx`, …) are replaced
by the expressions they hold.  Boundary types are 1 (free), 2 (PML), 3 (rigid), 4 (taper); the moving surface (5) is not
modelled.  The arrays `psi_vx_z`, `psi_vz_x`, `psi_txz_*` are only cleared by the acoustic scheme and left out.
-/

namespace Verif.Fd.Acou

open Verif.Sten

/-- The arrays: wave fields and memory variables of the PML, media, tapers, PML coefficients, the sample a receiver
records (`out`, not touched by the time step), and what the sources need (`Verif.Fd.AcouSource`): the amplitudes of the
sources at this time step, the saved values of sourceOnSurface.c, and the reciprocal of `l2m`. -/
inductive Arr
  | vx | vz | p | psiVxX | psiVzZ | psiPX | psiPZ
  | rox | roz | l2m | tapx | tapz | tapxz | out
  | bxf | cxf | ikxf | bzf | czf | ikzf | bxc | cxc | ikxc | bzc | czc | ikzc
  | amp | s1x | s1z | s2z | il2m
  deriving DecidableEq, Repr

/-- An array element. -/
abbrev Cell := Arr × Int

/-- Wave fields, memory variables, source amplitudes and saved values change; everything else is a parameter. -/
def fld : Cell → Bool
  | (.vx, _) => true | (.vz, _) => true | (.p, _) => true
  | (.psiVxX, _) => true | (.psiVzZ, _) => true | (.psiPX, _) => true | (.psiPZ, _) => true
  | (.amp, _) => true | (.s1x, _) => true | (.s1z, _) => true | (.s2z, _) => true
  | _ => false

/-- The grid as the user sets it up. -/
structure Cfg where
  nx : Int
  nz : Int
  npml : Int
  top : Int
  bot : Int
  lef : Int
  rig : Int

namespace Cfg
variable (g : Cfg)

/-- Extra points at a side with taper or PML (getParameters.c:454-507). -/
def pad (side : Int) : Int := if side = 4 ∨ side = 2 then g.npml else 0

/-- `mod.naz` (getParameters.c:449,455,484) for `iorder=4`. -/
def naz : Int := g.nz + 4 + g.pad g.top + g.pad g.bot
/-- `mod.nax` (getParameters.c:450,490,503). -/
def nax : Int := g.nx + 4 + g.pad g.lef + g.pad g.rig
/-- `mod.ioXx` (getParameters.c:423,491). -/
def ioXx : Int := 2 + g.pad g.lef
/-- `mod.ioXz` (getParameters.c:424,456). -/
def ioXz : Int := 1 + g.pad g.top
/-- `mod.ioZx` (getParameters.c:426,492). -/
def ioZx : Int := 1 + g.pad g.lef
/-- `mod.ioZz` (getParameters.c:427,457). -/
def ioZz : Int := 2 + g.pad g.top
/-- `mod.ioPx` (getParameters.c:429). -/
def ioPx (_g : Cfg) : Int := 1
/-- `mod.ioPz` (getParameters.c:430). -/
def ioPz (_g : Cfg) : Int := 1
/-- `mod.ieXx` (getParameters.c:437,493). -/
def ieXx : Int := g.nx + 2 + g.pad g.lef
/-- `mod.ieXz` (getParameters.c:438,458). -/
def ieXz : Int := g.nz + 1 + g.pad g.top
/-- `mod.ieZx` (getParameters.c:440,494). -/
def ieZx : Int := g.nx + 1 + g.pad g.lef
/-- `mod.ieZz` (getParameters.c:441,459). -/
def ieZz : Int := g.nz + 2 + g.pad g.top
/-- `mod.iePx` (getParameters.c:443,499,505). -/
def iePx : Int := g.nx + 1 + g.pad g.lef + g.pad g.rig
/-- `mod.iePz` (getParameters.c:444,464,486). -/
def iePz : Int := g.nz + 1 + g.pad g.top + g.pad g.bot
/-- `bnd.surface[ix]` (getParameters.c:527-531). -/
def surface (_g : Cfg) : Int := 1
/-- `ibnd = mod.iorder/2-1` (boundaries.c:45). -/
def ibnd (_g : Cfg) : Int := 1

/-- The PML ranges of the pressure sweep (acoustic4.c:117-120, boundaries.c:1417-1420). -/
def ioPx' : Int := if g.lef = 2 then g.ioPx + g.npml else g.ioPx
def iePx' : Int := if g.rig = 2 then g.iePx - g.npml else g.iePx
def ioPz' : Int := if g.top = 2 then g.ioPz + g.npml else g.ioPz
def iePz' : Int := if g.bot = 2 then g.iePz - g.npml else g.iePz

/-- `pml` (boundaries.c:43). -/
def pml : Bool := g.lef = 2 || g.rig = 2 || g.top = 2 || g.bot = 2

/-- Number of elements of the arrays (fdelmodc.c: `sizem=mod.nax*mod.naz`; getParameters.c:388-390; boundaries.c:145-154,
1249-1260). -/
def size : Arr → Int
  | .tapx => g.npml | .tapz => g.npml | .tapxz => g.npml * g.npml
  | .bxf => g.nax | .cxf => g.nax | .ikxf => g.nax | .bxc => g.nax | .cxc => g.nax | .ikxc => g.nax
  | .bzf => g.naz | .czf => g.naz | .ikzf => g.naz | .bzc => g.naz | .czc => g.naz | .ikzc => g.naz
  | _ => g.nax * g.naz

/-- The cell exists. -/
def ok (a : Cell) : Bool := 0 ≤ a.2 && a.2 < g.size a.1

end Cfg

section Model
variable {K : Type} (g : Cfg)

/-- Stencil coefficients: `c1`,`c2` of acoustic4.c:79-80 and of boundaries.c:33-34. -/
structure Coef (K : Type) where
  c1 : K
  c2 : K
  d1 : K
  d2 : K

/-- Read an element. -/
def rd (a : Arr) (i : Int) : Expr Cell K := .rd (a, i)

/-- `c1*(p[ix*n1+iz] - p[(ix-1)*n1+iz]) + c2*(p[(ix+1)*n1+iz] - p[(ix-2)*n1+iz])` (acoustic4.c:96-98). -/
def dpx (k1 k2 : K) (ix iz : Int) : Expr Cell K :=
  .c k1 * (rd .p (ix * g.naz + iz) - rd .p ((ix - 1) * g.naz + iz)) +
  .c k2 * (rd .p ((ix + 1) * g.naz + iz) - rd .p ((ix - 2) * g.naz + iz))

/-- `c1*(p[ix*n1+iz] - p[ix*n1+iz-1]) + c2*(p[ix*n1+iz+1] - p[ix*n1+iz-2])` (acoustic4.c:108-109). -/
def dpz (k1 k2 : K) (ix iz : Int) : Expr Cell K :=
  .c k1 * (rd .p (ix * g.naz + iz) - rd .p (ix * g.naz + iz - 1)) +
  .c k2 * (rd .p (ix * g.naz + iz + 1) - rd .p (ix * g.naz + iz - 2))

/-- The update of `vx` (acoustic4.c:95-98; the same in the tapers, boundaries.c:499-501). -/
def vxS (k1 k2 : K) (ix iz : Int) : Stmt Cell K :=
  ⟨(.vx, ix * g.naz + iz), rd .vx (ix * g.naz + iz) - rd .rox (ix * g.naz + iz) * dpx g k1 k2 ix iz⟩

/-- The update of `vz` (acoustic4.c:107-109; boundaries.c:555-557). -/
def vzS (k1 k2 : K) (ix iz : Int) : Stmt Cell K :=
  ⟨(.vz, ix * g.naz + iz), rd .vz (ix * g.naz + iz) - rd .roz (ix * g.naz + iz) * dpz g k1 k2 ix iz⟩

/-- The update of `p` (acoustic4.c:129-133). -/
def pS (k1 k2 : K) (ix iz : Int) : Stmt Cell K :=
  ⟨(.p, ix * g.naz + iz), rd .p (ix * g.naz + iz) - rd .l2m (ix * g.naz + iz) * (
    .c k1 * (rd .vx ((ix + 1) * g.naz + iz) - rd .vx (ix * g.naz + iz)) +
    .c k2 * (rd .vx ((ix + 2) * g.naz + iz) - rd .vx ((ix - 1) * g.naz + iz)) +
    .c k1 * (rd .vz (ix * g.naz + iz + 1) - rd .vz (ix * g.naz + iz)) +
    .c k2 * (rd .vz (ix * g.naz + iz + 2) - rd .vz (ix * g.naz + iz - 1)))⟩

/-- Parallel loop over columns, sequential loop over depth. -/
def sweep (ixo ixe izo ize : Int) (body : Int → Int → List (Stmt Cell K)) : List (List (Stmt Cell K)) :=
  parfor ixo ixe fun ix => loop izo ize fun iz => body ix iz

/-- The two velocity loops (acoustic4.c:91-111); the first one is `nowait`. -/
def velPhase (k : Coef K) : List (List (Stmt Cell K)) :=
  sweep g.ioXx g.ieXx g.ioXz g.ieXz (fun ix iz => [vxS g k.c1 k.c2 ix iz]) ++
  sweep g.ioZx g.ieZx g.ioZz g.ieZz (fun ix iz => [vzS g k.c1 k.c2 ix iz])

/-- A copy with or without change of sign. -/
def cp (a : Arr) (i j : Int) : Stmt Cell K := ⟨(a, i), rd a j⟩
def ng (a : Arr) (i j : Int) : Stmt Cell K := ⟨(a, i), .zero - rd a j⟩

/-- Free surface at the top (boundaries.c:47-57). -/
def freeTop : List (List (Stmt Cell K)) :=
  if g.top = 1 then
    parfor g.ioPx g.iePx fun ix =>
      [cp .vz (ix * g.naz + g.surface) (ix * g.naz + g.surface + 1),
       cp .vz (ix * g.naz + g.surface - 1) (ix * g.naz + g.surface + 2)]
  else []

/-- Rigid top (boundaries.c:62-75). -/
def rigidTop : List (List (Stmt Cell K)) :=
  if g.top = 3 then
    parfor 1 (g.nx + 1) fun ix =>
      ng .vz (ix * g.naz + g.ibnd) (ix * g.naz + g.ibnd + 1) ::
      loop 1 (g.ibnd + 1) fun ib => [ng .vz (ix * g.naz + g.ibnd - ib) (ix * g.naz + g.ibnd + 1 + ib)]
  else []

/-- Rigid right side (boundaries.c:77-92). -/
def rigidRig : List (List (Stmt Cell K)) :=
  if g.rig = 3 then
    parfor 1 (g.nz + 1) fun iz =>
      ng .vx ((g.nx + g.ibnd) * g.naz + iz) ((g.nx + g.ibnd - 1) * g.naz + iz) ::
      loop 1 (g.ibnd + 1) fun ib => [ng .vx ((g.nx + g.ibnd + ib) * g.naz + iz) ((g.nx - ib) * g.naz + iz)]
  else []

/-- Rigid bottom (boundaries.c:93-108). -/
def rigidBot : List (List (Stmt Cell K)) :=
  if g.bot = 3 then
    parfor 1 (g.nx + 1) fun ix =>
      ng .vz (ix * g.naz + g.nz + g.ibnd) (ix * g.naz + g.nz + g.ibnd - 1) ::
      loop 1 (g.ibnd + 1) fun ib => [ng .vz (ix * g.naz + g.nz + g.ibnd + ib) (ix * g.naz + g.nz - ib)]
  else []

/-- Rigid left side (boundaries.c:109-124). -/
def rigidLef : List (List (Stmt Cell K)) :=
  if g.lef = 3 then
    parfor 1 (g.nz + 1) fun iz =>
      ng .vx (g.ibnd * g.naz + iz) ((g.ibnd + 1) * g.naz + iz) ::
      loop 1 (g.ibnd + 1) fun ib => [ng .vx ((ib - g.ibnd) * g.naz + iz) ((g.ibnd + 1 + ib) * g.naz + iz)]
  else []

/-- These loops are all `nowait`; the barrier comes at boundaries.c:227. -/
def wallPhase : List (List (Stmt Cell K)) := freeTop g ++ rigidTop g ++ rigidRig g ++ rigidBot g ++ rigidLef g

/-- `memset` of a memory variable (boundaries.c:235-236, 1409-1410), by the master thread. -/
def clear (a : Arr) : List (Stmt Cell K) := loop 0 (g.nax * g.naz) fun i => [⟨(a, i), .zero⟩]

/-- `max` and `min` as the code writes them. -/
def max0 (x : Int) : Int := if x > 0 then x else 0
def minTo (x n : Int) : Int := if x < n then x else n

/-- PML cell of `vx` with damping in x (boundaries.c:252-257). -/
def vxPml (k : Coef K) (ix iz : Int) : List (Stmt Cell K) :=
  [⟨(.psiVxX, ix * g.naz + iz), rd .bxf ix * rd .psiVxX (ix * g.naz + iz) + rd .cxf ix * dpx g k.d1 k.d2 ix iz⟩,
   ⟨(.vx, ix * g.naz + iz), rd .vx (ix * g.naz + iz) - rd .rox (ix * g.naz + iz) *
     (rd .ikxf ix * dpx g k.d1 k.d2 ix iz + rd .psiVxX (ix * g.naz + iz))⟩]

/-- PML cell of `vz` with damping in z (boundaries.c:306-310). -/
def vzPml (k : Coef K) (ix iz : Int) : List (Stmt Cell K) :=
  [⟨(.psiVzZ, ix * g.naz + iz), rd .bzf iz * rd .psiVzZ (ix * g.naz + iz) + rd .czf iz * dpz g k.d1 k.d2 ix iz⟩,
   ⟨(.vz, ix * g.naz + iz), rd .vz (ix * g.naz + iz) - rd .roz (ix * g.naz + iz) *
     (rd .ikzf iz * dpz g k.d1 k.d2 ix iz + rd .psiVzZ (ix * g.naz + iz))⟩]

/-- The PML loop over `vx` (boundaries.c:244-278). -/
def pmlVx (k : Coef K) : List (List (Stmt Cell K)) :=
  parfor (max0 (g.ioXx - g.npml)) (minTo (g.ieXx + g.npml) g.nax) fun ix =>
    if (g.lef = 2 ∧ ix < g.ioXx) ∨ (g.rig = 2 ∧ ix ≥ g.ieXx) then
      loop (max0 (g.ioXz - g.npml)) (minTo (g.ieXz + g.npml) g.naz) fun iz => vxPml g k ix iz
    else
      (if g.top = 2 then loop (max0 (g.ioXz - g.npml)) g.ioXz fun iz => [vxS g k.d1 k.d2 ix iz] else []) ++
      (if g.bot = 2 then loop g.ieXz (minTo (g.ieXz + g.npml) g.naz) fun iz => [vxS g k.d1 k.d2 ix iz] else [])

/-- The PML loop over `vz` (boundaries.c:280-324). -/
def pmlVz (k : Coef K) : List (List (Stmt Cell K)) :=
  parfor (max0 (g.ioZx - g.npml)) (minTo (g.ieZx + g.npml) g.nax) fun ix =>
    if (g.lef = 2 ∧ ix < g.ioZx) ∨ (g.rig = 2 ∧ ix ≥ g.ieZx) then
      loop (max0 (g.ioZz - g.npml)) (minTo (g.ieZz + g.npml) g.naz) fun iz =>
        if (g.top = 2 ∧ iz < g.ioZz) ∨ (g.bot = 2 ∧ iz ≥ g.ieZz) then vzPml g k ix iz else [vzS g k.d1 k.d2 ix iz]
    else
      (if g.top = 2 then loop (max0 (g.ioZz - g.npml)) g.ioZz fun iz => vzPml g k ix iz else []) ++
      (if g.bot = 2 then loop g.ieZz (minTo (g.ieZz + g.npml) g.naz) fun iz => vzPml g k ix iz else [])

/-- Ghost velocities at the left PML edge (boundaries.c:328-336). -/
def ghostLef : List (List (Stmt Cell K)) :=
  if g.lef = 2 then
    parfor 0 g.naz fun iz =>
      [cp .vx (1 * g.naz + iz) (2 * g.naz + iz), cp .vx (0 * g.naz + iz) (2 * g.naz + iz),
       cp .vz (1 * g.naz + iz) (2 * g.naz + iz), cp .vz (0 * g.naz + iz) (2 * g.naz + iz)]
  else []

/-- Ghost velocities at the top PML edge (boundaries.c:337-345). -/
def ghostTop : List (List (Stmt Cell K)) :=
  if g.top = 2 then
    parfor 0 g.nax fun ix =>
      [cp .vx (ix * g.naz + 1) (ix * g.naz + 2), cp .vx (ix * g.naz + 0) (ix * g.naz + 2),
       cp .vz (ix * g.naz + 1) (ix * g.naz + 2), cp .vz (ix * g.naz + 0) (ix * g.naz + 2)]
  else []

/-- The PML part of `boundariesP` (boundaries.c:229-347); the memory variables are cleared at the first time step. -/
def pmlP (k : Coef K) (first : Bool) : List (List (List (Stmt Cell K))) :=
  if g.pml then
    (if first then [[clear g .psiVxX ++ clear g .psiVzZ]] else []) ++
    [pmlVx g k, pmlVz g k, ghostLef g, ghostTop g]
  else []

/-- Multiplication with a taper value. -/
def tapS (a : Arr) (i : Int) (t : Arr) (j : Int) : Stmt Cell K := ⟨(a, i), rd a i * rd t j⟩

/-- A tapered loop over `vx`, with the taper `t[w ix iz]` (boundaries.c:497-506). -/
def taperX (k : Coef K) (ixo ixe izo ize : Int) (t : Arr) (w : Int → Int → Int) : List (List (Stmt Cell K)) :=
  sweep ixo ixe izo ize fun ix iz => [vxS g k.d1 k.d2 ix iz, tapS .vx (ix * g.naz + iz) t (w ix iz)]

/-- A tapered loop over `vz` (boundaries.c:553-562). -/
def taperZ (k : Coef K) (ixo ixe izo ize : Int) (t : Arr) (w : Int → Int → Int) : List (List (Stmt Cell K)) :=
  sweep ixo ixe izo ize fun ix iz => [vzS g k.d1 k.d2 ix iz, tapS .vz (ix * g.naz + iz) t (w ix iz)]

/-- Tapers at the top and its corners (boundaries.c:485-603). -/
def taperTop (k : Coef K) : List (List (List (Stmt Cell K))) :=
  if g.top = 4 then
    [taperX g k g.ioXx g.ieXx (g.ioXz - g.npml) g.ioXz .tapx fun _ iz => g.npml + (g.ioXz - g.npml) - 1 - iz] ++
    (if g.rig = 4 then
      [taperX g k g.ieXx (g.ieXx + g.npml) (g.ioXz - g.npml) g.ioXz .tapxz fun ix iz =>
        (ix - g.ieXx) * g.npml + (g.npml + (g.ioXz - g.npml) - 1 - iz)] else []) ++
    (if g.lef = 4 then
      [taperX g k (g.ioXx - g.npml) g.ioXx (g.ioXz - g.npml) g.ioXz .tapxz fun ix iz =>
        (g.npml + (g.ioXx - g.npml) - 1 - ix) * g.npml + (g.npml + (g.ioXz - g.npml) - 1 - iz)] else []) ++
    [taperZ g k g.ioZx g.ieZx (g.ioZz - g.npml) g.ioZz .tapz fun _ iz => g.npml + (g.ioZz - g.npml) - 1 - iz] ++
    (if g.rig = 4 then
      [taperZ g k g.ieZx (g.ieZx + g.npml) (g.ioZz - g.npml) g.ioZz .tapxz fun ix iz =>
        (ix - g.ieZx) * g.npml + (g.npml + (g.ioZz - g.npml) - 1 - iz)] else []) ++
    (if g.lef = 4 then
      [taperZ g k (g.ioZx - g.npml) g.ioZx (g.ioZz - g.npml) g.ioZz .tapxz fun ix iz =>
        (g.npml + (g.ioZx - g.npml) - 1 - ix) * g.npml + (g.npml + (g.ioZz - g.npml) - 1 - iz)] else [])
  else []

/-- Tapers at the bottom and its corners (boundaries.c:732-847). -/
def taperBot (k : Coef K) : List (List (List (Stmt Cell K))) :=
  if g.bot = 4 then
    [taperX g k g.ioXx g.ieXx g.ieXz (g.ieXz + g.npml) .tapx fun _ iz => iz - (g.ieXz + g.npml - g.npml)] ++
    (if g.rig = 4 then
      [taperX g k g.ieXx (g.ieXx + g.npml) g.ieXz (g.ieXz + g.npml) .tapxz fun ix iz =>
        (ix - g.ieXx) * g.npml + (iz - g.ieXz)] else []) ++
    (if g.lef = 4 then
      [taperX g k (g.ioXx - g.npml) g.ioXx g.ieXz (g.ieXz + g.npml) .tapxz fun ix iz =>
        (g.npml + (g.ioXx - g.npml) - 1 - ix) * g.npml + (iz - g.ieXz)] else []) ++
    [taperZ g k g.ioZx g.ieZx g.ieZz (g.ieZz + g.npml) .tapz fun _ iz => iz - (g.ieZz + g.npml - g.npml)] ++
    (if g.rig = 4 then
      [taperZ g k g.ieZx (g.ieZx + g.npml) g.ieZz (g.ieZz + g.npml) .tapxz fun ix iz =>
        (ix - g.ieZx) * g.npml + (iz - g.ieZz)] else []) ++
    (if g.lef = 4 then
      [taperZ g k (g.ioZx - g.npml) g.ioZx g.ieZz (g.ieZz + g.npml) .tapxz fun ix iz =>
        (g.npml + (g.ioZx - g.npml) - 1 - ix) * g.npml + (iz - g.ieZz)] else [])
  else []

/-- Tapers at the left (boundaries.c:983-1027). -/
def taperLef (k : Coef K) : List (List (List (Stmt Cell K))) :=
  if g.lef = 4 then
    [taperX g k (g.ioXx - g.npml) g.ioXx g.ioXz g.ieXz .tapx fun ix _ => g.npml + (g.ioXx - g.npml) - 1 - ix,
     taperZ g k (g.ioZx - g.npml) g.ioZx g.ioZz g.ieZz .tapz fun ix _ => g.npml + (g.ioZx - g.npml) - 1 - ix]
  else []

/-- Tapers at the right (boundaries.c:1076-1119). -/
def taperRig (k : Coef K) : List (List (List (Stmt Cell K))) :=
  if g.rig = 4 then
    [taperX g k g.ieXx (g.ieXx + g.npml) g.ioXz g.ieXz .tapx fun ix _ => ix - (g.ieXx + g.npml - g.npml),
     taperZ g k g.ieZx (g.ieZx + g.npml) g.ioZz g.ieZz .tapz fun ix _ => ix - (g.ieZx + g.npml - g.npml)]
  else []

/-- The pressure loop (acoustic4.c:116-139). -/
def pPhase (k : Coef K) : List (List (Stmt Cell K)) :=
  sweep g.ioPx' g.iePx' g.ioPz' g.iePz' fun ix iz => [pS g k.c1 k.c2 ix iz]

/-- `dvx` in the PML (boundaries.c:1435-1443). -/
def dvxPml (k : Coef K) (ix iz : Int) : Expr Cell K :=
  if ix ≥ 1 ∧ ix ≤ g.nax - 3 then
    .c k.d1 * (rd .vx ((ix + 1) * g.naz + iz) - rd .vx (ix * g.naz + iz)) +
    .c k.d2 * (rd .vx ((ix + 2) * g.naz + iz) - rd .vx ((ix - 1) * g.naz + iz))
  else
    rd .vx ((if ix + 1 < g.nax then ix + 1 else ix) * g.naz + iz) -
    rd .vx ((if ix > 0 then ix - 1 else ix) * g.naz + iz)

/-- `dvz` in the PML (boundaries.c:1444-1452). -/
def dvzPml (k : Coef K) (ix iz : Int) : Expr Cell K :=
  if iz ≥ 1 ∧ iz ≤ g.naz - 3 then
    .c k.d1 * (rd .vz (ix * g.naz + iz + 1) - rd .vz (ix * g.naz + iz)) +
    .c k.d2 * (rd .vz (ix * g.naz + iz + 2) - rd .vz (ix * g.naz + iz - 1))
  else
    rd .vz (ix * g.naz + (if iz + 1 < g.naz then iz + 1 else iz)) -
    rd .vz (ix * g.naz + (if iz > 0 then iz - 1 else iz))

/-- One pressure cell of the PML (boundaries.c:1432-1463). -/
def pPml (k : Coef K) (ix iz : Int) (inx inz : Bool) : List (Stmt Cell K) :=
  (if inx then
    [⟨(.psiPX, ix * g.naz + iz), rd .bxc ix * rd .psiPX (ix * g.naz + iz) + rd .cxc ix * dvxPml g k ix iz⟩] else []) ++
  (if inz then
    [⟨(.psiPZ, ix * g.naz + iz), rd .bzc iz * rd .psiPZ (ix * g.naz + iz) + rd .czc iz * dvzPml g k ix iz⟩] else []) ++
  [⟨(.p, ix * g.naz + iz), rd .p (ix * g.naz + iz) - rd .l2m (ix * g.naz + iz) *
    ((if inx then rd .ikxc ix * dvxPml g k ix iz + rd .psiPX (ix * g.naz + iz) else dvxPml g k ix iz) +
     (if inz then rd .ikzc iz * dvzPml g k ix iz + rd .psiPZ (ix * g.naz + iz) else dvzPml g k ix iz))⟩]

/-- The PML loop over `p` (boundaries.c:1423-1465). -/
def pmlPress (k : Coef K) : List (List (Stmt Cell K)) :=
  parfor (max0 (g.ioPx' - g.npml)) (minTo (g.iePx' + g.npml) g.nax) fun ix =>
    loop (if g.top = 2 then max0 (g.ioPz' - g.npml) else g.ioPz')
         (if g.bot = 2 then minTo (g.iePz' + g.npml) g.naz else g.iePz') fun iz =>
      let inx : Bool := (g.lef = 2 && ix < g.ioPx') || (g.rig = 2 && ix ≥ g.iePx')
      let inz : Bool := (g.top = 2 && iz < g.ioPz') || (g.bot = 2 && iz ≥ g.iePz')
      if !inx && !inz then [] else pPml g k ix iz inx inz

/-- Ghost pressures at the left PML edge (boundaries.c:1468-1474). -/
def ghostPLef : List (List (Stmt Cell K)) :=
  if g.lef = 2 then
    parfor 0 g.naz fun iz =>
      [cp .p (1 * g.naz + iz) (2 * g.naz + iz), cp .p (0 * g.naz + iz) (2 * g.naz + iz)]
  else []

/-- Ghost pressures at the top PML edge (boundaries.c:1475-1481). -/
def ghostPTop : List (List (Stmt Cell K)) :=
  if g.top = 2 then
    parfor 0 g.nax fun ix =>
      [cp .p (ix * g.naz + 1) (ix * g.naz + 2), cp .p (ix * g.naz + 0) (ix * g.naz + 2)]
  else []

/-- The PML part of `boundariesV` (boundaries.c:1403-1488). -/
def pmlV (k : Coef K) (first : Bool) : List (List (List (Stmt Cell K))) :=
  if g.pml then
    (if first then [[clear g .psiPX ++ clear g .psiPZ]] else []) ++
    [pmlPress g k, ghostPLef g, ghostPTop g]
  else []

/-- Assignment of zero. -/
def zr (a : Arr) (i : Int) : Stmt Cell K := ⟨(a, i), .zero⟩

/-- Zero pressure on the free surfaces (boundaries.c:1609-1638); all four loops are `nowait`. -/
def freePhase : List (List (Stmt Cell K)) :=
  (if g.top = 1 then parfor g.ioPx g.iePx fun ix => [zr .p (ix * g.naz + g.surface)] else []) ++
  (if g.rig = 1 then parfor g.ioPz g.iePz fun iz => [zr .p ((g.iePx - 1) * g.naz + iz)] else []) ++
  (if g.bot = 1 then parfor g.ioPx g.iePx fun ix => [zr .p (ix * g.naz + g.iePz - 1)] else []) ++
  (if g.lef = 1 then parfor g.ioPz g.iePz fun iz => [zr .p ((g.ioPx - 1) * g.naz + iz)] else [])

/-- One time step of `acoustic4` without source: the phases between barriers (acoustic4.c:20-159). -/
def phases (k : Coef K) (first : Bool) : List (List (List (Stmt Cell K))) :=
  [velPhase g k, wallPhase g] ++ pmlP g k first ++ taperTop g k ++ taperBot g k ++ taperLef g k ++ taperRig g k ++
  [pPhase g k] ++ pmlV g k first ++ [freePhase g]

/-- The time step as a sequential program. -/
def stepProg (k : Coef K) (first : Bool) : List (Stmt Cell K) := seqOf (phases g k first)

/-- `n` time steps; the first one clears the memory variables. -/
def steps [CommRing K] (k : Coef K) : Nat → (Cell → K) → (Cell → K)
  | 0, m => m
  | n + 1, m => run (stepProg g k (n = 0)) (steps k n m)

end Model
end Verif.Fd.Acou

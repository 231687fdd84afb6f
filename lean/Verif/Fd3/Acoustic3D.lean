import Verif.Base.StencilAll
import Verif.Base.StencilAt

/-!
# The acoustic time step of fdelmodc3D (acoustic4_3D.c), without source

Arithmetic is exact (a commutative ring instead of `float`).  The sweeps over the grid are modelled for every choice of the
boundaries (1 free, 2 PML, 3 rigid, 4 taper).  The whole step is modelled for models without taper, PML and rigid sides: the
free-surface parts of `boundariesP3D` and `boundariesV3D` (boundaries3D.c) are then the only other code that runs.  The
media are `float ***` arrays with their own three indices (alloc3D.c:8-40); elements that the allocation of a 1D or 2D model shares are
only read.  `iy*n2*n1+ix*n1+iz-1` is written as the index of row `iz-1`.
-/

namespace Verif.Fd3

open Verif.Sten

/-- The wave fields. -/
inductive Fld
  | vx | vy | vz | p
  deriving DecidableEq, Repr

/-- The media. -/
inductive Med
  | rox | roy | roz | l2m
  deriving DecidableEq, Repr

/-- An element of a wave field (flat index) or of a medium (`rox[iy][ix][iz]`). -/
inductive Cell
  | w (a : Fld) (i : Int)
  | m (a : Med) (iy ix iz : Int)
  deriving DecidableEq, Repr

/-- The wave fields change, the media do not. -/
def fld : Cell → Bool
  | .w _ _ => true
  | .m _ _ _ _ => false

/-- The grid as the user sets it up; `npml` is `bnd.ntap` (getParameters3D.c:394). -/
structure Cfg where
  nx : Int
  ny : Int
  nz : Int
  npml : Int
  top : Int
  bot : Int
  lef : Int
  rig : Int
  fro : Int
  bac : Int

namespace Cfg
variable (g : Cfg)

/-- Extra points at a side with taper or PML (getParameters3D.c:481-534). -/
def pad (side : Int) : Int := if side = 4 ∨ side = 2 then g.npml else 0

/-- `mod.naz`, `n1` of the kernels (getParameters3D.c:476,482,494), for `iorder=4`. -/
def naz : Int := g.nz + 4 + g.pad g.top + g.pad g.bot
/-- `mod.nay` (getParameters3D.c:477,519,531). -/
def nay : Int := g.ny + 4 + g.pad g.fro + g.pad g.bac
/-- `mod.nax`, `n2` of the kernels (getParameters3D.c:478,500,512). -/
def nax : Int := g.nx + 4 + g.pad g.lef + g.pad g.rig
/-- `mod.ioXx`, `ioXy`, `ioXz` (getParameters3D.c:434-436,483,501,520). -/
def ioXx : Int := 2 + g.pad g.lef
def ioXy : Int := 1 + g.pad g.fro
def ioXz : Int := 1 + g.pad g.top
/-- `mod.ioYx`, `ioYy`, `ioYz` (getParameters3D.c:438-440). -/
def ioYx : Int := 1 + g.pad g.lef
def ioYy : Int := 2 + g.pad g.fro
def ioYz : Int := 1 + g.pad g.top
/-- `mod.ioZx`, `ioZy`, `ioZz` (getParameters3D.c:442-444). -/
def ioZx : Int := 1 + g.pad g.lef
def ioZy : Int := 1 + g.pad g.fro
def ioZz : Int := 2 + g.pad g.top
/-- Ends of the velocity sweeps (getParameters3D.c:456-466, with the pads of 486-488, 504-506, 523-525). -/
def ieXx : Int := g.nx + 2 + g.pad g.lef
def ieXy : Int := g.ny + 1 + g.pad g.fro
def ieXz : Int := g.nz + 1 + g.pad g.top
def ieYx : Int := g.nx + 1 + g.pad g.lef
def ieYy : Int := g.ny + 2 + g.pad g.fro
def ieYz : Int := g.nz + 1 + g.pad g.top
def ieZx : Int := g.nx + 1 + g.pad g.lef
def ieZy : Int := g.ny + 1 + g.pad g.fro
def ieZz : Int := g.nz + 2 + g.pad g.top
/-- `mod.iePx`, `iePy`, `iePz` (getParameters3D.c:468-470, 490, 496, 508, 514, 527, 533); the beginnings are 1 (446-448). -/
def iePx : Int := g.nx + 1 + g.pad g.lef + g.pad g.rig
def iePy : Int := g.ny + 1 + g.pad g.fro + g.pad g.bac
def iePz : Int := g.nz + 1 + g.pad g.top + g.pad g.bot
/-- The ranges of the pressure sweep (acoustic4_3D.c:132-137). -/
def ioPx' : Int := if g.lef = 2 then 1 + g.npml else 1
def iePx' : Int := if g.rig = 2 then g.iePx - g.npml else g.iePx
def ioPy' : Int := if g.fro = 2 then 1 + g.npml else 1
def iePy' : Int := if g.bac = 2 then g.iePy - g.npml else g.iePy
def ioPz' : Int := if g.top = 2 then 1 + g.npml else 1
def iePz' : Int := if g.bot = 2 then g.iePz - g.npml else g.iePz

/-- `iy*n2*n1+ix*n1+iz`. -/
def idx (iy ix iz : Int) : Int := iy * g.nax * g.naz + ix * g.naz + iz

/-- The element exists: the wave fields have `sizem=nax*naz*nay` elements (fdelmodc3D.c:347,443-446), the media
`nay`×`nax`×`naz` (alloc3D.c:13-15). -/
def ok : Cell → Bool
  | .w _ i => 0 ≤ i && i < g.nay * g.nax * g.naz
  | .m _ iy ix iz => 0 ≤ iy && iy < g.nay && 0 ≤ ix && ix < g.nax && 0 ≤ iz && iz < g.naz

end Cfg

section Model
variable {K : Type} (g : Cfg) (c1 c2 : K)

/-- Read a wave field. -/
def rd (a : Fld) (iy ix iz : Int) : Expr Cell K := .rd (.w a (g.idx iy ix iz))

/-- acoustic4_3D.c:89-91. -/
def vxS (iy ix iz : Int) : Stmt Cell K :=
  ⟨.w .vx (g.idx iy ix iz), rd g .vx iy ix iz - .rd (.m .rox iy ix iz) * (
    .c c1 * (rd g .p iy ix iz - rd g .p iy (ix - 1) iz) +
    .c c2 * (rd g .p iy (ix + 1) iz - rd g .p iy (ix - 2) iz))⟩

/-- acoustic4_3D.c:102-104. -/
def vyS (iy ix iz : Int) : Stmt Cell K :=
  ⟨.w .vy (g.idx iy ix iz), rd g .vy iy ix iz - .rd (.m .roy iy ix iz) * (
    .c c1 * (rd g .p iy ix iz - rd g .p (iy - 1) ix iz) +
    .c c2 * (rd g .p (iy + 1) ix iz - rd g .p (iy - 2) ix iz))⟩

/-- acoustic4_3D.c:115-117. -/
def vzS (iy ix iz : Int) : Stmt Cell K :=
  ⟨.w .vz (g.idx iy ix iz), rd g .vz iy ix iz - .rd (.m .roz iy ix iz) * (
    .c c1 * (rd g .p iy ix iz - rd g .p iy ix (iz - 1)) +
    .c c2 * (rd g .p iy ix (iz + 1) - rd g .p iy ix (iz - 2)))⟩

/-- acoustic4_3D.c:146-152. -/
def pS (iy ix iz : Int) : Stmt Cell K :=
  ⟨.w .p (g.idx iy ix iz), rd g .p iy ix iz - .rd (.m .l2m iy ix iz) * (
    .c c1 * (rd g .vx iy (ix + 1) iz - rd g .vx iy ix iz) +
    .c c2 * (rd g .vx iy (ix + 2) iz - rd g .vx iy (ix - 1) iz) +
    .c c1 * (rd g .vy (iy + 1) ix iz - rd g .vy iy ix iz) +
    .c c2 * (rd g .vy (iy + 2) ix iz - rd g .vy (iy - 1) ix iz) +
    .c c1 * (rd g .vz iy ix (iz + 1) - rd g .vz iy ix iz) +
    .c c2 * (rd g .vz iy ix (iz + 2) - rd g .vz iy ix (iz - 1)))⟩

/-- Parallel outer loop, two sequential inner loops. -/
def sweep3 (a b c d e f : Int) (body : Int → Int → Int → List (Stmt Cell K)) : List (List (Stmt Cell K)) :=
  parfor a b fun i => loop c d fun j => loop e f fun k => body i j k

/-- The three velocity sweeps (acoustic4_3D.c:83-120); the first two are `nowait`, so the three are one phase. -/
def velPhase : List (List (Stmt Cell K)) :=
  sweep3 g.ioXy g.ieXy g.ioXx g.ieXx g.ioXz g.ieXz (fun iy ix iz => [vxS g c1 c2 iy ix iz]) ++
  sweep3 g.ioYy g.ieYy g.ioYx g.ieYx g.ioYz g.ieYz (fun iy ix iz => [vyS g c1 c2 iy ix iz]) ++
  sweep3 g.ioZy g.ieZy g.ioZx g.ieZx g.ioZz g.ieZz (fun iy ix iz => [vzS g c1 c2 iy ix iz])

/-- The pressure sweep (acoustic4_3D.c:140-155): the outer loop is over `ix`. -/
def pPhase : List (List (Stmt Cell K)) :=
  sweep3 g.ioPx' g.iePx' g.ioPy' g.iePy' g.ioPz' g.iePz' (fun ix iy iz => [pS g c1 c2 iy ix iz])

/-- `vz[...] = vz[...]`. -/
def cpz (iy ix iz jz : Int) : Stmt Cell K := ⟨.w .vz (g.idx iy ix iz), rd g .vz iy ix jz⟩

/-- `tzz[...] = 0.0`. -/
def zrp (iy ix iz : Int) : Stmt Cell K := ⟨.w .p (g.idx iy ix iz), .zero⟩

/-- Free surface at the top (boundaries3D.c:88-98); `bnd.surface` is `ioPz=1` everywhere (getParameters3D.c:539-543). -/
def mirror : List (List (Stmt Cell K)) :=
  if g.top = 1 then parfor 1 g.iePy fun iy => loop 1 g.iePx fun ix => [cpz g iy ix 1 2, cpz g iy ix 0 3] else []

/-- Free surfaces of `boundariesV3D` (boundaries3D.c:4356-4407); the loops are `nowait`. -/
def freePhase : List (List (Stmt Cell K)) :=
  (if g.top = 1 then parfor 1 g.iePx fun ix => loop 1 g.iePy fun iy => [zrp g iy ix 1] else []) ++
  (if g.rig = 1 then parfor 1 g.iePz fun iz => loop 1 g.iePy fun iy => [zrp g iy (g.iePx - 1) iz] else []) ++
  (if g.fro = 1 then parfor 1 g.iePz fun iz => loop 1 g.iePx fun ix => [zrp g 0 ix iz] else []) ++
  (if g.bot = 1 then parfor 1 g.iePx fun ix => loop 1 g.iePy fun iy => [zrp g iy ix (g.iePz - 1)] else []) ++
  (if g.lef = 1 then parfor 1 g.iePz fun iz => loop 1 g.iePy fun iy => [zrp g iy 0 iz] else []) ++
  (if g.bac = 1 then parfor 1 g.iePz fun iz => loop 1 g.iePx fun ix => [zrp g (g.iePy - 1) ix iz] else [])

/-- The phases of a time step of a model without taper, PML and rigid sides.  The loop at the free surface is `nowait` and no
barrier follows it before the pressure sweep. -/
def phases : List (List (List (Stmt Cell K))) := [velPhase g c1 c2, mirror g ++ pPhase g c1 c2, freePhase g]

/-- The time step executed by one thread. -/
def step (m : Cell → K) [CommRing K] : Cell → K := run (seqOf (phases g c1 c2)) m

end Model

/-! ## Specification -/

/-- Staggered fourth-order difference along a line of samples: `c1 (f₀ - f₋₁) + c2 (f₁ - f₋₂)`. -/
def stag {K : Type} [CommRing K] (c1 c2 : K) (f : Int → K) : K := c1 * (f 0 - f (-1)) + c2 * (f 1 - f (-2))

/-- Value of a wave field at plane `iy`, column `ix`, row `iz`. -/
def at3 {K : Type} (g : Cfg) (m : Cell → K) (a : Fld) (iy ix iz : Int) : K := m (.w a (g.idx iy ix iz))

/-- A point of the arrays. -/
def Pt (g : Cfg) (iy ix iz : Int) : Prop := 0 ≤ iy ∧ iy < g.nay ∧ 0 ≤ ix ∧ ix < g.nax ∧ 0 ≤ iz ∧ iz < g.naz

/-- The points at which the sweeps advance a field. -/
def In (g : Cfg) : Fld → Int → Int → Int → Prop
  | .vx, iy, ix, iz => g.ioXy ≤ iy ∧ iy < g.ieXy ∧ g.ioXx ≤ ix ∧ ix < g.ieXx ∧ g.ioXz ≤ iz ∧ iz < g.ieXz
  | .vy, iy, ix, iz => g.ioYy ≤ iy ∧ iy < g.ieYy ∧ g.ioYx ≤ ix ∧ ix < g.ieYx ∧ g.ioYz ≤ iz ∧ iz < g.ieYz
  | .vz, iy, ix, iz => g.ioZy ≤ iy ∧ iy < g.ieZy ∧ g.ioZx ≤ ix ∧ ix < g.ieZx ∧ g.ioZz ≤ iz ∧ iz < g.ieZz
  | .p, iy, ix, iz => g.ioPy' ≤ iy ∧ iy < g.iePy' ∧ g.ioPx' ≤ ix ∧ ix < g.iePx' ∧ g.ioPz' ≤ iz ∧ iz < g.iePz'

/-- Points on a free surface. -/
def Freed (g : Cfg) (iy ix iz : Int) : Prop :=
  (g.top = 1 ∧ iz = 1 ∧ 1 ≤ ix ∧ ix < g.iePx ∧ 1 ≤ iy ∧ iy < g.iePy) ∨
  (g.rig = 1 ∧ ix = g.iePx - 1 ∧ 1 ≤ iz ∧ iz < g.iePz ∧ 1 ≤ iy ∧ iy < g.iePy) ∨
  (g.fro = 1 ∧ iy = 0 ∧ 1 ≤ iz ∧ iz < g.iePz ∧ 1 ≤ ix ∧ ix < g.iePx) ∨
  (g.bot = 1 ∧ iz = g.iePz - 1 ∧ 1 ≤ ix ∧ ix < g.iePx ∧ 1 ≤ iy ∧ iy < g.iePy) ∨
  (g.lef = 1 ∧ ix = 0 ∧ 1 ≤ iz ∧ iz < g.iePz ∧ 1 ≤ iy ∧ iy < g.iePy) ∨
  (g.bac = 1 ∧ iy = g.iePy - 1 ∧ 1 ≤ iz ∧ iz < g.iePz ∧ 1 ≤ ix ∧ ix < g.iePx)

/-- Points at which the free surface at the top sets `vz`. -/
def Mirrored (g : Cfg) (iy ix iz : Int) : Prop :=
  g.top = 1 ∧ 1 ≤ iy ∧ iy < g.iePy ∧ 1 ≤ ix ∧ ix < g.iePx ∧ (iz = 0 ∨ iz = 1)

/-- At least one grid point in each direction; any number of extra points. -/
structure Valid (g : Cfg) : Prop where
  nx : 1 ≤ g.nx
  ny : 1 ≤ g.ny
  nz : 1 ≤ g.nz
  npml : 0 ≤ g.npml

/-- No taper, no PML, no rigid side. -/
structure Plain (g : Cfg) : Prop extends Valid g where
  top : g.top ≤ 1
  bot : g.bot ≤ 1
  lef : g.lef ≤ 1
  rig : g.rig ≤ 1
  fro : g.fro ≤ 1
  bac : g.bac ≤ 1

/-! ## Lemmas -/

section
variable {g : Cfg}

theorem pad_nonneg (hv : Valid g) (s : Int) : 0 ≤ g.pad s := by
  unfold Cfg.pad; have := hv.npml; split_ifs <;> omega

theorem pad_pml (g : Cfg) {s : Int} (h : s = 2) : g.pad s = g.npml := by
  unfold Cfg.pad; rw [if_pos (.inr h)]

/-- The ranges lie inside the arrays with the stencils' margins. -/
theorem in_range (hv : Valid g) {a : Fld} {iy ix iz : Int} (h : In g a iy ix iz) :
    1 ≤ iy ∧ iy + 2 < g.nay ∧ 1 ≤ ix ∧ ix + 2 < g.nax ∧ 1 ≤ iz ∧ iz + 2 < g.naz ∧
    (a = .vx → 2 ≤ ix) ∧ (a = .vy → 2 ≤ iy) ∧ (a = .vz → 2 ≤ iz) := by
  have b1 := pad_nonneg hv g.top
  have b2 := pad_nonneg hv g.bot
  have b3 := pad_nonneg hv g.lef
  have b4 := pad_nonneg hv g.rig
  have b5 := pad_nonneg hv g.fro
  have b6 := pad_nonneg hv g.bac
  have hn := hv.npml
  cases a <;> simp only [In] at h
  · simp only [Cfg.ioXy, Cfg.ieXy, Cfg.ioXx, Cfg.ieXx, Cfg.ioXz, Cfg.ieXz] at h
    simp only [Cfg.nay, Cfg.nax, Cfg.naz]
    refine ⟨by omega, by omega, by omega, ?_, by omega, by omega, fun _ => by omega, by simp, by simp⟩
    omega
  · simp only [Cfg.ioYy, Cfg.ieYy, Cfg.ioYx, Cfg.ieYx, Cfg.ioYz, Cfg.ieYz] at h
    simp only [Cfg.nay, Cfg.nax, Cfg.naz]
    exact ⟨by omega, by omega, by omega, by omega, by omega, by omega, by simp, fun _ => by omega, by simp⟩
  · simp only [Cfg.ioZy, Cfg.ieZy, Cfg.ioZx, Cfg.ieZx, Cfg.ioZz, Cfg.ieZz] at h
    simp only [Cfg.nay, Cfg.nax, Cfg.naz]
    exact ⟨by omega, by omega, by omega, by omega, by omega, by omega, by simp, by simp, fun _ => by omega⟩
  · obtain ⟨h1, h2, h3, h4, h5, h6⟩ := h
    simp only [Cfg.ioPy', Cfg.iePy', Cfg.ioPx', Cfg.iePx', Cfg.ioPz', Cfg.iePz', Cfg.iePx, Cfg.iePy, Cfg.iePz] at *
    simp only [Cfg.nay, Cfg.nax, Cfg.naz]
    refine ⟨?_, ?_, ?_, ?_, ?_, ?_, by simp, by simp, by simp⟩
    · clear h2 h3 h4 h5 h6; split_ifs at h1 <;> omega
    · clear h1 h3 h4 h5 h6; split_ifs at h2 <;> omega
    · clear h1 h2 h4 h5 h6; split_ifs at h3 <;> omega
    · clear h1 h2 h3 h5 h6; split_ifs at h4 <;> omega
    · clear h1 h2 h3 h4 h6; split_ifs at h5 <;> omega
    · clear h1 h2 h3 h4 h5; split_ifs at h6 <;> omega

theorem idx_eq (iy ix iz : Int) : g.idx iy ix iz = (iy * g.nax + ix) * g.naz + iz := by
  unfold Cfg.idx; ring

theorem idx_range {iy ix iz : Int} (h : Pt g iy ix iz) : 0 ≤ g.idx iy ix iz ∧ g.idx iy ix iz < g.nay * g.nax * g.naz := by
  obtain ⟨h1, h2, h3, h4, h5, h6⟩ := h
  have e := el_range (n := g.nax) (w := g.nay) h1 h2 h3 h4
  have e2 := el_range (n := g.naz) (w := g.nay * g.nax) e.1 e.2 h5 h6
  rw [idx_eq]
  exact e2

/-- Plane, column and row of an element. -/
def ky (g : Cfg) : Cell → Int
  | .w _ i => i / g.naz / g.nax
  | .m _ iy _ _ => iy
def kx (g : Cfg) : Cell → Int
  | .w _ i => i / g.naz % g.nax
  | .m _ _ ix _ => ix
def kz (g : Cfg) : Cell → Int
  | .w _ i => i % g.naz
  | .m _ _ _ iz => iz

theorem idx_div {iy ix iz : Int} (h1 : 0 ≤ iz) (h2 : iz < g.naz) : g.idx iy ix iz / g.naz = iy * g.nax + ix := by
  rw [idx_eq, Int.add_comm, Int.add_mul_ediv_right _ _ (by omega), Int.ediv_eq_zero_of_lt h1 h2]; omega

theorem ky_idx {a : Fld} {iy ix iz : Int} (h : Pt g iy ix iz) : ky g (.w a (g.idx iy ix iz)) = iy := by
  obtain ⟨h1, h2, h3, h4, h5, h6⟩ := h
  show g.idx iy ix iz / g.naz / g.nax = iy
  rw [idx_div h5 h6, Int.add_comm, Int.add_mul_ediv_right _ _ (by omega), Int.ediv_eq_zero_of_lt h3 h4]; omega

theorem kx_idx {a : Fld} {iy ix iz : Int} (h : Pt g iy ix iz) : kx g (.w a (g.idx iy ix iz)) = ix := by
  obtain ⟨h1, h2, h3, h4, h5, h6⟩ := h
  show g.idx iy ix iz / g.naz % g.nax = ix
  rw [idx_div h5 h6, Int.add_comm, Int.add_mul_emod_self_right, Int.emod_eq_of_lt h3 h4]

theorem kz_idx {a : Fld} {iy ix iz : Int} (h : Pt g iy ix iz) : kz g (.w a (g.idx iy ix iz)) = iz := by
  obtain ⟨h1, h2, h3, h4, h5, h6⟩ := h
  show g.idx iy ix iz % g.naz = iz
  rw [idx_eq, Int.add_comm, Int.add_mul_emod_self_right, Int.emod_eq_of_lt h5 h6]

theorem idx_inj {iy ix iz jy jx jz : Int} (h : Pt g iy ix iz) (h' : Pt g jy jx jz)
    (he : g.idx iy ix iz = g.idx jy jx jz) : iy = jy ∧ ix = jx ∧ iz = jz := by
  have e1 := ky_idx (a := .p) h; have e2 := kx_idx (a := .p) h; have e3 := kz_idx (a := .p) h
  rw [he] at e1 e2 e3
  rw [ky_idx h'] at e1; rw [kx_idx h'] at e2; rw [kz_idx h'] at e3
  exact ⟨e1.symm, e2.symm, e3.symm⟩

theorem ok_w {a : Fld} {iy ix iz : Int} (h : Pt g iy ix iz) : g.ok (.w a (g.idx iy ix iz)) = true := by
  have := idx_range h
  simp only [Cfg.ok]; simp [this.1, this.2]

theorem ok_m {a : Med} {iy ix iz : Int} (h : Pt g iy ix iz) : g.ok (.m a iy ix iz) = true := by
  obtain ⟨h1, h2, h3, h4, h5, h6⟩ := h
  simp only [Cfg.ok]; simp [h1, h2, h3, h4, h5, h6]

variable {K : Type} {c1 c2 : K}

/-- The update of a field. -/
def updS (g : Cfg) (c1 c2 : K) : Fld → Int → Int → Int → Stmt Cell K
  | .vx => vxS g c1 c2 | .vy => vyS g c1 c2 | .vz => vzS g c1 c2 | .p => pS g c1 c2

/-- The cells of the four updates. -/
theorem cells_S {a : Fld} {s : Stmt Cell K} {iy ix iz : Int} (hs : s = updS g c1 c2 a iy ix iz) {c : Cell} (hc : c ∈ s.cells) : c = .w a (g.idx iy ix iz) ∨ (∃ b, c = .m b iy ix iz) ∨
      (∃ b jy jx jz, b ≠ a ∧ (a = .p ↔ b ≠ .p) ∧ c = .w b (g.idx jy jx jz) ∧
        (In g a iy ix iz → Valid g → Pt g jy jx jz)) := by
  subst hs
  have key : ∀ jy jx jz : Int, (In g a iy ix iz → Valid g → (1 ≤ iy ∧ iy + 2 < g.nay ∧ 1 ≤ ix ∧ ix + 2 < g.nax ∧ 1 ≤ iz ∧
      iz + 2 < g.naz ∧ (a = .vx → 2 ≤ ix) ∧ (a = .vy → 2 ≤ iy) ∧ (a = .vz → 2 ≤ iz)) → Pt g jy jx jz) →
      (In g a iy ix iz → Valid g → Pt g jy jx jz) := fun jy jx jz h h1 h2 => h h1 h2 (in_range h2 h1)
  cases a <;> dsimp only [updS, vxS, vyS, vzS, pS, Stmt.cells] at hc <;>
    simp only [rds_add, rds_sub, rds_mul, rds_rd, rds_c, rd, List.mem_cons, List.mem_append, List.not_mem_nil, or_false,
      List.nil_append] at hc
  · rcases hc with rfl | rfl | rfl | (rfl | rfl) | rfl | rfl
    · exact .inl rfl
    · exact .inl rfl
    · exact .inr (.inl ⟨_, rfl⟩)
    all_goals
      refine .inr (.inr ⟨_, _, _, _, ?_, ?_, rfl, key _ _ _ fun _ _ h => ?_⟩)
      · simp
      · simp
      · obtain ⟨h1, h2, h3, h4, h5, h6, h7, -, -⟩ := h
        have := h7 rfl
        unfold Pt; omega
  · rcases hc with rfl | rfl | rfl | (rfl | rfl) | rfl | rfl
    · exact .inl rfl
    · exact .inl rfl
    · exact .inr (.inl ⟨_, rfl⟩)
    all_goals
      refine .inr (.inr ⟨_, _, _, _, ?_, ?_, rfl, key _ _ _ fun _ _ h => ?_⟩)
      · simp
      · simp
      · obtain ⟨h1, h2, h3, h4, h5, h6, -, h7, -⟩ := h
        have := h7 rfl
        unfold Pt; omega
  · rcases hc with rfl | rfl | rfl | (rfl | rfl) | rfl | rfl
    · exact .inl rfl
    · exact .inl rfl
    · exact .inr (.inl ⟨_, rfl⟩)
    all_goals
      refine .inr (.inr ⟨_, _, _, _, ?_, ?_, rfl, key _ _ _ fun _ _ h => ?_⟩)
      · simp
      · simp
      · obtain ⟨h1, h2, h3, h4, h5, h6, -, -, h7⟩ := h
        have := h7 rfl
        unfold Pt; omega
  · rcases hc with rfl | rfl | rfl | ((((((rfl | rfl) | (rfl | rfl)) | (rfl | rfl)) | (rfl | rfl)) | (rfl | rfl)) | (rfl | rfl))
    · exact .inl rfl
    · exact .inl rfl
    · exact .inr (.inl ⟨_, rfl⟩)
    all_goals
      refine .inr (.inr ⟨_, _, _, _, ?_, ?_, rfl, key _ _ _ fun _ _ h => ?_⟩)
      · simp
      · simp
      · obtain ⟨h1, h2, h3, h4, h5, h6, -, -, -⟩ := h
        unfold Pt; omega

theorem updS_dst (a : Fld) (iy ix iz : Int) : (updS g c1 c2 a iy ix iz).dst = .w a (g.idx iy ix iz) := by
  cases a <;> rfl

theorem in_pt (hv : Valid g) {a : Fld} {iy ix iz : Int} (h : In g a iy ix iz) : Pt g iy ix iz := by
  have := in_range hv h
  unfold Pt; omega

theorem updS_ok (hv : Valid g) {a : Fld} {iy ix iz : Int} (h : In g a iy ix iz) :
    ∀ c ∈ (updS g c1 c2 a iy ix iz).cells, g.ok c = true := by
  intro c hc
  rcases cells_S rfl hc with rfl | ⟨b, rfl⟩ | ⟨b, jy, jx, jz, -, -, rfl, hp⟩
  · exact ok_w (in_pt hv h)
  · exact ok_m (in_pt hv h)
  · exact ok_w (hp h hv)

/-- The elements of a wave field. -/
def Of (a : Fld) (c : Cell) : Prop := ∃ i, c = .w a i

theorem updS_key (hv : Valid g) {a : Fld} {iy ix iz : Int} (h : In g a iy ix iz) :
    InKey (Of a) (ky g) iy (updS g c1 c2 a iy ix iz) ∧ InKey (Of a) (kx g) ix (updS g c1 c2 a iy ix iz) ∧
    InKey (Of a) (kz g) iz (updS g c1 c2 a iy ix iz) := by
  have hd : Of a (updS g c1 c2 a iy ix iz).dst := ⟨_, updS_dst a iy ix iz⟩
  have hc : ∀ c ∈ (updS g c1 c2 a iy ix iz).cells, Of a c → c = .w a (g.idx iy ix iz) := by
    intro c hc ⟨i, hi⟩
    rcases cells_S rfl hc with rfl | ⟨b, rfl⟩ | ⟨b, jy, jx, jz, hb, -, rfl, -⟩
    · rfl
    · cases hi
    · exact absurd (Cell.w.inj hi).1 hb
  refine ⟨⟨hd, fun c h1 h2 => ?_⟩, ⟨hd, fun c h1 h2 => ?_⟩, ⟨hd, fun c h1 h2 => ?_⟩⟩ <;> rw [hc c h1 h2]
  · exact ky_idx (in_pt hv h)
  · exact kx_idx (in_pt hv h)
  · exact kz_idx (in_pt hv h)

theorem all_sweep3 {Q : Stmt Cell K → Prop} {a b c d e f : Int} {body : Int → Int → Int → List (Stmt Cell K)}
    (h : ∀ i : Int, a ≤ i → i < b → ∀ j : Int, c ≤ j → j < d → ∀ k : Int, e ≤ k → k < f → All Q (body i j k)) :
    All Q (sweep3 a b c d e f body).flatten :=
  all_parfor fun i h1 h2 => all_loop fun j h3 h4 => all_loop fun k h5 h6 => h i h1 h2 j h3 h4 k h5 h6

/-- The sweep of a field. -/
def sweepOf (g : Cfg) (c1 c2 : K) : Fld → List (List (Stmt Cell K))
  | .vx => sweep3 g.ioXy g.ieXy g.ioXx g.ieXx g.ioXz g.ieXz (fun iy ix iz => [vxS g c1 c2 iy ix iz])
  | .vy => sweep3 g.ioYy g.ieYy g.ioYx g.ieYx g.ioYz g.ieYz (fun iy ix iz => [vyS g c1 c2 iy ix iz])
  | .vz => sweep3 g.ioZy g.ieZy g.ioZx g.ieZx g.ioZz g.ieZz (fun iy ix iz => [vzS g c1 c2 iy ix iz])
  | .p => pPhase g c1 c2

theorem velPhase_eq : velPhase g c1 c2 = sweepOf g c1 c2 .vx ++ sweepOf g c1 c2 .vy ++ sweepOf g c1 c2 .vz := rfl

/-- A sweep consists of the updates of the points it covers. -/
theorem sweepOf_all {Q : Stmt Cell K → Prop} {a : Fld} (h : ∀ iy ix iz, In g a iy ix iz → Q (updS g c1 c2 a iy ix iz)) :
    All Q (sweepOf g c1 c2 a).flatten := by
  cases a
  · exact all_sweep3 fun i h1 h2 j h3 h4 k h5 h6 => all_one (h i j k ⟨h1, h2, h3, h4, h5, h6⟩)
  · exact all_sweep3 fun i h1 h2 j h3 h4 k h5 h6 => all_one (h i j k ⟨h1, h2, h3, h4, h5, h6⟩)
  · exact all_sweep3 fun i h1 h2 j h3 h4 k h5 h6 => all_one (h i j k ⟨h1, h2, h3, h4, h5, h6⟩)
  · exact all_sweep3 fun i h1 h2 j h3 h4 k h5 h6 => all_one (h j i k ⟨h3, h4, h1, h2, h5, h6⟩)

/-- The threads of a sweep do not touch what another one writes. -/
theorem sweepOf_apart (hv : Valid g) (a : Fld) : (sweepOf g c1 c2 a).Pairwise Apart := by
  cases a
  · exact parfor_apart (Of .vx) (ky g) fun i h1 h2 => all_loop fun j h3 h4 => all_loop fun k h5 h6 => all_one
      (updS_key (a := .vx) hv ⟨h1, h2, h3, h4, h5, h6⟩).1
  · exact parfor_apart (Of .vy) (ky g) fun i h1 h2 => all_loop fun j h3 h4 => all_loop fun k h5 h6 => all_one
      (updS_key (a := .vy) hv ⟨h1, h2, h3, h4, h5, h6⟩).1
  · exact parfor_apart (Of .vz) (ky g) fun i h1 h2 => all_loop fun j h3 h4 => all_loop fun k h5 h6 => all_one
      (updS_key (a := .vz) hv ⟨h1, h2, h3, h4, h5, h6⟩).1
  · exact parfor_apart (Of .p) (kx g) fun i h1 h2 => all_loop fun j h3 h4 => all_loop fun k h5 h6 => all_one
      (updS_key (a := .p) hv ⟨h3, h4, h1, h2, h5, h6⟩).2.1

/-- Two sweeps of different velocities have nothing in common. -/
theorem sweeps_cross {a b : Fld} (ha : a ≠ .p) (hb : b ≠ .p) (hab : a ≠ b) :
    ∀ s ∈ (sweepOf g c1 c2 a).flatten, ∀ s' ∈ (sweepOf g c1 c2 b).flatten, s.dst ∉ s'.cells ∧ s'.dst ∉ s.cells := by
  have key : ∀ {a b : Fld}, a ≠ .p → b ≠ .p → a ≠ b →
      All (fun s => Of a s.dst ∧ ∀ c ∈ s.cells, ¬ Of b c) (sweepOf g c1 c2 a).flatten := by
    intro a b ha hb hab
    refine sweepOf_all fun iy ix iz h => ⟨⟨_, updS_dst a iy ix iz⟩, ?_⟩
    rintro c hc ⟨i, rfl⟩
    rcases cells_S rfl hc with h | ⟨b', h⟩ | ⟨b', jy, jx, jz, hb', hp, h, -⟩
    · exact hab (Cell.w.inj h).1.symm
    · cases h
    · rw [(Cell.w.inj h).1] at hb
      exact ha (hp.mpr hb)
  exact cross_of (key ha hb hab) (key hb ha hab.symm)

theorem velPhase_free (hv : Valid g) : PhaseFree (velPhase g c1 c2) := by
  rw [velPhase_eq]
  refine phaseFree_of_pairwise (append_apart (append_apart (sweepOf_apart hv _) (sweepOf_apart hv _)
    (sweeps_cross (by simp) (by simp) (by simp))) (sweepOf_apart hv _) ?_)
  intro s hs
  rw [List.flatten_append, List.mem_append] at hs
  rcases hs with hs | hs
  · exact sweeps_cross (by simp) (by simp) (by simp) s hs
  · exact sweeps_cross (by simp) (by simp) (by simp) s hs

section Values
variable [CommRing K]

theorem run_upd (a : Fld) (iy ix iz : Int) (m : Cell → K) : run [updS g c1 c2 a iy ix iz] m (.w a (g.idx iy ix iz)) =
    (updS g c1 c2 a iy ix iz).e.eval m := by
  show Verif.Par.store m (updS g c1 c2 a iy ix iz).dst _ _ = _
  rw [updS_dst]; unfold Verif.Par.store; rw [if_pos rfl]

/-- A sweep leaves the other arrays alone. -/
theorem sweep_other {a b : Fld} (h : b ≠ a) (i : Int) (m : Cell → K) :
    run (sweepOf g c1 c2 a).flatten m (.w b i) = m (.w b i) :=
  run_untouched (sweepOf_all (Q := fun s => s.dst ≠ .w b i) fun iy ix iz _ he => by
    rw [updS_dst] at he; exact h (Cell.w.inj he).1.symm) m

/-- A sweep leaves the media alone. -/
theorem sweep_med (a : Fld) (b : Med) (iy ix iz : Int) (m : Cell → K) :
    run (sweepOf g c1 c2 a).flatten m (.m b iy ix iz) = m (.m b iy ix iz) :=
  run_untouched (sweepOf_all (Q := fun s => s.dst ≠ .m b iy ix iz) fun iy ix iz _ he => by
    rw [updS_dst] at he; cases he) m

/-- A sweep leaves the points it does not cover alone. -/
theorem sweep_out (hv : Valid g) {a : Fld} {iy ix iz : Int} (hp : Pt g iy ix iz) (h : ¬ In g a iy ix iz) (m : Cell → K) :
    run (sweepOf g c1 c2 a).flatten m (.w a (g.idx iy ix iz)) = m (.w a (g.idx iy ix iz)) :=
  run_untouched (sweepOf_all (Q := fun s => s.dst ≠ .w a (g.idx iy ix iz)) fun jy jx jz hi he => by
    rw [updS_dst] at he
    obtain ⟨rfl, rfl, rfl⟩ := idx_inj (in_pt hv hi) hp (Cell.w.inj he).2
    exact h hi) m

/-- Only the iteration that owns a cell matters for it. -/
theorem run_sweep3 {W : Cell → Prop} {κ1 κ2 κ3 : Cell → Int} {a b c d e f : Int} {body : Int → Int → Int → List (Stmt Cell K)}
    (h : ∀ i : Int, a ≤ i → i < b → ∀ j : Int, c ≤ j → j < d → ∀ k : Int, e ≤ k → k < f →
      ∀ s ∈ body i j k, InKey W κ1 i s ∧ InKey W κ2 j s ∧ InKey W κ3 k s)
    {i j k : Int} (h1 : a ≤ i) (h2 : i < b) (h3 : c ≤ j) (h4 : j < d) (h5 : e ≤ k) (h6 : k < f) {x : Cell}
    (e1 : κ1 x = i) (e2 : κ2 x = j) (e3 : κ3 x = k) (m : Cell → K) :
    run (sweep3 a b c d e f body).flatten m x = run (body i j k) m x := by
  unfold sweep3
  rw [parfor_flatten, run_loop_at (W := W) (κ := κ1) (i := i) (fun i' a1 a2 => all_loop fun j' a3 a4 => all_loop fun k' a5 a6
        s hs => (h i' a1 a2 j' a3 a4 k' a5 a6 s hs).1) h1 h2 e1,
    run_loop_at (W := W) (κ := κ2) (i := j) (fun j' a3 a4 => all_loop fun k' a5 a6
        s hs => (h i h1 h2 j' a3 a4 k' a5 a6 s hs).2.1) h3 h4 e2,
    run_loop_at (W := W) (κ := κ3) (i := k) (fun k' a5 a6 s hs => (h i h1 h2 j h3 h4 k' a5 a6 s hs).2.2) h5 h6 e3]

/-- A sweep updates every point it covers once, from the fields before the sweep. -/
theorem sweep_in (hv : Valid g) {a : Fld} {iy ix iz : Int} (h : In g a iy ix iz) (m : Cell → K) :
    run (sweepOf g c1 c2 a).flatten m (.w a (g.idx iy ix iz)) = (updS g c1 c2 a iy ix iz).e.eval m := by
  have hp := in_pt hv h
  rw [← run_upd]
  cases a
  · obtain ⟨h1, h2, h3, h4, h5, h6⟩ := h
    exact run_sweep3 (W := Of .vx) (fun i e1 e2 j e3 e4 k e5 e6 => all_one
      (updS_key (c1 := c1) (c2 := c2) (a := .vx) hv ⟨e1, e2, e3, e4, e5, e6⟩)) h1 h2 h3 h4 h5 h6 (ky_idx hp) (kx_idx hp) (kz_idx hp) m
  · obtain ⟨h1, h2, h3, h4, h5, h6⟩ := h
    exact run_sweep3 (W := Of .vy) (fun i e1 e2 j e3 e4 k e5 e6 => all_one
      (updS_key (c1 := c1) (c2 := c2) (a := .vy) hv ⟨e1, e2, e3, e4, e5, e6⟩)) h1 h2 h3 h4 h5 h6 (ky_idx hp) (kx_idx hp) (kz_idx hp) m
  · obtain ⟨h1, h2, h3, h4, h5, h6⟩ := h
    exact run_sweep3 (W := Of .vz) (fun i e1 e2 j e3 e4 k e5 e6 => all_one
      (updS_key (c1 := c1) (c2 := c2) (a := .vz) hv ⟨e1, e2, e3, e4, e5, e6⟩)) h1 h2 h3 h4 h5 h6 (ky_idx hp) (kx_idx hp) (kz_idx hp) m
  · obtain ⟨h1, h2, h3, h4, h5, h6⟩ := h
    refine run_sweep3 (body := fun ix iy iz => [pS g c1 c2 iy ix iz]) (W := Of .p) (κ1 := kx g) (κ2 := ky g) (κ3 := kz g) (fun i e1 e2 j e3 e4 k e5 e6 => all_one ?_)
      h3 h4 h1 h2 h5 h6 (kx_idx hp) (ky_idx hp) (kz_idx hp) m
    have := updS_key (c1 := c1) (c2 := c2) (a := .p) hv (⟨e3, e4, e1, e2, e5, e6⟩ : In g .p j i k)
    exact ⟨this.2.1, this.1, this.2.2⟩

theorem vel_at {a : Fld} (ha : a ≠ .p) (i : Int) (m : Cell → K) :
    run (velPhase g c1 c2).flatten m (.w a i) = run (sweepOf g c1 c2 a).flatten m (.w a i) := by
  rw [velPhase_eq, List.flatten_append, List.flatten_append, run_append, run_append]
  have agree : ∀ (b : Fld), b ≠ a → b ≠ .p → ∀ m : Cell → K, ∀ c, (Of a c ∨ Of .p c ∨ fld c = false) →
      run (sweepOf g c1 c2 b).flatten m c = m c := by
    intro b hb hbp m c hc
    rcases hc with ⟨i, rfl⟩ | ⟨i, rfl⟩ | hc
    · exact sweep_other hb.symm _ _
    · exact sweep_other hbp.symm _ _
    · cases c with
      | w => cases hc
      | m => exact sweep_med _ _ _ _ _ _
  have use : ∀ m1 m2 : Cell → K, (∀ c, (Of a c ∨ Of .p c ∨ fld c = false) → m1 c = m2 c) →
      run (sweepOf g c1 c2 a).flatten m1 (.w a i) = run (sweepOf g c1 c2 a).flatten m2 (.w a i) := by
    intro m1 m2 hm
    refine run_agree (S := fun c => Of a c ∨ Of .p c ∨ fld c = false) ?_ hm _ (.inl ⟨_, rfl⟩)
    refine sweepOf_all (Q := fun s => ∀ c ∈ s.cells, Of a c ∨ Of .p c ∨ fld c = false) fun iy ix iz h c hc => ?_
    rcases cells_S rfl hc with rfl | ⟨b', rfl⟩ | ⟨b', jy, jx, jz, hb', hp, rfl, -⟩
    · exact .inl ⟨_, rfl⟩
    · exact .inr (.inr rfl)
    · refine .inr (.inl ⟨g.idx jy jx jz, ?_⟩)
      by_contra hne
      exact ha (hp.mpr fun e => hne (by rw [e]))
  cases a
  · rw [sweep_other (by simp), sweep_other (by simp)]
  · rw [sweep_other (by simp)]
    exact use _ _ fun c hc => agree .vx (by simp) (by simp) _ c hc
  · exact use _ _ fun c hc => by rw [agree .vy (by simp) (by simp) _ c hc, agree .vx (by simp) (by simp) _ c hc]
  · exact absurd rfl ha

end Values

end
end Verif.Fd3

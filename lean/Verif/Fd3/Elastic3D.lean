import Verif.Fd3.Acoustic3D

/-!
# The elastic sweeps of fdelmodc3D (elastic4_3D.c), without source and boundary conditions

Arithmetic is exact (a commutative ring instead of `float`).  The grid, its ranges and the flat index are those of the acoustic
kernel (Acoustic3D).  `dvx`, `dvy`, `dvz` of the normal stresses are local variables of an iteration; they are written out in
the three assignments.  Not modelled: `applySource3D`, `boundariesP3D`, `storeSourceOnSurface3D`, `boundariesV3D`.
-/

namespace Verif.Fd3.El

open Verif.Sten

/-- The wave fields. -/
inductive Fd
  | vx | vy | vz | txx | tyy | tzz | txz | txy | tyz
  deriving DecidableEq, Repr

/-- The media. -/
inductive Md
  | rox | roy | roz | l2m | lam | mul
  deriving DecidableEq, Repr

/-- An element of a wave field (flat index) or of a medium (`rox[iy][ix][iz]`). -/
inductive Ce
  | w (a : Fd) (i : Int)
  | m (a : Md) (iy ix iz : Int)
  deriving DecidableEq, Repr

/-- The wave fields change, the media do not. -/
def fld : Ce → Bool
  | .w _ _ => true
  | .m _ _ _ _ => false

/-- The particle velocities; the other fields are stresses. -/
def vel : Fd → Bool
  | .vx => true | .vy => true | .vz => true
  | .txx => false | .tyy => false | .tzz => false | .txz => false | .txy => false | .tyz => false

/-- `mod.ieTx`, `ieTy`, `ieTz` (getParameters3D.c:472-474, 491, 497, 509, 515, 527, 533); the beginnings are 2 (450-452). -/
def ieTx (g : Cfg) : Int := g.nx + 2 + g.pad g.lef + g.pad g.rig
def ieTy (g : Cfg) : Int := g.ny + 2 + g.pad g.fro + g.pad g.bac
def ieTz (g : Cfg) : Int := g.nz + 2 + g.pad g.top + g.pad g.bot

/-- The element exists: the wave fields have `sizem` elements (fdelmodc3D.c:347,443-456), the media `nay`×`nax`×`naz`
(alloc3D.c:13-15). -/
def ok (g : Cfg) : Ce → Bool
  | .w _ i => 0 ≤ i && i < g.nay * g.nax * g.naz
  | .m _ iy ix iz => 0 ≤ iy && iy < g.nay && 0 ≤ ix && ix < g.nax && 0 ≤ iz && iz < g.naz

section Model
variable {K : Type} (g : Cfg) (c1 c2 : K)

/-- Read a wave field. -/
def rd (a : Fd) (iy ix iz : Int) : Expr Ce K := .rd (.w a (g.idx iy ix iz))

/-- Read a medium. -/
def md (a : Md) (iy ix iz : Int) : Expr Ce K := .rd (.m a iy ix iz)

/-- elastic4_3D.c:114-120. -/
def vxS (iy ix iz : Int) : Stmt Ce K :=
  ⟨.w .vx (g.idx iy ix iz), rd g .vx iy ix iz - md .rox iy ix iz * (
    .c c1 * (rd g .txx iy ix iz - rd g .txx iy (ix - 1) iz +
             rd g .txy (iy + 1) ix iz - rd g .txy iy ix iz +
             rd g .txz iy ix (iz + 1) - rd g .txz iy ix iz) +
    .c c2 * (rd g .txx iy (ix + 1) iz - rd g .txx iy (ix - 2) iz +
             rd g .txy (iy + 2) ix iz - rd g .txy (iy - 1) ix iz +
             rd g .txz iy ix (iz + 2) - rd g .txz iy ix (iz - 1)))⟩

/-- elastic4_3D.c:131-137. -/
def vyS (iy ix iz : Int) : Stmt Ce K :=
  ⟨.w .vy (g.idx iy ix iz), rd g .vy iy ix iz - md .roy iy ix iz * (
    .c c1 * (rd g .tyy iy ix iz - rd g .tyy (iy - 1) ix iz +
             rd g .tyz iy ix (iz + 1) - rd g .tyz iy ix iz +
             rd g .txy iy (ix + 1) iz - rd g .txy iy ix iz) +
    .c c2 * (rd g .tyy (iy + 1) ix iz - rd g .tyy (iy - 2) ix iz +
             rd g .tyz iy ix (iz + 2) - rd g .tyz iy ix (iz - 1) +
             rd g .txy iy (ix + 2) iz - rd g .txy iy (ix - 1) iz))⟩

/-- elastic4_3D.c:148-154. -/
def vzS (iy ix iz : Int) : Stmt Ce K :=
  ⟨.w .vz (g.idx iy ix iz), rd g .vz iy ix iz - md .roz iy ix iz * (
    .c c1 * (rd g .tzz iy ix iz - rd g .tzz iy ix (iz - 1) +
             rd g .tyz (iy + 1) ix iz - rd g .tyz iy ix iz +
             rd g .txz iy (ix + 1) iz - rd g .txz iy ix iz) +
    .c c2 * (rd g .tzz iy ix (iz + 1) - rd g .tzz iy ix (iz - 2) +
             rd g .tyz (iy + 2) ix iz - rd g .tyz (iy - 1) ix iz +
             rd g .txz iy (ix + 2) iz - rd g .txz iy (ix - 1) iz))⟩

/-- `dvx` (elastic4_3D.c:174-175). -/
def dvx (iy ix iz : Int) : Expr Ce K :=
  .c c1 * (rd g .vx iy (ix + 1) iz - rd g .vx iy ix iz) + .c c2 * (rd g .vx iy (ix + 2) iz - rd g .vx iy (ix - 1) iz)
/-- `dvy` (elastic4_3D.c:176-177). -/
def dvy (iy ix iz : Int) : Expr Ce K :=
  .c c1 * (rd g .vy (iy + 1) ix iz - rd g .vy iy ix iz) + .c c2 * (rd g .vy (iy + 2) ix iz - rd g .vy (iy - 1) ix iz)
/-- `dvz` (elastic4_3D.c:178-179). -/
def dvz (iy ix iz : Int) : Expr Ce K :=
  .c c1 * (rd g .vz iy ix (iz + 1) - rd g .vz iy ix iz) + .c c2 * (rd g .vz iy ix (iz + 2) - rd g .vz iy ix (iz - 1))

/-- elastic4_3D.c:180. -/
def txxS (iy ix iz : Int) : Stmt Ce K :=
  ⟨.w .txx (g.idx iy ix iz), rd g .txx iy ix iz - (md .l2m iy ix iz * dvx g c1 c2 iy ix iz +
    md .lam iy ix iz * (dvy g c1 c2 iy ix iz + dvz g c1 c2 iy ix iz))⟩
/-- elastic4_3D.c:181. -/
def tyyS (iy ix iz : Int) : Stmt Ce K :=
  ⟨.w .tyy (g.idx iy ix iz), rd g .tyy iy ix iz - (md .l2m iy ix iz * dvy g c1 c2 iy ix iz +
    md .lam iy ix iz * (dvz g c1 c2 iy ix iz + dvx g c1 c2 iy ix iz))⟩
/-- elastic4_3D.c:182. -/
def tzzS (iy ix iz : Int) : Stmt Ce K :=
  ⟨.w .tzz (g.idx iy ix iz), rd g .tzz iy ix iz - (md .l2m iy ix iz * dvz g c1 c2 iy ix iz +
    md .lam iy ix iz * (dvx g c1 c2 iy ix iz + dvy g c1 c2 iy ix iz))⟩

/-- elastic4_3D.c:195-199. -/
def txzS (iy ix iz : Int) : Stmt Ce K :=
  ⟨.w .txz (g.idx iy ix iz), rd g .txz iy ix iz - md .mul iy ix iz * (
    .c c1 * (rd g .vx iy ix iz - rd g .vx iy ix (iz - 1) + rd g .vz iy ix iz - rd g .vz iy (ix - 1) iz) +
    .c c2 * (rd g .vx iy ix (iz + 1) - rd g .vx iy ix (iz - 2) + rd g .vz iy (ix + 1) iz - rd g .vz iy (ix - 2) iz))⟩
/-- elastic4_3D.c:210-214. -/
def txyS (iy ix iz : Int) : Stmt Ce K :=
  ⟨.w .txy (g.idx iy ix iz), rd g .txy iy ix iz - md .mul iy ix iz * (
    .c c1 * (rd g .vx iy ix iz - rd g .vx (iy - 1) ix iz + rd g .vy iy ix iz - rd g .vy iy (ix - 1) iz) +
    .c c2 * (rd g .vx (iy + 1) ix iz - rd g .vx (iy - 2) ix iz + rd g .vy iy (ix + 1) iz - rd g .vy iy (ix - 2) iz))⟩
/-- elastic4_3D.c:225-229. -/
def tyzS (iy ix iz : Int) : Stmt Ce K :=
  ⟨.w .tyz (g.idx iy ix iz), rd g .tyz iy ix iz - md .mul iy ix iz * (
    .c c1 * (rd g .vz iy ix iz - rd g .vz (iy - 1) ix iz + rd g .vy iy ix iz - rd g .vy iy ix (iz - 1)) +
    .c c2 * (rd g .vz (iy + 1) ix iz - rd g .vz (iy - 2) ix iz + rd g .vy iy ix (iz + 1) - rd g .vy iy ix (iz - 2)))⟩

/-- The assignment to a field. -/
def upd : Fd → Int → Int → Int → Stmt Ce K
  | .vx => vxS g c1 c2 | .vy => vyS g c1 c2 | .vz => vzS g c1 c2
  | .txx => txxS g c1 c2 | .tyy => tyyS g c1 c2 | .tzz => tzzS g c1 c2
  | .txz => txzS g c1 c2 | .txy => txyS g c1 c2 | .tyz => tyzS g c1 c2

/-- The seven sweeps (elastic4_3D.c:108, 125, 142, 168, 189, 204, 219). -/
inductive Sw
  | x | y | z | p | xz | xy | yz
  deriving DecidableEq, Repr

/-- The assignments of an iteration of a sweep. -/
def grp : Sw → List Fd
  | .x => [.vx] | .y => [.vy] | .z => [.vz] | .p => [.txx, .tyy, .tzz] | .xz => [.txz] | .xy => [.txy] | .yz => [.tyz]

/-- First plane, column and row of a sweep. -/
def lo : Sw → Int × Int × Int
  | .x => (g.ioXy, g.ioXx, g.ioXz) | .y => (g.ioYy, g.ioYx, g.ioYz) | .z => (g.ioZy, g.ioZx, g.ioZz)
  | .p => (1, 1, 1) | .xz => (2, 2, 2) | .xy => (2, 2, 2) | .yz => (2, 2, 2)
/-- One past the last plane, column and row of a sweep. -/
def hi : Sw → Int × Int × Int
  | .x => (g.ieXy, g.ieXx, g.ieXz) | .y => (g.ieYy, g.ieYx, g.ieYz) | .z => (g.ieZy, g.ieZx, g.ieZz)
  | .p => (g.iePy, g.iePx, g.iePz) | .xz => (ieTy g, ieTx g, ieTz g) | .xy => (ieTy g, ieTx g, ieTz g)
  | .yz => (ieTy g, ieTx g, ieTz g)

/-- A sweep: a parallel loop over planes, sequential loops over columns and rows. -/
def sweep (s : Sw) : List (List (Stmt Ce K)) :=
  parfor (lo g s).1 (hi g s).1 fun iy => loop (lo g s).2.1 (hi g s).2.1 fun ix => loop (lo g s).2.2 (hi g s).2.2 fun iz =>
    (grp s).map fun a => upd g c1 c2 a iy ix iz

/-- The velocity sweeps (elastic4_3D.c:108-157); only the first is `nowait`. -/
def velPhases : List (List (List (Stmt Ce K))) := [sweep g c1 c2 .x ++ sweep g c1 c2 .y, sweep g c1 c2 .z]

/-- The stress sweeps (elastic4_3D.c:168-232); only the first is `nowait`. -/
def strPhases : List (List (List (Stmt Ce K))) :=
  [sweep g c1 c2 .p ++ sweep g c1 c2 .xz, sweep g c1 c2 .xy, sweep g c1 c2 .yz]

/-- The sweeps of a time step. -/
def phases : List (List (List (Stmt Ce K))) := velPhases g c1 c2 ++ strPhases g c1 c2

/-- The sweeps executed by one thread. -/
def step (m : Ce → K) [CommRing K] : Ce → K := run (seqOf (phases g c1 c2)) m

end Model

/-! ## Lemmas -/

/-- The sweep that advances a field. -/
def sw : Fd → Sw
  | .vx => .x | .vy => .y | .vz => .z | .txx => .p | .tyy => .p | .tzz => .p | .txz => .xz | .txy => .xy | .tyz => .yz

/-- The points a sweep covers. -/
def InS (g : Cfg) (s : Sw) (iy ix iz : Int) : Prop :=
  (lo g s).1 ≤ iy ∧ iy < (hi g s).1 ∧ (lo g s).2.1 ≤ ix ∧ ix < (hi g s).2.1 ∧ (lo g s).2.2 ≤ iz ∧ iz < (hi g s).2.2

theorem mem_grp {a : Fd} {s : Sw} : a ∈ grp s ↔ sw a = s := by cases a <;> cases s <;> decide

section
variable {g : Cfg}

/-- The ranges lie inside the arrays with the stencils' margins. -/
theorem in_marg (hv : Valid g) {s : Sw} {iy ix iz : Int} (h : InS g s iy ix iz) :
    1 ≤ iy ∧ iy + 2 < g.nay ∧ 1 ≤ ix ∧ ix + 2 < g.nax ∧ 1 ≤ iz ∧ iz + 2 < g.naz ∧
    (s = .x → 2 ≤ ix) ∧ (s = .y → 2 ≤ iy) ∧ (s = .z → 2 ≤ iz) ∧ (s = .xz ∨ s = .xy ∨ s = .yz → 2 ≤ iy ∧ 2 ≤ ix ∧ 2 ≤ iz) := by
  have b1 := pad_nonneg hv g.top
  have b2 := pad_nonneg hv g.bot
  have b3 := pad_nonneg hv g.lef
  have b4 := pad_nonneg hv g.rig
  have b5 := pad_nonneg hv g.fro
  have b6 := pad_nonneg hv g.bac
  cases s <;> simp only [InS, lo, hi, Cfg.ioXy, Cfg.ieXy, Cfg.ioXx, Cfg.ieXx, Cfg.ioXz, Cfg.ieXz, Cfg.ioYy, Cfg.ieYy, Cfg.ioYx,
    Cfg.ieYx, Cfg.ioYz, Cfg.ieYz, Cfg.ioZy, Cfg.ieZy, Cfg.ioZx, Cfg.ieZx, Cfg.ioZz, Cfg.ieZz, Cfg.iePx, Cfg.iePy, Cfg.iePz,
    ieTx, ieTy, ieTz] at h <;> simp only [Cfg.nay, Cfg.nax, Cfg.naz] <;>
    refine ⟨by omega, by omega, by omega, by omega, by omega, by omega, ?_, ?_, ?_, ?_⟩ <;> intro h0 <;>
    first | omega | (simp at h0)

/-- Plane, column and row of an element. -/
def ky (g : Cfg) : Ce → Int
  | .w _ i => i / g.naz / g.nax
  | .m _ iy _ _ => iy
def kx (g : Cfg) : Ce → Int
  | .w _ i => i / g.naz % g.nax
  | .m _ _ ix _ => ix
def kz (g : Cfg) : Ce → Int
  | .w _ i => i % g.naz
  | .m _ _ _ iz => iz

theorem ky_idx {a : Fd} {iy ix iz : Int} (h : Pt g iy ix iz) : ky g (.w a (g.idx iy ix iz)) = iy :=
  Fd3.ky_idx (a := .p) h
theorem kx_idx {a : Fd} {iy ix iz : Int} (h : Pt g iy ix iz) : kx g (.w a (g.idx iy ix iz)) = ix :=
  Fd3.kx_idx (a := .p) h
theorem kz_idx {a : Fd} {iy ix iz : Int} (h : Pt g iy ix iz) : kz g (.w a (g.idx iy ix iz)) = iz :=
  Fd3.kz_idx (a := .p) h

theorem ok_w {a : Fd} {iy ix iz : Int} (h : Pt g iy ix iz) : ok g (.w a (g.idx iy ix iz)) = true := by
  have := idx_range h
  simp only [ok]; simp [this.1, this.2]

theorem ok_m {a : Md} {iy ix iz : Int} (h : Pt g iy ix iz) : ok g (.m a iy ix iz) = true := by
  obtain ⟨h1, h2, h3, h4, h5, h6⟩ := h
  simp only [ok]; simp [h1, h2, h3, h4, h5, h6]

variable {K : Type} {c1 c2 : K}

theorem upd_dst (a : Fd) (iy ix iz : Int) : (upd g c1 c2 a iy ix iz).dst = .w a (g.idx iy ix iz) := by cases a <;> rfl

/-- An assignment touches its own element, the media of its point, and fields of the other kind. -/
theorem upd_cells {a : Fd} {iy ix iz : Int} {c : Ce} (hc : c ∈ (upd g c1 c2 a iy ix iz).cells) :
    c = .w a (g.idx iy ix iz) ∨ (∃ b, c = .m b iy ix iz) ∨
      ∃ b jy jx jz, vel b ≠ vel a ∧ c = .w b (g.idx jy jx jz) ∧ (Valid g → InS g (sw a) iy ix iz → Pt g jy jx jz) := by
  have key : ∀ {jy jx jz : Int}, ((1 ≤ iy ∧ iy + 2 < g.nay ∧ 1 ≤ ix ∧ ix + 2 < g.nax ∧ 1 ≤ iz ∧ iz + 2 < g.naz ∧
      (sw a = .x → 2 ≤ ix) ∧ (sw a = .y → 2 ≤ iy) ∧ (sw a = .z → 2 ≤ iz) ∧
      (sw a = .xz ∨ sw a = .xy ∨ sw a = .yz → 2 ≤ iy ∧ 2 ≤ ix ∧ 2 ≤ iz)) → Pt g jy jx jz) →
      (Valid g → InS g (sw a) iy ix iz → Pt g jy jx jz) := fun h h1 h2 => h (in_marg h1 h2)
  cases a <;> dsimp only [upd, vxS, vyS, vzS, txxS, tyyS, tzzS, txzS, txyS, tyzS, dvx, dvy, dvz, Stmt.cells] at hc <;>
    simp only [rds_add, rds_sub, rds_mul, rds_rd, rds_c, rd, md, List.mem_cons, List.mem_append, List.not_mem_nil, or_false,
      List.nil_append, or_assoc] at hc <;>
    (repeat' (rcases hc with hc | hc)) <;>
    first
    | exact .inl rfl
    | exact .inr (.inl ⟨_, rfl⟩)
    | (refine .inr (.inr ⟨_, _, _, _, (by decide), rfl, key fun h => ?_⟩)
       obtain ⟨h1, h2, h3, h4, h5, h6, h7, h8, h9, h10⟩ := h
       simp only [sw, forall_const, reduceCtorEq, or_false, or_true, IsEmpty.forall_iff] at h7 h8 h9 h10
       unfold Pt; omega)

/-- The elements of the fields of a kind. -/
def Kind (k : Bool) (c : Ce) : Prop := ∃ a i, c = .w a i ∧ vel a = k

theorem in_pt (hv : Valid g) {s : Sw} {iy ix iz : Int} (h : InS g s iy ix iz) : Pt g iy ix iz := by
  have := in_marg hv h
  unfold Pt; omega

theorem upd_ok (hv : Valid g) {a : Fd} {iy ix iz : Int} (h : InS g (sw a) iy ix iz) :
    ∀ c ∈ (upd g c1 c2 a iy ix iz).cells, ok g c = true := by
  intro c hc
  rcases upd_cells hc with rfl | ⟨b, rfl⟩ | ⟨b, jy, jx, jz, -, rfl, hp⟩
  · exact ok_w (in_pt hv h)
  · exact ok_m (in_pt hv h)
  · exact ok_w (hp hv h)

/-- Of the fields of its own kind an assignment touches only the element it sets. -/
theorem upd_own {a : Fd} {iy ix iz : Int} {c : Ce} (hc : c ∈ (upd g c1 c2 a iy ix iz).cells) (hk : Kind (vel a) c) :
    c = .w a (g.idx iy ix iz) := by
  obtain ⟨b, i, rfl, hb⟩ := hk
  rcases upd_cells hc with h | ⟨b', h⟩ | ⟨b', jy, jx, jz, hne, h, -⟩
  · exact h
  · cases h
  · rw [(Ce.w.inj h).1] at hb; exact absurd hb hne

theorem upd_key (hv : Valid g) {a : Fd} {iy ix iz : Int} (h : InS g (sw a) iy ix iz) :
    InKey (Kind (vel a)) (ky g) iy (upd g c1 c2 a iy ix iz) ∧ InKey (Kind (vel a)) (kx g) ix (upd g c1 c2 a iy ix iz) ∧
    InKey (Kind (vel a)) (kz g) iz (upd g c1 c2 a iy ix iz) := by
  have hd : Kind (vel a) (upd g c1 c2 a iy ix iz).dst := ⟨_, _, upd_dst a iy ix iz, rfl⟩
  refine ⟨⟨hd, fun c h1 h2 => ?_⟩, ⟨hd, fun c h1 h2 => ?_⟩, ⟨hd, fun c h1 h2 => ?_⟩⟩ <;> rw [upd_own h1 h2]
  · exact ky_idx (in_pt hv h)
  · exact kx_idx (in_pt hv h)
  · exact kz_idx (in_pt hv h)

/-- The kind of the fields a sweep advances. -/
def swVel : Sw → Bool
  | .x => true | .y => true | .z => true | .p => false | .xz => false | .xy => false | .yz => false

theorem vel_sw (a : Fd) : vel a = swVel (sw a) := by cases a <;> rfl

/-- A sweep consists of the assignments of the points it covers. -/
theorem sweep_all {Q : Stmt Ce K → Prop} {s : Sw}
    (h : ∀ a iy ix iz, sw a = s → InS g s iy ix iz → Q (upd g c1 c2 a iy ix iz)) : All Q (sweep g c1 c2 s).flatten := by
  refine all_parfor fun iy h1 h2 => all_loop fun ix h3 h4 => all_loop fun iz h5 h6 st hst => ?_
  obtain ⟨a, ha, rfl⟩ := List.mem_map.mp hst
  exact h a iy ix iz (mem_grp.mp ha) ⟨h1, h2, h3, h4, h5, h6⟩

theorem grp_key (hv : Valid g) {s : Sw} {iy ix iz : Int} (h : InS g s iy ix iz) :
    ∀ st ∈ (grp s).map fun a => upd g c1 c2 a iy ix iz, InKey (Kind (swVel s)) (ky g) iy st ∧
      InKey (Kind (swVel s)) (kx g) ix st ∧ InKey (Kind (swVel s)) (kz g) iz st := by
  intro st hst
  obtain ⟨a, ha, rfl⟩ := List.mem_map.mp hst
  have e := mem_grp.mp ha
  rw [← e, ← vel_sw]
  rw [← e] at h
  exact upd_key hv h

theorem sweep_apart (hv : Valid g) (s : Sw) : (sweep g c1 c2 s).Pairwise Apart :=
  parfor_apart (Kind (swVel s)) (ky g) fun iy h1 h2 => all_loop fun ix h3 h4 => all_loop fun iz h5 h6 st hst =>
    (grp_key hv ⟨h1, h2, h3, h4, h5, h6⟩ st hst).1

/-- Different sweeps of a kind have nothing in common. -/
theorem sweeps_cross {s t : Sw} (hk : swVel s = swVel t) (hst : s ≠ t) :
    ∀ p ∈ (sweep g c1 c2 s).flatten, ∀ q ∈ (sweep g c1 c2 t).flatten, p.dst ∉ q.cells ∧ q.dst ∉ p.cells := by
  have key : ∀ {s t : Sw}, swVel s = swVel t → s ≠ t →
      All (fun p => (∃ a i, p.dst = .w a i ∧ sw a = s) ∧ ∀ c ∈ p.cells, ¬ ∃ a i, c = .w a i ∧ sw a = t)
        (sweep g c1 c2 s).flatten := by
    intro s t hk hst
    refine sweep_all fun a iy ix iz ha h => ⟨⟨a, _, upd_dst a iy ix iz, ha⟩, ?_⟩
    rintro c hc ⟨b, i, rfl, hb⟩
    have := upd_own hc ⟨b, i, rfl, by rw [vel_sw, vel_sw, ha, hb, hk]⟩
    rw [(Ce.w.inj this).1, ha] at hb
    exact hst hb
  exact cross_of (W := fun c => ∃ a i, c = .w a i ∧ sw a = s) (W' := fun c => ∃ a i, c = .w a i ∧ sw a = t)
    (key hk hst) (key hk.symm hst.symm)

theorem two_free (hv : Valid g) {s t : Sw} (hk : swVel s = swVel t) (hst : s ≠ t) :
    PhaseFree (sweep g c1 c2 s ++ sweep g c1 c2 t) :=
  phaseFree_of_pairwise (append_apart (sweep_apart hv s) (sweep_apart hv t) (sweeps_cross hk hst))

section Values
variable [CommRing K]

/-- A sweep leaves alone what it does not advance. -/
theorem sweep_out (hv : Valid g) {s : Sw} {a : Fd} {iy ix iz : Int} (hp : Pt g iy ix iz) (h : ¬ (sw a = s ∧ InS g s iy ix iz))
    (m : Ce → K) : run (sweep g c1 c2 s).flatten m (.w a (g.idx iy ix iz)) = m (.w a (g.idx iy ix iz)) :=
  run_untouched (sweep_all (Q := fun st => st.dst ≠ .w a (g.idx iy ix iz)) fun b jy jx jz hb hi he => by
    rw [upd_dst] at he
    obtain ⟨rfl, hj⟩ := Ce.w.inj he
    obtain ⟨rfl, rfl, rfl⟩ := idx_inj (in_pt hv hi) hp hj
    exact h ⟨hb, hi⟩) m

theorem sweep_arr {s : Sw} {a : Fd} (h : sw a ≠ s) (i : Int) (m : Ce → K) :
    run (sweep g c1 c2 s).flatten m (.w a i) = m (.w a i) :=
  run_untouched (sweep_all (Q := fun st => st.dst ≠ .w a i) fun b jy jx jz hb _ he => by
    rw [upd_dst] at he
    obtain ⟨rfl, -⟩ := Ce.w.inj he
    exact h hb) m

theorem sweep_med (s : Sw) (b : Md) (iy ix iz : Int) (m : Ce → K) :
    run (sweep g c1 c2 s).flatten m (.m b iy ix iz) = m (.m b iy ix iz) :=
  run_untouched (sweep_all (Q := fun st => st.dst ≠ .m b iy ix iz) fun a jy jx jz _ _ he => by
    rw [upd_dst] at he; cases he) m

theorem run_store (a : Fd) (iy ix iz : Int) (m : Ce → K) (c : Ce) : (upd g c1 c2 a iy ix iz).run m c =
    if c = .w a (g.idx iy ix iz) then (upd g c1 c2 a iy ix iz).e.eval m else m c := by
  unfold Stmt.run Verif.Par.store
  rw [upd_dst]

/-- The assignments of one iteration. -/
theorem run_grp {l : List Fd} (hl : l.Nodup) {k : Bool} (hk : ∀ a ∈ l, vel a = k) {a : Fd} (ha : a ∈ l) (iy ix iz : Int) (m : Ce → K) :
    run (l.map fun a => upd g c1 c2 a iy ix iz) m (.w a (g.idx iy ix iz)) = (upd g c1 c2 a iy ix iz).e.eval m := by
  induction l generalizing m with
  | nil => cases ha
  | cons b l ih =>
    obtain ⟨hb, hl⟩ := List.nodup_cons.mp hl
    show run (l.map fun a => upd g c1 c2 a iy ix iz) ((upd g c1 c2 b iy ix iz).run m) _ = _
    by_cases hab : a = b
    · subst hab
      rw [run_untouched, run_store, if_pos rfl]
      intro s hs e
      obtain ⟨d, hd, rfl⟩ := List.mem_map.mp hs
      rw [upd_dst] at e
      exact hb ((Ce.w.inj e).1 ▸ hd)
    · have ha' : a ∈ l := by
        rcases List.mem_cons.mp ha with h | h
        · exact absurd h hab
        · exact h
      rw [ih hl (fun d hd => hk d (by simp [hd])) ha']
      refine Expr.eval_congr _ fun c hc => ?_
      rw [run_store, if_neg]
      rintro rfl
      have hv : vel b = vel a := by rw [hk b (by simp), hk a ha]
      have := upd_own (a := a) (iy := iy) (ix := ix) (iz := iz) (List.mem_cons_of_mem _ hc) ⟨b, _, rfl, hv⟩
      exact hab (Ce.w.inj this).1.symm

/-- A sweep sets every point it covers once, from the fields before the sweep. -/
theorem sweep_in (hv : Valid g) {a : Fd} {iy ix iz : Int} (h : InS g (sw a) iy ix iz) (m : Ce → K) :
    run (sweep g c1 c2 (sw a)).flatten m (.w a (g.idx iy ix iz)) = (upd g c1 c2 a iy ix iz).e.eval m := by
  have hp := in_pt hv h
  have key := fun {iy ix iz} h => grp_key (c1 := c1) (c2 := c2) (s := sw a) (iy := iy) (ix := ix) (iz := iz) hv h
  have hh := h
  obtain ⟨h1, h2, h3, h4, h5, h6⟩ := h
  unfold sweep
  rw [parfor_flatten, run_loop_at (W := Kind (swVel (sw a))) (κ := ky g) (i := iy) (fun i' a1 a2 => all_loop fun j' a3 a4 =>
      all_loop fun k' a5 a6 s hs => (key ⟨a1, a2, a3, a4, a5, a6⟩ s hs).1) h1 h2 (ky_idx hp),
    run_loop_at (W := Kind (swVel (sw a))) (κ := kx g) (i := ix) (fun j' a3 a4 =>
      all_loop fun k' a5 a6 s hs => (key ⟨h1, h2, a3, a4, a5, a6⟩ s hs).2.1) h3 h4 (kx_idx hp),
    run_loop_at (W := Kind (swVel (sw a))) (κ := kz g) (i := iz) (fun k' a5 a6 s hs => (key ⟨h1, h2, h3, h4, a5, a6⟩ s hs).2.2)
      h5 h6 (kz_idx hp)]
  refine run_grp (k := vel a) ?_ (fun b hb => ?_) (mem_grp.mpr rfl) iy ix iz m
  · cases a <;> decide
  · rw [vel_sw, vel_sw, mem_grp.mp hb]

/-- Several sweeps of one kind. -/
theorem sweeps_at (hv : Valid g) {k : Bool} (L : List Sw) (hL : L.Nodup) (hk : ∀ s ∈ L, swVel s = k) {a : Fd}
    {iy ix iz : Int} (hp : Pt g iy ix iz) (m : Ce → K) [Decidable (InS g (sw a) iy ix iz)] :
    run (L.flatMap fun s => (sweep g c1 c2 s).flatten) m (.w a (g.idx iy ix iz)) =
      if sw a ∈ L ∧ InS g (sw a) iy ix iz then (upd g c1 c2 a iy ix iz).e.eval m else m (.w a (g.idx iy ix iz)) := by
  have out : ∀ (L : List Sw) (m : Ce → K), sw a ∉ L →
      run (L.flatMap fun s => (sweep g c1 c2 s).flatten) m (.w a (g.idx iy ix iz)) = m (.w a (g.idx iy ix iz)) := by
    intro L
    induction L with
    | nil => intro m _; rfl
    | cons s L ih =>
      intro m hn
      rw [List.flatMap_cons, run_append, ih _ (fun h => hn (by simp [h])), sweep_arr (fun h => hn (by simp [h]))]
  induction L generalizing m with
  | nil => rw [if_neg (by simp)]; rfl
  | cons s L ih =>
    obtain ⟨hs, hL⟩ := List.nodup_cons.mp hL
    rw [List.flatMap_cons, run_append]
    by_cases hsa : sw a = s
    · rw [out L _ (hsa ▸ hs)]
      by_cases hi : InS g (sw a) iy ix iz
      · rw [if_pos ⟨by simp [hsa], hi⟩, ← hsa, sweep_in hv hi]
      · rw [if_neg (fun h => hi h.2), sweep_out hv hp (fun h => hi (h.1 ▸ h.2))]
    · rw [ih hL (fun t ht => hk t (by simp [ht]))]
      by_cases hc : sw a ∈ L ∧ InS g (sw a) iy ix iz
      · rw [if_pos hc, if_pos ⟨by simp [hc.1], hc.2⟩]
        refine Expr.eval_congr _ fun c hcm => ?_
        have hva : vel a = k := by rw [vel_sw]; exact hk _ (by simp [hc.1])
        rcases upd_cells (List.mem_cons_of_mem _ hcm) with rfl | ⟨b, rfl⟩ | ⟨b, jy, jx, jz, hne, rfl, -⟩
        · exact sweep_arr hsa _ m
        · exact sweep_med _ _ _ _ _ _
        · refine sweep_arr (fun e => hne ?_) _ m
          rw [vel_sw b, e, hk s (by simp), hva]
      · rw [if_neg hc, if_neg (fun h => hc ⟨(List.mem_cons.mp h.1).resolve_left hsa, h.2⟩), sweep_arr hsa]

theorem sweeps_med (L : List Sw) (b : Md) (iy ix iz : Int) (m : Ce → K) :
    run (L.flatMap fun s => (sweep g c1 c2 s).flatten) m (.m b iy ix iz) = m (.m b iy ix iz) := by
  induction L generalizing m with
  | nil => rfl
  | cons s L ih => rw [List.flatMap_cons, run_append, ih, sweep_med]

theorem vel_seq : seqOf (velPhases g c1 c2) = [Sw.x, .y, .z].flatMap fun s => (sweep g c1 c2 s).flatten := by
  simp [seqOf, velPhases]

theorem str_seq : seqOf (strPhases g c1 c2) = [Sw.p, .xz, .xy, .yz].flatMap fun s => (sweep g c1 c2 s).flatten := by
  simp [seqOf, strPhases]

end Values

end
end Verif.Fd3.El

import Verif.Base.StencilAll
import Verif.Base.StencilAt

/-!
# The electromagnetic kernel of fdemmodc (em4.c), without sources and boundary conditions

Arithmetic is exact (a commutative ring instead of `float`).  `em4` is called by every thread of a parallel region
(fdemmodc.c:358-368), so the work arrays `dxhz` and `dzhx` that it allocates belong to the thread.  Which thread executes which
row of which of the three loops over rows (em4.c:135, 141, 149) is given by `s1`, `s2`, `s3`.  Not modelled: `applySource`,
`boundariesP`, the leak of the work arrays (they are never freed).
-/

namespace Verif.Em

open Verif.Sten

/-- The sizes and boundaries: `pt`, `pb`, `pl`, `pr` are the numbers of extra points at the top, bottom, left and right
(`ntaper` if the side is of type 2 or 4, otherwise 0: getEmParameters.c:312-347). -/
structure Cfg where
  nx : Int
  nz : Int
  io : Int
  pt : Int
  pb : Int
  pl : Int
  pr : Int

namespace Cfg
variable (g : Cfg)
/-- getEmParameters.c:307, 313, 327. -/
def naz : Int := g.nz + g.io + g.pt + g.pb
/-- getEmParameters.c:308, 332, 345. -/
def nax : Int := g.nx + g.io + g.pl + g.pr
/-- getEmParameters.c:284-285, 314, 333. -/
def ioXx : Int := g.io / 2 + g.pl
def ioXz : Int := g.io / 2 - 1 + g.pt
/-- getEmParameters.c:287-288, 315, 334. -/
def ioZx : Int := g.io / 2 - 1 + g.pl
def ioZz : Int := g.io / 2 + g.pt
/-- getEmParameters.c:290-291. -/
def ioP : Int := g.io / 2 - 1
/-- getEmParameters.c:295-302, 316-317, 322, 328, 335-336, 341, 346. -/
def ieXx : Int := g.nx + g.ioXx
def ieXz : Int := g.nz + g.ioXz
def ieZx : Int := g.nx + g.ioZx
def ieZz : Int := g.nz + g.ioZz
def iePx : Int := g.nx + g.ioP + g.pl + g.pr
def iePz : Int := g.nz + g.ioP + g.pt + g.pb
end Cfg

/-- The arrays: fields, media, and the work arrays of thread `t`. -/
inductive Ar
  | hz | hx | ey | eprs | ks
  | dx (t : Nat) | dz (t : Nat)
  deriving DecidableEq, Repr

/-- Does the element exist (fdemmodc.c:236-247; em4.c:80-81)? -/
def ok (g : Cfg) : Ar × Int → Bool
  | (.dx _, i) => 0 ≤ i && i < g.naz
  | (.dz _, i) => 0 ≤ i && i < g.naz
  | (_, i) => 0 ≤ i && i < g.nax * g.naz

section Model
variable {K : Type} (g : Cfg) (r c1 c2 : K)

/-- Read an array at column `ix`, row `iz`. -/
def rd (a : Ar) (ix iz : Int) : Expr (Ar × Int) K := .rd (a, el g.naz ix iz)

/-- em4.c:88-90 (`r` is `rmu0`). -/
def hzS (ix iz : Int) : Stmt (Ar × Int) K :=
  ⟨(.hz, el g.naz ix iz), rd g .hz ix iz - .c r * (
    .c c1 * (rd g .ey ix iz - rd g .ey (ix - 1) iz) + .c c2 * (rd g .ey (ix + 1) iz - rd g .ey (ix - 2) iz))⟩

/-- em4.c:101-103. -/
def hxS (ix iz : Int) : Stmt (Ar × Int) K :=
  ⟨(.hx, el g.naz ix iz), rd g .hx ix iz - .c r * (
    .c c1 * (rd g .ey ix iz - rd g .ey ix (iz - 1)) + .c c2 * (rd g .ey ix (iz + 1) - rd g .ey ix (iz - 2)))⟩

/-- em4.c:136-137, executed by thread `t`. -/
def dxS (t : Nat) (ix iz : Int) : Stmt (Ar × Int) K :=
  ⟨(.dx t, iz), .c c1 * (rd g .hz (ix + 1) iz - rd g .hz ix iz) + .c c2 * (rd g .hz (ix + 2) iz - rd g .hz (ix - 1) iz)⟩

/-- em4.c:142-143, executed by thread `t`. -/
def dzS (t : Nat) (ix iz : Int) : Stmt (Ar × Int) K :=
  ⟨(.dz t, iz), .c c1 * (rd g .hx ix (iz + 1) - rd g .hx ix iz) + .c c2 * (rd g .hx ix (iz + 2) - rd g .hx ix (iz - 1))⟩

/-- em4.c:150, executed by thread `t`. -/
def eyS (t : Nat) (ix iz : Int) : Stmt (Ar × Int) K :=
  ⟨(.ey, el g.naz ix iz), rd g .ey ix iz -
    (rd g .eprs ix iz * (.rd (.dz t, iz) + .rd (.dx t, iz)) + rd g .ks ix iz * rd g .ey ix iz)⟩

/-- The loops over the magnetic fields (em4.c:84-107); the first is `nowait`. -/
def magPhase : List (List (Stmt (Ar × Int) K)) :=
  sweep g.ioXx g.ieXx g.ioXz g.ieXz (fun ix iz => [hzS g r c1 c2 ix iz]) ++
  sweep g.ioZx g.ieZx g.ioZz g.ieZz (fun ix iz => [hxS g r c1 c2 ix iz])

/-- The rows of the loops over the electric field. -/
def rows : List Int := (List.range (g.iePz - g.ioP).toNat).map fun k : Nat => g.ioP + (k : Int)

/-- What thread `t` executes for column `ix` (em4.c:132-153): its rows of the first loop, of the second, of the third. -/
def thread (s1 s2 s3 : Int → Int → Nat) (ix : Int) (t : Nat) : List (Stmt (Ar × Int) K) :=
  ((rows g).filter fun iz => s1 ix iz = t).map (dxS g c1 c2 t ix) ++
  ((rows g).filter fun iz => s2 ix iz = t).map (dzS g c1 c2 t ix) ++
  ((rows g).filter fun iz => s3 ix iz = t).map (eyS g t ix)

/-- A column, executed by `T` threads: no barrier but at the end. -/
def column (T : Nat) (s1 s2 s3 : Int → Int → Nat) (ix : Int) : List (List (Stmt (Ar × Int) K)) :=
  (List.range T).map (thread g c1 c2 s1 s2 s3 ix)

/-- The columns of the electric field (em4.c:131). -/
def cols : List Int := (List.range (g.iePx - g.ioP).toNat).map fun k : Nat => g.ioP + (k : Int)

/-- The loops of a time step. -/
def phases (T : Nat) (s1 s2 s3 : Int → Int → Nat) : List (List (List (Stmt (Ar × Int) K))) :=
  magPhase g r c1 c2 :: (cols g).map (column g c1 c2 T s1 s2 s3)

end Model

/-! ## Lemmas -/

section
variable {A : Type} [DecidableEq A] {K : Type} [CommRing K]

/-- When every assignment keeps to the cells of its own key, a cell is computed by the assignments of its key alone. -/
theorem run_filter {W : A → Prop} {κ : A → Int} (i : Int) (p : List (Stmt A K)) (h : ∀ s ∈ p, InKey W κ (κ s.dst) s)
    (m m' : A → K) (hm : ∀ c, (W c → κ c = i) → m c = m' c) :
    ∀ c, (W c → κ c = i) → run p m c = run (p.filter fun s => κ s.dst = i) m' c := by
  induction p generalizing m m' with
  | nil => exact hm
  | cons s p ih =>
    intro c hc
    have hs := h s (by simp)
    by_cases e : κ s.dst = i
    · rw [List.filter_cons_of_pos (by simpa using e)]
      refine ih (fun t ht => h t (by simp [ht])) (s.run m) (s.run m') (fun b hb => ?_) c hc
      unfold Stmt.run
      unfold Verif.Par.store
      split
      · exact Expr.eval_congr _ fun a ha => hm a fun hw => (hs.2 a (by simp [Stmt.cells, ha]) hw).trans e
      · exact hm b hb
    · rw [List.filter_cons_of_neg (by simpa using e)]
      refine ih (fun t ht => h t (by simp [ht])) (s.run m) m' (fun b hb => ?_) c hc
      unfold Stmt.run
      unfold Verif.Par.store
      rw [if_neg]
      · exact hm b hb
      · rintro rfl; exact e (hb hs.1)

omit [DecidableEq A] [CommRing K] in
theorem filter_eq_one {L : List Int} (hn : L.Nodup) {i : Int} (hi : i ∈ L) {P : Int → Bool} (h : P i = true) :
    (L.filter fun j => P j && decide (j = i)) = [i] := by
  induction L with
  | nil => cases hi
  | cons a L ih =>
    rw [List.nodup_cons] at hn
    by_cases e : a = i
    · subst e
      rw [List.filter_cons_of_pos (by simp [h])]
      congr 1
      rw [List.filter_eq_nil_iff]
      intro b hb hc
      simp only [Bool.and_eq_true, decide_eq_true_eq] at hc
      exact hn.1 (hc.2 ▸ hb)
    · rw [List.filter_cons_of_neg (by simp [e])]
      exact ih hn.2 (by rcases List.mem_cons.mp hi with h | h; exact absurd h.symm e; exact h)

theorem flatMap_one {B : Type} (f : Nat → List B) (T t : Nat) (ht : t < T) (h : ∀ u < T, u ≠ t → f u = []) :
    (List.range T).flatMap f = f t := by
  induction T with
  | zero => omega
  | succ n ih =>
    rw [List.range_succ, List.flatMap_append, List.flatMap_singleton]
    by_cases e : t = n
    · subst e
      have : (List.range t).flatMap f = [] := by
        rw [List.flatMap_eq_nil_iff]
        intro u hu
        rw [List.mem_range] at hu
        exact h u (by omega) (by omega)
      rw [this, List.nil_append]
    · rw [ih (by omega) (fun u hu hn => h u (by omega) hn), h n (by omega) (by omega), List.append_nil]

end

section
variable {K : Type} {g : Cfg} {r c1 c2 : K}

/-- Sizes as they occur: at least one point, the order at least 4, no negative extra points. -/
structure Valid (g : Cfg) : Prop where
  nx : 1 ≤ g.nx
  nz : 1 ≤ g.nz
  io : 4 ≤ g.io
  pt : 0 ≤ g.pt
  pb : 0 ≤ g.pb
  pl : 0 ≤ g.pl
  pr : 0 ≤ g.pr

theorem mem_rows {iz : Int} : iz ∈ rows g ↔ g.ioP ≤ iz ∧ iz < g.iePz := by
  unfold rows
  rw [List.mem_map]
  constructor
  · rintro ⟨k, hk, rfl⟩; rw [List.mem_range] at hk; omega
  · intro h; exact ⟨(iz - g.ioP).toNat, List.mem_range.mpr (by omega), by omega⟩

theorem mem_cols {ix : Int} : ix ∈ cols g ↔ g.ioP ≤ ix ∧ ix < g.iePx := by
  unfold cols
  rw [List.mem_map]
  constructor
  · rintro ⟨k, hk, rfl⟩; rw [List.mem_range] at hk; omega
  · intro h; exact ⟨(ix - g.ioP).toNat, List.mem_range.mpr (by omega), by omega⟩

theorem rows_nodup : (rows g).Nodup :=
  List.Nodup.map (fun x y e => by have : g.ioP + (x : Int) = g.ioP + (y : Int) := e; omega) List.nodup_range
theorem cols_nodup : (cols g).Nodup :=
  List.Nodup.map (fun x y e => by have : g.ioP + (x : Int) = g.ioP + (y : Int) := e; omega) List.nodup_range

/-- The assignments of a thread. -/
theorem mem_thread {s1 s2 s3 : Int → Int → Nat} {ix : Int} {t : Nat} {s : Stmt (Ar × Int) K} :
    s ∈ thread g c1 c2 s1 s2 s3 ix t ↔ ∃ iz ∈ rows g, (s1 ix iz = t ∧ s = dxS g c1 c2 t ix iz) ∨
      (s2 ix iz = t ∧ s = dzS g c1 c2 t ix iz) ∨ (s3 ix iz = t ∧ s = eyS g t ix iz) := by
  unfold thread
  simp only [List.mem_append, List.mem_map, List.mem_filter, decide_eq_true_eq]
  constructor
  · rintro ((⟨iz, ⟨h, e⟩, rfl⟩ | ⟨iz, ⟨h, e⟩, rfl⟩) | ⟨iz, ⟨h, e⟩, rfl⟩)
    · exact ⟨iz, h, .inl ⟨e, rfl⟩⟩
    · exact ⟨iz, h, .inr (.inl ⟨e, rfl⟩)⟩
    · exact ⟨iz, h, .inr (.inr ⟨e, rfl⟩)⟩
  · rintro ⟨iz, h, ⟨e, rfl⟩ | ⟨e, rfl⟩ | ⟨e, rfl⟩⟩
    · exact .inl (.inl ⟨iz, ⟨h, e⟩, rfl⟩)
    · exact .inl (.inr ⟨iz, ⟨h, e⟩, rfl⟩)
    · exact .inr ⟨iz, ⟨h, e⟩, rfl⟩

theorem row_lt (hv : Valid g) {iz : Int} (h : iz ∈ rows g) : 1 ≤ iz ∧ iz + 2 < g.naz := by
  rw [mem_rows] at h
  obtain ⟨h1, h2, h3, h4, h5, h6, h7⟩ := hv
  simp only [Cfg.ioP, Cfg.iePz] at h
  simp only [Cfg.naz]
  omega

theorem col_lt (hv : Valid g) {ix : Int} (h : ix ∈ cols g) : 1 ≤ ix ∧ ix + 2 < g.nax := by
  rw [mem_cols] at h
  obtain ⟨h1, h2, h3, h4, h5, h6, h7⟩ := hv
  simp only [Cfg.ioP, Cfg.iePx] at h
  simp only [Cfg.nax]
  omega

/-- What the loops over the electric field write. -/
def Wr : Ar × Int → Prop
  | (.ey, _) => True
  | (.dx _, _) => True
  | (.dz _, _) => True
  | _ => False

/-- Every assignment of a column keeps to its row. -/
theorem thread_key (hv : Valid g) {s1 s2 s3 : Int → Int → Nat} {ix : Int} {t : Nat} {s : Stmt (Ar × Int) K}
    (h : s ∈ thread g c1 c2 s1 s2 s3 ix t) : InKey Wr (rowOf g.naz) (rowOf g.naz s.dst) s := by
  obtain ⟨iz, hr, h⟩ := mem_thread.mp h
  obtain ⟨p1, p2⟩ := row_lt hv hr
  have e1 : ∀ a, rowOf g.naz ((a : Ar), el g.naz ix iz) = iz := fun a => rowOf_el (by omega) (by omega)
  have e2 : ∀ a, rowOf g.naz ((a : Ar), iz) = iz := fun a => Int.emod_eq_of_lt (by omega) (by omega)
  rcases h with ⟨-, rfl⟩ | ⟨-, rfl⟩ | ⟨-, rfl⟩
  · refine ⟨trivial, ?_⟩
    cells [dxS, rd, Wr, e1, e2]
  · refine ⟨trivial, ?_⟩
    cells [dzS, rd, Wr, e1, e2]
  · refine ⟨trivial, ?_⟩
    cells [eyS, rd, Wr, e1, e2]

theorem column_apart (hv : Valid g) (T : Nat) (s1 s2 s3 : Int → Int → Nat) (ix : Int) :
    (column g c1 c2 T s1 s2 s3 ix).Pairwise Apart := by
  unfold column
  rw [List.pairwise_map]
  refine List.Pairwise.imp_of_mem ?_ (List.pairwise_lt_range (n := T))
  have key : ∀ t u : Nat, t ≠ u → ∀ s ∈ thread g c1 c2 s1 s2 s3 ix t, ∀ s' ∈ thread g c1 c2 s1 s2 s3 ix u, s.dst ∉ s'.cells := by
    intro t u hne s hs s' hs' hc
    have hu : u ≠ t := hne.symm
    obtain ⟨iz, hr, h⟩ := mem_thread.mp hs
    obtain ⟨jz, hq, h'⟩ := mem_thread.mp hs'
    obtain ⟨p1, p2⟩ := row_lt hv hr
    obtain ⟨q1, q2⟩ := row_lt hv hq
    rcases h with ⟨a, rfl⟩ | ⟨a, rfl⟩ | ⟨a, rfl⟩ <;> rcases h' with ⟨b, rfl⟩ | ⟨b, rfl⟩ | ⟨b, rfl⟩ <;>
      simp only [dxS, dzS, eyS, rd, Stmt.cells, rds_add, rds_sub, rds_mul, rds_rd, rds_c, List.mem_cons, List.mem_append,
        List.not_mem_nil, or_false, Prod.mk.injEq, reduceCtorEq, false_and, or_self, Ar.dx.injEq, Ar.dz.injEq, hne,
        false_or, true_and] at hc
    have e : iz = jz := by
      unfold el at hc; omega
    subst e
    omega
  intro t u _ _ hlt
  exact ⟨key t u (by omega), key u t (by omega)⟩

end

end Verif.Em

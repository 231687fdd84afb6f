import Verif.Fd.AcouSched
import Verif.Base.StencilAt

/-! # C51, C52: what one time step does inside the model and on free surfaces -/

namespace Verif.Fd.Acou

open Verif.Sten Verif.Par

section
variable {K : Type} {g : Cfg}

/-- The statement does not assign the element of `a` in column `ix` and row `iz`. -/
def NA (g : Cfg) (a : Arr) (ix iz : Int) (s : Stmt Cell K) : Prop := s.dst.1 = a → ¬ (col g s.dst = ix ∧ row g s.dst = iz)

theorem na_arr {a b : Arr} (h : b ≠ a) {ix iz i : Int} {e : Expr Cell K} : NA g a ix iz ⟨(b, i), e⟩ := fun e' => absurd e' h

theorem na_at {a b : Arr} {ix iz jx jz i : Int} {e : Expr Cell K} (hi : i = jx * g.naz + jz) (h1 : 0 ≤ jz) (h2 : jz < g.naz)
    (h : jx ≠ ix ∨ jz ≠ iz) : NA g a ix iz ⟨(b, i), e⟩ := by
  subst hi
  rintro - ⟨e1, e2⟩
  simp only [col, row, col_key h1 h2, row_key h1 h2] at e1 e2
  omega

theorem run_na [CommRing K] {p : List (Stmt Cell K)} {a : Arr} {ix iz : Int} (h : AllQ (NA g a ix iz) p) (h1 : 0 ≤ iz)
    (h2 : iz < g.naz) (m : Cell → K) : run p m (a, ix * g.naz + iz) = m (a, ix * g.naz + iz) := by
  refine run_untouched (fun s hs e => ?_) m
  have := h s hs
  rw [NA, e] at this
  exact this rfl ⟨col_key h1 h2, row_key h1 h2⟩

/-- A two-dimensional loop, at the point `(ix, iz)`. -/
theorem run_sweep_at [CommRing K] {W : Cell → Prop} {a b c d : Int} {body : Int → Int → List (Stmt Cell K)}
    (h : ∀ ix : Int, a ≤ ix → ix < b → ∀ iz : Int, c ≤ iz → iz < d → ∀ s ∈ body ix iz,
      InKey W (col g) ix s ∧ InKey W (row g) iz s) {ix iz : Int} (hx1 : a ≤ ix) (hx2 : ix < b) (hz1 : c ≤ iz) (hz2 : iz < d)
    (h1 : 0 ≤ iz) (h2 : iz < g.naz) (x : Arr) (m : Cell → K) :
    run (sweep a b c d body).flatten m (x, ix * g.naz + iz) = run (body ix iz) m (x, ix * g.naz + iz) := by
  unfold sweep
  rw [parfor_flatten, run_loop_at (W := W) (κ := col g) _ hx1 hx2 (col_key h1 h2),
    run_loop_at (W := W) (κ := row g) _ hz1 hz2 (row_key h1 h2)]
  · exact fun jz e1 e2 s hs => (h ix hx1 hx2 jz e1 e2 s hs).2
  · intro jx e1 e2 s hs
    obtain ⟨jz, e3, e4, hs⟩ := mem_loop.mp hs
    exact (h jx e1 e2 jz e3 e4 s hs).1

theorem vxS_rkey (k1 k2 : K) {ix iz : Int} (h1 : 0 ≤ iz) (h2 : iz < g.naz) : InKey Wx (row g) iz (vxS g k1 k2 ix iz) := by
  keys [vxS, dpx, Wx, row]; exact row_key h1 h2

theorem vzS_rkey (k1 k2 : K) {ix iz : Int} (h1 : 0 ≤ iz) (h2 : iz < g.naz) : InKey Wz (row g) iz (vzS g k1 k2 ix iz) := by
  keys [vzS, dpz, Wz, row]; exact row_key h1 h2

theorem pS_rkey (k1 k2 : K) {ix iz : Int} (h1 : 0 ≤ iz) (h2 : iz < g.naz) : InKey Wp (row g) iz (pS g k1 k2 ix iz) := by
  keys [pS, Wp, row]; exact row_key h1 h2

/-- Grid facts used throughout. -/
theorem grid (hv : Valid g) :
    (g.naz = g.nz + 4 + g.pad g.top + g.pad g.bot ∧ g.nax = g.nx + 4 + g.pad g.lef + g.pad g.rig ∧ 1 ≤ g.nx ∧ 1 ≤ g.nz ∧
      5 ≤ g.npml) ∧ (0 ≤ g.pad g.top ∧ 0 ≤ g.pad g.bot ∧ 0 ≤ g.pad g.lef ∧ 0 ≤ g.pad g.rig) ∧
    ((g.top = 2 ∨ g.top = 4 → g.pad g.top = g.npml) ∧ (g.bot = 2 ∨ g.bot = 4 → g.pad g.bot = g.npml) ∧
      (g.lef = 2 ∨ g.lef = 4 → g.pad g.lef = g.npml) ∧ (g.rig = 2 ∨ g.rig = 4 → g.pad g.rig = g.npml)) := by
  have hnx := hv.nx; have hnz := hv.nz; have hpm := hv.npml
  have pt := pad_cases (g := g) g.top
  have pb := pad_cases (g := g) g.bot
  have pl := pad_cases (g := g) g.lef
  have pr := pad_cases (g := g) g.rig
  refine ⟨⟨rfl, rfl, hnx, hnz, hpm⟩, ?_, ?_⟩ <;> omega

/-! ### Loops that leave a point alone -/

section
variable {ix iz : Int}

theorem sweep_na {x a : Arr} {b c d e : Int} {body : Int → Int → List (Stmt Cell K)}
    (hb : ∀ jx jz : Int, ∀ s ∈ body jx jz, s.dst = (x, jx * g.naz + jz)) (hd : 0 ≤ d) (he : e ≤ g.naz)
    (h : x = a → ix < b ∨ c ≤ ix ∨ iz < d ∨ e ≤ iz) : AllQ (NA g a ix iz) (sweep b c d e body).flatten := by
  refine allQ_sweep fun jx h1 h2 jz h3 h4 s hs => ?_
  rintro hx ⟨e1, e2⟩
  rw [hb jx jz s hs] at hx e1 e2
  simp only [col, row, col_key (show 0 ≤ jz by omega) (show jz < g.naz by omega),
    row_key (show 0 ≤ jz by omega) (show jz < g.naz by omega)] at e1 e2
  have := h hx
  omega

theorem taperX_na (k : Coef K) {a : Arr} {b c d e : Int} {t : Arr} {w : Int → Int → Int} (hd : 0 ≤ d) (he : e ≤ g.naz)
    (h : Arr.vx = a → ix < b ∨ c ≤ ix ∨ iz < d ∨ e ≤ iz) : AllQ (NA g a ix iz) (taperX g k b c d e t w).flatten := by
  refine sweep_na (x := .vx) ?_ hd he h
  intro jx jz s hs
  simp only [List.mem_cons, List.not_mem_nil, or_false] at hs
  rcases hs with rfl | rfl <;> rfl

theorem taperZ_na (k : Coef K) {a : Arr} {b c d e : Int} {t : Arr} {w : Int → Int → Int} (hd : 0 ≤ d) (he : e ≤ g.naz)
    (h : Arr.vz = a → ix < b ∨ c ≤ ix ∨ iz < d ∨ e ≤ iz) : AllQ (NA g a ix iz) (taperZ g k b c d e t w).flatten := by
  refine sweep_na (x := .vz) ?_ hd he h
  intro jx jz s hs
  simp only [List.mem_cons, List.not_mem_nil, or_false] at hs
  rcases hs with rfl | rfl <;> rfl

/-- Interior points of the three grids (the ranges of the loops of acoustic4.c). -/
def InX (g : Cfg) (ix iz : Int) : Prop := g.ioXx ≤ ix ∧ ix < g.ieXx ∧ g.ioXz ≤ iz ∧ iz < g.ieXz
def InZ (g : Cfg) (ix iz : Int) : Prop := g.ioZx ≤ ix ∧ ix < g.ieZx ∧ g.ioZz ≤ iz ∧ iz < g.ieZz
def InP (g : Cfg) (ix iz : Int) : Prop := g.ioPx' ≤ ix ∧ ix < g.iePx' ∧ g.ioPz' ≤ iz ∧ iz < g.iePz'

/-- The element is not in the interior of its own grid. -/
def Inner (g : Cfg) (a : Arr) (ix iz : Int) : Prop :=
  (a = .vx ∧ InX g ix iz) ∨ (a = .vz ∧ InZ g ix iz) ∨ a = .p

theorem tapers_na (hv : Valid g) (k : Coef K) {a : Arr} (ha : Inner g a ix iz) :
    AllQP (NA g a ix iz) (taperTop g k ++ taperBot g k ++ taperLef g k ++ taperRig g k) := by
  obtain ⟨⟨g1, g2, g3, g4, g5⟩, ⟨p1, p2, p3, p4⟩, q1, q2, q3, q4⟩ := grid hv
  have hX : Arr.vx = a → InX g ix iz := by
    rintro rfl; rcases ha with ⟨-, h⟩ | ⟨h, -⟩ | h
    · exact h
    · cases h
    · cases h
  have hZ : Arr.vz = a → InZ g ix iz := by
    rintro rfl; rcases ha with ⟨h, -⟩ | ⟨-, h⟩ | h
    · cases h
    · exact h
    · cases h
  unfold InX at hX; unfold InZ at hZ
  simp only [Cfg.ioXx, Cfg.ieXx, Cfg.ioXz, Cfg.ieXz] at hX
  simp only [Cfg.ioZx, Cfg.ieZx, Cfg.ioZz, Cfg.ieZz] at hZ
  refine allQP_append (allQP_append (allQP_append ?_ ?_) ?_) ?_
  · refine allQP_ite fun ht => ?_
    have := q1 (.inr ht)
    simp only [Cfg.ioXx, Cfg.ieXx, Cfg.ioXz, Cfg.ioZx, Cfg.ieZx, Cfg.ioZz]
    refine allQP_append (allQP_append (allQP_append (allQP_append (allQP_append ?_ ?_) ?_) ?_) ?_) ?_
    · refine allQP_single (taperX_na k ?_ ?_ fun e => ?_) <;> (try have := hX e) <;> omega
    · refine allQP_ite fun _ => allQP_single (taperX_na k ?_ ?_ fun e => ?_) <;> (try have := hX e) <;> omega
    · refine allQP_ite fun _ => allQP_single (taperX_na k ?_ ?_ fun e => ?_) <;> (try have := hX e) <;> omega
    · refine allQP_single (taperZ_na k ?_ ?_ fun e => ?_) <;> (try have := hZ e) <;> omega
    · refine allQP_ite fun _ => allQP_single (taperZ_na k ?_ ?_ fun e => ?_) <;> (try have := hZ e) <;> omega
    · refine allQP_ite fun _ => allQP_single (taperZ_na k ?_ ?_ fun e => ?_) <;> (try have := hZ e) <;> omega
  · refine allQP_ite fun ht => ?_
    have := q2 (.inr ht)
    simp only [Cfg.ioXx, Cfg.ieXx, Cfg.ieXz, Cfg.ioZx, Cfg.ieZx, Cfg.ieZz]
    refine allQP_append (allQP_append (allQP_append (allQP_append (allQP_append ?_ ?_) ?_) ?_) ?_) ?_
    · refine allQP_single (taperX_na k ?_ ?_ fun e => ?_) <;> (try have := hX e) <;> omega
    · refine allQP_ite fun _ => allQP_single (taperX_na k ?_ ?_ fun e => ?_) <;> (try have := hX e) <;> omega
    · refine allQP_ite fun _ => allQP_single (taperX_na k ?_ ?_ fun e => ?_) <;> (try have := hX e) <;> omega
    · refine allQP_single (taperZ_na k ?_ ?_ fun e => ?_) <;> (try have := hZ e) <;> omega
    · refine allQP_ite fun _ => allQP_single (taperZ_na k ?_ ?_ fun e => ?_) <;> (try have := hZ e) <;> omega
    · refine allQP_ite fun _ => allQP_single (taperZ_na k ?_ ?_ fun e => ?_) <;> (try have := hZ e) <;> omega
  · refine allQP_ite fun ht => ?_
    simp only [Cfg.ioXx, Cfg.ioXz, Cfg.ieXz, Cfg.ioZx, Cfg.ioZz, Cfg.ieZz]
    refine allQP_cons (taperX_na k ?_ ?_ fun e => ?_) (allQP_single (taperZ_na k ?_ ?_ fun e => ?_)) <;>
      (first | (have := hX e; omega) | (have := hZ e; omega) | omega)
  · refine allQP_ite fun ht => ?_
    simp only [Cfg.ieXx, Cfg.ioXz, Cfg.ieXz, Cfg.ieZx, Cfg.ioZz, Cfg.ieZz]
    refine allQP_cons (taperX_na k ?_ ?_ fun e => ?_) (allQP_single (taperZ_na k ?_ ?_ fun e => ?_)) <;>
      (first | (have := hX e; omega) | (have := hZ e; omega) | omega)

/-- Points a rigid right or bottom wall overwrites (boundaries.c:77-108). -/
def OnWall (g : Cfg) (a : Arr) (ix iz : Int) : Prop :=
  (a = .vx ∧ g.rig = 3 ∧ (ix = g.nx + 1 ∨ ix = g.nx + 2)) ∨ (a = .vz ∧ g.bot = 3 ∧ (iz = g.nz + 1 ∨ iz = g.nz + 2))

theorem na_ng {a b : Arr} {i j jx jz : Int} (h : b = a → i = jx * g.naz + jz ∧ 0 ≤ jz ∧ jz < g.naz ∧ (jx ≠ ix ∨ jz ≠ iz)) :
    NA g a ix iz (ng b i j : Stmt Cell K) := by
  by_cases hb : b = a
  · exact na_at (h hb).1 (h hb).2.1 (h hb).2.2.1 (h hb).2.2.2
  · exact na_arr hb

theorem na_cp {a b : Arr} {i j jx jz : Int} (h : b = a → i = jx * g.naz + jz ∧ 0 ≤ jz ∧ jz < g.naz ∧ (jx ≠ ix ∨ jz ≠ iz)) :
    NA g a ix iz (cp b i j : Stmt Cell K) := by
  by_cases hb : b = a
  · exact na_at (h hb).1 (h hb).2.1 (h hb).2.2.1 (h hb).2.2.2
  · exact na_arr hb

theorem wall_na (hv : Valid g) {a : Arr} (ha : Inner g a ix iz) (hw : ¬ OnWall g a ix iz) :
    AllQ (NA g a ix iz) (wallPhase g : List (List (Stmt Cell K))).flatten := by
  obtain ⟨⟨g1, g2, g3, g4, g5⟩, ⟨p1, p2, p3, p4⟩, q1, q2, q3, q4⟩ := grid hv
  have hX : Arr.vx = a → 2 ≤ ix ∧ ¬ (g.rig = 3 ∧ (ix = g.nx + 1 ∨ ix = g.nx + 2)) := by
    rintro rfl; rcases ha with ⟨-, h⟩ | ⟨h, -⟩ | h
    · exact ⟨by have := h.1; simp only [Cfg.ioXx] at this; omega, fun h' => hw (.inl ⟨rfl, h'⟩)⟩
    · cases h
    · cases h
  have hZ : Arr.vz = a → 2 ≤ iz ∧ ¬ (g.bot = 3 ∧ (iz = g.nz + 1 ∨ iz = g.nz + 2)) := by
    rintro rfl; rcases ha with ⟨h, -⟩ | ⟨-, h⟩ | h
    · cases h
    · exact ⟨by have := h.2.2.1; simp only [Cfg.ioZz] at this; omega, fun h' => hw (.inr ⟨rfl, h'⟩)⟩
    · cases h
  clear ha hw
  unfold wallPhase freeTop rigidTop rigidRig rigidBot rigidLef
  simp only [List.flatten_append, Cfg.surface, Cfg.ibnd]
  refine allQ_append (allQ_append (allQ_append (allQ_append ?_ ?_) ?_) ?_) ?_ <;>
    refine allQ_itef fun hc => allQ_parfor fun i h1 h2 => ?_
  · refine allQ_cons (na_cp (jx := i) (jz := 1) fun e => ⟨rfl, by omega, by omega, by have := hZ e; omega⟩)
      (allQ_one (na_cp (jx := i) (jz := 0) fun e => ⟨by omega, by omega, by omega, by have := hZ e; omega⟩))
  · refine allQ_cons (na_ng (jx := i) (jz := 1) fun e => ⟨rfl, by omega, by omega, by have := hZ e; omega⟩)
      (allQ_loop fun ib h3 h4 => allQ_one
        (na_ng (jx := i) (jz := 0) fun e => ⟨by omega, by omega, by omega, by have := hZ e; omega⟩))
  · refine allQ_cons (na_ng (jx := g.nx + 1) (jz := i) fun e => ⟨rfl, by omega, by omega, by have := hX e; omega⟩)
      (allQ_loop fun ib h3 h4 => allQ_one
        (na_ng (jx := g.nx + 1 + ib) (jz := i) fun e => ⟨rfl, by omega, by omega, by have := hX e; omega⟩))
  · refine allQ_cons (na_ng (jx := i) (jz := g.nz + 1) fun e => ⟨by omega, by omega, by omega, by have := hZ e; omega⟩)
      (allQ_loop fun ib h3 h4 => allQ_one
        (na_ng (jx := i) (jz := g.nz + 1 + ib) fun e => ⟨by omega, by omega, by omega, by have := hZ e; omega⟩))
  · refine allQ_cons (na_ng (jx := 1) (jz := i) fun e => ⟨rfl, by omega, by omega, by have := hX e; omega⟩)
      (allQ_loop fun ib h3 h4 => allQ_one
        (na_ng (jx := ib - 1) (jz := i) fun e => ⟨rfl, by omega, by omega, by have := hX e; omega⟩))

theorem clear_na {a b : Arr} (h : b ≠ a) : AllQ (NA g a ix iz) (clear g b : List (Stmt Cell K)) :=
  allQ_loop fun _ _ _ => allQ_one (na_arr h)

theorem vxPml_na (k : Coef K) {a : Arr} {jx jz : Int} (ha : a = .vx ∨ a = .vz ∨ a = .p) (h1 : 0 ≤ jz) (h2 : jz < g.naz)
    (h : a = .vx → jx ≠ ix ∨ jz ≠ iz) : AllQ (NA g a ix iz) (vxPml g k jx jz) := by
  refine allQ_cons (na_arr (by rcases ha with rfl | rfl | rfl <;> simp)) (allQ_one ?_)
  by_cases hx : a = .vx
  · exact na_at rfl h1 h2 (h hx)
  · exact na_arr (Ne.symm hx)

theorem vzPml_na (k : Coef K) {a : Arr} {jx jz : Int} (ha : a = .vx ∨ a = .vz ∨ a = .p) (h1 : 0 ≤ jz) (h2 : jz < g.naz)
    (h : a = .vz → jx ≠ ix ∨ jz ≠ iz) : AllQ (NA g a ix iz) (vzPml g k jx jz) := by
  refine allQ_cons (na_arr (by rcases ha with rfl | rfl | rfl <;> simp)) (allQ_one ?_)
  by_cases hx : a = .vz
  · exact na_at rfl h1 h2 (h hx)
  · exact na_arr (Ne.symm hx)

theorem vxS_na {k1 k2 : K} {a : Arr} {jx jz : Int} (h1 : 0 ≤ jz) (h2 : jz < g.naz)
    (h : a = .vx → jx ≠ ix ∨ jz ≠ iz) : NA g a ix iz (vxS g k1 k2 jx jz) := by
  by_cases hx : a = .vx
  · exact na_at rfl h1 h2 (h hx)
  · exact na_arr (Ne.symm hx)

theorem vzS_na {k1 k2 : K} {a : Arr} {jx jz : Int} (h1 : 0 ≤ jz) (h2 : jz < g.naz)
    (h : a = .vz → jx ≠ ix ∨ jz ≠ iz) : NA g a ix iz (vzS g k1 k2 jx jz) := by
  by_cases hx : a = .vz
  · exact na_at rfl h1 h2 (h hx)
  · exact na_arr (Ne.symm hx)

theorem inner_cases {a : Arr} (ha : Inner g a ix iz) : a = .vx ∨ a = .vz ∨ a = .p := by
  rcases ha with h | h | h
  · exact .inl h.1
  · exact .inr (.inl h.1)
  · exact .inr (.inr h)

theorem pmlP_na (hv : Valid g) (k : Coef K) (first : Bool) {a : Arr} (ha : Inner g a ix iz) :
    AllQP (NA g a ix iz) (pmlP g k first) := by
  obtain ⟨⟨g1, g2, g3, g4, g5⟩, ⟨p1, p2, p3, p4⟩, q1, q2, q3, q4⟩ := grid hv
  have hc := inner_cases ha
  have hX : a = .vx → 2 + g.pad g.lef ≤ ix ∧ ix < g.nx + 2 + g.pad g.lef ∧ 1 + g.pad g.top ≤ iz ∧
      iz < g.nz + 1 + g.pad g.top := by
    rintro rfl; rcases ha with ⟨-, h⟩ | ⟨h, -⟩ | h
    · exact h
    · cases h
    · cases h
  have hZ : a = .vz → 1 + g.pad g.lef ≤ ix ∧ ix < g.nx + 1 + g.pad g.lef ∧ 2 + g.pad g.top ≤ iz ∧
      iz < g.nz + 2 + g.pad g.top := by
    rintro rfl; rcases ha with ⟨h, -⟩ | ⟨-, h⟩ | h
    · cases h
    · exact h
    · cases h
  refine allQP_ite fun _ => ?_
  refine allQP_append ?_ (allQP_cons ?_ (allQP_cons ?_ (allQP_cons ?_ (allQP_single ?_))))
  · split
    · refine allQP_single (allQ_append (allQ_append (clear_na ?_) (clear_na ?_)) allQ_nil) <;>
        rcases hc with rfl | rfl | rfl <;> simp
    · exact allQP_nil
  · refine allQ_parfor fun jx h1 h2 => allQ_ite (fun hh => allQ_loop fun jz h3 h4 => vxPml_na k hc ?_ ?_ fun e => ?_)
      fun hh => allQ_append (allQ_ite (fun ht => allQ_loop fun jz h3 h4 => allQ_one (vxS_na ?_ ?_ fun e => ?_))
        fun _ => allQ_nil) (allQ_ite (fun ht => allQ_loop fun jz h3 h4 => allQ_one (vxS_na ?_ ?_ fun e => ?_))
        fun _ => allQ_nil)
    · exact (le_of_max0 h3).1
    · exact (lt_of_minTo h4).2
    · have := hX e
      simp only [Cfg.ioXx, Cfg.ieXx] at hh; omega
    · exact (le_of_max0 h3).1
    · simp only [Cfg.ioXz] at h4; omega
    · have := hX e; simp only [Cfg.ioXz] at h4; omega
    · simp only [Cfg.ieXz] at h3; omega
    · exact (lt_of_minTo h4).2
    · have := hX e; simp only [Cfg.ieXz] at h3; omega
  · refine allQ_parfor fun jx h1 h2 => allQ_ite (fun hh => allQ_loop fun jz h3 h4 => ?_)
      fun hh => allQ_append (allQ_ite (fun ht => allQ_loop fun jz h3 h4 => vzPml_na k hc ?_ ?_ fun e => ?_)
        fun _ => allQ_nil) (allQ_ite (fun ht => allQ_loop fun jz h3 h4 => vzPml_na k hc ?_ ?_ fun e => ?_)
        fun _ => allQ_nil)
    · have e1 := (le_of_max0 h3).1
      have e2 := (lt_of_minTo h4).2
      have e3 : a = .vz → jx ≠ ix ∨ jz ≠ iz := fun e => by
        have := hZ e
        simp only [Cfg.ioZx, Cfg.ieZx] at hh; omega
      exact allQ_ite (fun _ => vzPml_na k hc e1 e2 e3) (fun _ => allQ_one (vzS_na e1 e2 e3))
    · exact (le_of_max0 h3).1
    · simp only [Cfg.ioZz] at h4; omega
    · have := hZ e; simp only [Cfg.ioZz] at h4; omega
    · simp only [Cfg.ieZz] at h3; omega
    · exact (lt_of_minTo h4).2
    · have := hZ e; simp only [Cfg.ieZz] at h3; omega
  · refine allQ_itef fun hl => allQ_parfor fun jz h1 h2 => ?_
    have := q3 (.inl hl)
    refine allQ_cons (na_cp (jx := 1) (jz := jz) fun e => ⟨rfl, h1, h2, ?_⟩)
      (allQ_cons (na_cp (jx := 0) (jz := jz) fun e => ⟨rfl, h1, h2, ?_⟩)
      (allQ_cons (na_cp (jx := 1) (jz := jz) fun e => ⟨rfl, h1, h2, ?_⟩)
      (allQ_one (na_cp (jx := 0) (jz := jz) fun e => ⟨rfl, h1, h2, ?_⟩))))
    · have := hX e.symm; omega
    · have := hX e.symm; omega
    · have := hZ e.symm; omega
    · have := hZ e.symm; omega
  · refine allQ_itef fun ht => allQ_parfor fun jx h1 h2 => ?_
    have := q1 (.inl ht)
    refine allQ_cons (na_cp (jx := jx) (jz := 1) fun e => ⟨rfl, by omega, by omega, ?_⟩)
      (allQ_cons (na_cp (jx := jx) (jz := 0) fun e => ⟨rfl, by omega, by omega, ?_⟩)
      (allQ_cons (na_cp (jx := jx) (jz := 1) fun e => ⟨rfl, by omega, by omega, ?_⟩)
      (allQ_one (na_cp (jx := jx) (jz := 0) fun e => ⟨rfl, by omega, by omega, ?_⟩))))
    · have := hX e.symm; omega
    · have := hX e.symm; omega
    · have := hZ e.symm; omega
    · have := hZ e.symm; omega

/-! ### The pressure part -/

/-- Points of the free surfaces. -/
def Freed (g : Cfg) (ix iz : Int) : Prop :=
  (g.top = 1 ∧ iz = 1 ∧ 1 ≤ ix ∧ ix < g.iePx) ∨ (g.rig = 1 ∧ ix = g.iePx - 1 ∧ 1 ≤ iz ∧ iz < g.iePz) ∨
  (g.bot = 1 ∧ iz = g.iePz - 1 ∧ 1 ≤ ix ∧ ix < g.iePx) ∨ (g.lef = 1 ∧ ix = 0 ∧ 1 ≤ iz ∧ iz < g.iePz)

theorem pPml_na (k : Coef K) {a : Arr} {jx jz : Int} (inx inz : Bool) (ha : a = .vx ∨ a = .vz ∨ a = .p) (h1 : 0 ≤ jz)
    (h2 : jz < g.naz) (h : a = .p → jx ≠ ix ∨ jz ≠ iz) : AllQ (NA g a ix iz) (pPml g k jx jz inx inz) := by
  refine allQ_append (allQ_append (allQ_ite (fun _ => allQ_one (na_arr ?_)) fun _ => allQ_nil)
    (allQ_ite (fun _ => allQ_one (na_arr ?_)) fun _ => allQ_nil)) (allQ_one ?_)
  · rcases ha with rfl | rfl | rfl <;> simp
  · rcases ha with rfl | rfl | rfl <;> simp
  · by_cases hx : a = .p
    · exact na_at rfl h1 h2 (h hx)
    · exact na_arr (Ne.symm hx)

theorem pmlV_na (hv : Valid g) (k : Coef K) (first : Bool) {a : Arr} (ha : a = .vx ∨ a = .vz ∨ a = .p)
    (hp : a = .p → InP g ix iz) : AllQP (NA g a ix iz) (pmlV g k first) := by
  obtain ⟨⟨g1, g2, g3, g4, g5⟩, ⟨p1, p2, p3, p4⟩, q1, q2, q3, q4⟩ := grid hv
  refine allQP_ite fun _ => ?_
  refine allQP_append ?_ (allQP_cons ?_ (allQP_cons ?_ (allQP_single ?_)))
  · split
    · refine allQP_single (allQ_append (allQ_append (clear_na ?_) (clear_na ?_)) allQ_nil) <;>
        rcases ha with rfl | rfl | rfl <;> simp
    · exact allQP_nil
  · refine allQ_parfor fun jx h1 h2 => allQ_loop fun jz h3 h4 => allQ_ite (fun _ => allQ_nil) fun hh => ?_
    have e1 : 0 ≤ jz := by
      split_ifs at h3 with ht
      · exact (le_of_max0 h3).1
      · simp only [Cfg.ioPz', if_neg ht, Cfg.ioPz] at h3; omega
    have e2 : jz < g.naz := by
      split_ifs at h4 with ht
      · exact (lt_of_minTo h4).2
      · simp only [Cfg.iePz', if_neg ht, Cfg.iePz] at h4; omega
    refine pPml_na k _ _ ha e1 e2 fun e => ?_
    obtain ⟨i1, i2, i3, i4⟩ := hp e
    simp only [Bool.and_eq_true, Bool.not_eq_true', Bool.or_eq_false_iff, Bool.and_eq_false_iff, decide_eq_false_iff_not] at hh
    by_contra hcon
    obtain ⟨rfl, rfl⟩ : jx = ix ∧ jz = iz := by omega
    exact hh ⟨⟨.inr (by omega), .inr (by omega)⟩, ⟨.inr (by omega), .inr (by omega)⟩⟩
  · refine allQ_itef fun hl => allQ_parfor fun jz h1 h2 => ?_
    have hi : a = .p → 1 + g.npml ≤ ix := fun e => by have := (hp e).1; simp only [Cfg.ioPx', if_pos hl, Cfg.ioPx] at this; omega
    exact allQ_cons (na_cp (jx := 1) (jz := jz) fun e => ⟨rfl, h1, h2, by have := hi e.symm; omega⟩)
      (allQ_one (na_cp (jx := 0) (jz := jz) fun e => ⟨rfl, h1, h2, by have := hi e.symm; omega⟩))
  · refine allQ_itef fun ht => allQ_parfor fun jx h1 h2 => ?_
    have hi : a = .p → 1 + g.npml ≤ iz := fun e => by
      have := (hp e).2.2.1; simp only [Cfg.ioPz', if_pos ht, Cfg.ioPz] at this; omega
    exact allQ_cons (na_cp (jx := jx) (jz := 1) fun e => ⟨rfl, by omega, by omega, by have := hi e.symm; omega⟩)
      (allQ_one (na_cp (jx := jx) (jz := 0) fun e => ⟨rfl, by omega, by omega, by have := hi e.symm; omega⟩))

theorem zr_na {a : Arr} {i jx jz : Int} (h : a = .p → i = jx * g.naz + jz ∧ 0 ≤ jz ∧ jz < g.naz ∧ (jx ≠ ix ∨ jz ≠ iz)) :
    NA g a ix iz (zr .p i : Stmt Cell K) := by
  by_cases hx : a = .p
  · exact na_at (h hx).1 (h hx).2.1 (h hx).2.2.1 (h hx).2.2.2
  · exact na_arr (Ne.symm hx)

theorem free_na (hv : Valid g) {a : Arr} (hp : a = .p → ¬ Freed g ix iz) :
    AllQ (NA g a ix iz) (freePhase g : List (List (Stmt Cell K))).flatten := by
  obtain ⟨⟨g1, g2, g3, g4, g5⟩, ⟨p1, p2, p3, p4⟩, q1, q2, q3, q4⟩ := grid hv
  have hz : g.iePz = g.nz + 1 + g.pad g.top + g.pad g.bot := rfl
  unfold Freed at hp
  unfold freePhase
  simp only [List.flatten_append, Cfg.ioPx, Cfg.ioPz, Cfg.surface]
  refine allQ_append (allQ_append (allQ_append ?_ ?_) ?_) ?_ <;>
    refine allQ_itef fun hc => allQ_parfor fun j h1 h2 => allQ_one ?_
  · exact zr_na (jx := j) (jz := 1) fun e => ⟨rfl, by omega, by omega, by have := hp e; omega⟩
  · exact zr_na (jx := g.iePx - 1) (jz := j) fun e => ⟨rfl, by omega, by omega, by have := hp e; omega⟩
  · exact zr_na (jx := j) (jz := g.iePz - 1) fun e => ⟨by omega, by omega, by omega, by have := hp e; omega⟩
  · exact zr_na (jx := 1 - 1) (jz := j) fun e => ⟨rfl, by omega, by omega, by have := hp e; omega⟩

theorem pPhase_na (hv : Valid g) (k : Coef K) {a : Arr} (ha : a ≠ .p) : AllQ (NA g a ix iz) (pPhase g k).flatten :=
  allQ_sweep fun _ _ _ _ _ _ => allQ_one (na_arr (Ne.symm ha))

end

/-! ### One step -/

/-- The first half of a step: everything up to the pressure loop. -/
def half (g : Cfg) (k : Coef K) (first : Bool) : List (List (List (Stmt Cell K))) :=
  pmlP g k first ++ (taperTop g k ++ taperBot g k ++ taperLef g k ++ taperRig g k)

theorem stepProg_parts (k : Coef K) (first : Bool) : stepProg g k first =
    (velPhase g k).flatten ++ (((wallPhase g).flatten ++ seqOf (half g k first)) ++
      ((pPhase g k).flatten ++ (seqOf (pmlV g k first) ++ (freePhase g).flatten))) := by
  unfold stepProg phases half seqOf
  simp only [List.flatten_append, List.flatten_cons, List.flatten_nil, List.append_nil, List.append_assoc]

variable [CommRing K]

/-- After the velocity part the pressure and, at interior points, the velocities are as the velocity loops left them. -/
theorem half_at (hv : Valid g) (k : Coef K) (first : Bool) {a : Arr} {ix iz : Int} (ha : Inner g a ix iz)
    (hw : ¬ OnWall g a ix iz) (h1 : 0 ≤ iz) (h2 : iz < g.naz) (m : Cell → K) :
    run ((wallPhase g).flatten ++ seqOf (half g k first)) m (a, ix * g.naz + iz) = m (a, ix * g.naz + iz) :=
  run_na (allQ_append (wall_na hv ha hw) (allQP_append (pmlP_na hv k first ha) (tapers_na hv k ha))) h1 h2 m

theorem late_at (hv : Valid g) (k : Coef K) (first : Bool) {a : Arr} {ix iz : Int} (ha : a = .vx ∨ a = .vz)
    (h1 : 0 ≤ iz) (h2 : iz < g.naz) (m : Cell → K) :
    run ((pPhase g k).flatten ++ (seqOf (pmlV g k first) ++ (freePhase g).flatten)) m (a, ix * g.naz + iz) =
      m (a, ix * g.naz + iz) := by
  have hp : a ≠ .p := by rcases ha with rfl | rfl <;> simp
  refine run_na (allQ_append (pPhase_na hv k hp) (allQ_append (pmlV_na hv k first ?_ fun e => absurd e hp)
    (free_na hv fun e => absurd e hp))) h1 h2 m
  rcases ha with rfl | rfl <;> simp

theorem vel_p (k : Coef K) (m : Cell → K) (ix iz : Int) : run (velPhase g k).flatten m (.p, ix * g.naz + iz) =
    m (.p, ix * g.naz + iz) := by
  refine run_untouched ?_ m
  have : AllQ (fun s => s.dst ≠ (.p, ix * g.naz + iz)) (velPhase g k).flatten := by
    unfold velPhase
    rw [List.flatten_append]
    exact allQ_append (allQ_sweep fun _ _ _ _ _ _ => allQ_one (by simp [vxS])) (allQ_sweep fun _ _ _ _ _ _ => allQ_one (by simp [vzS]))
  exact this

theorem step_nonfld (k : Coef K) {p : List (Stmt Cell K)} (h : AllQ Lin p) (m : Cell → K) {a : Cell} (ha : fld a = false) :
    run p m a = m a := run_nonfield (fun s hs => (h s hs).1) m a ha

/-- The velocity loops at an interior point of `vx`. -/
theorem vel_vx (hv : Valid g) (k : Coef K) {ix iz : Int} (hi : InX g ix iz) (m : Cell → K) :
    run (velPhase g k).flatten m (.vx, ix * g.naz + iz) = (vxS g k.c1 k.c2 ix iz).e.eval m := by
  obtain ⟨⟨g1, g2, g3, g4, g5⟩, ⟨p1, p2, p3, p4⟩, q1, q2, q3, q4⟩ := grid hv
  obtain ⟨i1, i2, i3, i4⟩ := hi
  have hb : g.ieXz ≤ g.naz ∧ 1 ≤ g.ioXz := by simp only [Cfg.ieXz, Cfg.ioXz]; omega
  unfold velPhase
  rw [List.flatten_append, run_append, run_untouched]
  · rw [run_sweep_at (W := Wx) (g := g) _ i1 i2 i3 i4 (by omega) (by omega)]
    · show store _ _ _ _ = _
      exact if_pos rfl
    · intro jx e1 e2 jz e3 e4 s hs
      rw [List.mem_singleton] at hs; subst hs
      exact ⟨vxS_key _ _ (by omega) (by omega), vxS_rkey _ _ (by omega) (by omega)⟩
  · exact allQ_sweep fun _ _ _ _ _ _ => allQ_one (by simp [vzS])

theorem vel_vz (hv : Valid g) (k : Coef K) {ix iz : Int} (hi : InZ g ix iz) (m : Cell → K) :
    run (velPhase g k).flatten m (.vz, ix * g.naz + iz) = (vzS g k.c1 k.c2 ix iz).e.eval m := by
  obtain ⟨⟨g1, g2, g3, g4, g5⟩, ⟨p1, p2, p3, p4⟩, q1, q2, q3, q4⟩ := grid hv
  obtain ⟨i1, i2, i3, i4⟩ := hi
  have hb : g.ieZz ≤ g.naz ∧ 1 ≤ g.ioZz := by simp only [Cfg.ieZz, Cfg.ioZz]; omega
  unfold velPhase
  rw [List.flatten_append, run_append, run_sweep_at (W := Wz) (g := g) _ i1 i2 i3 i4 (by omega) (by omega)]
  · show store _ _ _ _ = _
    refine (if_pos rfl).trans (Expr.eval_congr _ fun a ha => run_untouched ?_ m)
    refine allQ_sweep fun _ _ _ _ _ _ => allQ_one fun e => ?_
    have : ∀ a ∈ (vzS g k.c1 k.c2 ix iz).e.reads, a.1 ≠ .vx := by
      simp only [vzS, dpz, reads_add, reads_sub, reads_mul, reads_rd, reads_c, List.forall_mem_cons, List.forall_mem_append]
      simp
    exact this a ha (by rw [← e]; rfl)
  · intro jx e1 e2 jz e3 e4 s hs
    rw [List.mem_singleton] at hs; subst hs
    exact ⟨vzS_key _ _ (by omega) (by omega), vzS_rkey _ _ (by omega) (by omega)⟩

theorem press_p (hv : Valid g) (k : Coef K) (first : Bool) {ix iz : Int} (hi : InP g ix iz) (hf : ¬ Freed g ix iz) (m : Cell → K) :
    run ((pPhase g k).flatten ++ (seqOf (pmlV g k first) ++ (freePhase g).flatten)) m (.p, ix * g.naz + iz) =
      (pS g k.c1 k.c2 ix iz).e.eval m := by
  obtain ⟨⟨g1, g2, g3, g4, g5⟩, ⟨p1, p2, p3, p4⟩, q1, q2, q3, q4⟩ := grid hv
  have hi' := hi
  obtain ⟨i1, i2, i3, i4⟩ := hi
  have hb : g.iePz' ≤ g.naz ∧ 1 ≤ g.ioPz' := by
    simp only [Cfg.iePz', Cfg.ioPz', Cfg.iePz, Cfg.ioPz]; constructor <;> split_ifs <;> omega
  rw [run_append, run_na (allQ_append (pmlV_na hv k first (by simp) fun _ => hi') (free_na hv fun _ => hf)) (by omega) (by omega)]
  unfold pPhase
  rw [run_sweep_at (W := Wp) (g := g) _ i1 i2 i3 i4 (by omega) (by omega)]
  · show store _ _ _ _ = _
    exact if_pos rfl
  · intro jx e1 e2 jz e3 e4 s hs
    rw [List.mem_singleton] at hs; subst hs
    exact ⟨pS_key _ _ (by omega) (by omega), pS_rkey _ _ (by omega) (by omega)⟩

/-- The last loops of a step clear the free surfaces. -/
theorem freed_zero (_hv : Valid g) {ix iz : Int} (hf : Freed g ix iz) (m : Cell → K) :
    run (freePhase g).flatten m (.p, ix * g.naz + iz) = 0 := by
  refine (run_zero ?_ _ _).1 ?_
  · unfold freePhase
    simp only [List.flatten_append]
    have : ∀ l : List (Stmt Cell K), AllQ (fun s => s.e = .zero) l → ∀ s ∈ l, s.e = .zero := fun _ h => h
    refine this _ (allQ_append (allQ_append (allQ_append ?_ ?_) ?_) ?_) <;>
      exact allQ_itef (fun hc => allQ_parfor fun i h1 h2 => allQ_one rfl)
  · unfold freePhase
    simp only [List.flatten_append, Cfg.ioPx, Cfg.ioPz, Cfg.surface]
    rcases hf with ⟨h, rfl, h1, h2⟩ | ⟨h, rfl, h1, h2⟩ | ⟨h, rfl, h1, h2⟩ | ⟨h, rfl, h1, h2⟩
    · refine ⟨zr .p (ix * g.naz + 1), ?_, rfl⟩
      rw [if_pos h]
      exact List.mem_append_left _ (List.mem_append_left _ (List.mem_append_left _
        (List.mem_flatten.mpr ⟨_, mem_parfor.mpr ⟨ix, h1, h2, rfl⟩, by simp⟩)))
    · refine ⟨zr .p ((g.iePx - 1) * g.naz + iz), ?_, rfl⟩
      rw [if_pos h]
      exact List.mem_append_left _ (List.mem_append_left _ (List.mem_append_right _
        (List.mem_flatten.mpr ⟨_, mem_parfor.mpr ⟨iz, h1, h2, rfl⟩, by simp⟩)))
    · refine ⟨zr .p (ix * g.naz + g.iePz - 1), ?_, by simp only [zr]; rw [add_sub_assoc]⟩
      rw [if_pos h]
      exact List.mem_append_left _ (List.mem_append_right _
        (List.mem_flatten.mpr ⟨_, mem_parfor.mpr ⟨ix, h1, h2, rfl⟩, by simp⟩))
    · refine ⟨zr .p ((1 - 1) * g.naz + iz), ?_, rfl⟩
      rw [if_pos h]
      exact List.mem_append_right _ (List.mem_flatten.mpr ⟨_, mem_parfor.mpr ⟨iz, h1, h2, rfl⟩, by simp⟩)

/-! ## Property theorems -/

/-- Value at column `ix` and row `iz` of an array stored column by column. -/
def at2 (g : Cfg) (f : Int → K) (ix iz : Int) : K := f (ix * g.naz + iz)

/-- Staggered difference along a line of samples: `c1 (f₀ - f₋₁) + c2 (f₁ - f₋₂)`. -/
def stag (c1 c2 : K) (f : Int → K) : K := c1 * (f 0 - f (-1)) + c2 * (f 1 - f (-2))

/-- C51, first half: at every point of the model that is not on a rigid wall the particle velocities are advanced by the
staggered difference of the pressure before the step. -/
theorem interior_velocity (hv : Valid g) (k : Coef K) (med : Cell → K) (n : Nat) (u0 : Field K) (ix iz : Int) :
    let u := propagate g k med n u0
    let u' := propagate g k med (n + 1) u0
    (g.ioXx ≤ ix → ix < g.ieXx → g.ioXz ≤ iz → iz < g.ieXz → (g.rig = 3 → ix ≠ g.nx + 1 ∧ ix ≠ g.nx + 2) →
      at2 g u'.vx ix iz = at2 g u.vx ix iz -
        med (.rox, ix * g.naz + iz) * stag k.c1 k.c2 fun j => at2 g u.p (ix + j) iz) ∧
    (g.ioZx ≤ ix → ix < g.ieZx → g.ioZz ≤ iz → iz < g.ieZz → (g.bot = 3 → iz ≠ g.nz + 1 ∧ iz ≠ g.nz + 2) →
      at2 g u'.vz ix iz = at2 g u.vz ix iz -
        med (.roz, ix * g.naz + iz) * stag k.c1 k.c2 fun j => at2 g u.p ix (iz + j)) := by
  obtain ⟨⟨g1, g2, g3, g4, g5⟩, ⟨p1, p2, p3, p4⟩, q1, q2, q3, q4⟩ := grid hv
  intro u u'
  refine ⟨fun h1 h2 h3 h4 hw => ?_, fun h1 h2 h3 h4 hw => ?_⟩
  · have hi : InX g ix iz := ⟨h1, h2, h3, h4⟩
    have b1 : 0 ≤ iz := by simp only [Cfg.ioXz] at h3; omega
    have b2 : iz < g.naz := by simp only [Cfg.ieXz] at h4; omega
    show steps g k (n + 1) (mem med u0) (.vx, ix * g.naz + iz) = _
    rw [steps, stepProg_parts, run_append, run_append, late_at hv k _ (.inl rfl) b1 b2,
      half_at hv k _ (.inl ⟨rfl, hi⟩) _ b1 b2, vel_vx hv k hi]
    · simp only [vxS, dpx, eval_add, eval_sub, eval_mul, rd, Expr.eval, stag, at2, u, propagate, fieldOf,
        propagate_medium g k med n u0 _ (show fld (.rox, ix * g.naz + iz) = false from rfl), add_zero, ← sub_eq_add_neg]
    · rintro (⟨-, hr, h⟩ | ⟨h, -⟩)
      · have := hw hr; omega
      · cases h
  · have hi : InZ g ix iz := ⟨h1, h2, h3, h4⟩
    have b1 : 0 ≤ iz := by simp only [Cfg.ioZz] at h3; omega
    have b2 : iz < g.naz := by simp only [Cfg.ieZz] at h4; omega
    show steps g k (n + 1) (mem med u0) (.vz, ix * g.naz + iz) = _
    rw [steps, stepProg_parts, run_append, run_append, late_at hv k _ (.inr rfl) b1 b2,
      half_at hv k _ (.inr (.inl ⟨rfl, hi⟩)) _ b1 b2, vel_vz hv k hi]
    · simp only [vzS, dpz, eval_add, eval_sub, eval_mul, rd, Expr.eval, stag, at2, u, propagate, fieldOf,
        propagate_medium g k med n u0 _ (show fld (.roz, ix * g.naz + iz) = false from rfl), add_zero, ← sub_eq_add_neg,
        ← add_sub_assoc, ← add_assoc]
    · rintro (⟨h, -⟩ | ⟨-, hr, h⟩)
      · cases h
      · have := hw hr; omega

/-- C51, second half: at every point of the model that is not on a free surface the pressure is advanced by the staggered
differences of the particle velocities *after* their update (leapfrog). -/
theorem interior_pressure (hv : Valid g) (k : Coef K) (med : Cell → K) (n : Nat) (u0 : Field K) (ix iz : Int)
    (h1 : g.ioPx' ≤ ix) (h2 : ix < g.iePx') (h3 : g.ioPz' ≤ iz) (h4 : iz < g.iePz') (hf : ¬ Freed g ix iz) :
    let u := propagate g k med n u0
    let u' := propagate g k med (n + 1) u0
    at2 g u'.p ix iz = at2 g u.p ix iz - med (.l2m, ix * g.naz + iz) *
      ((stag k.c1 k.c2 fun j => at2 g u'.vx (ix + 1 + j) iz) + (stag k.c1 k.c2 fun j => at2 g u'.vz ix (iz + 1 + j))) := by
  obtain ⟨⟨g1, g2, g3, g4, g5⟩, ⟨p1, p2, p3, p4⟩, q1, q2, q3, q4⟩ := grid hv
  have hb : g.iePz' + 3 ≤ g.naz ∧ 1 ≤ g.ioPz' := by
    simp only [Cfg.iePz', Cfg.ioPz', Cfg.iePz, Cfg.ioPz]; constructor <;> split_ifs <;> omega
  intro u u'
  have hi : InP g ix iz := ⟨h1, h2, h3, h4⟩
  obtain ⟨m1, hm1⟩ : ∃ m1, m1 = run ((wallPhase g).flatten ++ seqOf (half g k (n = 0)))
    (run (velPhase g k).flatten (steps g k n (mem med u0))) := ⟨_, rfl⟩
  have hs : ∀ c, steps g k (n + 1) (mem med u0) c =
      run ((pPhase g k).flatten ++ (seqOf (pmlV g k (n = 0)) ++ (freePhase g).flatten)) m1 c := by
    intro c; rw [steps, stepProg_parts, run_append, run_append, hm1]
  have hx : ∀ jx jz : Int, 0 ≤ jz → jz < g.naz → m1 (.vx, jx * g.naz + jz) = at2 g u'.vx jx jz := fun jx jz e1 e2 => by
    show _ = steps g k (n + 1) (mem med u0) (.vx, jx * g.naz + jz)
    rw [hs, late_at hv k _ (.inl rfl) e1 e2]
  have hz : ∀ jx jz : Int, 0 ≤ jz → jz < g.naz → m1 (.vz, jx * g.naz + jz) = at2 g u'.vz jx jz := fun jx jz e1 e2 => by
    show _ = steps g k (n + 1) (mem med u0) (.vz, jx * g.naz + jz)
    rw [hs, late_at hv k _ (.inr rfl) e1 e2]
  have hp : m1 (.p, ix * g.naz + iz) = at2 g u.p ix iz := by
    rw [hm1, half_at hv k _ (.inr (.inr rfl)) _ (by omega) (by omega), vel_p]
    · rfl
    · rintro (⟨h, -⟩ | ⟨h, -⟩) <;> cases h
  have hl : m1 (.l2m, ix * g.naz + iz) = med (.l2m, ix * g.naz + iz) := by
    have hlin : AllQ Lin (stepProg g k (n = 0)) := step_lin k _
    rw [stepProg_parts] at hlin
    rw [hm1, ← run_append, step_nonfld k _ _ rfl, propagate_medium g k med n u0 _ rfl]
    intro s hs
    refine hlin s ?_
    rw [← List.append_assoc]
    exact List.mem_append_left _ hs
  show steps g k (n + 1) (mem med u0) (.p, ix * g.naz + iz) = _
  rw [hs, press_p hv k _ hi hf]
  simp only [pS, eval_add, eval_sub, eval_mul, rd, Expr.eval, stag, hp, hl, hx _ _ (show 0 ≤ iz by omega) (show iz < g.naz by omega)]
  have z1 := hz ix (iz + 1) (by omega) (by omega)
  have z2 := hz ix (iz + 2) (by omega) (by omega)
  have z3 := hz ix (iz - 1) (by omega) (by omega)
  have z0 := hz ix iz (by omega) (by omega)
  rw [← add_assoc] at z1 z2
  rw [← add_sub_assoc] at z3
  rw [z0, z1, z2, z3, show ix + 1 + 0 = ix + 1 by omega, show ix + 1 + -1 = ix by omega, show ix + 1 + 1 = ix + 2 by omega,
    show ix + 1 + -2 = ix - 1 by omega, show iz + 1 + 0 = iz + 1 by omega, show iz + 1 + -1 = iz by omega,
    show iz + 1 + 1 = iz + 2 by omega, show iz + 1 + -2 = iz - 1 by omega]
  ring

/-- C52: after every time step the pressure on a free surface is exactly zero, whatever the fields were. -/
theorem free_surface_pressure_zero (hv : Valid g) (k : Coef K) (med : Cell → K) (n : Nat) (u0 : Field K) (ix iz : Int)
    (hf : Freed g ix iz) : at2 g (propagate g k med (n + 1) u0).p ix iz = 0 := by
  show steps g k (n + 1) (mem med u0) (.p, ix * g.naz + iz) = _
  rw [steps, stepProg_parts, run_append, run_append, run_append, run_append]
  exact freed_zero hv hf _

end

/-- A grid with a free surface, a taper, a PML and a rigid side, and points that meet the hypotheses. -/
example : Valid ⟨4, 4, 5, 1, 2, 4, 3⟩ ∧ Inner ⟨4, 4, 5, 1, 2, 4, 3⟩ .vx 8 3 ∧ InP ⟨4, 4, 5, 1, 2, 4, 3⟩ 8 3 ∧
    ¬ Freed ⟨4, 4, 5, 1, 2, 4, 3⟩ 8 3 ∧ Freed ⟨4, 4, 5, 1, 2, 4, 3⟩ 8 1 := by
  refine ⟨⟨by decide, by decide, by decide, by decide, by decide, by decide, by decide⟩, .inl ⟨rfl, ?_⟩, ?_, ?_, ?_⟩ <;>
    simp only [InX, InP, Freed] <;> decide

end Verif.Fd.Acou

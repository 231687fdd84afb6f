import Verif.Fd.AcouSched

/-! # C29: a wave moves at most three grid points per time step -/

namespace Verif.Fd.Acou

open Verif.Sten

section
variable {K : Type} {g : Cfg}

/-- The part of a time step that updates the velocities, without PML. -/
def velProg (g : Cfg) (k : Coef K) : List (Stmt Cell K) :=
  seqOf ([velPhase g k, wallPhase g] ++ taperTop g k ++ taperBot g k ++ taperLef g k ++ taperRig g k)

/-- The part that updates the pressure. -/
def pressProg (g : Cfg) (k : Coef K) : List (Stmt Cell K) := seqOf ([pPhase g k] ++ [freePhase g])

theorem step_split (hp : g.pml = false) (k : Coef K) (first : Bool) :
    stepProg g k first = velProg g k ++ pressProg g k := by
  unfold stepProg velProg pressProg seqOf phases pmlP pmlV
  rw [hp]
  simp only [Bool.false_eq_true, if_false, List.append_nil, List.flatten_append, List.append_assoc]

/-- Where the pressure and the velocities may differ from zero: `J` for the velocity across the direction considered, `J'` for
the other one, `Jp` for the pressure. -/
def Om (κ : Cell → Int) (sp ot : Arr) (J J' Jp : Int → Prop) (c : Cell) : Prop :=
  (c.1 = sp → J (κ c)) ∧ (c.1 = ot → J' (κ c)) ∧ (c.1 = .p → Jp (κ c))

/-- Admissible statement for `run_support`. -/
def Keeps (Ω : Cell → Prop) (s : Stmt Cell K) : Prop :=
  s.e.lin fld = true ∧ (¬ Ω s.dst → ∀ a ∈ s.e.reads, fld a = true → ¬ Ω a)

/-- It is enough to look at reads of the three wave fields. -/
theorem keeps_of {Ω : Cell → Prop} {s : Stmt Cell K} (hl : Lin s) (h : ∀ a ∈ s.e.reads, fld a = true → Ω a → Ω s.dst) :
    Keeps Ω s := ⟨hl.2, fun hn a ha hf ho => hn (h a ha hf ho)⟩

/-- Interval before the step, with the cells outside the walls. -/
def I0 (n L U : Int) (gl gr : Prop) (c : Int) : Prop :=
  (L ≤ c ∧ c ≤ U) ∨ (gl ∧ c ≤ 1 ∧ L ≤ 4) ∨ (gr ∧ n + 2 ≤ c ∧ n ≤ U)

/-- The same after the velocity update. -/
def I1 (n L U : Int) (gl gr : Prop) (c : Int) : Prop :=
  (L - 1 ≤ c ∧ c ≤ U + 2) ∨ (gl ∧ c ≤ 1 ∧ L ≤ 4) ∨ (gr ∧ c = n + 1 ∧ n ≤ U + 2) ∨ (gr ∧ n + 2 ≤ c ∧ n ≤ U + 3)

/-- Plain interval. -/
def Iv (L U : Int) (c : Int) : Prop := L ≤ c ∧ c ≤ U

/-- Admissible boundary settings: no PML, and rigid right (bottom) only where the wall is at the end of the grid. -/
structure NoPml (g : Cfg) : Prop where
  pml : g.pml = false
  rig : g.rig = 3 → g.lef = 1 ∨ g.lef = 3
  bot : g.bot = 3 → g.top = 1 ∨ g.top = 3

/-- Unfold the reads of a statement for `keeps_of`. -/
syntax "rds" "[" Lean.Parser.Tactic.simpLemma,* "]" : tactic
macro_rules
  | `(tactic| rds [$ls,*]) => `(tactic|
      simp only [$ls,*, reads_add, reads_sub, reads_mul, reads_rd, reads_c, reads_zero, List.forall_mem_cons,
        List.forall_mem_append, List.not_mem_nil, false_imp_iff, implies_true, and_true, true_and,
        List.append_nil, List.nil_append, fld, Bool.false_eq_true, true_imp_iff, Om, reduceCtorEq])

/-! ### Along the x direction -/

section x
variable (g) (L U : Int)

/-- The support after the velocity update, in columns. -/
def Ox1 : Cell → Prop := Om (col g) .vx .vz (I1 g.nx L U (g.lef = 3) (g.rig = 3)) (Iv L U) (Iv L U)

/-- The support during the pressure update. -/
def Ox2 : Cell → Prop := Om (col g) .vx .vz (I1 g.nx L U (g.lef = 3) (g.rig = 3)) (Iv L U) (Iv (L - 3) (U + 3))

variable {g L U}

theorem vxS_x (k1 k2 : K) {ix iz : Int} (h1 : 0 ≤ iz) (h2 : iz < g.naz) : Keeps (Ox1 g L U) (vxS g k1 k2 ix iz) := by
  refine keeps_of (vxS_lin _ _ _ _) ?_
  have c0 := fun j : Int => col_key (ix := j) h1 h2
  rds [vxS, dpx, Ox1, col, c0]
  unfold I1 Iv
  and_intros <;> intro h <;> omega

theorem vzS_x (k1 k2 : K) {ix iz : Int} (h1 : 2 ≤ iz) (h2 : iz + 1 < g.naz) : Keeps (Ox1 g L U) (vzS g k1 k2 ix iz) := by
  refine keeps_of (vzS_lin _ _ _ _) ?_
  have c0 := fun (j : Int) (h : 0 ≤ j) (h' : j < g.naz) => col_key (ix := ix) h h'
  have e1 := c0 iz (by omega) (by omega)
  have e2 := c0 (iz - 1) (by omega) (by omega)
  have e3 := c0 (iz + 1) (by omega) (by omega)
  have e4 := c0 (iz - 2) (by omega) (by omega)
  rw [← add_sub_assoc] at e2 e4
  rw [← add_assoc] at e3
  rds [vzS, dpz, Ox1, col, e1, e2, e3, e4]
  tauto

theorem pS_x (k1 k2 : K) {ix iz : Int} (h1 : 1 ≤ iz) (h2 : iz + 2 < g.naz) (hx1 : 1 ≤ ix) (hx2 : g.rig = 3 → ix ≤ g.nx)
    (hL : g.rig = 3 → L ≤ g.nx + 2) (hU : 0 ≤ U) : Keeps (Ox2 g L U) (pS g k1 k2 ix iz) := by
  refine keeps_of (pS_lin _ _ _ _) ?_
  have cx := fun j : Int => col_key (ix := j) (iz := iz) (n := g.naz) (by omega) (by omega)
  have c0 := fun (j : Int) (h : 0 ≤ j) (h' : j < g.naz) => col_key (ix := ix) h h'
  have e2 := c0 (iz - 1) (by omega) (by omega)
  have e3 := c0 (iz + 1) (by omega) (by omega)
  have e4 := c0 (iz + 2) (by omega) (by omega)
  rw [← add_sub_assoc] at e2
  rw [← add_assoc] at e3 e4
  rds [pS, Ox2, col, cx, e2, e3, e4]
  unfold I1 Iv
  and_intros <;> intro h <;> omega

theorem tapS_x {a t : Arr} (ht : t = .tapx ∨ t = .tapz ∨ t = .tapxz) (ha : a = .vx ∨ a = .vz) (i j : Int) {Ω : Cell → Prop} :
    Keeps Ω (tapS a i t j : Stmt Cell K) := by
  refine keeps_of ?_ ?_
  · rcases ha with rfl | rfl <;> rcases ht with rfl | rfl | rfl <;> exact ⟨rfl, rfl⟩
  · rcases ha with rfl | rfl <;> rcases ht with rfl | rfl | rfl <;> rds [tapS] <;> exact fun h => h

end x

theorem noPml_pad (hp : NoPml g) : g.top ≠ 2 ∧ g.bot ≠ 2 ∧ g.lef ≠ 2 ∧ g.rig ≠ 2 := by
  have := hp.pml
  unfold Cfg.pml at this
  simp only [Bool.or_eq_false_iff, decide_eq_false_iff_not] at this
  omega

/-- Statements of the wall loops that copy within a column: `vz`, top and bottom; and within a row: `vx`, left and right. -/
theorem ng_keeps {a : Arr} (ha : a = .vx ∨ a = .vz) {i j : Int} {Ω : Cell → Prop} (h : Ω (a, j) → Ω (a, i)) :
    Keeps Ω (ng a i j : Stmt Cell K) := by
  refine keeps_of ?_ ?_
  · rcases ha with rfl | rfl <;> exact ⟨rfl, rfl⟩
  · rcases ha with rfl | rfl <;> rds [ng] <;> exact h

theorem cp_keeps {a : Arr} (ha : a = .vx ∨ a = .vz) {i j : Int} {Ω : Cell → Prop} (h : Ω (a, j) → Ω (a, i)) :
    Keeps Ω (cp a i j : Stmt Cell K) := by
  refine keeps_of ?_ ?_
  · rcases ha with rfl | rfl <;> exact ⟨rfl, rfl⟩
  · rcases ha with rfl | rfl <;> rds [cp] <;> exact h

/-- What the velocity loops need. -/
structure VelKeeps (g : Cfg) (Ω : Cell → Prop) : Prop where
  vx : ∀ (k1 k2 : K) (ix iz : Int), 2 ≤ ix → ix + 1 < g.nax → 0 ≤ iz → iz < g.naz → Keeps Ω (vxS g k1 k2 ix iz)
  vz : ∀ (k1 k2 : K) (ix iz : Int), 0 ≤ ix → ix < g.nax → 2 ≤ iz → iz + 1 < g.naz → Keeps Ω (vzS g k1 k2 ix iz)
  top : g.top = 1 ∨ g.top = 3 → ∀ ix : Int, (Ω (.vz, ix * g.naz + 2) → Ω (.vz, ix * g.naz + 1)) ∧
    (Ω (.vz, ix * g.naz + 3) → Ω (.vz, ix * g.naz + 0))
  bot : g.bot = 3 → ∀ ix : Int, (Ω (.vz, ix * g.naz + g.nz) → Ω (.vz, ix * g.naz + (g.nz + 1))) ∧
    (Ω (.vz, ix * g.naz + (g.nz - 1)) → Ω (.vz, ix * g.naz + (g.nz + 2)))
  lef : g.lef = 3 → ∀ iz : Int, 0 ≤ iz → iz < g.naz → (Ω (.vx, 2 * g.naz + iz) → Ω (.vx, 1 * g.naz + iz)) ∧
    (Ω (.vx, 3 * g.naz + iz) → Ω (.vx, 0 * g.naz + iz))
  rig : g.rig = 3 → ∀ iz : Int, 0 ≤ iz → iz < g.naz →
    (Ω (.vx, g.nx * g.naz + iz) → Ω (.vx, (g.nx + 1) * g.naz + iz)) ∧
    (Ω (.vx, (g.nx - 1) * g.naz + iz) → Ω (.vx, (g.nx + 2) * g.naz + iz))

theorem velProg_keeps (hv : Valid g) (hp : NoPml g) {Ω : Cell → Prop} (H : VelKeeps (K := K) g Ω) (k : Coef K) :
    AllQ (Keeps Ω) (velProg g k) := by
  show AllQP (Keeps Ω) _
  have hnx := hv.nx; have hnz := hv.nz; have hpm := hv.npml
  have np := noPml_pad hp
  have pt := pad_cases (g := g) g.top
  have pb := pad_cases (g := g) g.bot
  have pl := pad_cases (g := g) g.lef
  have pr := pad_cases (g := g) g.rig
  have hnaz : g.naz = g.nz + 4 + g.pad g.top + g.pad g.bot := rfl
  have hnax : g.nax = g.nx + 4 + g.pad g.lef + g.pad g.rig := rfl
  have tX : ∀ {a b c d : Int} {t : Arr} {w : Int → Int → Int}, (t = .tapx ∨ t = .tapz ∨ t = .tapxz) → 2 ≤ a → b + 1 ≤ g.nax →
      0 ≤ c → d ≤ g.naz → AllQ (Keeps Ω) (taperX g k a b c d t w).flatten := by
    intro a b c d t w ht h1 h2 h3 h4
    refine allQ_sweep fun ix e1 e2 iz e3 e4 => allQ_cons (H.vx _ _ ix iz ?_ ?_ ?_ ?_)
      (allQ_one (tapS_x ht (.inl rfl) _ _)) <;> omega
  have tZ : ∀ {a b c d : Int} {t : Arr} {w : Int → Int → Int}, (t = .tapx ∨ t = .tapz ∨ t = .tapxz) → 0 ≤ a → b ≤ g.nax →
      2 ≤ c → d + 1 ≤ g.naz → AllQ (Keeps Ω) (taperZ g k a b c d t w).flatten := by
    intro a b c d t w ht h1 h2 h3 h4
    refine allQ_sweep fun ix e1 e2 iz e3 e4 => allQ_cons (H.vz _ _ ix iz ?_ ?_ ?_ ?_)
      (allQ_one (tapS_x ht (.inr rfl) _ _)) <;> omega
  refine allQP_append (allQP_append (allQP_append (allQP_append (allQP_cons ?_ (allQP_single ?_)) ?_) ?_) ?_) ?_
  · unfold velPhase
    rw [List.flatten_append]
    refine allQ_append (allQ_sweep fun ix h1 h2 iz h3 h4 => allQ_one (H.vx _ _ ix iz ?_ ?_ ?_ ?_))
      (allQ_sweep fun ix h1 h2 iz h3 h4 => allQ_one (H.vz _ _ ix iz ?_ ?_ ?_ ?_)) <;>
    simp only [Cfg.ioXx, Cfg.ieXx, Cfg.ioXz, Cfg.ieXz, Cfg.ioZx, Cfg.ieZx, Cfg.ioZz, Cfg.ieZz] at h1 h2 h3 h4 <;> omega
  · unfold wallPhase freeTop rigidTop rigidRig rigidBot rigidLef
    simp only [List.flatten_append]
    refine allQ_append (allQ_append (allQ_append (allQ_append ?_ ?_) ?_) ?_) ?_ <;>
      refine allQ_itef fun hc => allQ_parfor fun i h1 h2 => ?_
    · have h := H.top (.inl hc) i
      refine allQ_cons (cp_keeps (.inr rfl) ?_) (allQ_one (cp_keeps (.inr rfl) ?_)) <;> simp only [Cfg.surface]
      · rw [add_assoc]; exact h.1
      · rw [add_assoc, add_sub_assoc]; exact h.2
    · have h := H.top (.inr hc) i
      refine allQ_cons (ng_keeps (.inr rfl) ?_) (allQ_loop fun ib h3 h4 => allQ_one (ng_keeps (.inr rfl) ?_)) <;>
        simp only [Cfg.ibnd] at *
      · rw [add_assoc]; exact h.1
      · obtain rfl : ib = 1 := by omega
        rw [add_assoc, add_assoc, add_sub_assoc]; exact h.2
    · have h := H.rig hc i (by omega) (by omega)
      refine allQ_cons (ng_keeps (.inl rfl) ?_) (allQ_loop fun ib h3 h4 => allQ_one (ng_keeps (.inl rfl) ?_)) <;>
        simp only [Cfg.ibnd] at *
      · rw [add_sub_assoc]; simpa using h.1
      · obtain rfl : ib = 1 := by omega
        rw [add_assoc g.nx]; exact h.2
    · have h := H.bot hc i
      refine allQ_cons (ng_keeps (.inr rfl) ?_) (allQ_loop fun ib h3 h4 => allQ_one (ng_keeps (.inr rfl) ?_)) <;>
        simp only [Cfg.ibnd] at *
      · simpa only [add_sub_assoc, add_assoc, Int.sub_self, add_zero] using h.1
      · obtain rfl : ib = 1 := by omega
        rw [add_sub_assoc, add_assoc, add_assoc]; exact h.2
    · have h := H.lef hc i (by omega) (by omega)
      refine allQ_cons (ng_keeps (.inl rfl) ?_) (allQ_loop fun ib h3 h4 => allQ_one (ng_keeps (.inl rfl) ?_)) <;>
        simp only [Cfg.ibnd] at *
      · exact h.1
      · obtain rfl : ib = 1 := by omega
        exact h.2
  · refine allQP_ite fun ht => ?_
    simp only [Cfg.ioXx, Cfg.ieXx, Cfg.ioXz, Cfg.ioZx, Cfg.ieZx, Cfg.ioZz]
    refine allQP_append (allQP_append (allQP_append (allQP_append (allQP_append ?_ ?_) ?_) ?_) ?_) ?_
    · refine allQP_single (tX (by simp) ?_ ?_ ?_ ?_) <;> omega
    · refine allQP_ite fun _ => allQP_single (tX (by simp) ?_ ?_ ?_ ?_) <;> omega
    · refine allQP_ite fun _ => allQP_single (tX (by simp) ?_ ?_ ?_ ?_) <;> omega
    · refine allQP_single (tZ (by simp) ?_ ?_ ?_ ?_) <;> omega
    · refine allQP_ite fun _ => allQP_single (tZ (by simp) ?_ ?_ ?_ ?_) <;> omega
    · refine allQP_ite fun _ => allQP_single (tZ (by simp) ?_ ?_ ?_ ?_) <;> omega
  · refine allQP_ite fun ht => ?_
    simp only [Cfg.ioXx, Cfg.ieXx, Cfg.ieXz, Cfg.ioZx, Cfg.ieZx, Cfg.ieZz]
    refine allQP_append (allQP_append (allQP_append (allQP_append (allQP_append ?_ ?_) ?_) ?_) ?_) ?_
    · refine allQP_single (tX (by simp) ?_ ?_ ?_ ?_) <;> omega
    · refine allQP_ite fun _ => allQP_single (tX (by simp) ?_ ?_ ?_ ?_) <;> omega
    · refine allQP_ite fun _ => allQP_single (tX (by simp) ?_ ?_ ?_ ?_) <;> omega
    · refine allQP_single (tZ (by simp) ?_ ?_ ?_ ?_) <;> omega
    · refine allQP_ite fun _ => allQP_single (tZ (by simp) ?_ ?_ ?_ ?_) <;> omega
    · refine allQP_ite fun _ => allQP_single (tZ (by simp) ?_ ?_ ?_ ?_) <;> omega
  · refine allQP_ite fun ht => ?_
    simp only [Cfg.ioXx, Cfg.ioXz, Cfg.ieXz, Cfg.ioZx, Cfg.ioZz, Cfg.ieZz]
    refine allQP_cons (tX (by simp) ?_ ?_ ?_ ?_) (allQP_single (tZ (by simp) ?_ ?_ ?_ ?_)) <;> omega
  · refine allQP_ite fun ht => ?_
    simp only [Cfg.ieXx, Cfg.ioXz, Cfg.ieXz, Cfg.ieZx, Cfg.ioZz, Cfg.ieZz]
    refine allQP_cons (tX (by simp) ?_ ?_ ?_ ?_) (allQP_single (tZ (by simp) ?_ ?_ ?_ ?_)) <;> omega

theorem pressProg_keeps (hv : Valid g) (hp : NoPml g) {Ω : Cell → Prop} (k : Coef K)
    (H : ∀ ix iz : Int, 1 ≤ ix → ix < g.iePx → 1 ≤ iz → iz < g.iePz → Keeps Ω (pS g k.c1 k.c2 ix iz)) :
    AllQ (Keeps Ω) (pressProg g k) := by
  show AllQP (Keeps Ω) _
  have np := noPml_pad hp
  refine allQP_append (allQP_single ?_) (allQP_single ?_)
  · refine allQ_sweep fun ix h1 h2 iz h3 h4 => allQ_one (H ix iz ?_ ?_ ?_ ?_)
    · unfold Cfg.ioPx' Cfg.ioPx at h1; rw [if_neg np.2.2.1] at h1; exact h1
    · unfold Cfg.iePx' at h2; rw [if_neg np.2.2.2] at h2; exact h2
    · unfold Cfg.ioPz' Cfg.ioPz at h3; rw [if_neg np.1] at h3; exact h3
    · unfold Cfg.iePz' at h4; rw [if_neg np.2.1] at h4; exact h4
  · intro s hs
    obtain ⟨t, ht, hs'⟩ := List.mem_flatten.mp hs
    have hz : s.e = .zero := by
      have h : AllQ (fun s => s.e = .zero) (freePhase g : List (List (Stmt Cell K))).flatten := by
        unfold freePhase
        simp only [List.flatten_append]
        refine allQ_append (allQ_append (allQ_append ?_ ?_) ?_) ?_ <;>
          exact allQ_itef (fun hc => allQ_parfor fun i h1 h2 => allQ_one rfl)
      exact h s hs
    refine ⟨by rw [hz]; rfl, fun _ a ha => ?_⟩
    rw [hz] at ha
    cases ha

/-! ### Along the z direction -/

section z
variable (g) (L U : Int)

/-- The support after the velocity update, in rows. -/
def Oz1 : Cell → Prop := Om (row g) .vz .vx (I1 g.nz L U (g.top = 1 ∨ g.top = 3) (g.bot = 3)) (Iv L U) (Iv L U)

/-- The support during the pressure update. -/
def Oz2 : Cell → Prop := Om (row g) .vz .vx (I1 g.nz L U (g.top = 1 ∨ g.top = 3) (g.bot = 3)) (Iv L U) (Iv (L - 3) (U + 3))

variable {g L U}

theorem vxS_z (k1 k2 : K) {ix iz : Int} (h1 : 0 ≤ iz) (h2 : iz < g.naz) : Keeps (Oz1 g L U) (vxS g k1 k2 ix iz) := by
  refine keeps_of (vxS_lin _ _ _ _) ?_
  have c0 := fun j : Int => row_key (ix := j) h1 h2
  rds [vxS, dpx, Oz1, row, c0]
  tauto

theorem vzS_z (k1 k2 : K) {ix iz : Int} (h1 : 2 ≤ iz) (h2 : iz + 1 < g.naz) : Keeps (Oz1 g L U) (vzS g k1 k2 ix iz) := by
  refine keeps_of (vzS_lin _ _ _ _) ?_
  have c0 := fun (j : Int) (h : 0 ≤ j) (h' : j < g.naz) => row_key (ix := ix) h h'
  have e1 := c0 iz (by omega) (by omega)
  have e2 := c0 (iz - 1) (by omega) (by omega)
  have e3 := c0 (iz + 1) (by omega) (by omega)
  have e4 := c0 (iz - 2) (by omega) (by omega)
  rw [← add_sub_assoc] at e2 e4
  rw [← add_assoc] at e3
  rds [vzS, dpz, Oz1, row, e1, e2, e3, e4]
  unfold I1 Iv
  and_intros <;> intro h <;> omega

theorem pS_z (k1 k2 : K) {ix iz : Int} (h1 : 1 ≤ iz) (h2 : iz + 2 < g.naz) (hx2 : g.bot = 3 → iz ≤ g.nz)
    (hL : g.bot = 3 → L ≤ g.nz + 2) (hU : 0 ≤ U) : Keeps (Oz2 g L U) (pS g k1 k2 ix iz) := by
  refine keeps_of (pS_lin _ _ _ _) ?_
  have cx := fun j : Int => row_key (ix := j) (iz := iz) (n := g.naz) (by omega) (by omega)
  have c0 := fun (j : Int) (h : 0 ≤ j) (h' : j < g.naz) => row_key (ix := ix) h h'
  have e2 := c0 (iz - 1) (by omega) (by omega)
  have e3 := c0 (iz + 1) (by omega) (by omega)
  have e4 := c0 (iz + 2) (by omega) (by omega)
  rw [← add_sub_assoc] at e2
  rw [← add_assoc] at e3 e4
  rds [pS, Oz2, row, cx, e2, e3, e4]
  unfold I1 Iv
  and_intros <;> intro h <;> omega

end z

/-! ### One step -/

theorem dims (hv : Valid g) (hp : NoPml g) : g.nz + 4 ≤ g.naz ∧ g.nx + 4 ≤ g.nax ∧ (g.rig = 3 → g.iePx = g.nx + 1) ∧
    (g.bot = 3 → g.iePz = g.nz + 1) ∧ g.iePz + 3 = g.naz ∧ (g.rig = 3 → g.nax = g.nx + 4) ∧ (g.bot = 3 → g.naz = g.nz + 4) := by
  have pt := pad_cases (g := g) g.top
  have pb := pad_cases (g := g) g.bot
  have pl := pad_cases (g := g) g.lef
  have pr := pad_cases (g := g) g.rig
  have hnaz : g.naz = g.nz + 4 + g.pad g.top + g.pad g.bot := rfl
  have hnax : g.nax = g.nx + 4 + g.pad g.lef + g.pad g.rig := rfl
  have hnx := hv.nx; have hnz := hv.nz; have hpm := hv.npml
  have := hp.rig; have := hp.bot
  simp only [Cfg.iePx, Cfg.iePz]
  omega

theorem velKeeps_x (hv : Valid g) (hp : NoPml g) {L U : Int} (hL : g.rig = 3 → L ≤ g.nx + 2) (hU : 0 ≤ U) : VelKeeps (K := K) g (Ox1 g L U) := by
  have hd := dims hv hp
  have hnz := hv.nz; have hnx := hv.nx
  refine ⟨fun k1 k2 ix iz _ _ h1 h2 => vxS_x k1 k2 h1 h2, fun k1 k2 ix iz _ _ h1 h2 => vzS_x k1 k2 h1 h2, ?_, ?_, ?_, ?_⟩
  · intro _ ix
    simp only [Ox1, Om, col, reduceCtorEq, false_imp_iff, true_imp_iff, true_and, and_true]
    rw [col_key (by omega) (by omega), col_key (by omega) (by omega), col_key (by omega) (by omega),
      col_key (by omega) (by omega)]
    exact ⟨id, id⟩
  · intro hb ix
    simp only [Ox1, Om, col, reduceCtorEq, false_imp_iff, true_imp_iff, true_and, and_true]
    rw [col_key (by omega) (by omega), col_key (by omega) (by omega), col_key (by omega) (by omega),
      col_key (by omega) (by omega)]
    exact ⟨id, id⟩
  · intro hl iz h1 h2
    simp only [Ox1, Om, col, reduceCtorEq, false_imp_iff, true_imp_iff, true_and, and_true, col_key h1 h2, I1]
    constructor <;> intro h <;> omega
  · intro hl iz h1 h2
    simp only [Ox1, Om, col, reduceCtorEq, false_imp_iff, true_imp_iff, true_and, and_true, col_key h1 h2, I1]
    constructor <;> intro h <;> omega

theorem velKeeps_z (hv : Valid g) (hp : NoPml g) {L U : Int} (hL : g.bot = 3 → L ≤ g.nz + 2) (hU : 0 ≤ U) : VelKeeps (K := K) g (Oz1 g L U) := by
  have hd := dims hv hp
  have hnz := hv.nz; have hnx := hv.nx
  refine ⟨fun k1 k2 ix iz _ _ h1 h2 => vxS_z k1 k2 h1 h2, fun k1 k2 ix iz _ _ h1 h2 => vzS_z k1 k2 h1 h2, ?_, ?_, ?_, ?_⟩
  · intro ht ix
    simp only [Oz1, Om, row, reduceCtorEq, false_imp_iff, true_imp_iff, true_and, and_true]
    rw [row_key (by omega) (by omega), row_key (by omega) (by omega), row_key (by omega) (by omega),
      row_key (by omega) (by omega)]
    unfold I1
    constructor <;> intro h <;> omega
  · intro hb ix
    simp only [Oz1, Om, row, reduceCtorEq, false_imp_iff, true_imp_iff, true_and, and_true]
    rw [row_key (by omega) (by omega), row_key (by omega) (by omega), row_key (by omega) (by omega),
      row_key (by omega) (by omega)]
    unfold I1
    constructor <;> intro h <;> omega
  · intro hl iz h1 h2
    simp only [Oz1, Om, row, reduceCtorEq, false_imp_iff, true_imp_iff, true_and, and_true, row_key h1 h2]
    exact ⟨id, id⟩
  · intro hl iz h1 h2
    simp only [Oz1, Om, row, reduceCtorEq, false_imp_iff, true_imp_iff, true_and, and_true, row_key h1 h2]
    exact ⟨id, id⟩

/-- The wave fields vanish outside `Ω`. -/
def Vanish [Zero K] (Ω : Cell → Prop) (m : Cell → K) : Prop := ∀ c, fld c = true → ¬ Ω c → m c = 0

theorem vanish_mono [Zero K] {Ω Ω' : Cell → Prop} {m : Cell → K} (h : Vanish Ω m) (hs : ∀ c, Ω c → Ω' c) : Vanish Ω' m :=
  fun c hf hn => h c hf fun ho => hn (hs c ho)

/-- The cells a statement of the velocity part writes are not pressure cells, and so on: support before the step, in columns. -/
def Ox0 (g : Cfg) (L U : Int) : Cell → Prop :=
  Om (col g) .vx .vz (I0 g.nx L U (g.lef = 3) (g.rig = 3)) (Iv L U) (Iv L U)

/-- Support before the step, in rows. -/
def Oz0 (g : Cfg) (L U : Int) : Cell → Prop :=
  Om (row g) .vz .vx (I0 g.nz L U (g.top = 1 ∨ g.top = 3) (g.bot = 3)) (Iv L U) (Iv L U)

theorem om_mono {κ : Cell → Int} {sp ot : Arr} {J J' Jp I I' Ip : Int → Prop} (h : ∀ c, J c → I c) (h' : ∀ c, J' c → I' c)
    (hp : ∀ c, Jp c → Ip c) : ∀ c, Om κ sp ot J J' Jp c → Om κ sp ot I I' Ip c :=
  fun _ ⟨a, b, d⟩ => ⟨fun e => h _ (a e), fun e => h' _ (b e), fun e => hp _ (d e)⟩

theorem step_x [CommRing K] (hv : Valid g) (hp : NoPml g) (k : Coef K) (first : Bool) {L U : Int}
    (hL : g.rig = 3 → L ≤ g.nx + 2) (hU : 0 ≤ U) {m : Cell → K} (hm : Vanish (Ox0 g L U) m) :
    Vanish (Ox0 g (L - 3) (U + 3)) (run (stepProg g k first) m) := by
  have hd := dims hv hp
  rw [step_split hp.pml, run_append]
  have h1 : Vanish (Ox1 g L U) (run (velProg g k) m) :=
    run_support (velProg_keeps hv hp (velKeeps_x hv hp hL hU) k)
      (vanish_mono hm (om_mono (fun c => by unfold I0 I1; omega) (fun _ => id) (fun _ => id)))
  have h2 : Vanish (Ox2 g L U) (run (pressProg g k) (run (velProg g k) m)) :=
    run_support (pressProg_keeps hv hp k fun ix iz e1 e2 e3 e4 => pS_x _ _ e3 (by omega) e1 (fun hr => by
        have := hd.2.2.1 hr; omega) hL hU)
      (vanish_mono h1 (om_mono (fun _ => id) (fun _ => id) (fun c => by unfold Iv; omega)))
  exact vanish_mono h2 (om_mono (fun c => by unfold I0 I1; omega) (fun c => by unfold Iv; omega) (fun _ => id))

theorem step_z [CommRing K] (hv : Valid g) (hp : NoPml g) (k : Coef K) (first : Bool) {L U : Int}
    (hL : g.bot = 3 → L ≤ g.nz + 2) (hU : 0 ≤ U) {m : Cell → K} (hm : Vanish (Oz0 g L U) m) :
    Vanish (Oz0 g (L - 3) (U + 3)) (run (stepProg g k first) m) := by
  have hd := dims hv hp
  rw [step_split hp.pml, run_append]
  have h1 : Vanish (Oz1 g L U) (run (velProg g k) m) :=
    run_support (velProg_keeps hv hp (velKeeps_z hv hp hL hU) k)
      (vanish_mono hm (om_mono (fun c => by unfold I0 I1; omega) (fun _ => id) (fun _ => id)))
  have h2 : Vanish (Oz2 g L U) (run (pressProg g k) (run (velProg g k) m)) :=
    run_support (pressProg_keeps hv hp k fun ix iz e1 e2 e3 e4 => pS_z _ _ e3 (by omega) (fun hr => by
        have := hd.2.2.2.1 hr; omega) hL hU)
      (vanish_mono h1 (om_mono (fun _ => id) (fun _ => id) (fun c => by unfold Iv; omega)))
  exact vanish_mono h2 (om_mono (fun c => by unfold I0 I1; omega) (fun c => by unfold Iv; omega) (fun _ => id))

theorem steps_x [CommRing K] (hv : Valid g) (hp : NoPml g) (k : Coef K) {L U : Int}
    (hL : g.rig = 3 → L ≤ g.nx + 2) (hU : 0 ≤ U) {m : Cell → K} (hm : Vanish (Ox0 g L U) m) (n : Nat) :
    Vanish (Ox0 g (L - 3 * n) (U + 3 * n)) (steps g k n m) := by
  induction n with
  | zero => simp only [Nat.cast_zero, mul_zero, sub_zero, add_zero]; exact hm
  | succ n ih =>
    have := step_x hv hp k (n = 0) (fun h => by have := hL h; omega) (by omega) ih
    rw [show L - 3 * ((n + 1 : Nat) : Int) = L - 3 * n - 3 by push_cast; ring,
      show U + 3 * ((n + 1 : Nat) : Int) = U + 3 * n + 3 by push_cast; ring]
    exact this

theorem steps_z [CommRing K] (hv : Valid g) (hp : NoPml g) (k : Coef K) {L U : Int}
    (hL : g.bot = 3 → L ≤ g.nz + 2) (hU : 0 ≤ U) {m : Cell → K} (hm : Vanish (Oz0 g L U) m) (n : Nat) :
    Vanish (Oz0 g (L - 3 * n) (U + 3 * n)) (steps g k n m) := by
  induction n with
  | zero => simp only [Nat.cast_zero, mul_zero, sub_zero, add_zero]; exact hm
  | succ n ih =>
    have := step_z hv hp k (n = 0) (fun h => by have := hL h; omega) (by omega) ih
    rw [show L - 3 * ((n + 1 : Nat) : Int) = L - 3 * n - 3 by push_cast; ring,
      show U + 3 * ((n + 1 : Nat) : Int) = U + 3 * n + 3 by push_cast; ring]
    exact this

/-! ### The property -/

/-- The wave field vanishes at every grid point outside columns `x1 … x2` or rows `z1 … z2`. -/
def ZeroOutside [Zero K] (g : Cfg) (u : Field K) (x1 x2 z1 z2 : Int) : Prop :=
  ∀ ix iz : Int, 0 ≤ iz → iz < g.naz → (ix < x1 ∨ x2 < ix ∨ iz < z1 ∨ z2 < iz) →
    u.vx (ix * g.naz + iz) = 0 ∧ u.vz (ix * g.naz + iz) = 0 ∧ u.p (ix * g.naz + iz) = 0

theorem flat_eq (g : Cfg) (hn : 0 < g.naz) (i : Int) :
    i = (i / g.naz) * g.naz + i % g.naz ∧ 0 ≤ i % g.naz ∧ i % g.naz < g.naz :=
  ⟨by have := Int.mul_ediv_add_emod i g.naz; rw [Int.mul_comm] at this; exact this.symm,
    Int.emod_nonneg _ (by omega), Int.emod_lt_of_pos _ hn⟩

/-- **C29** (partial: no PML side; a rigid right or bottom side only opposite an unpadded one). A field that is zero outside the
columns `x1 … x2` and rows `z1 … z2` is, after `n` time steps in any medium, zero at every grid point more than `3 n` columns
or rows away: the pressure everywhere, the velocities at all points that are not mirror points beyond a boundary. -/
theorem finite_speed_partial [CommRing K] (hv : Valid g) (hp : NoPml g) (k : Coef K) (med : Cell → K) (u : Field K)
    {x1 x2 z1 z2 : Int} (hx1 : x1 ≤ g.nx + 2) (hx2 : 0 ≤ x2) (hz1 : z1 ≤ g.nz + 2) (hz2 : 0 ≤ z2)
    (hu : ZeroOutside g u x1 x2 z1 z2) (n : Nat) (ix iz : Int) (h1 : 0 ≤ iz) (h2 : iz < g.naz)
    (hout : ix < x1 - 3 * n ∨ x2 + 3 * n < ix ∨ iz < z1 - 3 * n ∨ z2 + 3 * n < iz) :
    (propagate g k med n u).p (ix * g.naz + iz) = 0 ∧
    (2 ≤ ix → ix < g.nax - 2 → (propagate g k med n u).vx (ix * g.naz + iz) = 0) ∧
    (2 ≤ iz → iz < g.naz - 2 → (propagate g k med n u).vz (ix * g.naz + iz) = 0) := by
  have hd := dims hv hp
  have hnz := hv.nz
  have ck := col_key (ix := ix) h1 h2
  have rk := row_key (ix := ix) h1 h2
  have zx : Vanish (Ox0 g x1 x2) (mem med u) := by
    rintro ⟨a, i⟩ hf hn
    obtain ⟨e, e1, e2⟩ := flat_eq g (by omega) i
    have hz := hu (i / g.naz) (i % g.naz) e1 e2
    rw [← e] at hz
    by_cases ho : i / g.naz < x1 ∨ x2 < i / g.naz
    · have := hz (by omega)
      cases a <;> first | exact this.1 | exact this.2.1 | exact this.2.2 | exact absurd ⟨Arr.noConfusion, Arr.noConfusion, Arr.noConfusion⟩ hn | cases hf
    · exact absurd ⟨fun _ => Or.inl ⟨by simp only [col]; omega, by simp only [col]; omega⟩,
        fun _ => ⟨by simp only [col]; omega, by simp only [col]; omega⟩,
        fun _ => ⟨by simp only [col]; omega, by simp only [col]; omega⟩⟩ hn
  have zz : Vanish (Oz0 g z1 z2) (mem med u) := by
    rintro ⟨a, i⟩ hf hn
    obtain ⟨e, e1, e2⟩ := flat_eq g (by omega) i
    have hz := hu (i / g.naz) (i % g.naz) e1 e2
    rw [← e] at hz
    by_cases ho : i % g.naz < z1 ∨ z2 < i % g.naz
    · have := hz (by omega)
      cases a <;> first | exact this.1 | exact this.2.1 | exact this.2.2 | exact absurd ⟨Arr.noConfusion, Arr.noConfusion, Arr.noConfusion⟩ hn | cases hf
    · exact absurd ⟨fun _ => Or.inl ⟨by simp only [row]; omega, by simp only [row]; omega⟩,
        fun _ => ⟨by simp only [row]; omega, by simp only [row]; omega⟩,
        fun _ => ⟨by simp only [row]; omega, by simp only [row]; omega⟩⟩ hn
  have sx := steps_x hv hp k (fun _ => hx1) hx2 zx n
  have sz := steps_z hv hp k (fun _ => hz1) hz2 zz n
  have hr := hd.2.2.2.2.2.1
  have hb := hd.2.2.2.2.2.2
  refine ⟨?_, fun a b => ?_, fun a b => ?_⟩
  · by_cases hx : ix < x1 - 3 * n ∨ x2 + 3 * n < ix
    · refine sx (.p, ix * g.naz + iz) rfl fun ho => ?_
      have := ho.2.2 rfl
      simp only [col, ck, Iv] at this; omega
    · refine sz (.p, ix * g.naz + iz) rfl fun ho => ?_
      have := ho.2.2 rfl
      simp only [row, rk, Iv] at this; omega
  · by_cases hx : ix < x1 - 3 * n ∨ x2 + 3 * n < ix
    · refine sx (.vx, ix * g.naz + iz) rfl fun ho => ?_
      have := ho.1 rfl
      simp only [col, ck, I0] at this; omega
    · refine sz (.vx, ix * g.naz + iz) rfl fun ho => ?_
      have := ho.2.1 rfl
      simp only [row, rk, Iv] at this; omega
  · by_cases hx : ix < x1 - 3 * n ∨ x2 + 3 * n < ix
    · refine sx (.vz, ix * g.naz + iz) rfl fun ho => ?_
      have := ho.2.1 rfl
      simp only [col, ck, Iv] at this; omega
    · refine sz (.vz, ix * g.naz + iz) rfl fun ho => ?_
      have := ho.1 rfl
      simp only [row, rk, I0] at this; omega

end

/-- A pressure spike at column 6, row 6 of a 12 by 12 grid between a free surface, a taper and two rigid walls. -/
def spike : Field Int := { Field.rest with p := fun i => if i = 6 * (⟨12, 12, 5, 1, 4, 3, 3⟩ : Cfg).naz + 6 then 1 else 0 }

/-- The hypotheses are met, and the bound is attained: after one step the pressure three columns away is not zero. -/
example : Valid ⟨12, 12, 5, 1, 4, 3, 3⟩ ∧ NoPml ⟨12, 12, 5, 1, 4, 3, 3⟩ ∧ ZeroOutside ⟨12, 12, 5, 1, 4, 3, 3⟩ spike 6 6 6 6 := by
  refine ⟨⟨by decide, by decide, by decide, by decide, by decide, by decide, by decide⟩, ⟨by decide, by decide, by decide⟩, ?_⟩
  intro ix iz h1 h2 ho
  refine ⟨rfl, rfl, if_neg fun h => ?_⟩
  simp only [Cfg.naz, Cfg.pad] at h h1 h2
  norm_num at h h2
  omega

example : (propagate (K := Int) ⟨8, 3, 5, 1, 1, 1, 1⟩ ⟨1, 1, 1, 1⟩ (fun _ => 1) 1
    { Field.rest with p := fun i => if i = 6 * 7 + 2 then 1 else 0 }).p (3 * 7 + 2) ≠ 0 := by
  decide +kernel

/-- Why a rigid right side opposite a padded left side is excluded: the wall loop (boundaries.c:77-92) does not know about the
padding, so it writes inside the model, and a single step carries the field six columns (from column 5 to column 11). -/
theorem inner_wall_jumps : (propagate (K := Int) ⟨8, 3, 5, 1, 1, 4, 3⟩ ⟨1, 1, 1, 1⟩ (fun _ => 1) 1
    { Field.rest with p := fun i => if i = 5 * 7 + 2 then 1 else 0 }).p (11 * 7 + 2) ≠ 0 := by
  decide +kernel

end Verif.Fd.Acou

import Verif.Fd.AcouLinear

/-! # C28: the acoustic time step gives the same result under every schedule of its parallel loops -/

namespace Verif.Fd.Acou

open Verif.Sten

section
variable {K : Type} {g : Cfg}

theorem col_key {n ix iz : Int} (h1 : 0 ≤ iz) (h2 : iz < n) : (ix * n + iz) / n = ix := by
  rw [Int.add_comm, Int.add_mul_ediv_right _ _ (by omega), Int.ediv_eq_zero_of_lt h1 h2]; omega

theorem row_key {n ix iz : Int} (h1 : 0 ≤ iz) (h2 : iz < n) : (ix * n + iz) % n = iz := by
  rw [Int.add_comm, Int.add_mul_emod_self_right, Int.emod_eq_of_lt h1 h2]

/-- Column and row of a cell. -/
def col (g : Cfg) (c : Cell) : Int := c.2 / g.naz
def row (g : Cfg) (c : Cell) : Int := c.2 % g.naz

/-- Turn `InKey` of an explicit statement into equations. -/
syntax "keys" "[" Lean.Parser.Tactic.simpLemma,* "]" : tactic
macro_rules
  | `(tactic| keys [$ls,*]) => `(tactic|
      simp only [InKey, $ls,*, Stmt.cells, reads_add, reads_sub, reads_mul, reads_rd, reads_c, reads_zero,
        List.forall_mem_cons, List.forall_mem_append, List.not_mem_nil, false_imp_iff, implies_true, and_true, true_and,
        List.append_nil, List.nil_append, reduceCtorEq, or_false, false_or, or_true, true_or, true_imp_iff, and_self])

/-- `vx` loops: every statement stays in its column of `vx` and `psi_vx_x`. -/
def Wx (c : Cell) : Prop := c.1 = .vx ∨ c.1 = .psiVxX
def Wz (c : Cell) : Prop := c.1 = .vz ∨ c.1 = .psiVzZ
def Wp (c : Cell) : Prop := c.1 = .p ∨ c.1 = .psiPX ∨ c.1 = .psiPZ

theorem vxS_key (k1 k2 : K) {ix iz : Int} (h1 : 0 ≤ iz) (h2 : iz < g.naz) : InKey Wx (col g) ix (vxS g k1 k2 ix iz) := by
  keys [vxS, dpx, Wx, col]; exact col_key h1 h2

theorem vzS_key (k1 k2 : K) {ix iz : Int} (h1 : 0 ≤ iz) (h2 : iz < g.naz) : InKey Wz (col g) ix (vzS g k1 k2 ix iz) := by
  keys [vzS, dpz, Wz, col]; exact col_key h1 h2

theorem pS_key (k1 k2 : K) {ix iz : Int} (h1 : 0 ≤ iz) (h2 : iz < g.naz) : InKey Wp (col g) ix (pS g k1 k2 ix iz) := by
  keys [pS, Wp, col]; exact col_key h1 h2

theorem vxPml_key (k : Coef K) {ix iz : Int} (h1 : 0 ≤ iz) (h2 : iz < g.naz) :
    AllQ (InKey Wx (col g) ix) (vxPml g k ix iz) := by
  unfold AllQ
  keys [vxPml, dpx, Wx, col]; exact col_key h1 h2

theorem vzPml_key (k : Coef K) {ix iz : Int} (h1 : 0 ≤ iz) (h2 : iz < g.naz) :
    AllQ (InKey Wz (col g) ix) (vzPml g k ix iz) := by
  unfold AllQ
  keys [vzPml, dpz, Wz, col]; exact col_key h1 h2

theorem pPml_key (k : Coef K) {ix iz : Int} (h1 : 0 ≤ iz) (h2 : iz < g.naz) (inx inz : Bool) :
    AllQ (InKey Wp (col g) ix) (pPml g k ix iz inx inz) := by
  have hx : ∀ c ∈ (dvxPml g k ix iz).reads, ¬ Wp c := by
    unfold dvxPml
    split <;> keys [Wp] <;> simp
  have hz : ∀ c ∈ (dvzPml g k ix iz).reads, ¬ Wp c := by
    unfold dvzPml
    split <;> keys [Wp] <;> simp
  have hx' : (∀ c ∈ (dvxPml g k ix iz).reads, Wp c → col g c = ix) = True :=
    eq_true fun c hc hw => absurd hw (hx c hc)
  have hz' : (∀ c ∈ (dvzPml g k ix iz).reads, Wp c → col g c = ix) = True :=
    eq_true fun c hc hw => absurd hw (hz c hc)
  have hc := col_key (ix := ix) h1 h2
  unfold AllQ pPml
  cases inx <;> cases inz <;>
    simp only [InKey, Stmt.cells, reads_add, reads_sub, reads_mul, reads_rd,
        List.forall_mem_cons, List.forall_mem_append, List.not_mem_nil, false_imp_iff, implies_true, and_true, true_and,
        if_true, if_false, Bool.false_eq_true, hx', hz'] <;> simp [Wp, col, hc]

theorem sweep_apart {a b c d : Int} {body : Int → Int → List (Stmt Cell K)} (W : Cell → Prop) (hc : 0 ≤ c) (hd : d ≤ g.naz)
    (h : ∀ ix iz : Int, 0 ≤ iz → iz < g.naz → AllQ (InKey W (col g) ix) (body ix iz)) :
    (sweep a b c d body).Pairwise Apart := by
  refine parfor_apart W (col g) fun ix h1 h2 => ?_
  exact allQ_loop fun iz h3 h4 => h ix iz (by omega) (by omega)

theorem nil_apart : ([] : List (List (Stmt Cell K))).Pairwise Apart := List.Pairwise.nil

theorem ite_apart {c : Prop} [Decidable c] {l : List (List (Stmt Cell K))} (h : c → l.Pairwise Apart) :
    (if c then l else []).Pairwise Apart := by
  split
  · exact h ‹_›
  · exact nil_apart

theorem single_free (t : List (Stmt Cell K)) : PhaseFree [t] :=
  phaseFree_of_pairwise (List.pairwise_singleton _ _)

theorem velPhase_free (hv : Valid g) (k : Coef K) : PhaseFree (velPhase g k) := by
  refine phaseFree_of_pairwise (append_apart ?_ ?_ ?_)
  · refine sweep_apart Wx ?_ ?_ fun ix iz h1 h2 => allQ_one (vxS_key _ _ h1 h2)
    · have := pad_cases (g := g) g.top; have := hv.npml; simp only [Cfg.ioXz]; omega
    · have := pad_cases (g := g) g.bot; have := hv.npml; simp only [Cfg.ieXz, Cfg.naz]; omega
  · refine sweep_apart Wz ?_ ?_ fun ix iz h1 h2 => allQ_one (vzS_key _ _ h1 h2)
    · have := pad_cases (g := g) g.top; have := hv.npml; simp only [Cfg.ioZz]; omega
    · have := pad_cases (g := g) g.bot; have := hv.npml; simp only [Cfg.ieZz, Cfg.naz]; omega
  · have h1 : AllQ (fun s => s.dst.1 = .vx ∧ ∀ c ∈ s.cells, c.1 ≠ .vz)
        (sweep g.ioXx g.ieXx g.ioXz g.ieXz (fun ix iz => [vxS g k.c1 k.c2 ix iz])).flatten :=
      allQ_sweep fun ix _ _ iz _ _ => allQ_one (by keys [vxS, dpx]; simp)
    have h2 : AllQ (fun s => s.dst.1 = .vz ∧ ∀ c ∈ s.cells, c.1 ≠ .vx)
        (sweep g.ioZx g.ieZx g.ioZz g.ieZz (fun ix iz => [vzS g k.c1 k.c2 ix iz])).flatten :=
      allQ_sweep fun ix _ _ iz _ _ => allQ_one (by keys [vzS, dpz]; simp)
    intro s hs s' hs'
    exact ⟨fun hc => (h2 s' hs').2 _ hc (h1 s hs).1, fun hc => (h1 s hs).2 _ hc (h2 s' hs').1⟩

/-- Statements on one array, with the rows (columns) they write and touch. -/
def On (a : Arr) (κ : Cell → Int) (w r : Int → Prop) (s : Stmt Cell K) : Prop :=
  s.dst.1 = a ∧ w (κ s.dst) ∧ ∀ c ∈ s.cells, c.1 = a ∧ r (κ c)

theorem on_cross {a : Arr} {κ : Cell → Int} {w r w' r' : Int → Prop} {p q : List (List (Stmt Cell K))}
    (hp : AllQ (On a κ w r) p.flatten) (hq : AllQ (On a κ w' r') q.flatten) (h1 : ∀ x, w x → ¬ r' x) (h2 : ∀ x, w' x → ¬ r x) :
    ∀ s ∈ p.flatten, ∀ s' ∈ q.flatten, s.dst ∉ s'.cells ∧ s'.dst ∉ s.cells := fun s hs s' hs' =>
  ⟨fun hc => h1 _ (hp s hs).2.1 ((hq s' hs').2.2 _ hc).2, fun hc => h2 _ (hq s' hs').2.1 ((hp s hs).2.2 _ hc).2⟩

theorem on_array {a a' : Arr} {κ κ' : Cell → Int} {w r w' r' : Int → Prop} {p q : List (List (Stmt Cell K))} (ha : a ≠ a')
    (hp : AllQ (On a κ w r) p.flatten) (hq : AllQ (On a' κ' w' r') q.flatten) :
    ∀ s ∈ p.flatten, ∀ s' ∈ q.flatten, s.dst ∉ s'.cells ∧ s'.dst ∉ s.cells := fun s hs s' hs' =>
  ⟨fun hc => ha ((hp s hs).1.symm.trans ((hq s' hs').2.2 _ hc).1),
   fun hc => ha (((hp s hs).2.2 _ hc).1.symm.trans (hq s' hs').1)⟩

/-- `On` and `InKey` for copies. -/
theorem cp_on {a : Arr} {κ : Cell → Int} {w r : Int → Prop} {i j : Int} (h1 : w (κ (a, i))) (h2 : r (κ (a, i)))
    (h3 : r (κ (a, j))) : On a κ w r (cp a i j : Stmt Cell K) := by
  refine ⟨rfl, h1, ?_⟩
  simp only [cp, Stmt.cells, reads_rd, List.forall_mem_cons, List.not_mem_nil, false_imp_iff, implies_true, and_true,
    true_and]
  exact ⟨h2, h3⟩

theorem ng_on {a : Arr} {κ : Cell → Int} {w r : Int → Prop} {i j : Int} (h1 : w (κ (a, i))) (h2 : r (κ (a, i)))
    (h3 : r (κ (a, j))) : On a κ w r (ng a i j : Stmt Cell K) := by
  refine ⟨rfl, h1, ?_⟩
  simp only [ng, Stmt.cells, reads_rd, reads_sub, reads_zero, List.nil_append, List.forall_mem_cons, List.not_mem_nil,
    false_imp_iff, implies_true, and_true, true_and]
  exact ⟨h2, h3⟩

theorem cp_key {a : Arr} {W : Cell → Prop} {κ : Cell → Int} {i j l : Int} (hw : W (a, i)) (h1 : κ (a, i) = l)
    (h2 : κ (a, j) = l) : InKey W κ l (cp a i j : Stmt Cell K) := by
  refine ⟨hw, ?_⟩
  simp only [cp, Stmt.cells, reads_rd, List.forall_mem_cons, List.not_mem_nil, false_imp_iff, implies_true, and_true]
  exact ⟨fun _ => h1, fun _ => h2⟩

theorem ng_key {a : Arr} {W : Cell → Prop} {κ : Cell → Int} {i j l : Int} (hw : W (a, i)) (h1 : κ (a, i) = l)
    (h2 : κ (a, j) = l) : InKey W κ l (ng a i j : Stmt Cell K) := by
  refine ⟨hw, ?_⟩
  simp only [ng, Stmt.cells, reads_rd, reads_sub, reads_zero, List.nil_append, List.forall_mem_cons, List.not_mem_nil,
    false_imp_iff, implies_true, and_true]
  exact ⟨fun _ => h1, fun _ => h2⟩

theorem col_at {a : Arr} {ix iz i : Int} (h : i = ix * g.naz + iz) (h1 : 0 ≤ iz) (h2 : iz < g.naz) : col g (a, i) = ix := by
  subst h; exact col_key h1 h2

theorem row_at {a : Arr} {ix iz i : Int} (h : i = ix * g.naz + iz) (h1 : 0 ≤ iz) (h2 : iz < g.naz) : row g (a, i) = iz := by
  subst h; exact row_key h1 h2

theorem wallPhase_free (hv : Valid g) (hx : 3 ≤ g.nx) (hz : 3 ≤ g.nz) :
    PhaseFree (wallPhase g : List (List (Stmt Cell K))) := by
  have hnaz : g.nz + 4 ≤ g.naz := by
    have := pad_cases (g := g) g.bot; have := pad_cases (g := g) g.top; have := hv.npml; simp only [Cfg.naz]; omega
  have T : ∀ x, x ∈ [(0:Int), 1] → x ∈ [(0:Int), 1, 2, 3] := by intro x hx; simp at hx ⊢; omega
  have fT : AllQ (On .vz (row g) (· ≤ 1) (· ≤ 3)) (freeTop g : List (List (Stmt Cell K))).flatten := by
    refine allQ_itef fun _ => allQ_parfor fun ix h1 h2 => allQ_cons (cp_on ?_ ?_ ?_) (allQ_one (cp_on ?_ ?_ ?_)) <;>
      simp only [Cfg.surface]
    · rw [row_at (ix := ix) (iz := 1)] <;> omega
    · rw [row_at (ix := ix) (iz := 1)] <;> omega
    · rw [row_at (ix := ix) (iz := 2)] <;> omega
    · rw [row_at (ix := ix) (iz := 0)] <;> omega
    · rw [row_at (ix := ix) (iz := 0)] <;> omega
    · rw [row_at (ix := ix) (iz := 3)] <;> omega
  have rT : AllQ (On .vz (row g) (· ≤ 1) (· ≤ 3)) (rigidTop g : List (List (Stmt Cell K))).flatten := by
    refine allQ_itef fun _ => allQ_parfor fun ix h1 h2 => allQ_cons (ng_on ?_ ?_ ?_) (allQ_loop fun ib h3 h4 =>
      allQ_one (ng_on ?_ ?_ ?_)) <;> simp only [Cfg.ibnd] at * <;> try obtain rfl : ib = 1 := by omega
    · rw [row_at (ix := ix) (iz := 1)] <;> omega
    · rw [row_at (ix := ix) (iz := 1)] <;> omega
    · rw [row_at (ix := ix) (iz := 2)] <;> omega
    · rw [row_at (ix := ix) (iz := 0)] <;> omega
    · rw [row_at (ix := ix) (iz := 0)] <;> omega
    · rw [row_at (ix := ix) (iz := 3)] <;> omega
  have rB : AllQ (On .vz (row g) (g.nz + 1 ≤ ·) (g.nz - 1 ≤ ·)) (rigidBot g : List (List (Stmt Cell K))).flatten := by
    refine allQ_itef fun _ => allQ_parfor fun ix h1 h2 => allQ_cons (ng_on ?_ ?_ ?_) (allQ_loop fun ib h3 h4 =>
      allQ_one (ng_on ?_ ?_ ?_)) <;> simp only [Cfg.ibnd] at * <;> try obtain rfl : ib = 1 := by omega
    · rw [row_at (ix := ix) (iz := g.nz + 1)] <;> omega
    · rw [row_at (ix := ix) (iz := g.nz + 1)] <;> omega
    · rw [row_at (ix := ix) (iz := g.nz)] <;> omega
    · rw [row_at (ix := ix) (iz := g.nz + 2)] <;> omega
    · rw [row_at (ix := ix) (iz := g.nz + 2)] <;> omega
    · rw [row_at (ix := ix) (iz := g.nz - 1)] <;> omega
  have rR : AllQ (On .vx (col g) (g.nx + 1 ≤ ·) (g.nx - 1 ≤ ·)) (rigidRig g : List (List (Stmt Cell K))).flatten := by
    refine allQ_itef fun _ => allQ_parfor fun iz h1 h2 => allQ_cons (ng_on ?_ ?_ ?_) (allQ_loop fun ib h3 h4 =>
      allQ_one (ng_on ?_ ?_ ?_)) <;> rw [col_at rfl] <;> (try simp only [Cfg.ibnd] at *) <;> omega
  have rL : AllQ (On .vx (col g) (· ≤ 1) (· ≤ 3)) (rigidLef g : List (List (Stmt Cell K))).flatten := by
    refine allQ_itef fun _ => allQ_parfor fun iz h1 h2 => allQ_cons (ng_on ?_ ?_ ?_) (allQ_loop fun ib h3 h4 =>
      allQ_one (ng_on ?_ ?_ ?_)) <;> rw [col_at rfl] <;> (try simp only [Cfg.ibnd] at *) <;> omega
  have aT : (freeTop g : List (List (Stmt Cell K))).Pairwise Apart := by
    refine ite_apart fun _ => parfor_apart Wz (col g) fun ix h1 h2 => allQ_cons (cp_key (.inl rfl) ?_ ?_)
      (allQ_one (cp_key (.inl rfl) ?_ ?_)) <;> simp only [Cfg.surface]
    · exact col_at (iz := 1) (by omega) (by omega) (by omega)
    · exact col_at (iz := 2) (by omega) (by omega) (by omega)
    · exact col_at (iz := 0) (by omega) (by omega) (by omega)
    · exact col_at (iz := 3) (by omega) (by omega) (by omega)
  have aRT : (rigidTop g : List (List (Stmt Cell K))).Pairwise Apart := by
    refine ite_apart fun _ => parfor_apart Wz (col g) fun ix h1 h2 => allQ_cons (ng_key (.inl rfl) ?_ ?_)
      (allQ_loop fun ib h3 h4 => allQ_one (ng_key (.inl rfl) ?_ ?_)) <;> simp only [Cfg.ibnd] at * <;>
      try obtain rfl : ib = 1 := by omega
    · exact col_at (iz := 1) (by omega) (by omega) (by omega)
    · exact col_at (iz := 2) (by omega) (by omega) (by omega)
    · exact col_at (iz := 0) (by omega) (by omega) (by omega)
    · exact col_at (iz := 3) (by omega) (by omega) (by omega)
  have aRB : (rigidBot g : List (List (Stmt Cell K))).Pairwise Apart := by
    refine ite_apart fun _ => parfor_apart Wz (col g) fun ix h1 h2 => allQ_cons (ng_key (.inl rfl) ?_ ?_)
      (allQ_loop fun ib h3 h4 => allQ_one (ng_key (.inl rfl) ?_ ?_)) <;> simp only [Cfg.ibnd] at * <;>
      try obtain rfl : ib = 1 := by omega
    · exact col_at (iz := g.nz + 1) (by omega) (by omega) (by omega)
    · exact col_at (iz := g.nz) (by omega) (by omega) (by omega)
    · exact col_at (iz := g.nz + 2) (by omega) (by omega) (by omega)
    · exact col_at (iz := g.nz - 1) (by omega) (by omega) (by omega)
  have aRR : (rigidRig g : List (List (Stmt Cell K))).Pairwise Apart := by
    refine ite_apart fun _ => parfor_apart Wx (row g) fun iz h1 h2 => allQ_cons (ng_key (.inl rfl) ?_ ?_)
      (allQ_loop fun ib h3 h4 => allQ_one (ng_key (.inl rfl) ?_ ?_)) <;> refine row_at rfl ?_ ?_ <;> omega
  have aRL : (rigidLef g : List (List (Stmt Cell K))).Pairwise Apart := by
    refine ite_apart fun _ => parfor_apart Wx (row g) fun iz h1 h2 => allQ_cons (ng_key (.inl rfl) ?_ ?_)
      (allQ_loop fun ib h3 h4 => allQ_one (ng_key (.inl rfl) ?_ ?_)) <;> refine row_at rfl ?_ ?_ <;> omega
  refine phaseFree_of_pairwise ?_
  have hTT : (freeTop g ++ rigidTop g : List (List (Stmt Cell K))).Pairwise Apart := by
    by_cases h : g.top = 1
    · have : (rigidTop g : List (List (Stmt Cell K))) = [] := by unfold rigidTop; rw [if_neg (by omega)]
      rw [this, List.append_nil]; exact aT
    · have : (freeTop g : List (List (Stmt Cell K))) = [] := by unfold freeTop; rw [if_neg h]
      rw [this, List.nil_append]; exact aRT
  have qT : AllQ (On .vz (row g) (· ≤ 1) (· ≤ 3)) (freeTop g ++ rigidTop g : List (List (Stmt Cell K))).flatten := by
    rw [List.flatten_append]; exact allQ_append fT rT
  unfold wallPhase
  rw [List.append_assoc, List.append_assoc]
  refine append_apart hTT (append_apart aRR (append_apart aRB aRL ?_) ?_) ?_
  · exact on_array (by decide) rB rL
  · intro s hs s' hs'
    rw [List.flatten_append, List.mem_append] at hs'
    rcases hs' with h | h
    · exact on_array (by decide) rR rB s hs s' h
    · exact on_cross rR rL (fun x h1 h2 => by omega) (fun x h1 h2 => by omega) s hs s' h
  · intro s hs s' hs'
    rw [List.flatten_append, List.flatten_append, List.mem_append, List.mem_append] at hs'
    rcases hs' with h | h | h
    · exact on_array (by decide) qT rR s hs s' h
    · exact on_cross qT rB (fun x h1 h2 => by omega) (fun x h1 h2 => by omega) s hs s' h
    · exact on_array (by decide) qT rL s hs s' h

theorem tapS_key {a : Arr} {W : Cell → Prop} {κ : Cell → Int} {i l : Int} {t : Arr} {j : Int} (hw : W (a, i))
    (h1 : κ (a, i) = l) (ht : ¬ W (t, j)) : InKey W κ l (tapS a i t j : Stmt Cell K) := by
  refine ⟨hw, ?_⟩
  simp only [tapS, Stmt.cells, reads_rd, reads_mul, List.forall_mem_append, List.forall_mem_cons, List.not_mem_nil,
    false_imp_iff, implies_true, and_true]
  exact ⟨fun _ => h1, fun _ => h1, fun h => absurd h ht⟩

theorem taperX_free (k : Coef K) {a b c d : Int} {t : Arr} (ht : t = .tapx ∨ t = .tapxz) {w : Int → Int → Int} (hc : 0 ≤ c)
    (hd : d ≤ g.naz) : PhaseFree (taperX g k a b c d t w) := by
  refine phaseFree_of_pairwise (sweep_apart Wx hc hd fun ix iz h1 h2 => allQ_cons (vxS_key _ _ h1 h2) (allQ_one
    (tapS_key (.inl rfl) (col_key h1 h2) ?_)))
  rcases ht with rfl | rfl <;> simp [Wx]

theorem taperZ_free (k : Coef K) {a b c d : Int} {t : Arr} (ht : t = .tapz ∨ t = .tapxz) {w : Int → Int → Int} (hc : 0 ≤ c)
    (hd : d ≤ g.naz) : PhaseFree (taperZ g k a b c d t w) := by
  refine phaseFree_of_pairwise (sweep_apart Wz hc hd fun ix iz h1 h2 => allQ_cons (vzS_key _ _ h1 h2) (allQ_one
    (tapS_key (.inl rfl) (col_key h1 h2) ?_)))
  rcases ht with rfl | rfl <;> simp [Wz]

/-- All phases of a list are free of races or only clear elements. -/
def Sound [CommRing K] (l : List (List (List (Stmt Cell K)))) : Prop := ∀ ph ∈ l, PhaseFree ph ∨ ZeroPhase ph

variable [CommRing K]

theorem sound_append {l1 l2 : List (List (List (Stmt Cell K)))} (h1 : Sound l1) (h2 : Sound l2) : Sound (l1 ++ l2) := by
  intro ph h
  rcases List.mem_append.mp h with h | h
  · exact h1 ph h
  · exact h2 ph h

theorem sound_nil : Sound ([] : List (List (List (Stmt Cell K)))) := by intro ph h; cases h

theorem sound_cons {p : List (List (Stmt Cell K))} {l : List (List (List (Stmt Cell K)))} (h1 : PhaseFree p) (h2 : Sound l) :
    Sound (p :: l) := List.forall_mem_cons.mpr ⟨.inl h1, h2⟩

theorem sound_one {p : List (List (Stmt Cell K))} (h1 : PhaseFree p) : Sound [p] := sound_cons h1 sound_nil

theorem sound_ite {c : Prop} [Decidable c] {l : List (List (List (Stmt Cell K)))} (h : c → Sound l) :
    Sound (if c then l else []) := by
  split
  · exact h ‹_›
  · exact sound_nil

theorem pmlVx_free (hv : Valid g) (k : Coef K) : PhaseFree (pmlVx g k) := by
  have hb : g.ioXz ≤ g.naz ∧ 0 ≤ g.ieXz := by
    have := pad_cases (g := g) g.bot; have := pad_cases (g := g) g.top; have := hv.npml; have := hv.nz
    simp only [Cfg.naz, Cfg.ioXz, Cfg.ieXz]; omega
  refine phaseFree_of_pairwise (parfor_apart Wx (col g) fun ix _ _ => ?_)
  refine allQ_ite (fun _ => allQ_loop fun iz h3 h4 => vxPml_key k (le_of_max0 h3).1 (lt_of_minTo h4).2)
    (fun _ => allQ_append ?_ ?_)
  · exact allQ_ite (fun _ => allQ_loop fun iz h3 h4 => allQ_one (vxS_key _ _ (le_of_max0 h3).1 (by omega)))
      (fun _ => allQ_nil)
  · exact allQ_ite (fun _ => allQ_loop fun iz h3 h4 => allQ_one (vxS_key _ _ (by omega) (lt_of_minTo h4).2))
      (fun _ => allQ_nil)

theorem pmlVz_free (hv : Valid g) (k : Coef K) : PhaseFree (pmlVz g k) := by
  have hb : g.ioZz ≤ g.naz ∧ 0 ≤ g.ieZz := by
    have := pad_cases (g := g) g.bot; have := pad_cases (g := g) g.top; have := hv.npml; have := hv.nz
    simp only [Cfg.naz, Cfg.ioZz, Cfg.ieZz]; omega
  refine phaseFree_of_pairwise (parfor_apart Wz (col g) fun ix _ _ => ?_)
  refine allQ_ite (fun _ => allQ_loop fun iz h3 h4 => allQ_ite
    (fun _ => vzPml_key k (le_of_max0 h3).1 (lt_of_minTo h4).2)
    (fun _ => allQ_one (vzS_key _ _ (le_of_max0 h3).1 (lt_of_minTo h4).2))) (fun _ => allQ_append ?_ ?_)
  · exact allQ_ite (fun _ => allQ_loop fun iz h3 h4 => vzPml_key k (le_of_max0 h3).1 (by omega))
      (fun _ => allQ_nil)
  · exact allQ_ite (fun _ => allQ_loop fun iz h3 h4 => vzPml_key k (by omega) (lt_of_minTo h4).2)
      (fun _ => allQ_nil)

/-- Arrays written by the ghost loops. -/
def Wf (c : Cell) : Prop := c.1 = .vx ∨ c.1 = .vz ∨ c.1 = .p

theorem ghostLef_free : PhaseFree (ghostLef g : List (List (Stmt Cell K))) := by
  refine phaseFree_of_pairwise (ite_apart fun _ => parfor_apart Wf (row g) fun iz h1 h2 => ?_)
  refine allQ_cons (cp_key ?_ (row_key h1 h2) (row_key h1 h2)) (allQ_cons (cp_key ?_ (row_key h1 h2) (row_key h1 h2))
    (allQ_cons (cp_key ?_ (row_key h1 h2) (row_key h1 h2)) (allQ_one (cp_key ?_ (row_key h1 h2) (row_key h1 h2))))) <;>
  simp [Wf]

theorem ghostTop_free (hv : Valid g) : PhaseFree (ghostTop g : List (List (Stmt Cell K))) := by
  have hn := naz_pos hv
  refine phaseFree_of_pairwise (ite_apart fun _ => parfor_apart Wf (col g) fun ix h1 h2 => ?_)
  have c0 : ∀ i : Int, 0 ≤ i → i ≤ 2 → (ix * g.naz + i) / g.naz = ix := fun i h1 h2 => col_key h1 (by omega)
  refine allQ_cons (cp_key ?_ (c0 _ ?_ ?_) (c0 _ ?_ ?_)) (allQ_cons (cp_key ?_ (c0 _ ?_ ?_) (c0 _ ?_ ?_))
    (allQ_cons (cp_key ?_ (c0 _ ?_ ?_) (c0 _ ?_ ?_)) (allQ_one (cp_key ?_ (c0 _ ?_ ?_) (c0 _ ?_ ?_))))) <;>
  first | omega | simp [Wf]

theorem ghostPLef_free : PhaseFree (ghostPLef g : List (List (Stmt Cell K))) := by
  refine phaseFree_of_pairwise (ite_apart fun _ => parfor_apart Wf (row g) fun iz h1 h2 => ?_)
  refine allQ_cons (cp_key ?_ (row_key h1 h2) (row_key h1 h2)) (allQ_one (cp_key ?_ (row_key h1 h2) (row_key h1 h2))) <;>
  simp [Wf]

theorem ghostPTop_free (hv : Valid g) : PhaseFree (ghostPTop g : List (List (Stmt Cell K))) := by
  have hn := naz_pos hv
  refine phaseFree_of_pairwise (ite_apart fun _ => parfor_apart Wf (col g) fun ix h1 h2 => ?_)
  have c0 : ∀ i : Int, 0 ≤ i → i ≤ 2 → (ix * g.naz + i) / g.naz = ix := fun i h1 h2 => col_key h1 (by omega)
  refine allQ_cons (cp_key ?_ (c0 _ ?_ ?_) (c0 _ ?_ ?_)) (allQ_one (cp_key ?_ (c0 _ ?_ ?_) (c0 _ ?_ ?_))) <;>
  first | omega | simp [Wf]

theorem pmlPress_free (hv : Valid g) (k : Coef K) : PhaseFree (pmlPress g k) := by
  refine phaseFree_of_pairwise (parfor_apart Wp (col g) fun ix h1 h2 => allQ_loop fun iz h3 h4 => ?_)
  refine allQ_ite (fun _ => allQ_nil) (fun _ => pPml_key k ?_ ?_ _ _)
  · have hz : 0 ≤ g.ioPz' := by have := hv.npml; simp only [Cfg.ioPz', Cfg.ioPz]; split_ifs <;> omega
    unfold max0 at h3
    split_ifs at h3 <;> omega
  · have hz : g.iePz' ≤ g.naz := by
      have := pad_cases (g := g) g.top; have := pad_cases (g := g) g.bot; have := hv.npml
      simp only [Cfg.iePz', Cfg.iePz, Cfg.naz]; split_ifs <;> omega
    unfold minTo at h4
    split_ifs at h4 <;> omega

theorem pmlP_sound (hv : Valid g) (k : Coef K) (first : Bool) : Sound (pmlP g k first) :=
  sound_ite fun _ => sound_append (sound_ite fun _ => sound_one (single_free _))
    (sound_cons (pmlVx_free hv k) (sound_cons (pmlVz_free hv k) (sound_cons ghostLef_free (sound_one (ghostTop_free hv)))))

theorem pmlV_sound (hv : Valid g) (k : Coef K) (first : Bool) : Sound (pmlV g k first) :=
  sound_ite fun _ => sound_append (sound_ite fun _ => sound_one (single_free _))
    (sound_cons (pmlPress_free hv k) (sound_cons ghostPLef_free (sound_one (ghostPTop_free hv))))

theorem rows_X (hv : Valid g) : 0 ≤ g.ioXz - g.npml ∨ ¬ g.top = 4 := by
  have := pad_cases (g := g) g.top; have := hv.npml; simp only [Cfg.ioXz]; omega

theorem taperTop_sound (hv : Valid g) (k : Coef K) : Sound (taperTop g k) := by
  refine sound_ite fun ht => ?_
  have pt : g.pad g.top = g.npml := by unfold Cfg.pad; rw [if_pos (.inl ht)]
  have pb : 0 ≤ g.pad g.bot := by have := pad_cases (g := g) g.bot; have := hv.npml; omega
  have hnz := hv.nz
  have a1 : 0 ≤ g.ioXz - g.npml := by simp only [Cfg.ioXz]; omega
  have a2 : g.ioXz ≤ g.naz := by simp only [Cfg.ioXz, Cfg.naz]; omega
  have a3 : 0 ≤ g.ioZz - g.npml := by simp only [Cfg.ioZz]; omega
  have a4 : g.ioZz ≤ g.naz := by simp only [Cfg.ioZz, Cfg.naz]; omega
  refine sound_append (sound_append (sound_append (sound_append (sound_append ?_ ?_) ?_) ?_) ?_) ?_
  · exact sound_one (taperX_free k (by simp) a1 a2)
  · exact sound_ite fun _ => sound_one (taperX_free k (by simp) a1 a2)
  · exact sound_ite fun _ => sound_one (taperX_free k (by simp) a1 a2)
  · exact sound_one (taperZ_free k (by simp) a3 a4)
  · exact sound_ite fun _ => sound_one (taperZ_free k (by simp) a3 a4)
  · exact sound_ite fun _ => sound_one (taperZ_free k (by simp) a3 a4)

theorem taperBot_sound (hv : Valid g) (k : Coef K) : Sound (taperBot g k) := by
  refine sound_ite fun ht => ?_
  have pb : g.pad g.bot = g.npml := by unfold Cfg.pad; rw [if_pos (.inl ht)]
  have pt : 0 ≤ g.pad g.top := by have := pad_cases (g := g) g.top; have := hv.npml; omega
  have hnz := hv.nz
  have a1 : 0 ≤ g.ieXz := by simp only [Cfg.ieXz]; omega
  have a2 : g.ieXz + g.npml ≤ g.naz := by simp only [Cfg.ieXz, Cfg.naz]; omega
  have a3 : 0 ≤ g.ieZz := by simp only [Cfg.ieZz]; omega
  have a4 : g.ieZz + g.npml ≤ g.naz := by simp only [Cfg.ieZz, Cfg.naz]; omega
  refine sound_append (sound_append (sound_append (sound_append (sound_append ?_ ?_) ?_) ?_) ?_) ?_
  · exact sound_one (taperX_free k (by simp) a1 a2)
  · exact sound_ite fun _ => sound_one (taperX_free k (by simp) a1 a2)
  · exact sound_ite fun _ => sound_one (taperX_free k (by simp) a1 a2)
  · exact sound_one (taperZ_free k (by simp) a3 a4)
  · exact sound_ite fun _ => sound_one (taperZ_free k (by simp) a3 a4)
  · exact sound_ite fun _ => sound_one (taperZ_free k (by simp) a3 a4)

theorem taperSide_rows (hv : Valid g) : (0 ≤ g.ioXz ∧ g.ieXz ≤ g.naz) ∧ (0 ≤ g.ioZz ∧ g.ieZz ≤ g.naz) := by
  have pb : 0 ≤ g.pad g.bot := by have := pad_cases (g := g) g.bot; have := hv.npml; omega
  have pt : 0 ≤ g.pad g.top := by have := pad_cases (g := g) g.top; have := hv.npml; omega
  simp only [Cfg.ioXz, Cfg.ieXz, Cfg.ioZz, Cfg.ieZz, Cfg.naz]; omega

theorem taperLef_sound (hv : Valid g) (k : Coef K) : Sound (taperLef g k) := by
  obtain ⟨⟨h1, h2⟩, h3, h4⟩ := taperSide_rows hv
  exact sound_ite fun _ => sound_cons (taperX_free k (by simp) h1 h2) (sound_one (taperZ_free k (by simp) h3 h4))

theorem taperRig_sound (hv : Valid g) (k : Coef K) : Sound (taperRig g k) := by
  obtain ⟨⟨h1, h2⟩, h3, h4⟩ := taperSide_rows hv
  exact sound_ite fun _ => sound_cons (taperX_free k (by simp) h1 h2) (sound_one (taperZ_free k (by simp) h3 h4))

theorem pPhase_free (hv : Valid g) (k : Coef K) : PhaseFree (pPhase g k) := by
  have hz : g.iePz' ≤ g.naz := by
    have := pad_cases (g := g) g.top; have := pad_cases (g := g) g.bot; have := hv.npml
    simp only [Cfg.iePz', Cfg.iePz, Cfg.naz]; split_ifs <;> omega
  have hz' : 0 ≤ g.ioPz' := by have := hv.npml; simp only [Cfg.ioPz', Cfg.ioPz]; split_ifs <;> omega
  exact phaseFree_of_pairwise (sweep_apart Wp hz' hz fun ix iz h1 h2 => allQ_one (pS_key _ _ h1 h2))

theorem freePhase_zero : ZeroPhase (freePhase g : List (List (Stmt Cell K))) := by
  have h : AllQ (fun s => s.e = .zero) (freePhase g : List (List (Stmt Cell K))).flatten := by
    unfold freePhase
    simp only [List.flatten_append]
    refine allQ_append (allQ_append (allQ_append ?_ ?_) ?_) ?_ <;>
      exact allQ_itef (fun hc => allQ_parfor fun i h1 h2 => allQ_one rfl)
  intro t ht s hs
  exact h s (List.mem_flatten.mpr ⟨t, ht, hs⟩)

theorem phases_sound (hv : Valid g) (hx : 3 ≤ g.nx) (hz : 3 ≤ g.nz) (k : Coef K) (first : Bool) :
    Sound (phases g k first) := by
  unfold phases
  refine sound_append (sound_append (sound_append (sound_append (sound_append (sound_append (sound_append
    (sound_append ?_ (pmlP_sound hv k first)) (taperTop_sound hv k)) (taperBot_sound hv k)) (taperLef_sound hv k))
    (taperRig_sound hv k)) (sound_one (pPhase_free hv k))) (pmlV_sound hv k first)) ?_
  · exact sound_cons (velPhase_free hv k) (sound_one (wallPhase_free hv hx hz))
  · intro ph h
    rw [List.mem_singleton] at h; subst h
    exact .inr freePhase_zero

/-! ## Property theorems -/

/-- `m'` is a memory that `n` time steps can leave behind when every iteration of a parallel loop is a thread, the threads of
the loops between two barriers run in any order and interleave at every single memory access. -/
inductive ParSteps (g : Cfg) (k : Coef K) : Nat → (Cell → K) → (Cell → K) → Prop
  | zero (m) : ParSteps g k 0 m m
  | succ {n m m1 m2} : ParSteps g k n m m1 → ParResult (phases g k (n = 0)) m1 m2 → ParSteps g k (n + 1) m m2

/-- C28 (partial): on grids with at least three points in each direction every schedule of every parallel loop of `n` time
steps leaves the same memory, namely the one of the sequential program.  Not covered: smaller grids, sources, and the
recording of the wave field, which is not separated by a barrier from the last loops (`recording_race`). -/
theorem parSteps_eq_partial (hv : Valid g) (hx : 3 ≤ g.nx) (hz : 3 ≤ g.nz) (k : Coef K) {n : Nat} {m m' : Cell → K}
    (h : ParSteps g k n m m') : m' = steps g k n m := by
  induction h with
  | zero m => rfl
  | succ _ h2 ih =>
    rw [parResult_unique' (phases_sound hv hx hz k _) h2, ih]
    rfl

/-- There is a schedule, so the theorem above is not about nothing. -/
theorem parSteps_exists (g : Cfg) (k : Coef K) (n : Nat) (m : Cell → K) : ∃ m', ParSteps g k n m m' := by
  induction n with
  | zero => exact ⟨m, .zero m⟩
  | succ n ih =>
    obtain ⟨m1, h1⟩ := ih
    obtain ⟨m2, h2⟩ := parResult_exists (phases g k (n = 0)) m1
    exact ⟨m2, .succ h1 h2⟩

/-- The pressure of a receiver at element `i` is copied by the master thread (fdelmodc.c:656-676, getRecTimes.c; no barrier
between the loops of `freePhase` and this copy). -/
def record (i : Int) : List (Stmt Cell K) := [⟨(.out, 0), rd .p i⟩]

/-- C28 fails for the recorded pressure at a free surface: for every grid with a free top, every column and every pressure
there is a schedule that records the pressure before the surface was cleared and one that records zero. -/
theorem recording_race (hv : Valid g) (ht : g.top = 1) (ix : Int) (h1 : g.ioPx ≤ ix) (h2 : ix < g.iePx) (m : Cell → K) :
    (∃ m1, PhaseResult (freePhase g ++ [record (ix * g.naz + g.surface)]) m m1 ∧
      m1 (.out, 0) = m (.p, ix * g.naz + g.surface)) ∧
    (∃ m2, PhaseResult (freePhase g ++ [record (ix * g.naz + g.surface)]) m m2 ∧ m2 (.out, 0) = 0) := by
  set i := ix * g.naz + g.surface
  set F : List (List (Stmt Cell K)) := freePhase g with hF
  have hz : ∀ s ∈ F.flatten, s.e = .zero := by
    intro s hs
    obtain ⟨t, ht, hs⟩ := List.mem_flatten.mp hs
    exact freePhase_zero t ht s hs
  have hp : ∀ s ∈ F.flatten, s.dst.1 = .p := by
    have h : AllQ (fun s => s.dst.1 = .p) F.flatten := by
      rw [hF]; unfold freePhase
      simp only [List.flatten_append]
      refine allQ_append (allQ_append (allQ_append ?_ ?_) ?_) ?_ <;>
        exact allQ_itef (fun hc => allQ_parfor fun i h1 h2 => allQ_one rfl)
    exact h
  have hmem : ∃ s ∈ F.flatten, s.dst = (.p, i) := by
    refine ⟨zr .p i, ?_, rfl⟩
    rw [hF]; unfold freePhase
    simp only [List.flatten_append, List.mem_append]
    refine .inl (.inl (.inl ?_))
    rw [if_pos ht, List.mem_flatten]
    exact ⟨_, mem_parfor.mpr ⟨ix, h1, h2, rfl⟩, by simp [i]⟩
  have hflat : (List.range F.length).flatMap (fun t => (F ++ [record i]).getD t []) = F.flatten := by
    have : ∀ n, n ≤ F.length →
        (List.range n).flatMap (fun t => (F ++ [record i]).getD t []) = (F.take n).flatten := by
      intro n
      induction n with
      | zero => intro _; rfl
      | succ n ih =>
        intro hn
        rw [List.range_succ, List.flatMap_append, ih (by omega), List.take_add_one, List.getElem?_eq_getElem (by omega),
          List.flatten_append]
        congr 1
        simp only [List.flatMap_cons, List.flatMap_nil, List.append_nil, Option.toList_some, List.flatten_cons,
          List.flatten_nil]
        rw [List.getD_eq_getElem?_getD, List.getElem?_append_left (by omega), List.getElem?_eq_getElem (by omega)]
        rfl
    rw [this _ (Nat.le_refl _), List.take_length]
  have hlast : (F ++ [record i]).getD F.length [] = record i := by
    rw [List.getD_eq_getElem?_getD, List.getElem?_append_right (Nat.le_refl _)]; simp
  have hlen : (F ++ [record i]).length = F.length + 1 := by simp
  have hout : ∀ m', run F.flatten m' (.out, 0) = m' (.out, 0) := by
    intro m'
    refine (run_zero hz m' _).2 ?_
    rintro ⟨s, hs, he⟩
    have := hp s hs
    rw [he] at this
    cases this
  constructor
  · refine ⟨_, phase_order _ m (F.length :: List.range F.length) ?_, ?_⟩
    · rw [hlen, List.range_succ]; exact (List.perm_append_singleton _ _).symm
    · rw [List.flatMap_cons, hflat, hlast, run_append, hout]
      rfl
  · refine ⟨_, phase_order _ m (List.range (F.length + 1)) ?_, ?_⟩
    · rw [hlen]
    · rw [List.range_succ, List.flatMap_append, hflat, run_append]
      simp only [List.flatMap_cons, List.flatMap_nil, List.append_nil]
      rw [hlast]
      show run F.flatten m (.p, i) = 0
      exact (run_zero hz m _).1 hmem

/-- On grids with one row between rigid top and bottom the two loops over the walls race: two schedules of the same loops
leave different velocities. -/
theorem wall_race : ∃ m1 m2 : Cell → Int, PhaseResult (wallPhase ⟨1, 1, 5, 3, 3, 3, 3⟩) (fun c => c.2) m1 ∧
    PhaseResult (wallPhase ⟨1, 1, 5, 3, 3, 3, 3⟩) (fun c => c.2) m2 ∧ m1 ≠ m2 := by
  refine ⟨_, _, phase_order _ _ [0, 1, 2, 3] ?_, phase_order _ _ [2, 1, 0, 3] ?_, ?_⟩
  · decide
  · decide
  · intro h
    have := congrFun h (.vz, 5 + 1)
    revert this
    decide +kernel

end
end Verif.Fd.Acou

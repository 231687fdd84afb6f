import Verif.Fd.Acoustic4

/-! # C26: the acoustic time step touches only allocated elements -/

namespace Verif.Fd.Acou

open Verif.Sten

/-- The settings the property ranges over: at least one grid point in each direction, `npml` as getParameters.c:379-386
leaves it, boundary types 1 to 4. -/
structure Valid (g : Cfg) : Prop where
  nx : 1 ≤ g.nx
  nz : 1 ≤ g.nz
  npml : 5 ≤ g.npml
  top : 1 ≤ g.top ∧ g.top ≤ 4
  bot : 1 ≤ g.bot ∧ g.bot ≤ 4
  lef : 1 ≤ g.lef ∧ g.lef ≤ 4
  rig : 1 ≤ g.rig ∧ g.rig ≤ 4

/-- PML at the top or the bottom only together with PML or taper at both sides. -/
def SidesPadded (g : Cfg) : Prop := (g.top = 2 ∨ g.bot = 2) → (g.lef = 2 ∨ g.lef = 4) ∧ (g.rig = 2 ∨ g.rig = 4)

section
variable {K : Type} {g : Cfg}

/-- All cells of all statements of a list exist. -/
def AllOk (g : Cfg) (l : List (Stmt Cell K)) : Prop := ∀ s ∈ l, ∀ a ∈ s.cells, g.ok a = true

theorem allOk_nil : AllOk g ([] : List (Stmt Cell K)) := by intro s h; cases h

theorem allOk_append {l1 l2 : List (Stmt Cell K)} (h1 : AllOk g l1) (h2 : AllOk g l2) : AllOk g (l1 ++ l2) := by
  intro s hs
  rcases List.mem_append.mp hs with h | h
  · exact h1 s h
  · exact h2 s h

theorem allOk_loop {lo hi : Int} {body : Int → List (Stmt Cell K)} (h : ∀ i : Int, lo ≤ i → i < hi → AllOk g (body i)) :
    AllOk g (loop lo hi body) := by
  intro s hs
  obtain ⟨i, h1, h2, hb⟩ := mem_loop.mp hs
  exact h i h1 h2 s hb

theorem allOk_parfor {lo hi : Int} {body : Int → List (Stmt Cell K)} (h : ∀ i : Int, lo ≤ i → i < hi → AllOk g (body i)) :
    AllOk g (parfor lo hi body).flatten := by
  intro s hs
  rw [List.mem_flatten] at hs
  obtain ⟨t, ht, hs⟩ := hs
  obtain ⟨i, h1, h2, rfl⟩ := mem_parfor.mp ht
  exact h i h1 h2 s hs

theorem allOk_sweep {a b c d : Int} {body : Int → Int → List (Stmt Cell K)}
    (h : ∀ ix : Int, a ≤ ix → ix < b → ∀ iz : Int, c ≤ iz → iz < d → AllOk g (body ix iz)) :
    AllOk g (sweep a b c d body).flatten :=
  allOk_parfor fun ix h1 h2 => allOk_loop fun iz h3 h4 => h ix h1 h2 iz h3 h4

theorem mulLo {n ix k : Int} (hn : 0 ≤ n) (h : k ≤ ix) : k * n ≤ ix * n := Int.mul_le_mul_of_nonneg_right h hn

theorem naz_pos (hv : Valid g) : 5 ≤ g.naz := by
  unfold Cfg.naz Cfg.pad
  have := hv.nz; have := hv.npml
  split_ifs <;> omega

theorem reads_add (x y : Expr Cell K) : (x + y).reads = x.reads ++ y.reads := rfl
theorem reads_sub (x y : Expr Cell K) : (x - y).reads = x.reads ++ y.reads := rfl
theorem reads_mul (x y : Expr Cell K) : (x * y).reads = x.reads ++ y.reads := rfl
theorem reads_rd (a : Arr) (i : Int) : (rd a i : Expr Cell K).reads = [(a, i)] := rfl
theorem reads_c (k : K) : (Expr.c k : Expr Cell K).reads = [] := rfl
theorem reads_zero : (Expr.zero : Expr Cell K).reads = [] := rfl

theorem ok_iff (a : Arr) (i : Int) : g.ok (a, i) = true ↔ 0 ≤ i ∧ i < g.size a := by
  unfold Cfg.ok; simp


/-- Turn `AllOk` of an explicit list of statements into inequalities. -/
syntax "oks" "[" Lean.Parser.Tactic.simpLemma,* "]" : tactic
macro_rules
  | `(tactic| oks [$ls,*]) => `(tactic|
      (simp only [AllOk, $ls,*, Stmt.cells, reads_add, reads_sub, reads_mul, reads_rd, reads_c, reads_zero,
        List.forall_mem_cons, List.forall_mem_append, List.not_mem_nil, false_imp_iff, implies_true, and_true, true_and,
        List.append_nil, List.nil_append, ok_iff, Cfg.size, add_mul, sub_mul, one_mul]
       refine ?_))

theorem vxS_ok (hv : Valid g) (k1 k2 : K) {ix iz : Int} (h1 : 2 ≤ ix) (h2 : ix + 1 < g.nax) (h3 : 0 ≤ iz)
    (h4 : iz < g.naz) : AllOk g [vxS g k1 k2 ix iz] := by
  have hn := naz_pos hv
  have e1 := mulLo (n := g.naz) (by omega) h1
  have e2 := mulLo (n := g.naz) (by omega) (show ix + 2 ≤ g.nax by omega)
  simp only [add_mul, sub_mul, one_mul] at e2
  oks [vxS, dpx]
  and_intros <;> omega

theorem vzS_ok (hv : Valid g) (k1 k2 : K) {ix iz : Int}
    (h : (0 ≤ ix ∧ ix < g.nax ∧ 2 ≤ iz ∧ iz + 1 < g.naz) ∨ (1 ≤ ix ∧ ix + 1 < g.nax ∧ 0 ≤ iz ∧ iz < g.naz)) :
    AllOk g [vzS g k1 k2 ix iz] := by
  have hn := naz_pos hv
  rcases h with ⟨h1, h2, h3, h4⟩ | ⟨h1, h2, h3, h4⟩
  · have e1 := mulLo (n := g.naz) (by omega) h1
    have e2 := mulLo (n := g.naz) (by omega) (show ix + 1 ≤ g.nax by omega)
    simp only [add_mul, one_mul] at e2
    oks [vzS, dpz]
    and_intros <;> omega
  · have e1 := mulLo (n := g.naz) (by omega) h1
    have e2 := mulLo (n := g.naz) (by omega) (show ix + 2 ≤ g.nax by omega)
    simp only [add_mul, one_mul] at e2
    oks [vzS, dpz]
    and_intros <;> omega

theorem pS_ok (hv : Valid g) (k1 k2 : K) {ix iz : Int} (h1 : 1 ≤ ix) (h2 : ix + 2 < g.nax) (h3 : 1 ≤ iz)
    (h4 : iz + 2 < g.naz) : AllOk g [pS g k1 k2 ix iz] := by
  have hn := naz_pos hv
  have e1 := mulLo (n := g.naz) (by omega) h1
  have e2 := mulLo (n := g.naz) (by omega) (show ix + 3 ≤ g.nax by omega)
  simp only [add_mul, one_mul] at e1 e2
  oks [pS]
  and_intros <;> omega

theorem vxPml_ok (hv : Valid g) (k : Coef K) {ix iz : Int} (h1 : 2 ≤ ix) (h2 : ix + 1 < g.nax) (h3 : 0 ≤ iz)
    (h4 : iz < g.naz) : AllOk g (vxPml g k ix iz) := by
  have hn := naz_pos hv
  have e1 := mulLo (n := g.naz) (by omega) h1
  have e2 := mulLo (n := g.naz) (by omega) (show ix + 2 ≤ g.nax by omega)
  simp only [add_mul, one_mul] at e1 e2
  oks [vxPml, dpx]
  and_intros <;> omega

theorem vzPml_ok (hv : Valid g) (k : Coef K) {ix iz : Int} (h1 : 0 ≤ ix) (h2 : ix < g.nax) (h3 : 2 ≤ iz)
    (h4 : iz + 1 < g.naz) : AllOk g (vzPml g k ix iz) := by
  have hn := naz_pos hv
  have e1 := mulLo (n := g.naz) (by omega) h1
  have e2 := mulLo (n := g.naz) (by omega) (show ix + 1 ≤ g.nax by omega)
  simp only [add_mul, one_mul] at e1 e2
  oks [vzPml, dpz]
  and_intros <;> omega

/-- Field arrays. -/
def IsFld (a : Arr) : Prop := a = .vx ∨ a = .vz ∨ a = .p

theorem cp_ok (hv : Valid g) {a : Arr} (ha : IsFld a) {i j : Int} (h1 : 0 ≤ i ∧ i < g.nax * g.naz)
    (h2 : 0 ≤ j ∧ j < g.nax * g.naz) : AllOk g [(cp a i j : Stmt Cell K)] := by
  rcases ha with rfl | rfl | rfl <;> oks [cp] <;> and_intros <;> omega

theorem ng_ok (hv : Valid g) {a : Arr} (ha : IsFld a) {i j : Int} (h1 : 0 ≤ i ∧ i < g.nax * g.naz)
    (h2 : 0 ≤ j ∧ j < g.nax * g.naz) : AllOk g [(ng a i j : Stmt Cell K)] := by
  rcases ha with rfl | rfl | rfl <;> oks [ng] <;> and_intros <;> omega

theorem zr_ok {a : Arr} (ha : IsFld a) {i : Int} (h1 : 0 ≤ i ∧ i < g.nax * g.naz) :
    AllOk g [(zr a i : Stmt Cell K)] := by
  rcases ha with rfl | rfl | rfl <;> oks [zr] <;> and_intros <;> omega

theorem tapS_ok {a : Arr} (ha : IsFld a) {i : Int} (h1 : 0 ≤ i ∧ i < g.nax * g.naz) {t : Arr} {j : Int}
    (h2 : 0 ≤ j ∧ j < g.size t) : AllOk g [(tapS a i t j : Stmt Cell K)] := by
  rcases ha with rfl | rfl | rfl
  all_goals
    simp only [AllOk, tapS, Stmt.cells, reads_mul, reads_rd, List.forall_mem_cons, List.not_mem_nil, false_imp_iff,
      implies_true, and_true, List.forall_mem_append, ok_iff]
    refine ⟨?_, ?_, h2⟩ <;> simp only [Cfg.size] <;> omega

theorem in_grid (hv : Valid g) {ix iz : Int} (h1 : 0 ≤ ix) (h2 : ix < g.nax) (h3 : 0 ≤ iz) (h4 : iz < g.naz) :
    0 ≤ ix * g.naz + iz ∧ ix * g.naz + iz < g.nax * g.naz := by
  have hn := naz_pos hv
  have e1 := mulLo (n := g.naz) (by omega) h1
  have e2 := mulLo (n := g.naz) (by omega) (show ix + 1 ≤ g.nax by omega)
  simp only [add_mul, one_mul] at e2
  omega

theorem allOk_cons {s : Stmt Cell K} {l : List (Stmt Cell K)} (h1 : AllOk g [s]) (h2 : AllOk g l) : AllOk g (s :: l) :=
  allOk_append (l1 := [s]) h1 h2

theorem allOk_ite {c : Prop} [Decidable c] {l1 l2 : List (Stmt Cell K)} (h1 : c → AllOk g l1) (h2 : ¬ c → AllOk g l2) :
    AllOk g (if c then l1 else l2) := by
  split
  · exact h1 ‹_›
  · exact h2 ‹_›

theorem allOk_itef {c : Prop} [Decidable c] {l1 l2 : List (List (Stmt Cell K))} (h1 : c → AllOk g l1.flatten)
    (h2 : ¬ c → AllOk g l2.flatten) : AllOk g (if c then l1 else l2).flatten := by
  split
  · exact h1 ‹_›
  · exact h2 ‹_›

theorem pad_cases (s : Int) : ((s = 2 ∨ s = 4) ∧ g.pad s = g.npml) ∨ ((s ≠ 2 ∧ s ≠ 4) ∧ g.pad s = 0) := by
  unfold Cfg.pad; split_ifs <;> omega

/-- Bring the dimensions of the grid into the context. -/
macro "dims" hv:term : tactic => `(tactic|
  (have := ($hv).nx; have := ($hv).nz; have := ($hv).npml
   have := ($hv).top; have := ($hv).bot; have := ($hv).lef; have := ($hv).rig
   have := pad_cases (g := g) g.top; have := pad_cases (g := g) g.bot
   have := pad_cases (g := g) g.lef; have := pad_cases (g := g) g.rig
   have : g.naz = g.nz + 4 + g.pad g.top + g.pad g.bot := rfl
   have : g.nax = g.nx + 4 + g.pad g.lef + g.pad g.rig := rfl))

theorem velPhase_ok (hv : Valid g) (k : Coef K) : AllOk g (velPhase g k).flatten := by
  unfold velPhase
  rw [List.flatten_append]
  dims hv
  refine allOk_append (allOk_sweep fun ix h1 h2 iz h3 h4 => ?_) (allOk_sweep fun ix h1 h2 iz h3 h4 => ?_)
  · simp only [Cfg.ioXx, Cfg.ieXx, Cfg.ioXz, Cfg.ieXz] at h1 h2 h3 h4
    apply vxS_ok hv <;> omega
  · simp only [Cfg.ioZx, Cfg.ieZx, Cfg.ioZz, Cfg.ieZz] at h1 h2 h3 h4
    apply vzS_ok hv; omega

theorem wallPhase_ok (hv : Valid g) : AllOk g (wallPhase g : List (List (Stmt Cell K))).flatten := by
  unfold wallPhase freeTop rigidTop rigidRig rigidBot rigidLef
  simp only [List.flatten_append]
  dims hv
  have G := fun ix iz h1 h2 h3 h4 => in_grid hv (ix := ix) (iz := iz) h1 h2 h3 h4
  refine allOk_append (allOk_append (allOk_append (allOk_append ?_ ?_) ?_) ?_) ?_ <;>
    refine allOk_itef (fun hc => ?_) (fun _ => allOk_nil) <;> refine allOk_parfor fun i h1 h2 => ?_
  · simp only [Cfg.ioPx, Cfg.iePx, Cfg.surface] at h1 h2 ⊢
    have e0 := G i 0 (by omega) (by omega) (by omega) (by omega)
    have e1 := G i 3 (by omega) (by omega) (by omega) (by omega)
    exact allOk_cons (cp_ok hv (by simp [IsFld]) (by omega) (by omega))
      (cp_ok hv (by simp [IsFld]) (by omega) (by omega))
  · simp only [Cfg.ibnd]
    have e0 := G i 0 (by omega) (by omega) (by omega) (by omega)
    have e1 := G i 3 (by omega) (by omega) (by omega) (by omega)
    refine allOk_cons (ng_ok hv (by simp [IsFld]) (by omega) (by omega)) (allOk_loop fun ib h3 h4 => ?_)
    exact ng_ok hv (by simp [IsFld]) (by omega) (by omega)
  · simp only [Cfg.ibnd]
    refine allOk_cons (ng_ok hv (by simp [IsFld]) (G _ _ ?_ ?_ ?_ ?_) (G _ _ ?_ ?_ ?_ ?_)) (allOk_loop fun ib h3 h4 => ?_) <;>
      try omega
    refine ng_ok hv (by simp [IsFld]) (G _ _ ?_ ?_ ?_ ?_) (G _ _ ?_ ?_ ?_ ?_) <;> omega
  · simp only [Cfg.ibnd]
    have e0 := G i 0 (by omega) (by omega) (by omega) (by omega)
    have e1 := G i (g.nz + 2) (by omega) (by omega) (by omega) (by omega)
    refine allOk_cons (ng_ok hv (by simp [IsFld]) (by omega) (by omega)) (allOk_loop fun ib h3 h4 => ?_)
    exact ng_ok hv (by simp [IsFld]) (by omega) (by omega)
  · simp only [Cfg.ibnd]
    refine allOk_cons (ng_ok hv (by simp [IsFld]) (G _ _ ?_ ?_ ?_ ?_) (G _ _ ?_ ?_ ?_ ?_)) (allOk_loop fun ib h3 h4 => ?_) <;>
      try omega
    refine ng_ok hv (by simp [IsFld]) (G _ _ ?_ ?_ ?_ ?_) (G _ _ ?_ ?_ ?_ ?_) <;> omega

theorem clear_ok (a : Arr) (ha : g.size a = g.nax * g.naz) : AllOk g (clear g a : List (Stmt Cell K)) := by
  refine allOk_loop fun i h1 h2 => ?_
  simp only [AllOk, Stmt.cells, reads_zero, List.forall_mem_cons, List.not_mem_nil, false_imp_iff,
      implies_true, and_true, ok_iff, ha]
  exact ⟨h1, h2⟩

theorem le_of_max0 {x i : Int} (h : max0 x ≤ i) : 0 ≤ i ∧ x ≤ i := by unfold max0 at h; split_ifs at h <;> omega

theorem lt_of_minTo {x n i : Int} (h : i < minTo x n) : i < x ∧ i < n := by unfold minTo at h; split_ifs at h <;> omega

theorem pmlVx_ok (hv : Valid g) (hs : SidesPadded g) (k : Coef K) : AllOk g (pmlVx g k).flatten := by
  refine allOk_parfor fun ix h1 h2 => ?_
  obtain ⟨h1, h1'⟩ := le_of_max0 h1
  obtain ⟨h2, h2'⟩ := lt_of_minTo h2
  simp only [Cfg.ioXx, Cfg.ieXx] at h1' h2
  have hnx := hv.nx; have hp := hv.npml
  have hnax : g.nax = g.nx + 4 + g.pad g.lef + g.pad g.rig := rfl
  have hnaz : g.naz = g.nz + 4 + g.pad g.top + g.pad g.bot := rfl
  have hnz := hv.nz
  have pl := pad_cases (g := g) g.lef
  have pr := pad_cases (g := g) g.rig
  have pt : 0 ≤ g.pad g.top := by have := pad_cases (g := g) g.top; omega
  have pb : 0 ≤ g.pad g.bot := by have := pad_cases (g := g) g.bot; omega
  have hx : ((g.lef = 2 ∧ ix < g.ioXx) ∨ (g.rig = 2 ∧ ix ≥ g.ieXx)) ∨ (g.top = 2 ∨ g.bot = 2) → 2 ≤ ix ∧ ix + 1 < g.nax := by
    simp only [Cfg.ioXx, Cfg.ieXx]
    rintro ((hc | hc) | hc)
    · clear hs; omega
    · clear hs; omega
    · have := hs hc; clear hs hc; omega
  refine allOk_ite (fun hc => ?_) (fun hc => allOk_append ?_ ?_)
  · refine allOk_loop fun iz h3 h4 => ?_
    exact vxPml_ok hv k (hx (.inl hc)).1 (hx (.inl hc)).2 (le_of_max0 h3).1 (lt_of_minTo h4).2
  · refine allOk_ite (fun ht => ?_) (fun _ => allOk_nil)
    refine allOk_loop fun iz h3 h4 => ?_
    refine vxS_ok hv _ _ (hx (.inr (.inl ht))).1 (hx (.inr (.inl ht))).2 (le_of_max0 h3).1 ?_
    simp only [Cfg.ioXz] at h4
    clear pl pr hs hx hc; omega
  · refine allOk_ite (fun ht => ?_) (fun _ => allOk_nil)
    refine allOk_loop fun iz h3 h4 => ?_
    refine vxS_ok hv _ _ (hx (.inr (.inr ht))).1 (hx (.inr (.inr ht))).2 ?_ (lt_of_minTo h4).2
    simp only [Cfg.ieXz] at h3
    clear pl pr hs hx hc; omega

theorem pmlVz_ok (hv : Valid g) (k : Coef K) : AllOk g (pmlVz g k).flatten := by
  refine allOk_parfor fun ix h1 h2 => ?_
  obtain ⟨h1, h1'⟩ := le_of_max0 h1
  obtain ⟨h2, h2'⟩ := lt_of_minTo h2
  simp only [Cfg.ioZx, Cfg.ieZx] at h1' h2
  have hnx := hv.nx; have hp := hv.npml
  have hnax : g.nax = g.nx + 4 + g.pad g.lef + g.pad g.rig := rfl
  have hnaz : g.naz = g.nz + 4 + g.pad g.top + g.pad g.bot := rfl
  have hnz := hv.nz
  have pl := pad_cases (g := g) g.lef
  have pr := pad_cases (g := g) g.rig
  have pt := pad_cases (g := g) g.top
  have pb := pad_cases (g := g) g.bot
  refine allOk_ite (fun hc => ?_) (fun hc => allOk_append ?_ ?_)
  · have hx : 1 ≤ ix ∧ ix + 1 < g.nax := by
      simp only [Cfg.ioZx, Cfg.ieZx] at hc
      clear pt pb
      rcases hc with hc | hc <;> omega
    clear pl pr hnax h2 h1' hc
    refine allOk_loop fun iz h3 h4 => allOk_ite (fun hd => ?_) (fun hd => ?_)
    · have h5 := le_of_max0 h3
      have h6 := lt_of_minTo h4
      simp only [Cfg.ioZz, Cfg.ieZz] at hd h5 h6
      refine vzPml_ok hv k h1 h2' ?_ ?_ <;> rcases hd with hd | hd <;> omega
    · exact vzS_ok hv _ _ (.inr ⟨hx.1, hx.2, (le_of_max0 h3).1, (lt_of_minTo h4).2⟩)
  · refine allOk_ite (fun ht => ?_) (fun _ => allOk_nil)
    refine allOk_loop fun iz h3 h4 => ?_
    have h5 := le_of_max0 h3
    simp only [Cfg.ioZz, Cfg.ieZz] at h4 h5
    clear pl pr hnax hc h2
    refine vzPml_ok hv k h1 h2' ?_ ?_ <;> omega
  · refine allOk_ite (fun ht => ?_) (fun _ => allOk_nil)
    refine allOk_loop fun iz h3 h4 => ?_
    have h6 := lt_of_minTo h4
    simp only [Cfg.ioZz, Cfg.ieZz] at h3 h6
    clear pl pr hnax hc h2
    refine vzPml_ok hv k h1 h2' ?_ ?_ <;> omega

theorem ghostLef_ok (hv : Valid g) : AllOk g (ghostLef g : List (List (Stmt Cell K))).flatten := by
  have : 4 < g.nax := by dims hv; omega
  refine allOk_itef (fun hc => ?_) (fun _ => allOk_nil)
  refine allOk_parfor fun i h1 h2 => ?_
  have G := fun ix h1' h2' => in_grid hv (ix := ix) (iz := i) h1' h2' h1 h2
  refine allOk_cons ?_ (allOk_cons ?_ (allOk_cons ?_ ?_)) <;>
    exact cp_ok hv (by simp [IsFld]) (G _ (by omega) (by omega)) (G _ (by omega) (by omega))

theorem ghostTop_ok (hv : Valid g) : AllOk g (ghostTop g : List (List (Stmt Cell K))).flatten := by
  have : 4 < g.naz := by dims hv; omega
  refine allOk_itef (fun hc => ?_) (fun _ => allOk_nil)
  refine allOk_parfor fun i h1 h2 => ?_
  have G := fun iz h1' h2' => in_grid hv (ix := i) (iz := iz) h1 h2 h1' h2'
  refine allOk_cons ?_ (allOk_cons ?_ (allOk_cons ?_ ?_)) <;>
    exact cp_ok hv (by simp [IsFld]) (G _ (by omega) (by omega)) (G _ (by omega) (by omega))

theorem ghostPLef_ok (hv : Valid g) : AllOk g (ghostPLef g : List (List (Stmt Cell K))).flatten := by
  have : 4 < g.nax := by dims hv; omega
  refine allOk_itef (fun hc => ?_) (fun _ => allOk_nil)
  refine allOk_parfor fun i h1 h2 => ?_
  have G := fun ix h1' h2' => in_grid hv (ix := ix) (iz := i) h1' h2' h1 h2
  refine allOk_cons ?_ ?_ <;>
    exact cp_ok hv (by simp [IsFld]) (G _ (by omega) (by omega)) (G _ (by omega) (by omega))

theorem ghostPTop_ok (hv : Valid g) : AllOk g (ghostPTop g : List (List (Stmt Cell K))).flatten := by
  have : 4 < g.naz := by dims hv; omega
  refine allOk_itef (fun hc => ?_) (fun _ => allOk_nil)
  refine allOk_parfor fun i h1 h2 => ?_
  have G := fun iz h1' h2' => in_grid hv (ix := i) (iz := iz) h1 h2 h1' h2'
  refine allOk_cons ?_ ?_ <;>
    exact cp_ok hv (by simp [IsFld]) (G _ (by omega) (by omega)) (G _ (by omega) (by omega))

/-- A list of phases. -/
def AllOkP (g : Cfg) (l : List (List (List (Stmt Cell K)))) : Prop := AllOk g (seqOf l)

theorem allOkP_append {l1 l2 : List (List (List (Stmt Cell K)))} (h1 : AllOkP g l1) (h2 : AllOkP g l2) :
    AllOkP g (l1 ++ l2) := by
  unfold AllOkP seqOf at *
  rw [List.flatten_append, List.flatten_append]
  exact allOk_append h1 h2

theorem allOkP_nil : AllOkP g ([] : List (List (List (Stmt Cell K)))) := allOk_nil

theorem allOkP_cons {p : List (List (Stmt Cell K))} {l : List (List (List (Stmt Cell K)))} (h1 : AllOk g p.flatten)
    (h2 : AllOkP g l) : AllOkP g (p :: l) := by
  unfold AllOkP seqOf at *
  rw [List.flatten_cons, List.flatten_append]
  exact allOk_append h1 h2

theorem allOkP_single {p : List (List (Stmt Cell K))} (h : AllOk g p.flatten) : AllOkP g [p] := allOkP_cons h allOkP_nil

theorem allOkP_ite {c : Prop} [Decidable c] {l1 l2 : List (List (List (Stmt Cell K)))} (h1 : c → AllOkP g l1)
    (h2 : ¬ c → AllOkP g l2) : AllOkP g (if c then l1 else l2) := by
  split
  · exact h1 ‹_›
  · exact h2 ‹_›

theorem pmlP_ok (hv : Valid g) (hs : SidesPadded g) (k : Coef K) (first : Bool) : AllOkP g (pmlP g k first) := by
  refine allOkP_ite (fun _ => allOkP_append ?_ ?_) (fun _ => allOkP_nil)
  · refine allOkP_ite (fun _ => allOkP_single ?_) (fun _ => allOkP_nil)
    rw [List.flatten_cons, List.flatten_nil, List.append_nil]
    exact allOk_append (clear_ok _ rfl) (clear_ok _ rfl)
  · exact allOkP_cons (pmlVx_ok hv hs k) (allOkP_cons (pmlVz_ok hv k) (allOkP_cons (ghostLef_ok hv)
      (allOkP_single (ghostTop_ok hv))))

theorem dvxPml_ok (hv : Valid g) (k : Coef K) {ix iz : Int} (h1 : 0 ≤ ix) (h2 : ix < g.nax) (h3 : 0 ≤ iz) (h4 : iz < g.naz) :
    ∀ a ∈ (dvxPml g k ix iz).reads, g.ok a = true := by
  have hn := naz_pos hv
  have G := fun ix h1' h2' => (ok_iff (g := g) .vx _).mpr (in_grid hv (ix := ix) (iz := iz) h1' h2' h3 h4)
  unfold dvxPml
  split
  · simp only [reads_add, reads_sub, reads_mul, reads_rd, reads_c, List.forall_mem_cons, List.forall_mem_append,
      List.not_mem_nil, false_imp_iff, implies_true, and_true, true_and]
    refine ⟨⟨G _ ?_ ?_, G _ ?_ ?_⟩, G _ ?_ ?_, G _ ?_ ?_⟩ <;> omega
  · simp only [reads_add, reads_sub, reads_mul, reads_rd, reads_c, List.forall_mem_cons, List.forall_mem_append,
      List.not_mem_nil, false_imp_iff, implies_true, and_true, true_and]
    refine ⟨G _ ?_ ?_, G _ ?_ ?_⟩ <;> split_ifs <;> omega

theorem dvzPml_ok (hv : Valid g) (k : Coef K) {ix iz : Int} (h1 : 0 ≤ ix) (h2 : ix < g.nax) (h3 : 0 ≤ iz) (h4 : iz < g.naz) :
    ∀ a ∈ (dvzPml g k ix iz).reads, g.ok a = true := by
  have G := fun iz h1' h2' => (ok_iff (g := g) .vz _).mpr (in_grid hv (ix := ix) (iz := iz) h1 h2 h1' h2')
  unfold dvzPml
  split
  · simp only [reads_add, reads_sub, reads_mul, reads_rd, reads_c, List.forall_mem_cons, List.forall_mem_append,
      List.not_mem_nil, false_imp_iff, implies_true, and_true, true_and, add_assoc, add_sub_assoc]
    refine ⟨⟨G _ ?_ ?_, G _ ?_ ?_⟩, G _ ?_ ?_, G _ ?_ ?_⟩ <;> omega
  · simp only [reads_add, reads_sub, reads_mul, reads_rd, reads_c, List.forall_mem_cons, List.forall_mem_append,
      List.not_mem_nil, false_imp_iff, implies_true, and_true, true_and]
    refine ⟨G _ ?_ ?_, G _ ?_ ?_⟩ <;> split_ifs <;> omega

theorem pPml_ok (hv : Valid g) (k : Coef K) {ix iz : Int} (h1 : 0 ≤ ix) (h2 : ix < g.nax) (h3 : 0 ≤ iz) (h4 : iz < g.naz)
    (inx inz : Bool) : AllOk g (pPml g k ix iz inx inz) := by
  have dx := dvxPml_ok hv k h1 h2 h3 h4
  have dz := dvzPml_ok hv k h1 h2 h3 h4
  have hg := in_grid hv h1 h2 h3 h4
  unfold pPml
  cases inx <;> cases inz <;>
    simp only [AllOk, Stmt.cells, reads_add, reads_sub, reads_mul, reads_rd, List.forall_mem_cons, List.forall_mem_append,
      List.not_mem_nil, false_imp_iff, implies_true, and_true, true_and, ok_iff, Cfg.size, if_true, if_false,
      Bool.false_eq_true, h1, h2, h3, h4, hg] <;>
    and_intros <;> first | exact dx | exact dz

theorem pmlPress_ok (hv : Valid g) (k : Coef K) : AllOk g (pmlPress g k).flatten := by
  refine allOk_parfor fun ix h1 h2 => allOk_loop fun iz h3 h4 => ?_
  have a1 := le_of_max0 h1
  have a2 := lt_of_minTo h2
  refine allOk_ite (fun _ => allOk_nil) (fun _ => pPml_ok hv k a1.1 a2.2 ?_ ?_ _ _)
  · dims hv
    simp only [Cfg.ioPz', Cfg.ioPz] at h3
    unfold max0 at h3
    split_ifs at h3 <;> omega
  · have hz : g.iePz' ≤ g.naz := by
      have := pad_cases (g := g) g.top; have := pad_cases (g := g) g.bot; have := hv.npml
      simp only [Cfg.iePz', Cfg.iePz, Cfg.naz]; split_ifs <;> omega
    unfold minTo at h4
    split_ifs at h4 <;> omega

theorem pPhase_ok (hv : Valid g) (k : Coef K) : AllOk g (pPhase g k).flatten := by
  have hz : g.iePz' + 2 < g.naz := by
    have := pad_cases (g := g) g.top; have := pad_cases (g := g) g.bot; have := hv.npml
    simp only [Cfg.iePz', Cfg.iePz, Cfg.naz]; split_ifs <;> omega
  have hx : g.iePx' + 2 < g.nax := by
    have := pad_cases (g := g) g.lef; have := pad_cases (g := g) g.rig; have := hv.npml
    simp only [Cfg.iePx', Cfg.iePx, Cfg.nax]; split_ifs <;> omega
  have hz' : 1 ≤ g.ioPz' := by have := hv.npml; simp only [Cfg.ioPz', Cfg.ioPz]; split_ifs <;> omega
  have hx' : 1 ≤ g.ioPx' := by have := hv.npml; simp only [Cfg.ioPx', Cfg.ioPx]; split_ifs <;> omega
  refine allOk_sweep fun ix h1 h2 iz h3 h4 => pS_ok hv _ _ ?_ ?_ ?_ ?_ <;> omega

theorem pmlV_ok (hv : Valid g) (k : Coef K) (first : Bool) : AllOkP g (pmlV g k first) := by
  refine allOkP_ite (fun _ => allOkP_append ?_ ?_) (fun _ => allOkP_nil)
  · refine allOkP_ite (fun _ => allOkP_single ?_) (fun _ => allOkP_nil)
    rw [List.flatten_cons, List.flatten_nil, List.append_nil]
    exact allOk_append (clear_ok _ rfl) (clear_ok _ rfl)
  · exact allOkP_cons (pmlPress_ok hv k) (allOkP_cons (ghostPLef_ok hv) (allOkP_single (ghostPTop_ok hv)))

theorem taperX_ok (hv : Valid g) (k : Coef K) {a b c d : Int} {t : Arr} {w : Int → Int → Int}
    (h1 : 2 ≤ a) (h2 : b + 1 ≤ g.nax) (h3 : 0 ≤ c) (h4 : d ≤ g.naz)
    (hw : ∀ ix iz : Int, a ≤ ix → ix < b → c ≤ iz → iz < d → 0 ≤ w ix iz ∧ w ix iz < g.size t) :
    AllOk g (taperX g k a b c d t w).flatten := by
  refine allOk_sweep fun ix e1 e2 iz e3 e4 => allOk_cons (vxS_ok hv _ _ ?_ ?_ ?_ ?_)
    (tapS_ok (by simp [IsFld]) (in_grid hv ?_ ?_ ?_ ?_) (hw ix iz e1 e2 e3 e4)) <;> omega

theorem taperZ_ok (hv : Valid g) (k : Coef K) {a b c d : Int} {t : Arr} {w : Int → Int → Int}
    (h1 : 0 ≤ a) (h2 : b ≤ g.nax) (h3 : 2 ≤ c) (h4 : d + 1 ≤ g.naz)
    (hw : ∀ ix iz : Int, a ≤ ix → ix < b → c ≤ iz → iz < d → 0 ≤ w ix iz ∧ w ix iz < g.size t) :
    AllOk g (taperZ g k a b c d t w).flatten := by
  refine allOk_sweep fun ix e1 e2 iz e3 e4 => allOk_cons (vzS_ok hv _ _ (.inl ⟨?_, ?_, ?_, ?_⟩))
    (tapS_ok (by simp [IsFld]) (in_grid hv ?_ ?_ ?_ ?_) (hw ix iz e1 e2 e3 e4)) <;> omega

theorem sq_bound {n u v : Int} (h1 : 0 ≤ u) (h2 : u < n) (h3 : 0 ≤ v) (h4 : v < n) :
    0 ≤ u * n + v ∧ u * n + v < n * n := by
  have e1 := mulLo (n := n) (by omega) h1
  have e2 := mulLo (n := n) (by omega) (show u + 1 ≤ n by omega)
  simp only [add_mul, one_mul] at e2
  omega

theorem taperTop_ok (hv : Valid g) (k : Coef K) : AllOkP g (taperTop g k) := by
  refine allOkP_ite (fun ht => ?_) (fun _ => allOkP_nil)
  have pt : g.pad g.top = g.npml := by unfold Cfg.pad; rw [if_pos (.inl ht)]
  have pb : 0 ≤ g.pad g.bot := by have := pad_cases (g := g) g.bot; have := hv.npml; omega
  have pl := pad_cases (g := g) g.lef
  have pr := pad_cases (g := g) g.rig
  have hnx := hv.nx; have hnz := hv.nz; have hp := hv.npml
  have hnax : g.nax = g.nx + 4 + g.pad g.lef + g.pad g.rig := rfl
  have hnaz : g.naz = g.nz + 4 + g.pad g.top + g.pad g.bot := rfl
  simp only [Cfg.ioXx, Cfg.ieXx, Cfg.ioXz, Cfg.ioZx, Cfg.ieZx, Cfg.ioZz, pt]
  refine allOkP_append (allOkP_append (allOkP_append (allOkP_append (allOkP_append ?_ ?_) ?_) ?_) ?_) ?_
  · refine allOkP_single (taperX_ok hv k ?_ ?_ ?_ ?_ fun ix iz e1 e2 e3 e4 => ?_) <;>
      (try simp only [Cfg.size]) <;> omega
  · refine allOkP_ite (fun hr => allOkP_single (taperX_ok hv k ?_ ?_ ?_ ?_ fun ix iz e1 e2 e3 e4 =>
      sq_bound ?_ ?_ ?_ ?_)) (fun _ => allOkP_nil) <;> omega
  · refine allOkP_ite (fun hr => allOkP_single (taperX_ok hv k ?_ ?_ ?_ ?_ fun ix iz e1 e2 e3 e4 =>
      sq_bound ?_ ?_ ?_ ?_)) (fun _ => allOkP_nil) <;> omega
  · refine allOkP_single (taperZ_ok hv k ?_ ?_ ?_ ?_ fun ix iz e1 e2 e3 e4 => ?_) <;>
      (try simp only [Cfg.size]) <;> omega
  · refine allOkP_ite (fun hr => allOkP_single (taperZ_ok hv k ?_ ?_ ?_ ?_ fun ix iz e1 e2 e3 e4 =>
      sq_bound ?_ ?_ ?_ ?_)) (fun _ => allOkP_nil) <;> omega
  · refine allOkP_ite (fun hr => allOkP_single (taperZ_ok hv k ?_ ?_ ?_ ?_ fun ix iz e1 e2 e3 e4 =>
      sq_bound ?_ ?_ ?_ ?_)) (fun _ => allOkP_nil) <;> omega

theorem taperBot_ok (hv : Valid g) (k : Coef K) : AllOkP g (taperBot g k) := by
  refine allOkP_ite (fun ht => ?_) (fun _ => allOkP_nil)
  have pb : g.pad g.bot = g.npml := by unfold Cfg.pad; rw [if_pos (.inl ht)]
  have pt : 0 ≤ g.pad g.top := by have := pad_cases (g := g) g.top; have := hv.npml; omega
  have pl := pad_cases (g := g) g.lef
  have pr := pad_cases (g := g) g.rig
  have hnx := hv.nx; have hnz := hv.nz; have hp := hv.npml
  have hnax : g.nax = g.nx + 4 + g.pad g.lef + g.pad g.rig := rfl
  have hnaz : g.naz = g.nz + 4 + g.pad g.top + g.pad g.bot := rfl
  simp only [Cfg.ioXx, Cfg.ieXx, Cfg.ieXz, Cfg.ioZx, Cfg.ieZx, Cfg.ieZz]
  refine allOkP_append (allOkP_append (allOkP_append (allOkP_append (allOkP_append ?_ ?_) ?_) ?_) ?_) ?_
  · refine allOkP_single (taperX_ok hv k ?_ ?_ ?_ ?_ fun ix iz e1 e2 e3 e4 => ?_) <;>
      (try simp only [Cfg.size]) <;> omega
  · refine allOkP_ite (fun hr => allOkP_single (taperX_ok hv k ?_ ?_ ?_ ?_ fun ix iz e1 e2 e3 e4 =>
      sq_bound ?_ ?_ ?_ ?_)) (fun _ => allOkP_nil) <;> omega
  · refine allOkP_ite (fun hr => allOkP_single (taperX_ok hv k ?_ ?_ ?_ ?_ fun ix iz e1 e2 e3 e4 =>
      sq_bound ?_ ?_ ?_ ?_)) (fun _ => allOkP_nil) <;> omega
  · refine allOkP_single (taperZ_ok hv k ?_ ?_ ?_ ?_ fun ix iz e1 e2 e3 e4 => ?_) <;>
      (try simp only [Cfg.size]) <;> omega
  · refine allOkP_ite (fun hr => allOkP_single (taperZ_ok hv k ?_ ?_ ?_ ?_ fun ix iz e1 e2 e3 e4 =>
      sq_bound ?_ ?_ ?_ ?_)) (fun _ => allOkP_nil) <;> omega
  · refine allOkP_ite (fun hr => allOkP_single (taperZ_ok hv k ?_ ?_ ?_ ?_ fun ix iz e1 e2 e3 e4 =>
      sq_bound ?_ ?_ ?_ ?_)) (fun _ => allOkP_nil) <;> omega

theorem taperLef_ok (hv : Valid g) (k : Coef K) : AllOkP g (taperLef g k) := by
  refine allOkP_ite (fun ht => ?_) (fun _ => allOkP_nil)
  have pl : g.pad g.lef = g.npml := by unfold Cfg.pad; rw [if_pos (.inl ht)]
  have pt : 0 ≤ g.pad g.top := by have := pad_cases (g := g) g.top; have := hv.npml; omega
  have pb : 0 ≤ g.pad g.bot := by have := pad_cases (g := g) g.bot; have := hv.npml; omega
  have pr : 0 ≤ g.pad g.rig := by have := pad_cases (g := g) g.rig; have := hv.npml; omega
  have hnx := hv.nx; have hnz := hv.nz; have hp := hv.npml
  have hnax : g.nax = g.nx + 4 + g.pad g.lef + g.pad g.rig := rfl
  have hnaz : g.naz = g.nz + 4 + g.pad g.top + g.pad g.bot := rfl
  simp only [Cfg.ioXx, Cfg.ioXz, Cfg.ieXz, Cfg.ioZx, Cfg.ioZz, Cfg.ieZz]
  refine allOkP_cons (taperX_ok hv k ?_ ?_ ?_ ?_ fun ix iz e1 e2 e3 e4 => ?_)
    (allOkP_single (taperZ_ok hv k ?_ ?_ ?_ ?_ fun ix iz e1 e2 e3 e4 => ?_)) <;> (try simp only [Cfg.size]) <;> omega

theorem taperRig_ok (hv : Valid g) (k : Coef K) : AllOkP g (taperRig g k) := by
  refine allOkP_ite (fun ht => ?_) (fun _ => allOkP_nil)
  have pr : g.pad g.rig = g.npml := by unfold Cfg.pad; rw [if_pos (.inl ht)]
  have pt : 0 ≤ g.pad g.top := by have := pad_cases (g := g) g.top; have := hv.npml; omega
  have pb : 0 ≤ g.pad g.bot := by have := pad_cases (g := g) g.bot; have := hv.npml; omega
  have pl : 0 ≤ g.pad g.lef := by have := pad_cases (g := g) g.lef; have := hv.npml; omega
  have hnx := hv.nx; have hnz := hv.nz; have hp := hv.npml
  have hnax : g.nax = g.nx + 4 + g.pad g.lef + g.pad g.rig := rfl
  have hnaz : g.naz = g.nz + 4 + g.pad g.top + g.pad g.bot := rfl
  simp only [Cfg.ieXx, Cfg.ioXz, Cfg.ieXz, Cfg.ieZx, Cfg.ioZz, Cfg.ieZz]
  refine allOkP_cons (taperX_ok hv k ?_ ?_ ?_ ?_ fun ix iz e1 e2 e3 e4 => ?_)
    (allOkP_single (taperZ_ok hv k ?_ ?_ ?_ ?_ fun ix iz e1 e2 e3 e4 => ?_)) <;> (try simp only [Cfg.size]) <;> omega

theorem freePhase_ok (hv : Valid g) : AllOk g (freePhase g : List (List (Stmt Cell K))).flatten := by
  have pt : 0 ≤ g.pad g.top := by have := pad_cases (g := g) g.top; have := hv.npml; omega
  have pb : 0 ≤ g.pad g.bot := by have := pad_cases (g := g) g.bot; have := hv.npml; omega
  have pl : 0 ≤ g.pad g.lef := by have := pad_cases (g := g) g.lef; have := hv.npml; omega
  have pr : 0 ≤ g.pad g.rig := by have := pad_cases (g := g) g.rig; have := hv.npml; omega
  have hnx := hv.nx; have hnz := hv.nz
  have hnax : g.nax = g.nx + 4 + g.pad g.lef + g.pad g.rig := rfl
  have hnaz : g.naz = g.nz + 4 + g.pad g.top + g.pad g.bot := rfl
  unfold freePhase
  simp only [List.flatten_append, Cfg.ioPx, Cfg.iePx, Cfg.ioPz, Cfg.iePz, Cfg.surface]
  refine allOk_append (allOk_append (allOk_append ?_ ?_) ?_) ?_ <;>
    refine allOk_itef (fun hc => ?_) (fun _ => allOk_nil) <;> refine allOk_parfor fun i h1 h2 => ?_
  · refine zr_ok (by simp [IsFld]) (in_grid hv ?_ ?_ ?_ ?_) <;> omega
  · refine zr_ok (by simp [IsFld]) (in_grid hv ?_ ?_ ?_ ?_) <;> omega
  · rw [add_sub_assoc]
    refine zr_ok (by simp [IsFld]) (in_grid hv ?_ ?_ ?_ ?_) <;> omega
  · refine zr_ok (by simp [IsFld]) (in_grid hv ?_ ?_ ?_ ?_) <;> omega

theorem step_ok (hv : Valid g) (hs : SidesPadded g) (k : Coef K) (first : Bool) : AllOk g (stepProg g k first) := by
  show AllOkP g (phases g k first)
  unfold phases
  refine allOkP_append (allOkP_append (allOkP_append (allOkP_append (allOkP_append (allOkP_append (allOkP_append
    (allOkP_append ?_ (pmlP_ok hv hs k first)) (taperTop_ok hv k)) (taperBot_ok hv k)) (taperLef_ok hv k)) (taperRig_ok hv k))
    (allOkP_single (pPhase_ok hv k))) (pmlV_ok hv k first)) (allOkP_single (freePhase_ok hv))
  exact allOkP_cons (velPhase_ok hv k) (allOkP_single (wallPhase_ok hv))

/-- A statement of the velocity part of the PML is a statement of the time step. -/
theorem mem_step_pmlVx (hp : g.pml = true) (k : Coef K) (first : Bool) {s : Stmt Cell K} {t : List (Stmt Cell K)}
    (ht : t ∈ pmlVx g k) (h : s ∈ t) : s ∈ stepProg g k first := by
  unfold stepProg seqOf
  rw [List.mem_flatten]
  refine ⟨t, List.mem_flatten.mpr ⟨pmlVx g k, ?_, ht⟩, h⟩
  unfold phases pmlP
  simp [hp]

theorem step_not_ok (hv : Valid g) (hs : ¬ SidesPadded g) (k : Coef K) (first : Bool) : ¬ AllOk g (stepProg g k first) := by
  intro hall
  unfold SidesPadded at hs
  have hnx := hv.nx; have hnz := hv.nz; have hp := hv.npml
  have hnaz : g.naz = g.nz + 4 + g.pad g.top + g.pad g.bot := rfl
  have hnax : g.nax = g.nx + 4 + g.pad g.lef + g.pad g.rig := rfl
  have pt := pad_cases (g := g) g.top
  have pb := pad_cases (g := g) g.bot
  have pl := pad_cases (g := g) g.lef
  have pr := pad_cases (g := g) g.rig
  have htb : g.top = 2 ∨ g.bot = 2 := by by_contra hc; exact hs (fun h => absurd h hc)
  have hpml : g.pml = true := by unfold Cfg.pml; rcases htb with h | h <;> simp [h]
  -- the row
  obtain ⟨iz, hz0, hz1, hiz⟩ : ∃ iz : Int, 0 ≤ iz ∧ iz < g.naz ∧ ∀ ix : Int,
      ¬ ((g.lef = 2 ∧ ix < g.ioXx) ∨ (g.rig = 2 ∧ ix ≥ g.ieXx)) →
      vxS g k.d1 k.d2 ix iz ∈
        (if (g.lef = 2 ∧ ix < g.ioXx) ∨ (g.rig = 2 ∧ ix ≥ g.ieXx) then
          loop (max0 (g.ioXz - g.npml)) (minTo (g.ieXz + g.npml) g.naz) fun iz => vxPml g k ix iz
        else
          (if g.top = 2 then loop (max0 (g.ioXz - g.npml)) g.ioXz fun iz => [vxS g k.d1 k.d2 ix iz] else []) ++
          (if g.bot = 2 then loop g.ieXz (minTo (g.ieXz + g.npml) g.naz) fun iz => [vxS g k.d1 k.d2 ix iz] else [])) := by
    rcases htb with h | h
    · refine ⟨1, by omega, by omega, fun ix hc => ?_⟩
      rw [if_neg hc, if_pos h, List.mem_append]
      refine .inl (mem_loop.mpr ⟨1, ?_, ?_, by simp⟩)
      · simp only [Cfg.ioXz, max0]; split_ifs <;> omega
      · simp only [Cfg.ioXz]; omega
    · refine ⟨g.ieXz, ?_, ?_, fun ix hc => ?_⟩
      · simp only [Cfg.ieXz]; omega
      · simp only [Cfg.ieXz]; omega
      · rw [if_neg hc, if_pos h, List.mem_append]
        refine .inr (mem_loop.mpr ⟨g.ieXz, by omega, ?_, by simp⟩)
        simp only [Cfg.ieXz, minTo]; split_ifs <;> omega
  have hside : (g.lef ≠ 2 ∧ g.lef ≠ 4) ∨ (g.rig ≠ 2 ∧ g.rig ≠ 4) := by
    by_contra hc; apply hs; intro _; omega
  rcases hside with hside | hside
  · have hmem := mem_step_pmlVx hpml k first (s := vxS g k.d1 k.d2 0 iz)
      (mem_parfor.mpr ⟨0, by simp only [Cfg.ioXx, max0]; split_ifs <;> omega,
        by simp only [Cfg.ieXx, minTo]; split_ifs <;> omega, rfl⟩)
      (hiz 0 (by simp only [Cfg.ioXx, Cfg.ieXx]; omega))
    have h := hall _ hmem (.p, (0 - 2) * g.naz + iz) (by
      simp [vxS, dpx, Stmt.cells, reads_add, reads_sub, reads_mul, reads_rd, reads_c])
    rw [ok_iff] at h
    simp only [Cfg.size] at h
    omega
  · have hmem := mem_step_pmlVx hpml k first (s := vxS g k.d1 k.d2 (g.nax - 1) iz)
      (mem_parfor.mpr ⟨g.nax - 1, by simp only [Cfg.ioXx, max0]; split_ifs <;> omega,
        by simp only [Cfg.ieXx, minTo]; split_ifs <;> omega, rfl⟩)
      (hiz (g.nax - 1) (by simp only [Cfg.ioXx, Cfg.ieXx]; omega))
    have h := hall _ hmem (.p, (g.nax - 1 + 1) * g.naz + iz) (by
      simp [vxS, dpx, Stmt.cells, reads_add, reads_sub, reads_mul, reads_rd, reads_c])
    rw [ok_iff, show g.nax - 1 + 1 = g.nax by omega] at h
    simp only [Cfg.size] at h
    omega

/-! ## Property theorems -/

variable [CommRing K]

/-- C26 (partial): with PML or taper at both sides, or without PML at top and bottom, a time step touches only elements
of the allocated arrays, for every grid size, width and memory contents. -/
theorem step_in_bounds_partial (hv : Valid g) (hs : SidesPadded g) (k : Coef K) (first : Bool) (m : Cell → K) :
    runChecked g.ok (stepProg g k first) m = some (run (stepProg g k first) m) := by
  rw [runChecked_eq]; exact if_pos (step_ok hv hs k first)

/-- C26 does not hold otherwise: PML at the top or the bottom with a free or rigid side reads before the start or past the
end of the pressure array, at every time step and for every grid. -/
theorem step_out_of_bounds (hv : Valid g) (hs : ¬ SidesPadded g) (k : Coef K) (first : Bool) (m : Cell → K) :
    runChecked g.ok (stepProg g k first) m = none := by
  rw [runChecked_eq]; exact if_neg (step_not_ok hv hs k first)

/-- The grids the two theorems speak about: free top with tapers, and PML below a free surface with rigid sides. -/
example : Valid ⟨3, 2, 5, 1, 4, 4, 4⟩ ∧ SidesPadded ⟨3, 2, 5, 1, 4, 4, 4⟩ ∧
    Valid ⟨3, 2, 5, 1, 2, 3, 3⟩ ∧ ¬ SidesPadded ⟨3, 2, 5, 1, 2, 3, 3⟩ := by
  refine ⟨⟨?_, ?_, ?_, ?_, ?_, ?_, ?_⟩, ?_, ⟨?_, ?_, ?_, ?_, ?_, ?_, ?_⟩, ?_⟩ <;> simp [SidesPadded]

end
end Verif.Fd.Acou

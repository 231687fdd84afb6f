import Verif.Fd.AcouSrcProps

/-! # C26, C28 with sources: schedules, and elements touched by sources; sources on free surfaces -/

namespace Verif.Fd.Acou

open Verif.Sten

section
variable {K : Type} {g : Cfg} {s : Srcs K}

theorem storePhase_free : PhaseFree (s.storePhase g) := by
  intro i j hi hj hij t ht t' ht'
  unfold Srcs.storePhase at hi hj ht ht'
  simp only [List.getElem_map, List.getElem_range, List.mem_map] at ht ht'
  obtain ⟨q, hq, rfl⟩ := ht
  obtain ⟨q', hq', rfl⟩ := ht'
  have h1 := (saves_arr hq).1
  have h2 := (saves_arr hq').2
  simp only [Stmt.cells, Expr.reads, List.mem_cons, List.not_mem_nil, or_false, not_or]
  constructor
  · intro e
    simp only [Prod.mk.injEq, Nat.cast_inj] at e
    exact hij e.2
  · intro e
    rw [← e] at h2
    dsimp only at h2
    rcases h1 with h | h | h <;> rw [h] at h2 <;> simp at h2

variable [CommRing K]

theorem run_zero_perm {Z Z' : List (Stmt Cell K)} (hz : ∀ t ∈ Z', t.e = .zero) (hp : Z.Perm Z') (m : Cell → K) :
    run Z m = run Z' m := by
  have hz' : ∀ t ∈ Z, t.e = .zero := fun t ht => hz t (hp.subset ht)
  funext c
  by_cases h : ∃ t ∈ Z', t.dst = c
  · rw [(run_zero hz m c).1 h, (run_zero hz' m c).1 (by obtain ⟨t, ht, e⟩ := h; exact ⟨t, hp.symm.subset ht, e⟩)]
  · rw [(run_zero hz m c).2 h, (run_zero hz' m c).2 (fun ⟨t, ht, e⟩ => h ⟨t, hp.subset ht, e⟩)]

/-! ## Property theorems -/

/-- The sources act one at a time, in any order (`omp critical` in applySource.c:152). -/
def Injected (g : Cfg) (s : Srcs K) (on : Prop) (m m' : Cell → K) : Prop :=
  (on ∧ ∃ l : List Nat, l.Perm (List.range s.n) ∧ m' = run (l.flatMap (s.inject g)) m) ∨ (¬ on ∧ m' = m)

/-- `m'` is a possible memory after a time step by a team of threads: every parallel loop is run by some schedule of the reads
and writes of its iterations; the sources act in any order; and the elements of the free surfaces are cleared by the
threads in any division and order, where every thread goes on to write back the saved elements without waiting for the
others (the loops in boundaries.c:1609-1638 are `nowait`, and the loop of `reStoreSourceOnSurface` is not shared out). -/
def ParStepS (g : Cfg) (s : Srcs K) (k : Coef K) (first : Bool) (m m' : Cell → K) : Prop :=
  ∃ m1 m2 m3 m4 m5 m6, ParResult (preP g k first) m m1 ∧ Injected g s (s.type > 5) m1 m2 ∧ PhaseResult (pPhase g k) m2 m3 ∧
    Injected g s (s.type < 6) m3 m4 ∧ PhaseResult (s.storePhase g) m4 m5 ∧ ParResult (pmlV g k first) m5 m6 ∧
    ∃ Z, Z ≠ [] ∧ Z.flatten.Perm (freePhase g).flatten ∧ PhaseResult (restorePhase Z (s.restoreAll g)) m6 m'

/-- `n` time steps by a team of threads. -/
inductive ParStepsS (g : Cfg) (s : Srcs K) (k : Coef K) (a : Nat → Nat → K) : Nat → (Cell → K) → (Cell → K) → Prop
  | zero (m) : ParStepsS g s k a 0 m m
  | succ {n m m1 m2} : ParStepsS g s k a n m m1 → ParStepS g s k (n = 0) (setAmp (a n) m1) m2 → ParStepsS g s k a (n + 1) m m2

theorem injected_early {m m' : Cell → K} (h : Injected g s (s.type > 5) m m') : m' = run (s.early g) m := by
  unfold Srcs.early
  rcases h with ⟨ht, l, hl, rfl⟩ | ⟨ht, rfl⟩
  · rw [if_pos ht, sources_any_order g s l hl]
  · rw [if_neg ht]; rfl

theorem injected_late {m m' : Cell → K} (h : Injected g s (s.type < 6) m m') : m' = run (s.late g) m := by
  unfold Srcs.late
  rcases h with ⟨ht, l, hl, rfl⟩ | ⟨ht, rfl⟩
  · rw [if_pos ht, sources_any_order g s l hl]
  · rw [if_neg ht]; rfl

/-- C28 (partial): on grids with at least three points in each direction every schedule of `n` time steps with sources leaves
the same memory, namely that of the sequential program.  Not covered: smaller grids, and the recording of the wave field
(`recording_race`). -/
theorem parStepsS_eq_partial (hv : Valid g) (hx : 3 ≤ g.nx) (hz : 3 ≤ g.nz) (k : Coef K) (a : Nat → Nat → K) {n : Nat}
    {m m' : Cell → K} (h : ParStepsS g s k a n m m') : m' = stepsS g s k a n m := by
  induction h with
  | zero m => rfl
  | @succ n m m1 m2 _ h2 ih =>
    rw [stepsS, ← ih]
    generalize setAmp (a n) m1 = m0 at h2
    obtain ⟨n1, n2, n3, n4, n5, n6, r1, r2, r3, r4, r5, r6, Z, hZ, hp, r7⟩ := h2
    have hsound := phases_sound hv hx hz k (n = 0)
    rw [phases_eq] at hsound
    have e1 := parResult_unique' (fun ph hph => hsound ph (by simp [hph])) r1
    have e2 := injected_early r2
    have e3 := phase_result_unique (pPhase_free hv k) r3
    have e4 := injected_late r4
    have e5 := phase_result_unique storePhase_free r5
    have e6 := parResult_unique' (fun ph hph => hsound ph (by simp [hph])) r6
    have hz0 : ∀ t ∈ (freePhase g : List (List (Stmt Cell K))).flatten, t.e = .zero := by
      intro t ht
      obtain ⟨l, hl, ht⟩ := List.mem_flatten.mp ht
      exact freePhase_zero l hl t ht
    have hzZ : ZeroPhase Z := fun l hl t ht => hz0 t (hp.subset (List.mem_flatten.mpr ⟨l, hl, ht⟩))
    have hw : WritesBack Z (s.restoreAll g) n6 n4 := by
      rw [e6, e5]
      exact restore_writes (fun t ht => free_dst_p (hp.subset ht)) k _ n4
    have e7 := restore_phase_unique hzZ hZ hw r7
    rw [e7, run_zero_perm hz0 hp, e6, e5, e4, e3, e2, e1]
    unfold stepS
    simp only [run_append]

/-- There is a schedule, so the theorem above is not about nothing. -/
theorem parStepsS_exists (g : Cfg) (s : Srcs K) (k : Coef K) (a : Nat → Nat → K) (n : Nat) (m : Cell → K) :
    ∃ m', ParStepsS g s k a n m m' := by
  have inj : ∀ (p : Prop) (m : Cell → K), ∃ m', Injected g s p m m' := by
    intro p m
    by_cases hp : p
    · exact ⟨_, .inl ⟨hp, List.range s.n, .refl _, rfl⟩⟩
    · exact ⟨m, .inr ⟨hp, rfl⟩⟩
  induction n with
  | zero => exact ⟨m, .zero m⟩
  | succ n ih =>
    obtain ⟨m0, h0⟩ := ih
    obtain ⟨m1, h1⟩ := parResult_exists (preP g k (n = 0)) (setAmp (a n) m0)
    obtain ⟨m2, h2⟩ := inj (s.type > 5) m1
    obtain ⟨m3, h3⟩ := phase_result_exists (pPhase g k) m2
    obtain ⟨m4, h4⟩ := inj (s.type < 6) m3
    obtain ⟨m5, h5⟩ := phase_result_exists (s.storePhase g) m4
    obtain ⟨m6, h6⟩ := parResult_exists (pmlV g k (n = 0)) m5
    obtain ⟨m7, h7⟩ := phase_result_exists (restorePhase [(freePhase g).flatten] (s.restoreAll g)) m6
    exact ⟨m7, .succ h0 ⟨m1, m2, m3, m4, m5, m6, h1, h2, h3, h4, h5, h6, [(freePhase g).flatten], by simp, by simp, h7⟩⟩

/-! ### Sources on free surfaces -/

theorem rest_run {l : List (Stmt Cell K)} (hl : AllQ Lin l) (med : Cell → K) :
    run l (mem med Field.rest) = mem med Field.rest := by
  have h := run_comb hl (0 : K) 0 (mem med Field.rest) (mem med Field.rest) (fun _ _ => rfl)
  rwa [rest_comb med _ _ (fun c hc => mem_nonfld med _ c hc),
    rest_comb med _ _ (fun c hc => by rw [run_nonfield (fun t ht => (hl t ht).1) _ _ hc, mem_nonfld med _ c hc])] at h

omit [CommRing K] in
/-- C75: a monopole on a free top survives the clearing of the surface: its pressure is saved and written back, so that
`source_pressure` holds there. -/
theorem top_source_saved (g : Cfg) (s : Srcs K) (ht : g.top = 1) (h1 : s.type = 1) (h2 : s.orient = 1)
    (hr : s.random = false) (hp : s.plane = false) (hz : s.izsrc = 0) (i : Nat) (hi : i < s.n) :
    s.Saved g (.p, s.ix g i * g.naz + s.iz g i) := by
  have hbz : s.bz g = s.bzS g := by
    simp [Srcs.bz, Srcs.bzS, h1, Cfg.pad, ht]
  refine ⟨i, hi, (.s1z, (.p, s.ixs g i * g.naz + s.izs g i)), ?_, ?_⟩
  · have hst : s.stored g i = true := by
      simp [Srcs.stored, Srcs.izs, hr, hz, ht]
    simp [Srcs.saves, hst, h1, h2]
  · simp [Srcs.ix, Srcs.ixs, Srcs.iz, Srcs.izs, hr, hp, hbz]

/-- C75 fails at the other free surfaces: monopoles on points that are cleared and not saved generate no field at all. -/
theorem cleared_source_lost (hv : Valid g) (k : Coef K) (s : Srcs K) (hp : g.pml = false) (h1 : s.type = 1) (h2 : s.orient = 1)
    (hs : s.Unsaved g) (hf : ∀ i, i < s.n → Freed g (s.ix g i) (s.iz g i)) (med : Cell → K) (a : Nat → Nat → K) (n : Nat) :
    shoot g k s med a n Field.rest = Field.rest := by
  have key : Same (stepsS g s k a n (mem med Field.rest)) (mem med Field.rest) := by
    induction n with
    | zero => exact Same.refl _
    | succ n ih =>
      obtain ⟨m, hm⟩ : ∃ m, m = setAmp (a n) (stepsS g s k a n (mem med Field.rest)) := ⟨_, rfl⟩
      have hm0 : Same m (mem med Field.rest) := by
        rw [hm]
        rintro ⟨b, j⟩ hc
        cases b <;> first | exact ih (_, j) rfl | cases hc
      obtain ⟨m1, m2, m3, m4, st⟩ := stages (g := g) (s := s) k (n = 0) m
      show Same (run (stepS g s k (n = 0)) (setAmp (a n) (stepsS g s k a n (mem med Field.rest)))) _
      rw [← hm]
      have e1 : Same m1 (mem med Field.rest) := by
        rw [st.e1]
        have := run_clean (preP_clean (g := g) k (n = 0)) hm0
        rwa [rest_run (preP_lin k _)] at this
      have e2 : Same m2 (mem med Field.rest) := by
        intro c hc
        rw [st.at2', if_neg (by omega), add_zero, e1 c hc]
      have e3 : Same m3 (mem med Field.rest) := by
        rw [st.e3]
        have := run_clean (pPhase_clean (g := g) k) e2
        rwa [rest_run (pPhase_lin k)] at this
      have hns : ∀ c, ¬ s.Saved g c := by
        rintro c ⟨i, hi, q, hq, _⟩
        rw [hs i hi] at hq
        cases hq
      have hpm : seqOf (pmlV g k (n = 0)) = [] := by unfold pmlV seqOf; simp [hp]
      intro c hc
      rw [st.e5, ending_unsaved _ _ _ (hns c), hpm, (unsaved_store hs).1]
      show run (freePhase g).flatten m4 c = _
      have hz0 : ∀ t ∈ (freePhase g : List (List (Stmt Cell K))).flatten, t.e = .zero := by
        intro t ht
        obtain ⟨l, hl, ht⟩ := List.mem_flatten.mp ht
        exact freePhase_zero l hl t ht
      by_cases hsrc : ∃ i, i < s.n ∧ c = (.p, s.ix g i * g.naz + s.iz g i)
      · obtain ⟨i, hi, rfl⟩ := hsrc
        rw [freed_zero hv (hf i hi)]
        rfl
      have hc4 : m4 c = mem med Field.rest c := by
        rw [st.at4, e3 c hc, if_pos (by omega)]
        unfold Srcs.total
        rw [Finset.sum_eq_zero, add_zero]
        intro i hi
        have hne : c ≠ (.p, s.ix g i * g.naz + s.iz g i) := fun e => hsrc ⟨i, Finset.mem_range.mp hi, e⟩
        unfold Srcs.weight
        dsimp only
        simp only [show ¬ s.type = 6 by omega, show ¬ s.type = 7 by omega, show ¬ s.type = 10 by omega,
          show ¬ s.type = 12 by omega, if_false, h1, h2, if_true, pt, if_neg hne]
        simp
      by_cases hz : ∃ t ∈ (freePhase g : List (List (Stmt Cell K))).flatten, t.dst = c
      · rw [(run_zero hz0 m4 c).1 hz]
        obtain ⟨t, ht, hd⟩ := hz
        have hdp := free_dst_p ht
        obtain ⟨b, j⟩ := c
        rw [hd] at hdp
        dsimp only at hdp
        subst hdp
        rfl
      · rw [(run_zero hz0 m4 c).2 hz, hc4]
  unfold shoot fieldOf Field.rest
  congr 1 <;> funext c <;> exact key (_, c) rfl

/-- C75 fails at a free bottom: for every grid without absorbing layers, every medium and every wavelet, a monopole in the
last row of a model with free bottom generates no field. -/
theorem bottom_source_lost (hv : Valid g) (k : Coef K) (s : Srcs K) (hp : g.pml = false) (hb : g.bot = 1) (h1 : s.type = 1)
    (h2 : s.orient = 1) (hr : s.random = false) (hpl : s.plane = false) (hn : s.n = 1) (hz : s.izsrc = g.nz - 1)
    (hx : 2 ≤ s.ixsrc) (hx' : s.ixsrc < g.nx) (hnz : 3 ≤ g.nz) (med : Cell → K) (a : Nat → Nat → K) (n : Nat) :
    shoot g k s med a n Field.rest = Field.rest := by
  obtain ⟨⟨g1, g2, g3, g4, g5⟩, ⟨p1, p2, p3, p4⟩, q1, q2, q3, q4⟩ := grid hv
  have hpad : g.pad g.bot = 0 := by simp [Cfg.pad, hb]
  have his : s.is0 = 0 := by simp [Srcs.is0, hn]
  refine cleared_source_lost hv k s hp h1 h2 ?_ ?_ med a n
  · intro i hi
    have hi0 : i = 0 := by omega
    subst hi0
    have hst : s.stored g 0 = false := by
      simp only [Srcs.stored, Srcs.ixs, Srcs.izs, hr, his, hz, Bool.or_eq_false_iff, Bool.and_eq_false_iff,
        decide_eq_false_iff_not, Bool.false_eq_true, if_false]
      refine ⟨⟨⟨.inl ?_, .inl ?_⟩, .inl ?_⟩, .inl ?_⟩ <;> omega
    simp [Srcs.saves, hst]
  · intro i hi
    have hi0 : i = 0 := by omega
    subst hi0
    have hix : s.ix g 0 = s.ixsrc + 1 + g.pad g.lef := by
      simp [Srcs.ix, hr, hpl, his, Srcs.bx, h1, Cfg.ioPx]; ring
    have hiz : s.iz g 0 = g.nz + g.pad g.top := by
      simp [Srcs.iz, hr, hpl, Srcs.bz, h1, Cfg.ioPz, hz]; ring
    refine .inr (.inr (.inl ⟨hb, ?_, ?_, ?_⟩))
    · rw [hiz]; simp only [Cfg.iePz]; omega
    · rw [hix]; omega
    · rw [hix]; simp only [Cfg.iePx]; omega

/-! ### Elements touched -/

/-- The element exists; the arrays of sourceOnSurface.c:14-17 have `2*src.n` elements. -/
def Srcs.ok (g : Cfg) (s : Srcs K) (c : Cell) : Bool :=
  match c.1 with
  | .amp => 0 ≤ c.2 && c.2 < s.n
  | .s1x | .s1z | .s2z => 0 ≤ c.2 && c.2 < 2 * (s.n : Int)
  | _ => g.ok c

/-- The sources are in the model; those of a plane wave are in a row (getParameters.c:918-922). -/
def Srcs.InModel (g : Cfg) (s : Srcs K) : Prop := ∀ i, i < s.n →
  s.bx g ≤ s.ix g i ∧ s.ix g i < s.bx g + g.nx ∧ s.bz g ≤ s.iz g i ∧ s.iz g i < s.bz g + g.nz ∧
  (s.plane = true → s.x i = s.is0 + i ∧ s.z i = 0)

omit [CommRing K] in
theorem clean_reads {e : Expr Cell K} (h : clean e = true) : ∀ a ∈ e.reads, aux a.1 = false := by
  induction e with
  | rd a => intro b hb; simp [Expr.reads] at hb; subst hb; simpa [clean] using h
  | c k => intro b hb; cases hb
  | zero => intro b hb; cases hb
  | add x y hx hy | sub x y hx hy | mul x y hx hy =>
    simp only [clean, Bool.and_eq_true] at h
    intro b hb
    rcases List.mem_append.mp hb with hb | hb
    · exact hx h.1 b hb
    · exact hy h.2 b hb

/-- All elements of a program exist. -/
def Exist (g : Cfg) (s : Srcs K) (l : List (Stmt Cell K)) : Prop := ∀ t ∈ l, ∀ c ∈ t.cells, s.ok g c = true

omit [CommRing K] in
theorem exist_append {l l' : List (Stmt Cell K)} (h : Exist g s l) (h' : Exist g s l') : Exist g s (l ++ l') := by
  intro t ht
  rcases List.mem_append.mp ht with h1 | h1
  · exact h t h1
  · exact h' t h1

omit [CommRing K] in
theorem exist_clean {l : List (Stmt Cell K)} (hc : AllQ Clean l) (h : AllOk g l) : Exist g s l := by
  intro t ht c hcell
  have hx : aux c.1 = false := by
    rcases List.mem_cons.mp hcell with rfl | h'
    · exact (hc t ht).1
    · exact clean_reads (hc t ht).2 c h'
  have := h t ht c hcell
  obtain ⟨a, j⟩ := c
  unfold Srcs.ok
  cases a <;> first | exact this | cases hx

omit [CommRing K] in
/-- Where a source can be. -/
theorem inModel_bounds (hv : Valid g) (hm : s.InModel g) {i : Nat} (hi : i < s.n) :
    (1 ≤ s.ix g i ∧ s.ix g i + 2 < g.nax ∧ 1 ≤ s.iz g i ∧ s.iz g i + 2 < g.naz) ∧ s.ixs g i = s.ix g i ∧
    1 ≤ s.izs g i ∧ s.izs g i + 2 < g.naz := by
  obtain ⟨⟨g1, g2, g3, g4, g5⟩, ⟨p1, p2, p3, p4⟩, q1, q2, q3, q4⟩ := grid hv
  obtain ⟨b1, b2, b3, b4, hpl⟩ := hm i hi
  have hbx : 1 ≤ s.bx g ∧ s.bx g ≤ 2 + g.pad g.lef := by
    simp only [Srcs.bx, Cfg.ioXx, Cfg.ioZx, Cfg.ioPx]; split_ifs <;> omega
  have hbz : 1 ≤ s.bz g ∧ s.bz g ≤ 2 + g.pad g.top ∧ 1 ≤ s.bzS g ∧ s.bzS g ≤ s.bz g := by
    simp only [Srcs.bz, Srcs.bzS, Cfg.ioXz, Cfg.ioZz, Cfg.ioPz]; split_ifs <;> omega
  have hx : s.ixs g i = s.ix g i := by
    unfold Srcs.ixs Srcs.ix
    split_ifs with h1 h2
    · rfl
    · rw [(hpl h2).1]; ring
    · rfl
  have hz : s.izs g i - s.bzS g = s.iz g i - s.bz g := by
    unfold Srcs.izs Srcs.iz
    split_ifs with h1 h2
    · ring
    · rw [(hpl h2).2]; ring
    · ring
  refine ⟨⟨?_, ?_, ?_, ?_⟩, hx, ?_, ?_⟩ <;> omega

omit [CommRing K] in
theorem exist_cons {t : Stmt Cell K} {l : List (Stmt Cell K)} (h : Exist g s [t]) (h' : Exist g s l) : Exist g s (t :: l) :=
  exist_append h h'

omit [CommRing K] in
theorem exist_if {P : Prop} [Decidable P] {l l' : List (Stmt Cell K)} (h : P → Exist g s l) (h' : ¬ P → Exist g s l') :
    Exist g s (if P then l else l') := by
  by_cases hP : P
  · rw [if_pos hP]; exact h hP
  · rw [if_neg hP]; exact h' hP

omit [CommRing K] in
theorem exist_nil : Exist g s ([] : List (Stmt Cell K)) := by intro t ht; cases ht

omit [CommRing K] in
theorem inject_exist (hv : Valid g) (hm : s.InModel g) {i : Nat} (hi : i < s.n) : Exist g s (s.inject g i) := by
  have hn := naz_pos hv
  obtain ⟨⟨b1, b2, b3, b4⟩, -⟩ := inModel_bounds hv hm hi
  have e1 := mulLo (n := g.naz) (by omega) b1
  have e2 := mulLo (n := g.naz) (by omega) (show s.ix g i + 3 ≤ g.nax by omega)
  simp only [add_mul, one_mul] at e1 e2
  have key : ∀ a, a ∈ [Arr.vx, .vz, .p, .rox, .roz, .l2m, .il2m] → ∀ j, 0 ≤ j ∧ j < g.nax * g.naz → s.ok g (a, j) = true := by
    intro a ha j h
    simp only [List.mem_cons, List.not_mem_nil, or_false] at ha
    rcases ha with rfl | rfl | rfl | rfl | rfl | rfl | rfl <;> (show g.ok _ = true; rw [ok_iff]; exact h)
  have ha : ∀ c ∈ (s.ampl g i).reads, s.ok g c = true := by
    simp only [Srcs.ampl, reads_mul, reads_rd, reads_c, List.forall_mem_cons, List.not_mem_nil, false_imp_iff, implies_true,
      and_true, List.nil_append, List.cons_append]
    exact ⟨by simp [Srcs.ok, hi], key _ (by simp) _ (by omega)⟩
  have ha' : ∀ c ∈ (s.ampl' g i).reads, s.ok g c = true := by
    simpa only [Srcs.ampl', reads_mul, reads_c, List.append_nil] using ha
  have hadd : ∀ a ∈ [Arr.vx, .vz, .p], ∀ j e, 0 ≤ j ∧ j < g.nax * g.naz → (∀ c ∈ Expr.reads e, s.ok g c = true) →
      Exist g s [addS a j e] ∧ Exist g s [subS a j e] := by
    intro a ha j e hj he
    have h0 := key a (by simp only [List.mem_cons, List.not_mem_nil, or_false] at ha ⊢; tauto) j hj
    constructor <;>
      simp only [Exist, addS, subS, Stmt.cells, reads_add, reads_sub, reads_rd, List.forall_mem_cons, List.forall_mem_append,
        List.not_mem_nil, false_imp_iff, implies_true, and_true, List.cons_append, List.nil_append] <;>
      exact ⟨h0, h0, he⟩
  unfold Srcs.inject Srcs.pressure
  dsimp only
  refine exist_if (fun _ => exist_nil) fun _ => ?_
  refine exist_if (fun _ => ?_) fun _ => ?_
  · refine (hadd .vx (by simp) _ _ (by omega) ?_).1
    simp only [reads_mul, reads_rd, reads_c, List.forall_mem_append, List.forall_mem_cons, List.not_mem_nil, false_imp_iff,
      implies_true, and_true, true_and]
    exact ⟨⟨ha, key _ (by simp) _ (by omega)⟩, key _ (by simp) _ (by omega)⟩
  refine exist_if (fun _ => ?_) fun _ => ?_
  · refine (hadd .vz (by simp) _ _ (by omega) ?_).1
    simp only [reads_mul, reads_rd, List.forall_mem_append, List.forall_mem_cons, List.not_mem_nil, false_imp_iff,
      implies_true, and_true]
    exact ⟨⟨ha, key _ (by simp) _ (by omega)⟩, key _ (by simp) _ (by omega)⟩
  refine exist_if (fun _ => ?_) fun _ => ?_
  · have : ∀ c ∈ (s.ampl g i * rd .roz (s.ix g i * g.naz + s.iz g i) * .c s.i2dt : Expr Cell K).reads, s.ok g c = true := by
      simp only [reads_mul, reads_rd, reads_c, List.forall_mem_append, List.forall_mem_cons, List.not_mem_nil, false_imp_iff,
        implies_true, and_true]
      exact ⟨ha, key _ (by simp) _ (by omega)⟩
    exact exist_cons (hadd .p (by simp) _ _ (by omega) this).2 (hadd .p (by simp) _ _ (by omega) this).1
  refine exist_if (fun _ => ?_) fun _ => ?_
  · refine exist_cons (hadd .vx (by simp) _ _ (by omega) ?_).1 (exist_cons (hadd .vx (by simp) _ _ ?_ ?_).1
      (exist_cons (hadd .vz (by simp) _ _ (by omega) ?_).1 (hadd .vz (by simp) _ _ (by omega) ?_).1))
    all_goals
      try simp only [reads_mul, reads_rd, reads_c, List.forall_mem_append, List.forall_mem_cons, List.not_mem_nil, false_imp_iff,
        implies_true, and_true, true_and]
      first
        | exact ⟨⟨ha, key _ (by simp) _ (by omega)⟩, key _ (by simp) _ (by omega)⟩
        | (rw [add_mul, one_mul]; exact ⟨⟨ha, key _ (by simp) _ (by omega)⟩, key _ (by simp) _ (by omega)⟩)
        | (rw [add_mul, one_mul]; omega)
  refine exist_if (fun _ => ?_) fun _ => exist_nil
  refine exist_if (fun _ => (hadd .p (by simp) _ _ (by omega) ha).1) fun _ => ?_
  refine exist_if (fun _ => exist_cons (hadd .p (by simp) _ _ (by omega) ha').1 (hadd .p (by simp) _ _ (by omega) ha').2) fun _ => ?_
  refine exist_if (fun _ => exist_cons (hadd .p (by simp) _ _ (by omega) ha').1
    (hadd .p (by simp) _ _ (by rw [sub_mul, one_mul]; omega) ha').2) fun _ => ?_
  have hh : ∀ c ∈ (.c s.half * s.ampl' g i : Expr Cell K).reads, s.ok g c = true := by
    simpa only [reads_mul, reads_c, List.nil_append] using ha'
  refine exist_if (fun _ => exist_append ?_ ?_) fun _ => ?_
  · exact exist_if (fun _ => (hadd .p (by simp) _ _ (by omega) hh).1) fun _ => exist_nil
  · exact exist_if (fun _ => (hadd .p (by simp) _ _ (by omega) hh).2) fun _ => exist_nil
  exact exist_if (fun _ => exist_cons (hadd .p (by simp) _ _ (by omega) ha').1
    (hadd .p (by simp) _ _ (by rw [add_mul, one_mul]; omega) ha').2) fun _ => exist_nil

omit [CommRing K] in
theorem saves_exist (hv : Valid g) (hm : s.InModel g) {i : Nat} (hi : i < s.n) :
    ∀ q ∈ s.saves g i, s.ok g (q.1, (i : Int)) = true ∧ s.ok g q.2 = true := by
  have hn := naz_pos hv
  obtain ⟨⟨b1, b2, -, -⟩, hx, b3, b4⟩ := inModel_bounds hv hm hi
  have e1 := mulLo (n := g.naz) (by omega) b1
  have e2 := mulLo (n := g.naz) (by omega) (show s.ix g i + 3 ≤ g.nax by omega)
  simp only [add_mul, one_mul] at e1 e2
  unfold Srcs.saves
  rw [hx]
  dsimp only
  split_ifs
  all_goals
    simp only [List.forall_mem_cons, List.not_mem_nil, false_imp_iff, implies_true, and_true, true_and, List.append_nil,
      List.nil_append, List.cons_append, Srcs.ok, ok_iff, Cfg.size, add_mul, sub_mul, one_mul, Bool.and_eq_true,
      decide_eq_true_eq]
    try (and_intros <;> omega)

/-- C76: as long as the sources are in the model, no access of a time step with sources is outside its array. -/
theorem source_in_bounds_partial (hv : Valid g) (hs : SidesPadded g) (hm : s.InModel g) (k : Coef K) (first : Bool)
    (m : Cell → K) : runChecked (s.ok g) (stepS g s k first) m = some (run (stepS g s k first) m) := by
  rw [runChecked_eq, if_pos]
  have h := step_ok hv hs k first
  have hall : Exist g s (s.injectAll g) := by
    intro t ht
    obtain ⟨i, hi, ht⟩ := List.mem_flatMap.mp ht
    exact inject_exist hv hm (List.mem_range.mp hi) t ht
  have hq : stepProg g k first = seqOf (preP g k first) ++ ((pPhase g k).flatten ++ (seqOf (pmlV g k first) ++
      (freePhase g).flatten)) := by
    unfold stepProg; rw [phases_eq]; simp [seqOf]
  rw [hq] at h
  have sub : ∀ {l : List (Stmt Cell K)}, AllQ Clean l → (∀ t ∈ l, t ∈ seqOf (preP g k first) ++ ((pPhase g k).flatten ++
      (seqOf (pmlV g k first) ++ (freePhase g).flatten))) → Exist g s l := fun hc hl => exist_clean hc fun t ht => h t (hl t ht)
  unfold stepS Srcs.early Srcs.late
  refine exist_append (sub (preP_clean k first) fun t ht => by simp [ht]) (exist_append ?_ (exist_append
    (sub (pPhase_clean k) fun t ht => by simp [ht]) (exist_append ?_ (exist_append ?_ (exist_append
    (sub (pmlV_clean k first) fun t ht => by simp [ht]) (exist_append (sub freePhase_clean fun t ht => by simp [ht]) ?_))))))
  · split_ifs
    · exact hall
    · intro t ht; cases ht
  · split_ifs
    · exact hall
    · intro t ht; cases ht
  · intro t ht
    obtain ⟨l, hl, ht⟩ := List.mem_flatten.mp ht
    obtain ⟨i, hi, rfl⟩ := List.mem_map.mp hl
    obtain ⟨q, hq', rfl⟩ := List.mem_map.mp ht
    have := saves_exist hv hm (List.mem_range.mp hi) q hq'
    intro c hc
    simp only [Stmt.cells, Expr.reads, List.mem_cons, List.not_mem_nil, or_false] at hc
    rcases hc with rfl | rfl
    · exact this.1
    · exact this.2
  · intro t ht
    obtain ⟨i, hi, ht⟩ := List.mem_flatMap.mp ht
    obtain ⟨q, hq', rfl⟩ := List.mem_map.mp ht
    have := saves_exist hv hm (List.mem_range.mp hi) q hq'
    intro c hc
    simp only [Stmt.cells, Expr.reads, List.mem_cons, List.not_mem_nil, or_false] at hc
    rcases hc with rfl | rfl
    · exact this.2
    · exact this.1

/-- C76 does not hold for plane waves and arrays of sources that extend past the left edge: on a free top the pressure of a
source to the left of the arrays is "saved" and "written back", although `applySource` skips that source. -/
theorem plane_wave_out_of_bounds (hv : Valid g) (k : Coef K) (first : Bool) (h1 : s.type = 1) (h2 : s.orient = 1)
    (hr : s.random = false) (ht : g.top = 1) (hn : 0 < s.n) (hz : s.izsrc ≤ 1) (hz' : 0 ≤ s.izsrc)
    (hx : s.ixsrc + s.bx g < ((s.n - 1) / 2 : Nat)) (m : Cell → K) :
    runChecked (s.ok g) (stepS g s k first) m = none := by
  have hnz := naz_pos hv
  have hneg : s.ixs g 0 ≤ -1 := by simp [Srcs.ixs, hr, Srcs.is0]; omega
  have hiz : s.izs g 0 = s.izsrc + 1 := by simp [Srcs.izs, hr, Srcs.bzS, h1, Cfg.ioPz]
  have e := mulLo (n := g.naz) (by omega) (show s.ixs g 0 + 1 ≤ 0 by omega)
  have hst : s.stored g 0 = true := by
    simp only [Srcs.stored, hiz, ht, Srcs.bzS, h1, Cfg.ioPz]
    simp [hz]
    omega
  rw [runChecked_eq, if_neg]
  intro h
  have hmem : (⟨(.p, s.ixs g 0 * g.naz + s.izs g 0), .rd (.s1z, 0)⟩ : Stmt Cell K) ∈ stepS g s k first := by
    unfold stepS
    refine List.mem_append_right _ (List.mem_append_right _ (List.mem_append_right _ (List.mem_append_right _
      (List.mem_append_right _ (List.mem_append_right _ (List.mem_append_right _ ?_))))))
    refine List.mem_flatMap.mpr ⟨0, List.mem_range.mpr hn, List.mem_map.mpr ⟨(.s1z, (.p, s.ixs g 0 * g.naz + s.izs g 0)), ?_, rfl⟩⟩
    simp [Srcs.saves, hst, h1, h2]
  have := h _ hmem (.p, s.ixs g 0 * g.naz + s.izs g 0) (List.mem_cons_self ..)
  have h' := ((ok_iff (g := g) _ _).mp this).1
  rw [add_mul, one_mul, zero_mul] at e
  omega

end

/-! ### The hypotheses can be met -/

/-- Three monopoles in a row, the first one at depth 0. -/
def demoSrcs (iz : Int) (n : Nat) : Srcs Int where
  type := 1
  orient := 1
  n := n
  random := false
  plane := false
  x := fun _ => 0
  z := fun _ => 0
  ixsrc := 2
  izsrc := iz
  half := 1
  idx := 1
  i2dt := 1
  wx := 1
  wz := 1

/-- Non-vacuity of `shoot_linear`, `shoot_delay`, `shoot_sum`: a monopole does generate a field, and moves on. -/
example : let f := shoot ⟨4, 4, 5, 1, 1, 1, 1⟩ ⟨1, 0, 1, 0⟩ (demoSrcs 2 1) (fun _ => 1) (fun j _ => if j = 0 then 1 else 0)
    f 1 Field.rest ≠ Field.rest ∧ at2 ⟨4, 4, 5, 1, 1, 1, 1⟩ (f 1 Field.rest).p 3 3 = 1 ∧
    at2 ⟨4, 4, 5, 1, 1, 1, 1⟩ (f 2 Field.rest).vx 3 3 = -1 := by
  refine ⟨fun h => ?_, ?_, ?_⟩
  · have := congrArg (fun u => at2 ⟨4, 4, 5, 1, 1, 1, 1⟩ u.p 3 3) h
    revert this
    decide +kernel
  · decide +kernel
  · decide +kernel

/-- C73 does not hold for sources on a free surface: a silent source there still takes its point out of the surface.  The
first source alone generates another field than the first source beside a second one that is silent. -/
theorem silent_source_matters : ∃ (g : Cfg) (k : Coef Int) (s : Srcs Int) (med : Cell → Int) (a : Nat → Nat → Int) (n : Nat),
    Valid g ∧ s.InModel g ∧ 0 < s.n ∧
    shoot g k s med (only 0 a) n Field.rest ≠ shoot g k (s.single g 0) med (fun j _ => a j 0) n Field.rest := by
  refine ⟨⟨4, 4, 5, 1, 1, 1, 1⟩, ⟨1, 0, 1, 0⟩, demoSrcs 0 2, fun _ => 1, fun _ _ => 1, 2,
    ⟨by decide, by decide, by decide, by decide, by decide, by decide, by decide⟩, ?_, by decide, fun h => ?_⟩
  · unfold Srcs.InModel; decide
  · have := congrArg (fun u => at2 ⟨4, 4, 5, 1, 1, 1, 1⟩ u.p 4 1) h
    revert this
    decide +kernel

/-- Non-vacuity of `shoot_single_partial`: three sources away from free surfaces, with absorbing layers. -/
example : (demoSrcs 2 3).Unsaved ⟨6, 6, 5, 4, 4, 2, 4⟩ ∧
    ((demoSrcs 2 3).single ⟨6, 6, 5, 4, 4, 2, 4⟩ 1).Unsaved ⟨6, 6, 5, 4, 4, 2, 4⟩ := by
  unfold Srcs.Unsaved
  decide

/-- Non-vacuity of `source_pressure`, `free_surface_source`, `top_source_saved`: a source on a free top is saved, its
neighbours on the surface are not. -/
example : (demoSrcs 0 1).Saved ⟨4, 4, 5, 1, 4, 2, 4⟩ (.p, 8 * 13 + 1) ∧ ¬ (demoSrcs 0 1).Saved ⟨4, 4, 5, 1, 4, 2, 4⟩ (.p, 9 * 13 + 1) ∧
    Freed ⟨4, 4, 5, 1, 4, 2, 4⟩ 8 1 ∧ Freed ⟨4, 4, 5, 1, 4, 2, 4⟩ 9 1 ∧ (⟨4, 4, 5, 1, 4, 2, 4⟩ : Cfg).naz = 13 := by
  unfold Srcs.Saved Freed
  decide

/-- Non-vacuity of `cleared_source_lost` and `bottom_source_lost`. -/
example : Valid ⟨4, 4, 5, 1, 1, 1, 1⟩ ∧ (⟨4, 4, 5, 1, 1, 1, 1⟩ : Cfg).pml = false ∧ (demoSrcs 3 1).izsrc = 4 - 1 ∧
    shoot ⟨4, 4, 5, 1, 1, 1, 1⟩ ⟨1, 0, 1, 0⟩ (demoSrcs 3 1) (fun _ => 1) (fun _ _ => 1) 7 Field.rest = Field.rest := by
  have hv : Valid ⟨4, 4, 5, 1, 1, 1, 1⟩ :=
    ⟨by decide, by decide, by decide, by decide, by decide, by decide, by decide⟩
  exact ⟨hv, rfl, rfl, bottom_source_lost hv _ _ rfl rfl rfl rfl rfl rfl rfl rfl (by decide) (by decide) (by decide) _ _ _⟩

/-- Non-vacuity of `source_in_bounds_partial` and of `plane_wave_out_of_bounds`. -/
example : Valid ⟨6, 4, 5, 1, 4, 2, 4⟩ ∧ SidesPadded ⟨6, 4, 5, 1, 4, 2, 4⟩ ∧ (demoSrcs 0 3).InModel ⟨6, 4, 5, 1, 4, 2, 4⟩ := by
  refine ⟨⟨by decide, by decide, by decide, by decide, by decide, by decide, by decide⟩, ?_, ?_⟩
  · unfold SidesPadded; decide
  · unfold Srcs.InModel; decide

example (m : Cell → Int) : runChecked ((demoSrcs 0 9).ok ⟨9, 4, 5, 1, 4, 1, 1⟩)
    (stepS ⟨9, 4, 5, 1, 4, 1, 1⟩ (demoSrcs 0 9) ⟨1, 0, 1, 0⟩ true) m = none :=
  plane_wave_out_of_bounds ⟨by decide, by decide, by decide, by decide, by decide, by decide, by decide⟩ _ _ rfl rfl rfl rfl
    (by decide) (by decide) (by decide) (by decide) m

end Verif.Fd.Acou

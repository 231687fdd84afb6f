import Verif.Em.Em4
import Mathlib.Algebra.Field.Rat
import Mathlib.Analysis.Real.Pi.Bounds
import Mathlib.Analysis.SpecialFunctions.Pow.Real

/-!
# What the electromagnetic kernel of fdemmodc guarantees
-/

namespace Verif.Em

open Verif.Sten

/-! ## Specification: Maxwell's equations on the staggered grid -/

section Spec
variable {K : Type} [CommRing K]

/-- Value of an array at column `ix`, row `iz`. -/
def val (g : Cfg) (m : Ar × Int → K) (a : Ar) (ix iz : Int) : K := m (a, ix * g.naz + iz)

/-- Fourth-order difference over half a step: `f 0`, `f (-1)` are the near points, `f 1`, `f (-2)` the far ones. -/
def diff (c1 c2 : K) (f : Int → K) : K := c1 * (f 0 - f (-1)) + c2 * (f 1 - f (-2))

/-- The points at which the three fields are advanced. -/
def InHz (g : Cfg) (ix iz : Int) : Prop := g.ioXx ≤ ix ∧ ix < g.ieXx ∧ g.ioXz ≤ iz ∧ iz < g.ieXz
def InHx (g : Cfg) (ix iz : Int) : Prop := g.ioZx ≤ ix ∧ ix < g.ieZx ∧ g.ioZz ≤ iz ∧ iz < g.ieZz
def InEy (g : Cfg) (ix iz : Int) : Prop := g.ioP ≤ ix ∧ ix < g.iePx ∧ g.ioP ≤ iz ∧ iz < g.iePz

end Spec

/-! ## Lemmas -/

section
variable {K : Type} [CommRing K] {g : Cfg} {r c1 c2 : K}

/-- The magnetic fields. -/
def Mag : Ar × Int → Prop
  | (.hz, _) => True
  | (.hx, _) => True
  | _ => False

omit [CommRing K] in
theorem hz_pt (hv : Valid g) {ix iz : Int} (h : InHz g ix iz) : 2 ≤ ix ∧ ix + 1 < g.nax ∧ 1 ≤ iz ∧ iz < g.naz := by
  obtain ⟨h1, h2, h3, h4, h5, h6, h7⟩ := hv
  simp only [InHz, Cfg.ioXx, Cfg.ieXx, Cfg.ioXz, Cfg.ieXz] at h
  simp only [Cfg.nax, Cfg.naz]
  omega

omit [CommRing K] in
theorem hx_pt (hv : Valid g) {ix iz : Int} (h : InHx g ix iz) : 1 ≤ ix ∧ ix < g.nax ∧ 2 ≤ iz ∧ iz + 1 < g.naz := by
  obtain ⟨h1, h2, h3, h4, h5, h6, h7⟩ := hv
  simp only [InHx, Cfg.ioZx, Cfg.ieZx, Cfg.ioZz, Cfg.ieZz] at h
  simp only [Cfg.nax, Cfg.naz]
  omega

omit [CommRing K] in
theorem hz_key (hv : Valid g) {ix iz : Int} (h : InHz g ix iz) :
    InKey Mag (colOf g.naz) ix (hzS g r c1 c2 ix iz) ∧ InKey Mag (rowOf g.naz) iz (hzS g r c1 c2 ix iz) := by
  have p := hz_pt hv h
  have e1 : ∀ a, rowOf g.naz ((a : Ar), el g.naz ix iz) = iz := fun a => rowOf_el (by omega) (by omega)
  have e2 : ∀ a, colOf g.naz ((a : Ar), el g.naz ix iz) = ix := fun a => colOf_el (by omega) (by omega)
  refine ⟨⟨trivial, ?_⟩, ⟨trivial, ?_⟩⟩ <;> cells [hzS, rd, Mag, e1, e2]

omit [CommRing K] in
theorem hx_key (hv : Valid g) {ix iz : Int} (h : InHx g ix iz) :
    InKey Mag (colOf g.naz) ix (hxS g r c1 c2 ix iz) ∧ InKey Mag (rowOf g.naz) iz (hxS g r c1 c2 ix iz) := by
  have p := hx_pt hv h
  have e1 : ∀ a, rowOf g.naz ((a : Ar), el g.naz ix iz) = iz := fun a => rowOf_el (by omega) (by omega)
  have e2 : ∀ a, colOf g.naz ((a : Ar), el g.naz ix iz) = ix := fun a => colOf_el (by omega) (by omega)
  refine ⟨⟨trivial, ?_⟩, ⟨trivial, ?_⟩⟩ <;> cells [hxS, rd, Mag, e1, e2]

omit [CommRing K] in
theorem mem_hz {s : Stmt (Ar × Int) K} (h : s ∈ (sweep g.ioXx g.ieXx g.ioXz g.ieXz fun ix iz => [hzS g r c1 c2 ix iz]).flatten) :
    ∃ ix iz, InHz g ix iz ∧ s = hzS g r c1 c2 ix iz := by
  have key := all_sweep (Q := fun s => ∃ ix iz, InHz g ix iz ∧ s = hzS g r c1 c2 ix iz)
    fun ix a b iz c d => all_one ⟨ix, iz, ⟨a, b, c, d⟩, rfl⟩
  exact key s h

omit [CommRing K] in
theorem mem_hx {s : Stmt (Ar × Int) K} (h : s ∈ (sweep g.ioZx g.ieZx g.ioZz g.ieZz fun ix iz => [hxS g r c1 c2 ix iz]).flatten) :
    ∃ ix iz, InHx g ix iz ∧ s = hxS g r c1 c2 ix iz := by
  have key := all_sweep (Q := fun s => ∃ ix iz, InHx g ix iz ∧ s = hxS g r c1 c2 ix iz)
    fun ix a b iz c d => all_one ⟨ix, iz, ⟨a, b, c, d⟩, rfl⟩
  exact key s h

omit [CommRing K] in
theorem mag_apart (hv : Valid g) : (magPhase g r c1 c2).Pairwise Apart := by
  unfold magPhase
  refine append_apart ?_ ?_ ?_
  · refine parfor_apart Mag (colOf g.naz) fun ix a b s hs => ?_
    obtain ⟨iz, c, d, hs⟩ := mem_loop.mp hs
    rw [List.mem_singleton] at hs
    subst hs
    exact (hz_key hv ⟨a, b, c, d⟩).1
  · refine parfor_apart Mag (colOf g.naz) fun ix a b s hs => ?_
    obtain ⟨iz, c, d, hs⟩ := mem_loop.mp hs
    rw [List.mem_singleton] at hs
    subst hs
    exact (hx_key hv ⟨a, b, c, d⟩).1
  · intro s hs s' hs'
    obtain ⟨ix, iz, -, rfl⟩ := mem_hz hs
    obtain ⟨jx, jz, -, rfl⟩ := mem_hx hs'
    constructor <;> intro hc <;>
      simp only [hzS, hxS, rd, Stmt.cells, rds_add, rds_sub, rds_mul, rds_rd, rds_c, List.mem_cons, List.mem_append,
        List.not_mem_nil, Prod.mk.injEq, reduceCtorEq, false_and, or_self] at hc

/-- The memory after the magnetic loops. -/
theorem mag_hz (hv : Valid g) (m : Ar × Int → K) {ix iz : Int} (h : InHz g ix iz) :
    run (magPhase g r c1 c2).flatten m (.hz, el g.naz ix iz) = (hzS g r c1 c2 ix iz).e.eval m := by
  have p := hz_pt hv h
  unfold magPhase
  rw [List.flatten_append, run_append, run_untouched]
  · rw [run_sweep_el (W := Mag) (n := g.naz) _ h.1 h.2.1 h.2.2.1 h.2.2.2 (by omega) (by omega)]
    · show Verif.Par.store m _ _ _ = _
      unfold Verif.Par.store
      exact if_pos rfl
    · intro jx a b jz c d s hs
      rw [List.mem_singleton] at hs
      subst hs
      exact hz_key hv ⟨a, b, c, d⟩
  · intro s hs e
    obtain ⟨jx, jz, -, rfl⟩ := mem_hx hs
    cases e

theorem mag_hx (hv : Valid g) (m : Ar × Int → K) {ix iz : Int} (h : InHx g ix iz) :
    run (magPhase g r c1 c2).flatten m (.hx, el g.naz ix iz) = (hxS g r c1 c2 ix iz).e.eval m := by
  have p := hx_pt hv h
  unfold magPhase
  rw [List.flatten_append, run_append, run_sweep_el (W := Mag) (n := g.naz) _ h.1 h.2.1 h.2.2.1 h.2.2.2 (by omega) (by omega)]
  · show Verif.Par.store _ _ _ _ = _
    unfold Verif.Par.store
    refine (if_pos rfl).trans ?_
    refine Expr.eval_congr _ fun a ha => run_untouched (fun s hs e => ?_) m
    obtain ⟨jx, jz, -, rfl⟩ := mem_hz hs
    simp only [hzS, hxS, rd, rds_add, rds_sub, rds_mul, rds_rd, rds_c, List.mem_cons, List.mem_append,
      List.not_mem_nil, or_false, false_or] at ha e
    (repeat' (rcases ha with ha | ha)) <;> cases e
  · intro jx a b jz c d s hs
    rw [List.mem_singleton] at hs
    subst hs
    exact hx_key hv ⟨a, b, c, d⟩

theorem mag_other (m : Ar × Int → K) (c : Ar × Int)
    (h : ∀ ix iz, (InHz g ix iz → c ≠ (.hz, el g.naz ix iz)) ∧ (InHx g ix iz → c ≠ (.hx, el g.naz ix iz))) :
    run (magPhase g r c1 c2).flatten m c = m c := by
  refine run_untouched (fun s hs e => ?_) m
  unfold magPhase at hs
  rw [List.flatten_append, List.mem_append] at hs
  rcases hs with hs | hs
  · obtain ⟨ix, iz, hi, rfl⟩ := mem_hz hs
    exact (h ix iz).1 hi e.symm
  · obtain ⟨ix, iz, hi, rfl⟩ := mem_hx hs
    exact (h ix iz).2 hi e.symm

/-- The electric field at a point of a column. -/
theorem column_at (hv : Valid g) {T : Nat} {s : Int → Int → Nat} (hs : ∀ ix iz, s ix iz < T) (m : Ar × Int → K) {ix iz : Int}
    (hr : iz ∈ rows g) : run (column g c1 c2 T s s s ix).flatten m (.ey, el g.naz ix iz) =
      run [dxS g c1 c2 (s ix iz) ix iz, dzS g c1 c2 (s ix iz) ix iz, eyS g (s ix iz) ix iz] m (.ey, el g.naz ix iz) := by
  obtain ⟨p1, p2⟩ := row_lt hv hr
  rw [run_filter (W := Wr) (κ := rowOf g.naz) iz _ _ m m (fun _ _ => rfl) _ (fun _ => rowOf_el (by omega) (by omega))]
  · congr 1
    unfold column
    rw [← List.flatMap_def, List.filter_flatMap]
    have key : ∀ t, (thread g c1 c2 s s s ix t).filter (fun st => decide (rowOf g.naz st.dst = iz)) =
        if s ix iz = t then [dxS g c1 c2 t ix iz, dzS g c1 c2 t ix iz, eyS g t ix iz] else [] := by
      intro t
      have part : ∀ (f : Int → Stmt (Ar × Int) K), (∀ jz ∈ rows g, rowOf g.naz (f jz).dst = jz) →
          (((rows g).filter fun jz => s ix jz = t).map f).filter (fun st => decide (rowOf g.naz st.dst = iz)) =
            if s ix iz = t then [f iz] else [] := by
        intro f hf
        rw [List.filter_map, List.filter_filter]
        have e : ((rows g).filter fun jz => ((fun st : Stmt (Ar × Int) K => decide (rowOf g.naz st.dst = iz)) ∘ f) jz &&
            decide (s ix jz = t)) = (rows g).filter fun jz => decide (s ix jz = t) && decide (jz = iz) := by
          refine List.filter_congr fun jz hj => ?_
          simp only [Function.comp_apply, hf jz hj]
          rw [Bool.and_comm]
        rw [e]
        by_cases q : s ix iz = t
        · rw [if_pos q, filter_eq_one (P := fun jz => decide (s ix jz = t)) rows_nodup hr (by simpa using q)]
          rfl
        · rw [if_neg q, List.map_eq_nil_iff, List.filter_eq_nil_iff]
          intro jz _ hc
          simp only [Bool.and_eq_true, decide_eq_true_eq] at hc
          exact q (hc.2 ▸ hc.1)
      unfold thread
      rw [List.filter_append, List.filter_append, part, part, part]
      · split_ifs <;> rfl
      · intro jz hj
        have := row_lt hv hj
        exact rowOf_el (by omega) (by omega)
      · intro jz hj
        have := row_lt hv hj
        exact Int.emod_eq_of_lt (a := jz) (by omega) (by omega)
      · intro jz hj
        have := row_lt hv hj
        exact Int.emod_eq_of_lt (a := jz) (by omega) (by omega)
    simp only [key]
    rw [flatMap_one _ T (s ix iz) (hs ix iz)]
    · rw [if_pos rfl]
    · intro u _ hne
      rw [if_neg fun e => hne e.symm]
  · intro st hst
    unfold column at hst
    rw [← List.flatMap_def, List.mem_flatMap] at hst
    obtain ⟨t, -, hst⟩ := hst
    exact thread_key hv hst

/-- What a column leaves alone. -/
theorem column_other {T : Nat} {s1 s2 s3 : Int → Int → Nat} (m : Ar × Int → K) {ix : Int} (c : Ar × Int)
    (h : ∀ t iz, c ≠ (.dx t, iz) ∧ c ≠ (.dz t, iz) ∧ (iz ∈ rows g → c ≠ (.ey, el g.naz ix iz))) :
    run (column g c1 c2 T s1 s2 s3 ix).flatten m c = m c := by
  refine run_untouched (fun st hst e => ?_) m
  unfold column at hst
  rw [← List.flatMap_def, List.mem_flatMap] at hst
  obtain ⟨t, -, hst⟩ := hst
  obtain ⟨iz, hr, h'⟩ := mem_thread.mp hst
  rcases h' with ⟨-, rfl⟩ | ⟨-, rfl⟩ | ⟨-, rfl⟩
  · exact (h t iz).1 e.symm
  · exact (h t iz).2.1 e.symm
  · exact (h t iz).2.2 hr e.symm

/-- Ampère's law at a point, from the memory `m`. -/
def newEy (g : Cfg) (c1 c2 : K) (m : Ar × Int → K) (ix iz : Int) : K :=
  val g m .ey ix iz - (val g m .eprs ix iz *
    (diff c1 c2 (fun j => val g m .hx ix (iz + 1 + j)) + diff c1 c2 (fun j => val g m .hz (ix + 1 + j) iz)) +
    val g m .ks ix iz * val g m .ey ix iz)

theorem three (m : Ar × Int → K) (t : Nat) (ix iz : Int) :
    run [dxS g c1 c2 t ix iz, dzS g c1 c2 t ix iz, eyS g t ix iz] m (.ey, el g.naz ix iz) = newEy g c1 c2 m ix iz := by
  have e1 : ix + 1 + -1 = ix := by omega
  have e2 : ix + 1 + 1 = ix + 2 := by omega
  have e3 : ix + 1 + -2 = ix - 1 := by omega
  have e4 : iz + 1 + -1 = iz := by omega
  have e5 : iz + 1 + 1 = iz + 2 := by omega
  have e6 : iz + 1 + -2 = iz - 1 := by omega
  simp only [run, List.foldl_cons, List.foldl_nil, Stmt.run, Verif.Par.store, dxS, dzS, eyS, rd, eval_sub,
    Expr.eval, if_true, Prod.mk.injEq, reduceCtorEq, false_and, if_false, newEy, val, diff, el, e1, e2, e3, e4, e5, e6, add_zero]

/-- The loop over the columns. -/
theorem columns_at (hv : Valid g) {T : Nat} {s : Int → Int → Nat} (hs : ∀ ix iz, s ix iz < T) (L : List Int) (hL : L.Nodup)
    (m : Ar × Int → K) :
    (∀ ix ∈ L, ∀ iz ∈ rows g, run (seqOf (L.map (column g c1 c2 T s s s))) m (.ey, el g.naz ix iz) = newEy g c1 c2 m ix iz) ∧
    ∀ c, (∀ t iz, c ≠ (.dx t, iz) ∧ c ≠ (.dz t, iz)) → (∀ ix ∈ L, ∀ iz ∈ rows g, c ≠ (.ey, el g.naz ix iz)) →
      run (seqOf (L.map (column g c1 c2 T s s s))) m c = m c := by
  induction L generalizing m with
  | nil =>
    constructor
    · intro ix h; cases h
    · intros; rfl
  | cons jx L ih =>
    rw [List.nodup_cons] at hL
    have e : ∀ c, run (seqOf ((jx :: L).map (column g c1 c2 T s s s))) m c =
        run (seqOf (L.map (column g c1 c2 T s s s))) (run (column g c1 c2 T s s s jx).flatten m) c := by
      intro c
      rw [List.map_cons]
      unfold seqOf
      rw [List.flatten_cons, List.flatten_append, run_append]
    have hcol : ∀ ix iz, iz ∈ rows g → ix ≠ jx → ∀ a, ((∀ t, a ≠ Ar.dx t) ∧ (∀ t, a ≠ Ar.dz t)) →
        run (column g c1 c2 T s s s jx).flatten m (a, el g.naz ix iz) = m (a, el g.naz ix iz) := by
      intro ix iz hr hne a ha
      refine column_other m _ fun t kz => ⟨fun q => ha.1 t (Prod.mk.inj q).1, fun q => ha.2 t (Prod.mk.inj q).1, fun hk q => ?_⟩
      have p := row_lt hv hr
      have p' := row_lt hv hk
      have h1 := colOf_el (n := g.naz) (ix := ix) (iz := iz) (a := a) (by omega) (by omega)
      rw [q, colOf_el (by omega) (by omega)] at h1
      exact hne h1.symm
    obtain ⟨h1, h2⟩ := ih hL.2 (run (column g c1 c2 T s s s jx).flatten m)
    constructor
    · intro ix hx iz hr
      rw [e]
      rcases List.mem_cons.mp hx with rfl | hx
      · rw [h2 _ (fun t kz => ⟨by simp, by simp⟩), column_at hv hs m hr, three]
        intro kx hk kz hz q
        have p := row_lt hv hr
        have p' := row_lt hv hz
        have h3 := colOf_el (n := g.naz) (ix := ix) (iz := iz) (a := Ar.ey) (by omega) (by omega)
        rw [q, colOf_el (by omega) (by omega)] at h3
        exact hL.1 (h3 ▸ hk)
      · rw [h1 ix hx iz hr]
        have hne : ix ≠ jx := fun q => hL.1 (q ▸ hx)
        have other : ∀ a, (∀ t, a ≠ Ar.dx t) → (∀ t, a ≠ Ar.dz t) → a ≠ .ey → ∀ i,
            run (column g c1 c2 T s s s jx).flatten m (a, i) = m (a, i) := by
          intro a p q u i
          exact column_other m _ fun t kz => ⟨fun w => p t (Prod.mk.inj w).1, fun w => q t (Prod.mk.inj w).1,
            fun _ w => u (Prod.mk.inj w).1⟩
        have ho1 := other .hz (by simp) (by simp) (by simp)
        have ho2 := other .hx (by simp) (by simp) (by simp)
        have ho3 := other .eprs (by simp) (by simp) (by simp)
        have ho4 := other .ks (by simp) (by simp) (by simp)
        have ho5 := hcol ix iz hr hne .ey ⟨by simp, by simp⟩
        unfold el at ho5
        simp only [newEy, val, diff, ho1, ho2, ho3, ho4, ho5]
    · intro c hc1 hc2
      rw [e, h2 c hc1 fun ix hx => hc2 ix (by simp [hx])]
      exact column_other m c fun t kz => ⟨(hc1 t kz).1, (hc1 t kz).2, fun hk => hc2 jx (by simp) kz hk⟩

omit [CommRing K] in
theorem phases_free (hv : Valid g) (T : Nat) (s1 s2 s3 : Int → Int → Nat) :
    ∀ ph ∈ phases g r c1 c2 T s1 s2 s3, PhaseFree ph := by
  intro ph hp
  unfold phases at hp
  rcases List.mem_cons.mp hp with rfl | hp
  · exact phaseFree_of_pairwise (mag_apart hv)
  · obtain ⟨ix, -, rfl⟩ := List.mem_map.mp hp
    exact phaseFree_of_pairwise (column_apart hv T s1 s2 s3 ix)

theorem run_phases (T : Nat) (s1 s2 s3 : Int → Int → Nat) (m : Ar × Int → K) :
    run (seqOf (phases g r c1 c2 T s1 s2 s3)) m =
      run (seqOf ((cols g).map (column g c1 c2 T s1 s2 s3))) (run (magPhase g r c1 c2).flatten m) := by
  unfold phases seqOf
  rw [List.flatten_cons, List.flatten_append, run_append]

end

/-! ## Theorems -/

section
variable {K : Type} [CommRing K] {g : Cfg} {r c1 c2 : K}

/-- C191: the loops of the electromagnetic step touch no memory outside the fields, the media and the work arrays, when the order
is at least 4. -/
theorem em_in_bounds (hv : Valid g) (T : Nat) (s1 s2 s3 : Int → Int → Nat) (m : Ar × Int → K) :
    runChecked (ok g) (seqOf (phases g r c1 c2 T s1 s2 s3)) m = some (run (seqOf (phases g r c1 c2 T s1 s2 s3)) m) := by
  rw [runChecked_eq, if_pos]
  intro st hst
  have fld : ∀ a ix iz, (∀ t, a ≠ Ar.dx t) → (∀ t, a ≠ Ar.dz t) → 0 ≤ ix → ix < g.nax → 0 ≤ iz → iz < g.naz →
      ok g (a, el g.naz ix iz) = true := by
    intro a ix iz n1 n2 h1 h2 h3 h4
    have := el_range h1 h2 h3 h4
    cases a <;> first
      | exact absurd rfl (n1 _)
      | exact absurd rfl (n2 _)
      | (simp only [ok]; simp [this.1, this.2])
  have scr : ∀ t iz, 0 ≤ iz → iz < g.naz → ok g (Ar.dx t, iz) = true ∧ ok g (Ar.dz t, iz) = true := by
    intro t iz h1 h2
    simp only [ok]; simp [h1, h2]
  unfold phases seqOf at hst
  rw [List.flatten_cons, List.flatten_append, List.mem_append] at hst
  rcases hst with hst | hst
  · unfold magPhase at hst
    rw [List.flatten_append, List.mem_append] at hst
    rcases hst with hst | hst
    · obtain ⟨ix, iz, hi, rfl⟩ := mem_hz hst
      have p := hz_pt hv hi
      cells [hzS, rd]
      refine ⟨?_, ?_, ?_, ?_, ?_, ?_⟩ <;> exact fld _ _ _ (by simp) (by simp) (by omega) (by omega) (by omega) (by omega)
    · obtain ⟨ix, iz, hi, rfl⟩ := mem_hx hst
      have p := hx_pt hv hi
      cells [hxS, rd]
      refine ⟨?_, ?_, ?_, ?_, ?_, ?_⟩ <;> exact fld _ _ _ (by simp) (by simp) (by omega) (by omega) (by omega) (by omega)
  · rw [List.mem_flatten] at hst
    obtain ⟨th, hth, hst⟩ := hst
    rw [List.mem_flatten] at hth
    obtain ⟨ph, hph, hth⟩ := hth
    obtain ⟨ix, hx, rfl⟩ := List.mem_map.mp hph
    obtain ⟨t, -, rfl⟩ := List.mem_map.mp hth
    obtain ⟨iz, hr, h⟩ := mem_thread.mp hst
    have p := row_lt hv hr
    have q := col_lt hv hx
    rcases h with ⟨-, rfl⟩ | ⟨-, rfl⟩ | ⟨-, rfl⟩
    · cells [dxS, rd]
      refine ⟨(scr t iz (by omega) (by omega)).1, ?_, ?_, ?_, ?_⟩ <;>
        exact fld _ _ _ (by simp) (by simp) (by omega) (by omega) (by omega) (by omega)
    · cells [dzS, rd]
      refine ⟨(scr t iz (by omega) (by omega)).2, ?_, ?_, ?_, ?_⟩ <;>
        exact fld _ _ _ (by simp) (by simp) (by omega) (by omega) (by omega) (by omega)
    · cells [eyS, rd]
      refine ⟨?_, ?_, ?_, ?_, ?_, ?_, ?_⟩ <;>
        first
        | exact fld _ _ _ (by simp) (by simp) (by omega) (by omega) (by omega) (by omega)
        | exact (scr t iz (by omega) (by omega)).1
        | exact (scr t iz (by omega) (by omega)).2

/-- C191 (violation): `iorder=2`, which the parameter allows, always reads before the beginning of the magnetic field. -/
theorem em_order_two (hx : 1 ≤ g.nx) (hz : 1 ≤ g.nz) (hi : g.io = 2) (h1 : 0 ≤ g.pt) (h2 : 0 ≤ g.pb) (h3 : 0 ≤ g.pl)
    (h4 : 0 ≤ g.pr) (T : Nat) (s1 s2 s3 : Int → Int → Nat) (hs : ∀ ix iz, s1 ix iz < T) (m : Ar × Int → K) :
    runChecked (ok g) (seqOf (phases g r c1 c2 T s1 s2 s3)) m = none := by
  rw [runChecked_eq, if_neg]
  intro h
  have hc : (0 : Int) ∈ cols g := by rw [mem_cols]; simp only [Cfg.ioP, Cfg.iePx]; omega
  have hr : (0 : Int) ∈ rows g := by rw [mem_rows]; simp only [Cfg.ioP, Cfg.iePz]; omega
  have := h (dxS g c1 c2 (s1 0 0) 0 0) (by
    unfold phases seqOf
    rw [List.flatten_cons, List.flatten_append, List.mem_append]
    right
    rw [List.mem_flatten]
    refine ⟨thread g c1 c2 s1 s2 s3 0 (s1 0 0), ?_, mem_thread.mpr ⟨0, hr, .inl ⟨rfl, rfl⟩⟩⟩
    rw [List.mem_flatten]
    exact ⟨_, List.mem_map.mpr ⟨0, hc, rfl⟩, List.mem_map.mpr ⟨_, List.mem_range.mpr (hs 0 0), rfl⟩⟩)
    (.hz, el g.naz (0 - 1) 0) (by
      simp only [dxS, rd, Stmt.cells, rds_add, rds_sub, rds_mul, rds_rd, rds_c, List.mem_cons, List.mem_append, List.not_mem_nil,
        or_false, or_true])
  have hn : ok g (.hz, el g.naz (0 - 1) 0) = (decide (0 ≤ el g.naz (0 - 1) 0) && decide (el g.naz (0 - 1) 0 < g.nax * g.naz)) := rfl
  rw [hn, Bool.and_eq_true, decide_eq_true_eq] at this
  have h0 := this.1
  simp only [el, Cfg.naz] at h0
  omega

/-- C192: when each row of a column is handled by the same thread in the three loops (as with a static schedule), every
interleaving of the threads advances the magnetic fields by Faraday's law from the old electric field, the electric field by
Ampère's law from the new magnetic fields, and nothing else. -/
theorem em_update (hv : Valid g) (T : Nat) (s : Int → Int → Nat) (hs : ∀ ix iz, s ix iz < T) (m m' : Ar × Int → K)
    (h : ParResult (phases g r c1 c2 T s s s) m m') :
    (∀ ix iz, InHz g ix iz → val g m' .hz ix iz = val g m .hz ix iz - r * diff c1 c2 (fun j => val g m .ey (ix + j) iz)) ∧
    (∀ ix iz, InHx g ix iz → val g m' .hx ix iz = val g m .hx ix iz - r * diff c1 c2 (fun j => val g m .ey ix (iz + j))) ∧
    (∀ ix iz, InEy g ix iz → val g m' .ey ix iz = val g m .ey ix iz - (val g m .eprs ix iz *
      (diff c1 c2 (fun j => val g m' .hx ix (iz + 1 + j)) + diff c1 c2 (fun j => val g m' .hz (ix + 1 + j) iz)) +
      val g m .ks ix iz * val g m .ey ix iz)) ∧
    (∀ c, (∀ ix iz, (InHz g ix iz → c ≠ (.hz, ix * g.naz + iz)) ∧ (InHx g ix iz → c ≠ (.hx, ix * g.naz + iz)) ∧
      (InEy g ix iz → c ≠ (.ey, ix * g.naz + iz))) → (∀ t i, c ≠ (.dx t, i) ∧ c ≠ (.dz t, i)) → m' c = m c) := by
  have hm := parResult_unique (phases_free hv T s s s) h
  rw [run_phases] at hm
  obtain ⟨c1', c2'⟩ := columns_at (c1 := c1) (c2 := c2) hv hs (cols g) cols_nodup (run (magPhase g r c1 c2).flatten m)
  have keep : ∀ a, (∀ t, a ≠ Ar.dx t) → (∀ t, a ≠ Ar.dz t) → a ≠ .ey → ∀ i, m' (a, i) = run (magPhase g r c1 c2).flatten m (a, i) := by
    intro a p q u i
    rw [hm]
    exact c2' _ (fun t kz => ⟨fun w => p t (Prod.mk.inj w).1, fun w => q t (Prod.mk.inj w).1⟩) fun _ _ _ _ w => u (Prod.mk.inj w).1
  have mo : ∀ a, a ≠ .hz → a ≠ .hx → ∀ i, run (magPhase g r c1 c2).flatten m (a, i) = m (a, i) := by
    intro a p q i
    exact mag_other m _ fun ix iz => ⟨fun _ w => p (Prod.mk.inj w).1, fun _ w => q (Prod.mk.inj w).1⟩
  refine ⟨?_, ?_, ?_, ?_⟩
  · intro ix iz hi
    show m' (.hz, el g.naz ix iz) = _
    rw [keep .hz (by simp) (by simp) (by simp), mag_hz hv m hi]
    simp only [hzS, rd, eval_sub, Expr.eval, val, diff, el, add_zero, ← sub_eq_add_neg]
  · intro ix iz hi
    show m' (.hx, el g.naz ix iz) = _
    rw [keep .hx (by simp) (by simp) (by simp), mag_hx hv m hi]
    simp only [hxS, rd, eval_sub, Expr.eval, val, diff, el, add_zero, ← sub_eq_add_neg]
  · intro ix iz hi
    have e1 := c1' ix (mem_cols.mpr ⟨hi.1, hi.2.1⟩) iz (mem_rows.mpr hi.2.2)
    rw [← hm] at e1
    show m' (.ey, el g.naz ix iz) = _
    rw [e1]
    unfold newEy
    simp only [val, diff, mo .ey (by simp) (by simp), mo .eprs (by simp) (by simp), mo .ks (by simp) (by simp),
      ← keep .hz (by simp) (by simp) (by simp), ← keep .hx (by simp) (by simp) (by simp)]
  · intro c h1 h2
    rw [hm, c2' c (fun t kz => h2 t kz), mag_other]
    · intro ix iz
      exact ⟨(h1 ix iz).1, (h1 ix iz).2.1⟩
    · intro ix hx iz hr
      rw [mem_cols] at hx
      rw [mem_rows] at hr
      exact (h1 ix iz).2.2 ⟨hx.1, hx.2, hr⟩

end

/-- C192: whatever rows the threads handle, the result does not depend on how their work interleaves (there is no data race). -/
theorem em_schedule {K : Type} [CommRing K] {g : Cfg} {r c1 c2 : K} (hv : Valid g) (T : Nat) (s1 s2 s3 : Int → Int → Nat)
    (m m1 m2 : Ar × Int → K) (h1 : ParResult (phases g r c1 c2 T s1 s2 s3) m m1)
    (h2 : ParResult (phases g r c1 c2 T s1 s2 s3) m m2) : m1 = m2 :=
  (parResult_unique (phases_free hv T s1 s2 s3) h1).trans (parResult_unique (phases_free hv T s1 s2 s3) h2).symm

/-! ## Cases -/

/-- A grid of 2×2 points, order 4, no extra points. -/
def g0 : Cfg := ⟨2, 2, 4, 0, 0, 0, 0⟩

example : Valid g0 := ⟨by decide, by decide, by decide, by decide, by decide, by decide, by decide⟩
example : InEy g0 1 1 ∧ InHz g0 2 1 ∧ InHx g0 1 2 := by unfold InEy InHz InHx; decide

/-- One row of one column, two threads. -/
def g1 : Cfg := ⟨1, 1, 4, 0, 0, 0, 0⟩

/-- A magnetic field that changes from column to column. -/
def m1 : Ar × Int → Int := fun c => if c.1 = .hz ∧ c.2 = 11 then 1 else if c.1 = .eprs then 1 else 0

/-- C192 (violation): nothing in the code ties the three loops to the same threads.  If the third loop of a row is executed by
another thread than the first, the field is advanced with the wrong differences (here thread 1 finds zeros where thread 0 has
stored the difference 1). -/
theorem em_other_thread :
    ParResult (phases g1 (0 : Int) 1 0 2 (fun _ _ => 0) (fun _ _ => 0) (fun _ _ => 1)) m1
        (run (seqOf (phases g1 (0 : Int) 1 0 2 (fun _ _ => 0) (fun _ _ => 0) (fun _ _ => 1))) m1) ∧
    run (seqOf (phases g1 (0 : Int) 1 0 2 (fun _ _ => 0) (fun _ _ => 0) (fun _ _ => 1))) m1 (.ey, 6) = 0 ∧
    run (seqOf (phases g1 (0 : Int) 1 0 2 (fun _ _ => 0) (fun _ _ => 0) (fun _ _ => 0))) m1 (.ey, 6) = -1 := by
  refine ⟨?_, by decide +kernel, by decide +kernel⟩
  obtain ⟨m', h⟩ := parResult_exists (phases g1 (0 : Int) 1 0 2 (fun _ _ => 0) (fun _ _ => 0) (fun _ _ => 1)) m1
  have := parResult_unique (phases_free (g := g1) ⟨by decide, by decide, by decide, by decide, by decide, by decide, by decide⟩ 2 _ _ _) h
  rwa [this] at h

/-! ## Constants -/

open Real in
/-- The magnetic constant of the program (em4.c:75, readEmModel.c:53, getEmParameters.c:166): `4.0*M_PI*10e-7`. -/
noncomputable def mu0 : ℝ := 4 * π * (10 * (10 : ℝ)⁻¹ ^ 7)

/-- The electric constant of the program (em4.c:76): `1/(c0 c0 mu0)`. -/
noncomputable def eps0 (c0 : ℝ) : ℝ := 1 / (c0 * c0 * mu0)

open Real in
/-- C193 (violation): the magnetic constant is ten times the `4π·10⁻⁷` of the SI. -/
theorem mu0_ten_times : mu0 = 10 * (4 * π * (10 : ℝ)⁻¹ ^ 7) := by unfold mu0; ring

open Real in
/-- C193: the velocity `1/√(mu0 eps0 er)` used for the stability test is nevertheless the velocity of light divided by `√er`. -/
theorem velocity_right (c0 er : ℝ) (hc : 0 < c0) (he : 0 < er) : 1 / √(mu0 * eps0 c0 * er) = c0 / √er := by
  have hm : 0 < mu0 := by
    unfold mu0
    have := Real.pi_pos
    positivity
  have e : mu0 * eps0 c0 * er = er / (c0 * c0) := by
    unfold eps0
    field_simp
  rw [e, Real.sqrt_div he.le, Real.sqrt_mul_self hc.le, one_div_div]

end Verif.Em

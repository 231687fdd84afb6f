import Verif.Base.Stencil

/-!
# Threads that clear elements and then all write back saved ones

Every thread clears its share of the elements and then writes back all saved elements; there is no barrier in between.
Whatever the interleaving, the saved elements end up with their saved values: the last write to such an element is a write
back, because every thread that clears it writes it back later.
-/

namespace Verif.Sten

open Verif.Par

universe u v
variable {A : Type u} [DecidableEq A] {K : Type v} [CommRing K]

/-- The threads: `Z` are the elements cleared by each thread, `R` the elements written back by all of them. -/
def restorePhase (Z : List (List (Stmt A K))) (R : List (Stmt A K)) : List (List (Stmt A K)) := Z.map (· ++ R)

/-- `R` writes back saved elements: each assignment copies an element that is neither cleared nor written back, and elements
written back twice get the same value. -/
def WritesBack (Z : List (List (Stmt A K))) (R : List (Stmt A K)) (m : A → K) (V : A → K) : Prop :=
  ∀ s ∈ R, ∃ a, s.e = .rd a ∧ m a = V s.dst ∧ (∀ s' ∈ R, s'.dst ≠ a) ∧ ∀ s' ∈ Z.flatten, s'.dst ≠ a

omit [DecidableEq A] in
theorem restore_threads {Z : List (List (Stmt A K))} {R : List (Stmt A K)} {t : Nat} (ht : t < Z.length) :
    threads (restorePhase Z R) t = Z[t].map Stmt.instr ++ R.map Stmt.instr := by
  unfold threads restorePhase
  rw [List.getD_eq_getElem?_getD, List.getElem?_eq_getElem (by simpa using ht)]
  simp

omit [DecidableEq A] in
theorem restore_threads_none {Z : List (List (Stmt A K))} {R : List (Stmt A K)} {t : Nat} (ht : ¬ t < Z.length) :
    threads (restorePhase Z R) t = [] := by
  unfold threads restorePhase
  rw [List.getD_eq_getElem?_getD, List.getElem?_eq_none (by simp; omega)]
  rfl

omit [DecidableEq A] in
/-- An instruction of the phase clears an element or writes one back. -/
theorem restore_instr {Z : List (List (Stmt A K))} {R : List (Stmt A K)} (hz : ZeroPhase Z) {m V : A → K}
    (hr : WritesBack Z R m V) {t j : Nat} {i : Instr A K} (h : (threads (restorePhase Z R) t)[j]? = some i) :
    (i.reads = [] ∧ (∀ l, i.f l = 0) ∧ (∃ s ∈ Z.flatten, s.dst = i.dst) ∧
      ∀ s ∈ R, ∃ j' i', j < j' ∧ (threads (restorePhase Z R) t)[j']? = some i' ∧ i'.dst = s.dst ∧ i'.reads ≠ []) ∨
    (∃ s ∈ R, s.dst = i.dst ∧ ∃ a, i.reads = [a] ∧ m a = V i.dst ∧ (∀ l, i.f [l] = l) ∧ (∀ s' ∈ R, s'.dst ≠ a) ∧
      ∀ s' ∈ Z.flatten, s'.dst ≠ a) := by
  by_cases ht : t < Z.length
  · rw [restore_threads ht] at h ⊢
    by_cases hj : j < Z[t].length
    · left
      rw [List.getElem?_append_left (by simpa using hj)] at h
      have hm := List.mem_of_getElem? h
      obtain ⟨s, hs, rfl⟩ := List.mem_map.mp hm
      have he := hz _ (List.getElem_mem ht) s hs
      refine ⟨?_, ?_, ⟨s, List.mem_flatten.mpr ⟨_, List.getElem_mem ht, hs⟩, rfl⟩, ?_⟩
      · show s.e.reads = []; rw [he]; rfl
      · intro l; show (s.e.evalL l).1 = 0; rw [he]; rfl
      · intro s' hs'
        obtain ⟨n, hn, rfl⟩ := List.getElem_of_mem hs'
        refine ⟨Z[t].length + n, R[n].instr, by omega, ?_, rfl, ?_⟩
        · rw [List.getElem?_append_right (by simp)]
          simp [hn]
        · obtain ⟨a, ha, _⟩ := hr _ hs'
          show R[n].e.reads ≠ []
          rw [ha]; simp [Expr.reads]
    · right
      rw [List.getElem?_append_right (by simp; omega)] at h
      have hm := List.mem_of_getElem? h
      obtain ⟨s, hs, rfl⟩ := List.mem_map.mp hm
      obtain ⟨a, ha, hv, h1, h2⟩ := hr s hs
      refine ⟨s, hs, rfl, a, ?_, hv, ?_, h1, h2⟩
      · show s.e.reads = [a]; rw [ha]; rfl
      · intro l; show (s.e.evalL [l]).1 = l; rw [ha]; rfl
  · rw [restore_threads_none ht] at h; simp at h

theorem restore_exec {Z : List (List (Stmt A K))} {R : List (Stmt A K)} (hz : ZeroPhase Z) (hne : Z ≠ []) {m V : A → K}
    (hr : WritesBack Z R m V) (sched : List Nat) :
    let s := exec (progSys (threads (restorePhase Z R))) sched (start m)
    (∀ t i, (threads (restorePhase Z R) t)[(s.loc t).1]? = some i →
      (s.loc t).2 = [] ∨ ∃ a, i.reads = [a] ∧ (s.loc t).2 = [m a]) ∧
    (∀ a, (∃ s ∈ R, s.dst = a) → s.mem a = V a ∨ ∃ t j i, (s.loc t).1 ≤ j ∧
      (threads (restorePhase Z R) t)[j]? = some i ∧ i.dst = a ∧ i.reads ≠ []) ∧
    (∀ a, (¬ ∃ s ∈ R, s.dst = a) → (∃ t j i, j < (s.loc t).1 ∧ (threads (restorePhase Z R) t)[j]? = some i ∧ i.dst = a) →
      s.mem a = 0) ∧
    (∀ a, (¬ ∃ s ∈ R, s.dst = a) → s.mem a = m a ∨ (s.mem a = 0 ∧ ∃ s ∈ Z.flatten, s.dst = a)) := by
  induction sched using List.reverseRecOn with
  | nil =>
    refine ⟨fun _ _ _ => .inl rfl, ?_, ?_, fun _ _ => .inl rfl⟩
    · rintro a ⟨s, hs, rfl⟩
      right
      have h0 : 0 < Z.length := List.length_pos_of_ne_nil hne
      obtain ⟨n, hn, rfl⟩ := List.getElem_of_mem hs
      refine ⟨0, Z[0].length + n, R[n].instr, Nat.zero_le _, ?_, rfl, ?_⟩
      · rw [restore_threads h0, List.getElem?_append_right (by simp)]
        simp [hn]
      · obtain ⟨a, ha, _⟩ := hr _ hs
        show R[n].e.reads ≠ []
        rw [ha]; simp [Expr.reads]
    · rintro a _ ⟨t, j, i, hj, _⟩
      exact absurd hj (by simp [exec, start])
  | append_singleton sched u ih =>
    have he : exec (progSys (threads (restorePhase Z R))) (sched ++ [u]) (start m) =
        step (progSys (threads (restorePhase Z R))) u (exec (progSys (threads (restorePhase Z R))) sched (start m)) := by
      unfold exec; rw [List.foldl_append]; rfl
    rw [he]
    generalize exec (progSys (threads (restorePhase Z R))) sched (start m) = e at ih
    obtain ⟨i1, i2, i3, i4⟩ := ih
    dsimp only at i1 i2 i3 i4 ⊢
    have hst : step (progSys (threads (restorePhase Z R))) u e = match (threads (restorePhase Z R) u)[(e.loc u).1]? with
        | none => e
        | some i => match i.reads[(e.loc u).2.length]? with
          | some a => ⟨fun t => if t = u then ((e.loc u).1, (e.loc u).2 ++ [e.mem a]) else e.loc t, e.mem⟩
          | none => ⟨fun t => if t = u then ((e.loc u).1 + 1, []) else e.loc t, store e.mem i.dst (i.f (e.loc u).2)⟩ := by
      unfold step progSys
      cases hi : (threads (restorePhase Z R) u)[(e.loc u).1]? with
      | none => rfl
      | some i => dsimp only; cases i.reads[(e.loc u).2.length]? <;> rfl
    rw [hst]
    cases hi : (threads (restorePhase Z R) u)[(e.loc u).1]? with
    | none => exact ⟨i1, i2, i3, i4⟩
    | some i =>
      dsimp only
      cases hrd : i.reads[(e.loc u).2.length]? with
      | some a =>
        dsimp only
        have hloc : ∀ t, ((if t = u then ((e.loc u).1, (e.loc u).2 ++ [e.mem a]) else e.loc t) : Nat × List K).1 =
            (e.loc t).1 := by
          intro t; split
          · rename_i h; rw [h]
          · rfl
        refine ⟨?_, ?_, ?_, i4⟩
        · intro t i' ht
          rw [hloc] at ht
          by_cases htu : t = u
          · subst htu
            rw [hi] at ht; cases ht
            right
            rcases restore_instr hz hr hi with ⟨h0, _⟩ | ⟨s, hs, hd, b, hb, hv, _, hn1, hn2⟩
            · rw [h0] at hrd; simp at hrd
            · rw [hb] at hrd
              have hl : (e.loc t).2 = [] := by
                rcases i1 t i hi with h | ⟨_, _, h⟩
                · exact h
                · rw [h] at hrd; simp at hrd
              rw [hl] at hrd ⊢
              simp at hrd
              subst hrd
              refine ⟨b, hb, ?_⟩
              rw [if_pos rfl]
              have hmb : e.mem b = m b := by
                rcases i4 b (by rintro ⟨s', hs', h⟩; exact hn1 s' hs' h) with h | ⟨_, s', hs', h⟩
                · exact h
                · exact absurd h (hn2 s' hs')
              simp [hmb]
          · rw [if_neg htu]; exact i1 t i' ht
        · intro b hb
          rcases i2 b hb with h | ⟨t, j, i', hj, h⟩
          · exact .inl h
          · exact .inr ⟨t, j, i', by rw [hloc]; exact hj, h⟩
        · rintro b hb ⟨t, j, i', hj, h⟩
          rw [hloc] at hj
          exact i3 b hb ⟨t, j, i', hj, h⟩
      | none =>
        dsimp only
        refine ⟨?_, ?_, ?_, ?_⟩
        · intro t i' ht
          by_cases htu : t = u
          · rw [if_pos htu]; exact .inl rfl
          · rw [if_neg htu] at ht ⊢; exact i1 t i' ht
        · intro a ha
          unfold store
          by_cases had : a = i.dst
          · rw [if_pos had]
            rcases restore_instr hz hr hi with ⟨_, _, _, h⟩ | ⟨s, hs, hd, b, hb, hv, hf, _, _⟩
            · right
              obtain ⟨s, hs, rfl⟩ := ha
              obtain ⟨j', i', hj', h1, h2, h3⟩ := h s hs
              exact ⟨u, j', i', by rw [if_pos rfl]; exact hj', h1, h2, h3⟩
            · left
              have hl : (e.loc u).2 = [m b] := by
                rcases i1 u i hi with h | ⟨c, hc, h⟩
                · rw [h, hb] at hrd; simp at hrd
                · rw [hb] at hc; cases hc; exact h
              rw [hl, hf, hv, had]
          · rw [if_neg had]
            rcases i2 a ha with h | ⟨t, j, i', hj, h1, h2, h3⟩
            · exact .inl h
            · right
              refine ⟨t, j, i', ?_, h1, h2, h3⟩
              by_cases htu : t = u
              · subst htu
                rw [if_pos rfl]
                have : j ≠ (e.loc t).1 := by
                  rintro rfl
                  rw [hi] at h1; cases h1
                  exact had h2.symm
                dsimp only
                omega
              · rw [if_neg htu]; exact hj
        · rintro a ha ⟨t, j, i', hj, h1, h2⟩
          unfold store
          by_cases had : a = i.dst
          · rw [if_pos had]
            rcases restore_instr hz hr hi with ⟨_, h, _⟩ | ⟨s, hs, hd, _⟩
            · exact h _
            · exact absurd ⟨s, hs, hd.trans had.symm⟩ ha
          · rw [if_neg had]
            refine i3 a ha ⟨t, j, i', ?_, h1, h2⟩
            by_cases htu : t = u
            · subst htu
              rw [if_pos rfl] at hj
              have : j ≠ (e.loc t).1 := by
                rintro rfl
                rw [hi] at h1; cases h1
                exact had h2.symm
              dsimp only at hj
              omega
            · rw [if_neg htu] at hj; exact hj
        · intro a ha
          unfold store
          by_cases had : a = i.dst
          · rw [if_pos had]
            right
            rcases restore_instr hz hr hi with ⟨_, h, hs, _⟩ | ⟨s, hs, hd, _⟩
            · exact ⟨h _, by obtain ⟨s, hs, hd⟩ := hs; exact ⟨s, hs, hd.trans had.symm⟩⟩
            · exact absurd ⟨s, hs, hd.trans had.symm⟩ ha
          · rw [if_neg had]; exact i4 a ha

/-- A write-back run alone. -/
theorem run_writesBack {Z : List (List (Stmt A K))} {R : List (Stmt A K)} {m V : A → K} (hr : WritesBack Z R m V) (m0 : A → K)
    (h0 : ∀ s ∈ R, ∀ a, s.e = .rd a → m0 a = m a) (b : A) :
    ((∃ s ∈ R, s.dst = b) → run R m0 b = V b) ∧ ((¬ ∃ s ∈ R, s.dst = b) → run R m0 b = m0 b) := by
  have key : ∀ R', (∀ s ∈ R', s ∈ R) → ∀ m1 : A → K, (∀ s ∈ R, ∀ a, s.e = .rd a → m1 a = m a) →
      ((∃ s ∈ R', s.dst = b) → run R' m1 b = V b) ∧ ((¬ ∃ s ∈ R', s.dst = b) → run R' m1 b = m1 b) := by
    intro R'
    induction R' with
    | nil => intro _ m1 _; exact ⟨(by rintro ⟨s, hs, _⟩; cases hs), fun _ => rfl⟩
    | cons s R' ih =>
      intro hsub m1 h1
      obtain ⟨a, ha, hv, hn, _⟩ := hr s (hsub s (by simp))
      have hrun : ∀ c, s.run m1 c = if c = s.dst then V s.dst else m1 c := by
        intro c; unfold Stmt.run store; rw [ha]
        show (if c = s.dst then m1 a else m1 c) = _
        rw [h1 s (hsub s (by simp)) a ha, hv]
      obtain ⟨i1, i2⟩ := ih (fun t ht => hsub t (by simp [ht])) (s.run m1) (by
        intro t ht c hc
        obtain ⟨a', ha', _, hn', _⟩ := hr t ht
        rw [ha'] at hc; cases hc
        rw [hrun, if_neg (fun h => hn' s (hsub s (by simp)) h.symm)]
        exact h1 t ht _ ha')
      show ((∃ t ∈ s :: R', t.dst = b) → run R' (s.run m1) b = V b) ∧
        ((¬ ∃ t ∈ s :: R', t.dst = b) → run R' (s.run m1) b = m1 b)
      constructor
      · rintro ⟨t, ht, htb⟩
        by_cases hp : ∃ s ∈ R', s.dst = b
        · exact i1 hp
        · rw [i2 hp, hrun]
          rcases List.mem_cons.mp ht with rfl | ht
          · rw [if_pos htb.symm, htb]
          · exact absurd ⟨t, ht, htb⟩ hp
      · intro hno
        rw [i2 (fun ⟨t, ht, h⟩ => hno ⟨t, by simp [ht], h⟩), hrun, if_neg]
        rintro rfl
        exact hno ⟨s, by simp, rfl⟩
  exact key R (fun _ h => h) m0 h0

/-- Every schedule of the phase has the result of clearing first and writing back then. -/
theorem restore_phase_unique {Z : List (List (Stmt A K))} {R : List (Stmt A K)} (hz : ZeroPhase Z) (hne : Z ≠ [])
    {m V m' : A → K} (hr : WritesBack Z R m V) (h : PhaseResult (restorePhase Z R) m m') :
    m' = run R (run Z.flatten m) := by
  obtain ⟨sched, hd, rfl⟩ := h
  obtain ⟨i1, i2, i3, i4⟩ := restore_exec hz hne hr sched
  generalize exec (progSys (threads (restorePhase Z R))) sched (start m) = e at hd i1 i2 i3 i4
  have hz' : ∀ s ∈ Z.flatten, s.e = .zero := by
    intro s hs
    obtain ⟨t, ht, hs⟩ := List.mem_flatten.mp hs
    exact hz t ht s hs
  have hpc : ∀ t, (threads (restorePhase Z R) t)[(e.loc t).1]? = none := by
    intro t
    have hdt := hd t
    unfold progSys at hdt
    cases hi : (threads (restorePhase Z R) t)[(e.loc t).1]? with
    | none => rfl
    | some i =>
      rw [hi] at hdt
      dsimp only at hdt
      cases hrd : i.reads[(e.loc t).2.length]? <;> rw [hrd] at hdt <;> cases hdt
  funext a
  have hZm : ∀ s ∈ R, ∀ b, s.e = .rd b → run Z.flatten m b = m b := by
    intro s hs b hb
    obtain ⟨b', hb', _, _, hn⟩ := hr s hs
    rw [hb'] at hb; cases hb
    exact (run_zero hz' m _).2 (fun ⟨s', hs', h⟩ => hn s' hs' h)
  obtain ⟨r1, r2⟩ := run_writesBack hr (run Z.flatten m) hZm a
  by_cases hR : ∃ s ∈ R, s.dst = a
  · rw [r1 hR]
    rcases i2 a hR with h | ⟨t, j, i, hj, h, _⟩
    · exact h
    · have := hpc t
      rw [List.getElem?_eq_none_iff] at this
      rw [List.getElem?_eq_none (by omega)] at h
      cases h
  · rw [r2 hR]
    by_cases hw : ∃ s ∈ Z.flatten, s.dst = a
    · rw [(run_zero hz' m a).1 hw]
      obtain ⟨s, hs, rfl⟩ := hw
      obtain ⟨l, hl, hs⟩ := List.mem_flatten.mp hs
      obtain ⟨t, ht, rfl⟩ := List.getElem_of_mem hl
      obtain ⟨j, hj, rfl⟩ := List.getElem_of_mem hs
      have hget : (threads (restorePhase Z R) t)[j]? = some (Z[t][j]).instr := by
        rw [restore_threads ht, List.getElem?_append_left (by simpa using hj)]
        simp [hj]
      refine i3 _ hR ⟨t, j, _, ?_, hget, rfl⟩
      have := hpc t
      rw [List.getElem?_eq_none_iff] at this
      rw [restore_threads ht] at this
      simp at this
      omega
    · rw [(run_zero hz' m a).2 hw]
      rcases i4 a hR with h | ⟨_, h⟩
      · exact h
      · exact absurd h hw

end Verif.Sten

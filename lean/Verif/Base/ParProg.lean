import Verif.Base.Par
import Mathlib.Data.List.Nodup

/-!
# Straight-line thread programs at memory-access granularity

The body of one iteration of a parallel loop is a list of assignments `m[dst] = f(m[r1],…,m[rk])`; each
of the reads and the final store is a separate atomic step that other threads may interleave with.
-/

namespace Verif.Par

universe u v w
variable {T : Type u} [DecidableEq T] {A : Type v} [DecidableEq A] {V : Type w}

/-- `m[dst] = f(m[r1],…,m[rk])`. -/
structure Instr (A : Type v) (V : Type w) where
  reads : List A
  dst : A
  f : List V → V

/-- Store into memory. -/
def store (m : A → V) (a : A) (v : V) : A → V := fun b => if b = a then v else m b

/-- One assignment executed alone. -/
def seqInstr (i : Instr A V) (m : A → V) : A → V := store m i.dst (i.f (i.reads.map m))

/-- A list of assignments executed alone. -/
def seqProg (p : List (Instr A V)) (m : A → V) : A → V := p.foldl (fun m i => seqInstr i m) m

/-- The threads: local state is the program counter and the values read so far for the current
assignment. -/
def progSys (prog : T → List (Instr A V)) : Sys T (Nat × List V) A V := fun t l m =>
  match (prog t)[l.1]? with
  | none => none
  | some i =>
    match i.reads[l.2.length]? with
    | some a => some ((l.1, l.2 ++ [m a]), m)
    | none => some ((l.1 + 1, []), store m i.dst (i.f l.2))

/-- All threads at their start. -/
def start (m : A → V) : State T (Nat × List V) A V := ⟨fun _ => (0, []), m⟩

/-- `a` is written by thread `t`. -/
def Writes (prog : T → List (Instr A V)) (t : T) (a : A) : Prop := ∃ i ∈ prog t, i.dst = a

/-- `a` is read by thread `t`. -/
def Reads (prog : T → List (Instr A V)) (t : T) (a : A) : Prop := ∃ i ∈ prog t, a ∈ i.reads

/-- No thread reads or writes what another thread writes. -/
def RaceFree (prog : T → List (Instr A V)) : Prop :=
  ∀ t u a, t ≠ u → Writes prog t a → ¬ Writes prog u a ∧ ¬ Reads prog u a

theorem progSys_owned {prog : T → List (Instr A V)} (h : RaceFree prog) :
    Owned (progSys prog) (Writes prog) (fun a => ∀ t, ¬ Writes prog t a) := by
  refine ⟨?_, fun t a h => h t, ?_, ?_⟩
  · intro t u a h1 h2
    by_contra hc
    exact (h t u a hc h1).1 h2
  · intro t l m l' m' hs a ha
    unfold progSys at hs
    cases hi : (prog t)[l.1]? with
    | none => rw [hi] at hs; exact absurd hs (by simp)
    | some i =>
      rw [hi] at hs
      dsimp only at hs
      cases hr : i.reads[l.2.length]? with
      | some r =>
        rw [hr] at hs
        simp only [Option.some.injEq, Prod.mk.injEq] at hs
        rw [← hs.2]
      | none =>
        rw [hr] at hs
        simp only [Option.some.injEq, Prod.mk.injEq] at hs
        rw [← hs.2]
        unfold store
        rw [if_neg]
        intro he
        exact ha ⟨i, List.mem_of_getElem? hi, he.symm⟩
  · intro t l m1 m2 hm
    unfold progSys
    cases hi : (prog t)[l.1]? with
    | none => exact Or.inl ⟨rfl, rfl⟩
    | some i =>
      right
      dsimp only
      cases hr : i.reads[l.2.length]? with
      | some r =>
        have hread : m1 r = m2 r := by
          apply hm
          by_cases hw : Writes prog t r
          · exact Or.inl hw
          · right
            intro u hu
            by_cases hut : u = t
            · subst hut; exact hw hu
            · exact (h u t r hut hu).2 ⟨i, List.mem_of_getElem? hi, List.mem_of_getElem? hr⟩
        exact ⟨_, _, _, rfl, by rw [hread], fun a ha => hm a (Or.inl ha)⟩
      | none =>
        refine ⟨_, _, _, rfl, rfl, fun a ha => ?_⟩
        unfold store
        split
        · rfl
        · exact hm a (Or.inl ha)

/-! ### Running one thread on its own -/

theorem solo_reads (prog : T → List (Instr A V)) (t : T) (pc : Nat) (i : Instr A V) (hi : (prog t)[pc]? = some i)
    (m : A → V) : ∀ n, n ≤ i.reads.length →
    (solo (progSys prog) t)^[n] ((pc, []), m) = ((pc, (i.reads.take n).map m), m) := by
  intro n
  induction n with
  | zero => intro _; rfl
  | succ n ih =>
    intro hn
    rw [Function.iterate_succ_apply', ih (by omega)]
    unfold solo progSys
    dsimp only
    rw [hi]
    dsimp only
    have hlen : ((i.reads.take n).map m).length = n := by simp; omega
    rw [hlen, List.getElem?_eq_getElem (show n < i.reads.length by omega)]
    dsimp only [Option.getD_some]
    rw [List.take_add_one, List.getElem?_eq_getElem (show n < i.reads.length by omega), List.map_append]
    rfl

theorem solo_instr (prog : T → List (Instr A V)) (t : T) (pc : Nat) (i : Instr A V) (hi : (prog t)[pc]? = some i)
    (m : A → V) :
    (solo (progSys prog) t)^[i.reads.length + 1] ((pc, []), m) = ((pc + 1, []), seqInstr i m) := by
  rw [Function.iterate_succ_apply', solo_reads prog t pc i hi m _ (Nat.le_refl _)]
  unfold solo progSys
  dsimp only
  rw [hi]
  dsimp only
  rw [List.take_length, List.length_map, List.getElem?_eq_none (Nat.le_refl _)]
  rfl

/-- Steps needed by a list of assignments. -/
def cost (p : List (Instr A V)) : Nat := (p.map fun i => i.reads.length + 1).sum

theorem solo_prog_from (prog : T → List (Instr A V)) (t : T) : ∀ (p q : List (Instr A V)) (m : A → V),
    prog t = p ++ q →
    (solo (progSys prog) t)^[cost q] ((p.length, []), m) = (((prog t).length, []), seqProg q m) := by
  intro p q
  induction q generalizing p with
  | nil => intro m h; rw [h, List.append_nil]; rfl
  | cons i q ih =>
    intro m h
    have hi : (prog t)[p.length]? = some i := by rw [h]; simp
    have hc : cost (i :: q) = cost q + (i.reads.length + 1) := by
      unfold cost; rw [List.map_cons, List.sum_cons, Nat.add_comm]
    rw [hc, Function.iterate_add_apply, solo_instr prog t _ i hi m]
    have := ih (p ++ [i]) (seqInstr i m) (by rw [h]; simp)
    rw [List.length_append, List.length_singleton] at this
    exact this

theorem solo_prog (prog : T → List (Instr A V)) (t : T) (m : A → V) :
    (solo (progSys prog) t)^[cost (prog t)] ((0, []), m) = (((prog t).length, []), seqProg (prog t) m) :=
  solo_prog_from prog t [] (prog t) m rfl

theorem exec_replicate {L : Type w} (sys : Sys T L A V) (t : T) : ∀ n (s : State T L A V),
    (exec sys (List.replicate n t) s).mem = ((solo sys t)^[n] (s.loc t, s.mem)).2 ∧
    (exec sys (List.replicate n t) s).loc t = ((solo sys t)^[n] (s.loc t, s.mem)).1 ∧
    (∀ u, u ≠ t → (exec sys (List.replicate n t) s).loc u = s.loc u) := by
  intro n
  induction n with
  | zero => intro s; exact ⟨rfl, rfl, fun _ _ => rfl⟩
  | succ n ih =>
    intro s
    have he : exec sys (List.replicate (n+1) t) s = exec sys (List.replicate n t) (step sys t s) := rfl
    rw [he, Function.iterate_succ_apply]
    obtain ⟨i1, i2, i3⟩ := ih (step sys t s)
    have hst : ((step sys t s).loc t, (step sys t s).mem) = solo sys t (s.loc t, s.mem) ∧
        ∀ u, u ≠ t → (step sys t s).loc u = s.loc u := by
      unfold step solo
      cases sys t (s.loc t) s.mem with
      | none => exact ⟨rfl, fun _ _ => rfl⟩
      | some q => exact ⟨by simp, fun u hu => by dsimp only; rw [if_neg hu]⟩
    rw [hst.1] at i1 i2
    exact ⟨i1, i2, fun u hu => by rw [i3 u hu, hst.2 u hu]⟩

/-- The sequential loop over the threads `ts` is one of the schedules. -/
theorem seq_schedule (prog : T → List (Instr A V)) (m0 : A → V) : ∀ (ts : List T), ts.Nodup →
    ∃ sched, (exec (progSys prog) sched (start m0)).mem = ts.foldl (fun m t => seqProg (prog t) m) m0 ∧
      (∀ t ∈ ts, (exec (progSys prog) sched (start m0)).loc t = ((prog t).length, [])) ∧
      (∀ t, t ∉ ts → (exec (progSys prog) sched (start m0)).loc t = (0, [])) := by
  intro ts
  induction ts using List.reverseRecOn with
  | nil => intro _; exact ⟨[], rfl, by simp, fun _ _ => rfl⟩
  | append_singleton ts t0 ih =>
    intro hnd
    rw [List.nodup_append] at hnd
    obtain ⟨hn1, _, hn2⟩ := hnd
    have ht0 : t0 ∉ ts := fun h => hn2 t0 h t0 (by simp) rfl
    obtain ⟨sched, h1, h2, h3⟩ := ih hn1
    refine ⟨sched ++ List.replicate (cost (prog t0)) t0, ?_⟩
    have he : exec (progSys prog) (sched ++ List.replicate (cost (prog t0)) t0) (start m0) =
        exec (progSys prog) (List.replicate (cost (prog t0)) t0) (exec (progSys prog) sched (start m0)) := by
      unfold exec; rw [List.foldl_append]
    rw [he]
    generalize exec (progSys prog) sched (start m0) = e at h1 h2 h3
    obtain ⟨i1, i2, i3⟩ := exec_replicate (progSys prog) t0 (cost (prog t0)) e
    rw [h3 t0 ht0, solo_prog] at i1 i2
    refine ⟨?_, ?_, ?_⟩
    · rw [i1, List.foldl_append, h1]; rfl
    · intro t ht
      by_cases hc : t = t0
      · subst hc; exact i2
      · rw [i3 t hc]
        rcases List.mem_append.mp ht with q | q
        · exact h2 t q
        · exact absurd (by simpa using q) hc
    · intro t ht
      rw [List.mem_append, not_or] at ht
      have hc : t ≠ t0 := by simpa using ht.2
      rw [i3 t hc, h3 t ht.1]

theorem progSys_end (prog : T → List (Instr A V)) (t : T) (l : Nat × List V) (m : A → V)
    (h : (prog t).length ≤ l.1) : progSys prog t l m = none := by
  unfold progSys
  rw [List.getElem?_eq_none h]

/-- **Parallel equals sequential.** If no thread touches what another one writes, then every complete schedule
ends in the memory of the sequential loop (over any enumeration `ts` of the threads that do something). -/
theorem par_eq_seq {prog : T → List (Instr A V)} (h : RaceFree prog) (m0 : A → V) (ts : List T) (hts : ts.Nodup)
    (hall : ∀ t, t ∉ ts → prog t = []) (sched : List T)
    (hd : Done (progSys prog) (exec (progSys prog) sched (start m0))) :
    (exec (progSys prog) sched (start m0)).mem = ts.foldl (fun m t => seqProg (prog t) m) m0 := by
  obtain ⟨sched2, h1, h2, h3⟩ := seq_schedule prog m0 ts hts
  rw [← h1]
  apply schedule_independent (progSys_owned h) _ _ _ hd
  intro t
  by_cases ht : t ∈ ts
  · rw [h2 t ht]
    exact progSys_end prog t _ _ (Nat.le_refl _)
  · rw [h3 t ht]
    exact progSys_end prog t _ _ (by rw [hall t ht]; exact Nat.le_refl _)

/-- Complete schedules exist. -/
theorem complete_schedule_exists (prog : T → List (Instr A V)) (m0 : A → V) (ts : List T) (hts : ts.Nodup)
    (hall : ∀ t, t ∉ ts → prog t = []) :
    ∃ sched, Done (progSys prog) (exec (progSys prog) sched (start m0)) := by
  obtain ⟨sched2, h1, h2, h3⟩ := seq_schedule prog m0 ts hts
  refine ⟨sched2, ?_⟩
  intro t
  by_cases ht : t ∈ ts
  · rw [h2 t ht]
    exact progSys_end prog t _ _ (Nat.le_refl _)
  · rw [h3 t ht]
    exact progSys_end prog t _ _ (by rw [hall t ht]; exact Nat.le_refl _)

end Verif.Par

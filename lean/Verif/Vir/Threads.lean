import Verif.Vir.Trace
import Verif.Base.Par
import Mathlib.Data.List.Perm.Basic
import Mathlib.Data.List.Dedup
import Mathlib.Data.List.Perm.Lattice

/-!
# The threads of corrvir

Every iteration of the loop over the virtual receivers is a thread.  A call of a function of the standard library is one step.
-/

namespace Verif.Vir

open Verif.Par

/-! ## Reading without buffer -/

/-- `offset` of corrvir.c:715: where the samples of trace `i` begin. -/
def off (nt i : ℕ) : ℕ := i * (4 * nt + 240) + 240

/-- A thread that reads: the traces it still wants, whether it has set the position, and from where it has read so far. -/
structure RLoc where
  todo : List ℕ
  sought : Bool
  got : List ℕ
deriving DecidableEq, Repr

/-- `get_sutrace_at_position` with `nbufmax = 0`, corrvir.c:715-720, called for one trace after the other (corrvir.c:520-535): `fseeko`, then
`fread`, on a stream that all threads share.  The critical section around the calls is commented out (corrvir.c:520-521).  The only shared
element is the position of the stream. -/
def reader (nt : ℕ) : Sys ℕ RLoc Unit ℕ := fun _ l m =>
  match l.todo with
  | [] => none
  | i :: t => if l.sought then some (⟨t, false, l.got ++ [m ()]⟩, fun _ => m () + 4 * nt) else some (⟨i :: t, true, l.got⟩, fun _ => off nt i)

/-- The threads before the loop. -/
def readStart (want : ℕ → List ℕ) (p : ℕ) : State ℕ RLoc Unit ℕ := ⟨fun t => ⟨want t, false, []⟩, fun _ => p⟩

/-- A schedule in which every `fseeko` is followed at once by its `fread`. -/
def together (ts : List ℕ) : List ℕ := ts.flatMap fun t => [t, t]

theorem off_inj (nt : ℕ) {i j : ℕ} (h : off nt i = off nt j) : i = j := by
  unfold off at h
  exact Nat.eq_of_mul_eq_mul_right (by omega) (Nat.add_right_cancel h)

theorem together_run (nt : ℕ) (want : ℕ → List ℕ) : ∀ (ts : List ℕ) (s : State ℕ RLoc Unit ℕ),
    (∀ t, (s.loc t).sought = false ∧ ∃ done, want t = done ++ (s.loc t).todo ∧ (s.loc t).got = done.map (off nt)) →
    ∀ t, ((exec (reader nt) (together ts) s).loc t).sought = false ∧
      ∃ done, want t = done ++ ((exec (reader nt) (together ts) s).loc t).todo ∧ ((exec (reader nt) (together ts) s).loc t).got = done.map (off nt)
  | [], s, h => h
  | u :: ts, s, h => by
    have e : exec (reader nt) (together (u :: ts)) s = exec (reader nt) (together ts) (step (reader nt) u (step (reader nt) u s)) := rfl
    rw [e]
    refine together_run nt want ts _ fun t => ?_
    obtain ⟨h1, d, h2, h3⟩ := h u
    cases ht : (s.loc u).todo with
    | nil =>
      have e1 : step (reader nt) u s = s := by unfold step reader; rw [ht]
      rw [e1, e1]
      exact h t
    | cons i l =>
      have e1 : step (reader nt) u s = ⟨fun v => if v = u then ⟨i :: l, true, (s.loc u).got⟩ else s.loc v, fun _ => off nt i⟩ := by
        unfold step reader
        rw [ht, h1]
        rfl
      have e2 : step (reader nt) u (step (reader nt) u s) =
          ⟨fun v => if v = u then ⟨l, false, (s.loc u).got ++ [off nt i]⟩ else if v = u then ⟨i :: l, true, (s.loc u).got⟩ else s.loc v,
            fun _ => off nt i + 4 * nt⟩ := by
        rw [e1]
        unfold step reader
        simp
      rw [e2]
      dsimp only
      by_cases hu : t = u
      · subst hu
        rw [if_pos rfl]
        refine ⟨rfl, d ++ [i], ?_, ?_⟩
        · rw [h2, ht]; simp
        · rw [h3]; simp
      · rw [if_neg hu, if_neg hu]
        exact h t

/-- **Reading in a critical section** gives every thread its traces, for every order of the threads. -/
theorem read_together (nt : ℕ) (want : ℕ → List ℕ) (p : ℕ) (ts : List ℕ) (hd : Done (reader nt) (exec (reader nt) (together ts) (readStart want p))) (t : ℕ) :
    ((exec (reader nt) (together ts) (readStart want p)).loc t).got = (want t).map (off nt) := by
  obtain ⟨-, d, h1, h2⟩ := together_run nt want ts (readStart want p) (fun t => ⟨rfl, [], rfl, rfl⟩) t
  have := hd t
  generalize exec (reader nt) (together ts) (readStart want p) = e at this h1 h2 ⊢
  have ht : (e.loc t).todo = [] := by
    cases ht : (e.loc t).todo with
    | nil => rfl
    | cons i l =>
      unfold reader at this
      rw [ht] at this
      dsimp only at this
      split at this <;> cases this
  rw [h2, h1, ht, List.append_nil]

/-- **Reading as it is done**: whatever two traces two threads want, the first may be given the samples that belong to the second. -/
theorem read_race (nt i j : ℕ) (hij : i ≠ j) (p : ℕ) : ∃ want : ℕ → List ℕ, want 0 = [i] ∧ want 1 = [j] ∧ ∃ sched : List ℕ,
    Done (reader nt) (exec (reader nt) sched (readStart want p)) ∧ ((exec (reader nt) sched (readStart want p)).loc 0).got = [off nt j] ∧
      off nt j ≠ off nt i := by
  refine ⟨fun t => if t = 0 then [i] else if t = 1 then [j] else [], rfl, rfl, [0, 1, 0, 1], ?_, ?_, fun h => hij (off_inj nt h).symm⟩
  · intro t
    by_cases h0 : t = 0
    · subst h0; rfl
    · by_cases h1 : t = 1
      · subst h1; rfl
      · simp [exec, step, reader, readStart, h0, h1]
  · rfl

example : ∃ want : ℕ → List ℕ, Done (reader 10) (exec (reader 10) (together [1, 0, 0]) (readStart want 0)) ∧ want 0 = [3, 4] ∧ want 1 = [7] := by
  refine ⟨fun t => if t = 0 then [3, 4] else if t = 1 then [7] else [], ?_, rfl, rfl⟩
  intro t
  by_cases h0 : t = 0
  · subst h0; rfl
  · by_cases h1 : t = 1
    · subst h1; rfl
    · simp [together, exec, step, reader, readStart, h0, h1]

/-! ## Writing -/

/-- What a thread does once its trace is ready: the critical section corrvir.c:630-637 appends the record of virtual receiver `ivrcv`. -/
def writer {R : Type} (rec' : ℕ → R) (n : ℕ) : Sys ℕ Bool Unit (List R) := fun t l m =>
  if t < n ∧ l = false then some (true, fun _ => m () ++ [rec' t]) else none

theorem writer_run {R : Type} (rec' : ℕ → R) (n : ℕ) (pre : List R) : ∀ (sched : List ℕ), ∃ order : List ℕ, order.Nodup ∧ (∀ t ∈ order, t < n) ∧
    (exec (writer rec' n) sched ⟨fun _ => false, fun _ => pre⟩).mem () = pre ++ order.map rec' ∧
    ∀ t, t < n → ((exec (writer rec' n) sched ⟨fun _ => false, fun _ => pre⟩).loc t = true ↔ t ∈ order) := by
  intro sched
  induction sched using List.reverseRecOn with
  | nil => exact ⟨[], List.nodup_nil, by simp, by simp [exec], by simp [exec]⟩
  | append_singleton sched u ih =>
    obtain ⟨order, h1, h2, h3, h4⟩ := ih
    have hex : exec (writer rec' n) (sched ++ [u]) ⟨fun _ => false, fun _ => pre⟩ =
        step (writer rec' n) u (exec (writer rec' n) sched ⟨fun _ => false, fun _ => pre⟩) := by
      unfold exec; rw [List.foldl_append]; rfl
    rw [hex]
    generalize exec (writer rec' n) sched ⟨fun _ => false, fun _ => pre⟩ = e at h3 h4
    by_cases hc : u < n ∧ e.loc u = false
    · have hs : step (writer rec' n) u e = ⟨fun v => if v = u then true else e.loc v, fun _ => e.mem () ++ [rec' u]⟩ := by
        unfold step writer
        rw [if_pos hc]
      have hu : u ∉ order := fun h => by
        have := (h4 u hc.1).2 h
        rw [hc.2] at this
        cases this
      rw [hs]
      refine ⟨order ++ [u], ?_, ?_, ?_, ?_⟩
      · rw [List.nodup_append]
        refine ⟨h1, List.nodup_singleton u, fun a ha b hb => ?_⟩
        rw [List.mem_singleton] at hb
        rintro rfl
        exact hu (hb ▸ ha)
      · intro t ht
        rcases List.mem_append.1 ht with ht | ht
        · exact h2 t ht
        · rw [List.mem_singleton.1 ht]; exact hc.1
      · dsimp only
        rw [h3]; simp
      · intro t ht
        dsimp only
        by_cases htu : t = u
        · rw [if_pos htu, htu]; simp
        · rw [if_neg htu, h4 t ht]; simp [htu]
    · have hs : step (writer rec' n) u e = e := by unfold step writer; rw [if_neg hc]
      rw [hs]
      exact ⟨order, h1, h2, h3, h4⟩

/-- **Writing**: whatever the schedule, each record of the virtual shot is written exactly once, after what was written before. -/
theorem write_perm {R : Type} (rec' : ℕ → R) (n : ℕ) (pre : List R) (sched : List ℕ)
    (hd : Done (writer rec' n) (exec (writer rec' n) sched ⟨fun _ => false, fun _ => pre⟩)) :
    ∃ out : List R, (exec (writer rec' n) sched ⟨fun _ => false, fun _ => pre⟩).mem () = pre ++ out ∧ out.Perm ((List.range n).map rec') := by
  obtain ⟨order, h1, h2, h3, h4⟩ := writer_run rec' n pre sched
  refine ⟨_, h3, List.Perm.map _ ?_⟩
  rw [List.perm_ext_iff_of_nodup h1 List.nodup_range]
  intro t
  rw [List.mem_range]
  refine ⟨h2 t, fun ht => (h4 t ht).1 ?_⟩
  have := hd t
  generalize exec (writer rec' n) sched ⟨fun _ => false, fun _ => pre⟩ = e at this ⊢
  unfold writer at this
  by_contra hne
  rw [if_pos ⟨ht, by simpa using hne⟩] at this
  cases this

/-- `itrace_out` of corrvir.c:615: the number in the header. -/
def tracl (nreceivers ivsrc ivrcv : ℕ) : ℕ := ivsrc * nreceivers + ivrcv + 1

/-- The number in the header tells virtual source and virtual receiver, so that the order can be restored. -/
theorem tracl_inj (n a b a' b' : ℕ) (hb : b < n) (hb' : b' < n) (h : tracl n a b = tracl n a' b') : a = a' ∧ b = b' := by
  unfold tracl at h
  have h : a * n + b = a' * n + b' := by omega
  have h1 : a = a' := by
    have e1 : (a * n + b) / n = a := by
      rw [Nat.mul_comm, Nat.mul_add_div (by omega), Nat.div_eq_of_lt hb, Nat.add_zero]
    have e2 : (a' * n + b') / n = a' := by
      rw [Nat.mul_comm, Nat.mul_add_div (by omega), Nat.div_eq_of_lt hb', Nat.add_zero]
    rw [← e1, h, e2]
  subst h1
  exact ⟨rfl, by omega⟩

/-- The order in the file is not the order of the receivers in general. -/
theorem write_order : ∃ sched : List ℕ, Done (writer (fun t => t) 2) (exec (writer (fun t => t) 2) sched ⟨fun _ => false, fun _ => []⟩) ∧
    (exec (writer (fun t => t) 2) sched ⟨fun _ => false, fun _ => []⟩).mem () = [1, 0] := by
  refine ⟨[1, 0], fun t => ?_, rfl⟩
  by_cases h0 : t = 0
  · subst h0; rfl
  · by_cases h1 : t = 1
    · subst h1; rfl
    · have : ¬(t < 2) := by omega
      simp [writer, this]

end Verif.Vir

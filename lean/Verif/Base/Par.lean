import Mathlib.Logic.Function.Basic
import Mathlib.Logic.Function.Iterate
import Mathlib.Data.List.Count
import Mathlib.Data.List.Induction

/-!
# Interleaving semantics of parallel loops

Every iteration of an `omp for` loop is treated as a thread of its own (this over-approximates every
number of threads and every assignment of iterations to threads).  A thread performs atomic steps on a
shared memory; a schedule is any finite sequence of thread names.  Nothing here models a particular
function of the repository.
-/

namespace Verif.Par

universe u v w x
variable {T : Type u} [DecidableEq T] {L : Type v} {A : Type w} {V : Type x}

/-- A system of threads: the next atomic step of thread `t` in local state `l` on memory `m`
(`none`: finished). -/
def Sys (T : Type u) (L : Type v) (A : Type w) (V : Type x) := T → L → (A → V) → Option (L × (A → V))

/-- Local states and shared memory. -/
structure State (T : Type u) (L : Type v) (A : Type w) (V : Type x) where
  loc : T → L
  mem : A → V

/-- One scheduled step (a finished thread does nothing). -/
def step (sys : Sys T L A V) (t : T) (s : State T L A V) : State T L A V :=
  match sys t (s.loc t) s.mem with
  | none => s
  | some (l, m) => ⟨fun u => if u = t then l else s.loc u, m⟩

/-- Run a schedule. -/
def exec (sys : Sys T L A V) (sched : List T) (s : State T L A V) : State T L A V :=
  sched.foldl (fun s t => step sys t s) s

/-- All threads have finished. -/
def Done (sys : Sys T L A V) (s : State T L A V) : Prop := ∀ t, sys t (s.loc t) s.mem = none

/-- One step of thread `t` on its own. -/
def solo (sys : Sys T L A V) (t : T) (p : L × (A → V)) : L × (A → V) := (sys t p.1 p.2).getD p

/-- Ownership discipline: thread `t` writes only elements it owns, and its steps depend only on elements
it owns and on elements nobody owns. -/
structure Owned (sys : Sys T L A V) (own : T → A → Prop) (ro : A → Prop) : Prop where
  disjoint : ∀ t u a, own t a → own u a → t = u
  readonly : ∀ t a, ro a → ¬ own t a
  frame : ∀ t l m l' m', sys t l m = some (l', m') → ∀ a, ¬ own t a → m' a = m a
  depends : ∀ t l m1 m2, (∀ a, own t a ∨ ro a → m1 a = m2 a) →
    (sys t l m1 = none ∧ sys t l m2 = none) ∨
    ∃ l' m1' m2', sys t l m1 = some (l', m1') ∧ sys t l m2 = some (l', m2') ∧ ∀ a, own t a → m1' a = m2' a

theorem solo_frame {sys : Sys T L A V} {own : T → A → Prop} {ro : A → Prop} (h : Owned sys own ro) (t : T) :
    ∀ n p a, ¬ own t a → ((solo sys t)^[n] p).2 a = p.2 a := by
  intro n
  induction n with
  | zero => intros; rfl
  | succ n ih =>
    intro p a ha
    rw [Function.iterate_succ_apply, ih _ _ ha]
    unfold solo
    cases hs : sys t p.1 p.2 with
    | none => rfl
    | some q => exact h.frame t p.1 p.2 q.1 q.2 hs a ha

/-- After any schedule every thread is exactly where it would be had it run alone for as many steps, as far
as its own elements are concerned, and elements owned by nobody are unchanged. -/
theorem exec_solo {sys : Sys T L A V} {own : T → A → Prop} {ro : A → Prop} (h : Owned sys own ro)
    (sched : List T) (s : State T L A V) :
    (∀ t, (exec sys sched s).loc t = ((solo sys t)^[sched.count t] (s.loc t, s.mem)).1 ∧
      ∀ a, own t a → (exec sys sched s).mem a = ((solo sys t)^[sched.count t] (s.loc t, s.mem)).2 a) ∧
    (∀ a, (∀ t, ¬ own t a) → (exec sys sched s).mem a = s.mem a) := by
  induction sched using List.reverseRecOn with
  | nil => exact ⟨fun t => ⟨rfl, fun _ _ => rfl⟩, fun _ _ => rfl⟩
  | append_singleton sched t0 ih =>
    obtain ⟨ih1, ih2⟩ := ih
    have hex : exec sys (sched ++ [t0]) s = step sys t0 (exec sys sched s) := by
      unfold exec; rw [List.foldl_append]; rfl
    rw [hex]
    generalize exec sys sched s = e at ih1 ih2
    -- the step of t0 in the system agrees with its solo step
    have hag : ∀ a, own t0 a ∨ ro a → e.mem a = ((solo sys t0)^[sched.count t0] (s.loc t0, s.mem)).2 a := by
      rintro a (q | q)
      · exact (ih1 t0).2 a q
      · rw [ih2 a (fun t => h.readonly t a q), solo_frame h t0 _ _ a (h.readonly t0 a q)]
    have hloc := (ih1 t0).1
    have hd := h.depends t0 (e.loc t0) e.mem _ hag
    constructor
    · intro t
      rw [List.count_append]
      by_cases ht : t = t0
      · subst ht
        rw [List.count_singleton_self, Function.iterate_add_apply, Function.iterate_one] <;> try rfl
        rw [← Function.iterate_succ_apply, Function.iterate_succ_apply']
        generalize (solo sys t)^[sched.count t] (s.loc t, s.mem) = p at hag hloc hd
        obtain ⟨pl, pm⟩ := p
        dsimp only at hag hloc hd ⊢
        subst hloc
        rcases hd with ⟨h1, h2⟩ | ⟨l', m1', m2', h1, h2, h3⟩
        · unfold step solo
          rw [h1, h2]
          exact ⟨rfl, fun a ha => hag a (Or.inl ha)⟩
        · unfold step solo
          rw [h1, h2]
          exact ⟨by simp, fun a ha => h3 a ha⟩
      · have hc : List.count t [t0] = 0 := List.count_eq_zero.mpr (by simpa using ht)
        rw [hc, Nat.add_zero]
        unfold step
        cases hs : sys t0 (e.loc t0) e.mem with
        | none => exact ih1 t
        | some q =>
          refine ⟨by dsimp only; rw [if_neg ht]; exact (ih1 t).1, ?_⟩
          intro a ha
          rw [← (ih1 t).2 a ha]
          exact h.frame t0 _ _ q.1 q.2 hs a (fun ho => ht (h.disjoint t t0 a ha ho))
    · intro a ha
      rw [← ih2 a ha]
      unfold step
      cases hs : sys t0 (e.loc t0) e.mem with
      | none => rfl
      | some q => exact h.frame t0 _ _ q.1 q.2 hs a (ha t0)

theorem solo_fix {sys : Sys T L A V} {t : T} {p : L × (A → V)} (h : sys t p.1 p.2 = none) :
    ∀ n, (solo sys t)^[n] p = p := by
  intro n
  induction n with
  | zero => rfl
  | succ n ih =>
    rw [Function.iterate_succ_apply]
    have : solo sys t p = p := by unfold solo; rw [h]; rfl
    rw [this, ih]

/-- A complete schedule leaves in every owned element the value of the owner's run on its own,
for any number of steps that completes it. -/
theorem done_eq_solo {sys : Sys T L A V} {own : T → A → Prop} {ro : A → Prop} (h : Owned sys own ro)
    (sched : List T) (s : State T L A V) (hd : Done sys (exec sys sched s)) (t : T) (n : Nat)
    (hn : sys t ((solo sys t)^[n] (s.loc t, s.mem)).1 ((solo sys t)^[n] (s.loc t, s.mem)).2 = none) :
    ∀ a, own t a → (exec sys sched s).mem a = ((solo sys t)^[n] (s.loc t, s.mem)).2 a := by
  obtain ⟨h1, h2⟩ := exec_solo h sched s
  -- the solo run of `count` steps is also complete
  have hc : sys t ((solo sys t)^[sched.count t] (s.loc t, s.mem)).1
      ((solo sys t)^[sched.count t] (s.loc t, s.mem)).2 = none := by
    have hdt := hd t
    rcases h.depends t ((exec sys sched s).loc t) (exec sys sched s).mem
      ((solo sys t)^[sched.count t] (s.loc t, s.mem)).2 (by
        rintro a (q | q)
        · exact (h1 t).2 a q
        · rw [h2 a (fun t => h.readonly t a q), solo_frame h t _ _ a (h.readonly t a q)])
      with ⟨_, q⟩ | ⟨_, _, _, q, _⟩
    · rwa [(h1 t).1] at q
    · rw [hdt] at q; exact absurd q (by simp)
  have heq : (solo sys t)^[sched.count t] (s.loc t, s.mem) = (solo sys t)^[n] (s.loc t, s.mem) := by
    rcases Nat.le_total n (sched.count t) with hle | hle
    · obtain ⟨d, hd'⟩ := Nat.exists_eq_add_of_le hle
      rw [hd', Nat.add_comm, Function.iterate_add_apply]
      exact solo_fix hn d
    · obtain ⟨d, hd'⟩ := Nat.exists_eq_add_of_le hle
      rw [hd', Nat.add_comm, Function.iterate_add_apply]
      exact (solo_fix hc d).symm
  intro a ha
  rw [(h1 t).2 a ha, heq]

/-- Under the ownership discipline all complete schedules end with the same memory. -/
theorem schedule_independent {sys : Sys T L A V} {own : T → A → Prop} {ro : A → Prop} (h : Owned sys own ro)
    (s : State T L A V) (sched1 sched2 : List T) (h1 : Done sys (exec sys sched1 s))
    (h2 : Done sys (exec sys sched2 s)) : (exec sys sched1 s).mem = (exec sys sched2 s).mem := by
  classical
  funext a
  by_cases ha : ∃ t, own t a
  · obtain ⟨t, ht⟩ := ha
    obtain ⟨e1, e2⟩ := exec_solo h sched2 s
    have hc : sys t ((solo sys t)^[sched2.count t] (s.loc t, s.mem)).1
        ((solo sys t)^[sched2.count t] (s.loc t, s.mem)).2 = none := by
      have hdt := h2 t
      rcases h.depends t ((exec sys sched2 s).loc t) (exec sys sched2 s).mem
        ((solo sys t)^[sched2.count t] (s.loc t, s.mem)).2 (by
          rintro a (q | q)
          · exact (e1 t).2 a q
          · rw [e2 a (fun t => h.readonly t a q), solo_frame h t _ _ a (h.readonly t a q)])
        with ⟨_, q⟩ | ⟨_, _, _, q, _⟩
      · rwa [(e1 t).1] at q
      · rw [hdt] at q; exact absurd q (by simp)
    rw [done_eq_solo h sched1 s h1 t _ hc a ht, (e1 t).2 a ht]
  · have ha' : ∀ t, ¬ own t a := fun t ht => ha ⟨t, ht⟩
    rw [(exec_solo h sched1 s).2 a ha', (exec_solo h sched2 s).2 a ha']

end Verif.Par

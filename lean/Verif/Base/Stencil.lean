import Verif.Base.ParProg
import Mathlib.Algebra.Ring.Defs
import Mathlib.Data.List.Induction
import Mathlib.Tactic.Ring
import Mathlib.Tactic.LinearCombination

/-!
# Array programs

The finite-difference kernels of the repository are sequences of loops whose bodies are assignments of arithmetic
expressions to array elements.  Such a program is represented by the list of the assignments it executes, as syntax, so that
the elements it reads and writes can be talked about.  Nothing here models a particular function of the repository.
-/

namespace Verif.Sten

open Verif.Par

universe u v
variable {A : Type u} [DecidableEq A] {K : Type v} [CommRing K]

/-- Arithmetic expressions over memory cells. -/
inductive Expr (A : Type u) (K : Type v)
  | rd (a : A)
  | c (k : K)
  | zero
  | add (x y : Expr A K)
  | sub (x y : Expr A K)
  | mul (x y : Expr A K)

instance : Add (Expr A K) := ⟨Expr.add⟩
instance : Sub (Expr A K) := ⟨Expr.sub⟩
instance : Mul (Expr A K) := ⟨Expr.mul⟩

namespace Expr

/-- Value of an expression. -/
def eval (m : A → K) : Expr A K → K
  | rd a => m a
  | c k => k
  | zero => 0
  | add x y => x.eval m + y.eval m
  | sub x y => x.eval m - y.eval m
  | mul x y => x.eval m * y.eval m

/-- The cells an expression reads, in order of evaluation. -/
def reads : Expr A K → List A
  | rd a => [a]
  | c _ => []
  | zero => []
  | add x y => x.reads ++ y.reads
  | sub x y => x.reads ++ y.reads
  | mul x y => x.reads ++ y.reads

/-- Value from the list of the values read. -/
def evalL : Expr A K → List K → K × List K
  | rd _, l => (l.headD 0, l.tail)
  | c k, l => (k, l)
  | zero, l => (0, l)
  | add x y, l => let a := x.evalL l; let b := y.evalL a.2; (a.1 + b.1, b.2)
  | sub x y, l => let a := x.evalL l; let b := y.evalL a.2; (a.1 - b.1, b.2)
  | mul x y, l => let a := x.evalL l; let b := y.evalL a.2; (a.1 * b.1, b.2)

/-- No wave-field cell occurs. -/
def con (fld : A → Bool) : Expr A K → Bool
  | rd a => !fld a
  | c _ => true
  | zero => true
  | add x y => x.con fld && y.con fld
  | sub x y => x.con fld && y.con fld
  | mul x y => x.con fld && y.con fld

/-- Linear in the wave-field cells. -/
def lin (fld : A → Bool) : Expr A K → Bool
  | rd a => fld a
  | c _ => false
  | zero => true
  | add x y => x.lin fld && y.lin fld
  | sub x y => x.lin fld && y.lin fld
  | mul x y => (x.con fld && y.lin fld) || (x.lin fld && y.con fld)

theorem evalL_spec (m : A → K) (e : Expr A K) : ∀ l, e.evalL (e.reads.map m ++ l) = (e.eval m, l) := by
  induction e with
  | rd a => intro l; rfl
  | c k => intro l; rfl
  | zero => intro l; rfl
  | add x y hx hy => intro l; simp [evalL, reads, eval, List.append_assoc, hx, hy]
  | sub x y hx hy => intro l; simp [evalL, reads, eval, List.append_assoc, hx, hy]
  | mul x y hx hy => intro l; simp [evalL, reads, eval, List.append_assoc, hx, hy]

theorem eval_congr {m1 m2 : A → K} (e : Expr A K) (h : ∀ a ∈ e.reads, m1 a = m2 a) : e.eval m1 = e.eval m2 := by
  induction e with
  | rd a => exact h a (by simp [reads])
  | c k => rfl
  | zero => rfl
  | add x y hx hy =>
    simp only [eval]; rw [hx (fun a ha => h a (by simp [reads, ha])), hy (fun a ha => h a (by simp [reads, ha]))]
  | sub x y hx hy =>
    simp only [eval]; rw [hx (fun a ha => h a (by simp [reads, ha])), hy (fun a ha => h a (by simp [reads, ha]))]
  | mul x y hx hy =>
    simp only [eval]; rw [hx (fun a ha => h a (by simp [reads, ha])), hy (fun a ha => h a (by simp [reads, ha]))]

theorem con_reads {fld : A → Bool} {e : Expr A K} (h : e.con fld = true) : ∀ a ∈ e.reads, fld a = false := by
  induction e with
  | rd a => intro b hb; simp [reads] at hb; subst hb; simpa [con] using h
  | c k => intro b hb; simp [reads] at hb
  | zero => intro b hb; simp [reads] at hb
  | add x y hx hy =>
    simp [con] at h; intro b hb; simp [reads] at hb
    exact hb.elim (hx h.1 b) (hy h.2 b)
  | sub x y hx hy =>
    simp [con] at h; intro b hb; simp [reads] at hb
    exact hb.elim (hx h.1 b) (hy h.2 b)
  | mul x y hx hy =>
    simp [con] at h; intro b hb; simp [reads] at hb
    exact hb.elim (hx h.1 b) (hy h.2 b)

end Expr

/-- An assignment. -/
structure Stmt (A : Type u) (K : Type v) where
  dst : A
  e : Expr A K

/-- Everything an assignment touches. -/
def Stmt.cells (s : Stmt A K) : List A := s.dst :: s.e.reads

/-- Effect of an assignment. -/
def Stmt.run (s : Stmt A K) (m : A → K) : A → K := store m s.dst (s.e.eval m)

/-- Effect of a program. -/
def run (p : List (Stmt A K)) (m : A → K) : A → K := p.foldl (fun m s => s.run m) m

/-- Execution on a memory of which only the cells satisfying `ok` exist: `none` when another cell is touched. -/
def runChecked (ok : A → Bool) : List (Stmt A K) → (A → K) → Option (A → K)
  | [], m => some m
  | s :: p, m => if s.cells.all ok then runChecked ok p (s.run m) else none

theorem runChecked_eq (ok : A → Bool) (p : List (Stmt A K)) (m : A → K) :
    runChecked ok p m = if (∀ s ∈ p, ∀ a ∈ s.cells, ok a = true) then some (run p m) else none := by
  induction p generalizing m with
  | nil => simp [runChecked, run]
  | cons s p ih =>
    unfold runChecked
    by_cases h : s.cells.all ok = true
    · rw [if_pos h, ih]
      rw [List.all_eq_true] at h
      by_cases h2 : ∀ s ∈ p, ∀ a ∈ s.cells, ok a = true
      · rw [if_pos h2, if_pos]
        · rfl
        · intro t ht; rcases List.mem_cons.mp ht with rfl | ht
          · exact h
          · exact h2 t ht
      · rw [if_neg h2, if_neg]
        intro h3; exact h2 (fun t ht => h3 t (by simp [ht]))
    · rw [if_neg h, if_neg]
      intro h2; exact h (List.all_eq_true.mpr (h2 s (by simp)))

/-- As an instruction of the interleaving semantics. -/
def Stmt.instr (s : Stmt A K) : Instr A K := ⟨s.e.reads, s.dst, fun l => (s.e.evalL l).1⟩

theorem seqInstr_instr (s : Stmt A K) (m : A → K) : seqInstr s.instr m = s.run m := by
  unfold seqInstr Stmt.run Stmt.instr
  have := s.e.evalL_spec m []
  rw [List.append_nil] at this
  dsimp only
  rw [this]

theorem seqProg_instr (p : List (Stmt A K)) (m : A → K) : seqProg (p.map Stmt.instr) m = run p m := by
  induction p generalizing m with
  | nil => rfl
  | cons s p ih =>
    show seqProg (p.map Stmt.instr) (seqInstr s.instr m) = run p (s.run m)
    rw [seqInstr_instr, ih]

/-! ## Loops -/

/-- `for (i=lo; i<hi; i++) body(i)`. -/
def loop (lo hi : Int) (body : Int → List (Stmt A K)) : List (Stmt A K) :=
  (List.range (hi - lo).toNat).flatMap fun k : Nat => body (lo + (k : Int))

/-- The same loop with every iteration a thread of its own (`#pragma omp for`). -/
def parfor (lo hi : Int) (body : Int → List (Stmt A K)) : List (List (Stmt A K)) :=
  (List.range (hi - lo).toNat).map fun k : Nat => body (lo + (k : Int))

omit [DecidableEq A] [CommRing K] in
theorem mem_loop {lo hi : Int} {body : Int → List (Stmt A K)} {s : Stmt A K} :
    s ∈ loop lo hi body ↔ ∃ i, lo ≤ i ∧ i < hi ∧ s ∈ body i := by
  unfold loop
  rw [List.mem_flatMap]
  constructor
  · rintro ⟨k, hk, hs⟩
    rw [List.mem_range] at hk
    exact ⟨lo + k, by omega, by omega, hs⟩
  · rintro ⟨i, h1, h2, hs⟩
    refine ⟨(i - lo).toNat, List.mem_range.mpr (by omega), ?_⟩
    have : lo + ((i - lo).toNat : Int) = i := by omega
    rw [this]; exact hs

omit [DecidableEq A] [CommRing K] in
theorem mem_parfor {lo hi : Int} {body : Int → List (Stmt A K)} {t : List (Stmt A K)} :
    t ∈ parfor lo hi body ↔ ∃ i, lo ≤ i ∧ i < hi ∧ t = body i := by
  unfold parfor
  rw [List.mem_map]
  constructor
  · rintro ⟨k, hk, hs⟩
    rw [List.mem_range] at hk
    exact ⟨lo + k, by omega, by omega, hs.symm⟩
  · rintro ⟨i, h1, h2, hs⟩
    refine ⟨(i - lo).toNat, List.mem_range.mpr (by omega), ?_⟩
    have : lo + ((i - lo).toNat : Int) = i := by omega
    rw [this, hs]

/-! ## Phases

A phase is a list of threads that run between two barriers; a program is a list of phases. -/

/-- The assignments of all phases in sequential order. -/
def seqOf (ph : List (List (List (Stmt A K)))) : List (Stmt A K) := ph.flatten.flatten

/-- The threads of a phase for the interleaving semantics (thread names are numbers; there is nothing beyond the last). -/
def threads (ph : List (List (Stmt A K))) : Nat → List (Instr A K) := fun t => (ph.getD t []).map Stmt.instr

/-- `m'` is a possible memory at the end of a phase: the phase was run by some complete schedule. -/
def PhaseResult (ph : List (List (Stmt A K))) (m m' : A → K) : Prop :=
  ∃ sched, Done (progSys (threads ph)) (exec (progSys (threads ph)) sched (start m)) ∧
    m' = (exec (progSys (threads ph)) sched (start m)).mem

/-- `m'` is a possible memory at the end of a program with barriers between the phases. -/
inductive ParResult : List (List (List (Stmt A K))) → (A → K) → (A → K) → Prop
  | nil (m) : ParResult [] m m
  | cons {ph rest m m1 m2} : PhaseResult ph m m1 → ParResult rest m1 m2 → ParResult (ph :: rest) m m2

/-- No thread of the phase touches what another one writes. -/
def PhaseFree (ph : List (List (Stmt A K))) : Prop :=
  ∀ i j (hi : i < ph.length) (hj : j < ph.length), i ≠ j → ∀ s ∈ ph[i], ∀ s' ∈ ph[j], s.dst ∉ s'.cells

theorem run_append (p q : List (Stmt A K)) (m : A → K) : run (p ++ q) m = run q (run p m) := by
  unfold run; rw [List.foldl_append]

theorem foldl_threads (ph : List (List (Stmt A K))) (m : A → K) : ∀ n, n ≤ ph.length →
    (List.range n).foldl (fun m t => seqProg (threads ph t) m) m = run (ph.take n).flatten m := by
  intro n
  induction n with
  | zero => intro _; rfl
  | succ n ih =>
    intro hn
    rw [List.range_succ, List.foldl_append, ih (by omega)]
    have ht : ph.take (n + 1) = ph.take n ++ [ph[n]] := by
      rw [List.take_add_one, List.getElem?_eq_getElem (by omega)]; rfl
    rw [ht, List.flatten_append, run_append]
    simp only [List.foldl_cons, List.foldl_nil, List.flatten_cons, List.flatten_nil, List.append_nil]
    unfold threads
    rw [seqProg_instr, List.getD_eq_getElem?_getD, List.getElem?_eq_getElem (by omega)]
    rfl

theorem phase_result_unique {ph : List (List (Stmt A K))} (h : PhaseFree ph) {m m' : A → K} (hr : PhaseResult ph m m') :
    m' = run ph.flatten m := by
  obtain ⟨sched, hd, rfl⟩ := hr
  have hfree : RaceFree (threads ph) := by
    intro t u a htu hw
    obtain ⟨i, hi, hia⟩ := hw
    unfold threads at hi
    rw [List.mem_map] at hi
    obtain ⟨s, hs, rfl⟩ := hi
    have ht : t < ph.length := by
      by_contra hc
      rw [List.getD_eq_getElem?_getD, List.getElem?_eq_none (by omega)] at hs
      simp at hs
    rw [List.getD_eq_getElem?_getD, List.getElem?_eq_getElem ht, Option.getD_some] at hs
    have key : ∀ j ∈ threads ph u, ∃ s', j = Stmt.instr s' ∧ s.dst ∉ s'.cells := by
      intro j hj
      unfold threads at hj
      rw [List.mem_map] at hj
      obtain ⟨s', hs', rfl⟩ := hj
      have hu : u < ph.length := by
        by_contra hc
        rw [List.getD_eq_getElem?_getD, List.getElem?_eq_none (by omega)] at hs'
        simp at hs'
      rw [List.getD_eq_getElem?_getD, List.getElem?_eq_getElem hu, Option.getD_some] at hs'
      exact ⟨s', rfl, h t u ht hu htu s hs s' hs'⟩
    have hia : s.dst = a := hia
    constructor
    · rintro ⟨j, hj, hja⟩
      obtain ⟨s', rfl, hns⟩ := key j hj
      have hja : s'.dst = a := hja
      exact hns (by unfold Stmt.cells; rw [hia, ← hja]; simp)
    · rintro ⟨j, hj, hja⟩
      obtain ⟨s', rfl, hns⟩ := key j hj
      have hja : a ∈ s'.e.reads := hja
      exact hns (by unfold Stmt.cells; rw [hia]; simp [hja])
  rw [par_eq_seq hfree m (List.range ph.length) List.nodup_range ?_ sched hd, foldl_threads ph m _ (Nat.le_refl _),
    List.take_length]
  intro t ht
  rw [List.mem_range] at ht
  unfold threads
  rw [List.getD_eq_getElem?_getD, List.getElem?_eq_none (by omega)]
  rfl

/-- A complete schedule exists for every phase. -/
theorem phase_result_exists (ph : List (List (Stmt A K))) (m : A → K) : ∃ m', PhaseResult ph m m' := by
  obtain ⟨sched, h⟩ := complete_schedule_exists (threads ph) m (List.range ph.length) List.nodup_range (by
    intro t ht
    rw [List.mem_range] at ht
    unfold threads
    rw [List.getD_eq_getElem?_getD, List.getElem?_eq_none (by omega)]
    rfl)
  exact ⟨_, sched, h, rfl⟩

theorem parResult_exists (phs : List (List (List (Stmt A K)))) (m : A → K) : ∃ m', ParResult phs m m' := by
  induction phs generalizing m with
  | nil => exact ⟨m, .nil m⟩
  | cons ph rest ih =>
    obtain ⟨m1, h1⟩ := phase_result_exists ph m
    obtain ⟨m2, h2⟩ := ih m1
    exact ⟨m2, .cons h1 h2⟩

theorem parResult_unique {phs : List (List (List (Stmt A K)))} (h : ∀ ph ∈ phs, PhaseFree ph) {m m' : A → K}
    (hr : ParResult phs m m') : m' = run (seqOf phs) m := by
  induction hr with
  | nil m => rfl
  | @cons ph rest m m1 m2 h1 _ ih =>
    rw [ih (fun ph hp => h ph (by simp [hp])), phase_result_unique (h ph (by simp)) h1]
    unfold seqOf
    rw [List.flatten_cons, List.flatten_append, run_append]

/-- Every order of the threads, one after the other, is a schedule. -/
theorem phase_order (ph : List (List (Stmt A K))) (m : A → K) (ts : List Nat) (hts : ts.Perm (List.range ph.length)) :
    PhaseResult ph m (run (ts.flatMap fun t => ph.getD t []) m) := by
  have hnd : ts.Nodup := hts.nodup_iff.mpr List.nodup_range
  obtain ⟨sched, h1, h2, h3⟩ := seq_schedule (threads ph) m ts hnd
  refine ⟨sched, ?_, ?_⟩
  · intro t
    by_cases ht : t ∈ ts
    · rw [h2 t ht]; exact progSys_end _ t _ _ (Nat.le_refl _)
    · rw [h3 t ht]
      refine progSys_end _ t _ _ ?_
      have : ¬ t < ph.length := fun hc => ht (hts.mem_iff.mpr (List.mem_range.mpr hc))
      unfold threads
      rw [List.getD_eq_getElem?_getD, List.getElem?_eq_none (by omega)]
      exact Nat.le_refl _
  · rw [h1]
    clear h1 h2 h3 hnd hts sched
    induction ts generalizing m with
    | nil => rfl
    | cons t ts ih =>
      rw [List.flatMap_cons, run_append, List.foldl_cons, ih]
      unfold threads
      rw [seqProg_instr]

/-! ### Phases that only clear elements -/

/-- Every assignment of the phase stores zero. -/
def ZeroPhase (ph : List (List (Stmt A K))) : Prop := ∀ t ∈ ph, ∀ s ∈ t, s.e = .zero

omit [DecidableEq A] in
theorem threads_zero {ph : List (List (Stmt A K))} (h : ZeroPhase ph) (t : Nat) :
    ∀ i ∈ threads ph t, i.reads = [] ∧ ∀ l, i.f l = 0 := by
  intro i hi
  unfold threads at hi
  rw [List.mem_map] at hi
  obtain ⟨s, hs, rfl⟩ := hi
  have ht : t < ph.length := by
    by_contra hc
    rw [List.getD_eq_getElem?_getD, List.getElem?_eq_none (by omega)] at hs
    simp at hs
  rw [List.getD_eq_getElem?_getD, List.getElem?_eq_getElem ht, Option.getD_some] at hs
  have := h _ (List.getElem_mem ht) s hs
  constructor
  · show s.e.reads = []
    rw [this]; rfl
  · intro l
    show (s.e.evalL l).1 = 0
    rw [this]; rfl

omit [DecidableEq A] in
theorem mem_threads {ph : List (List (Stmt A K))} {a : A} :
    (∃ t, ∃ i ∈ threads ph t, i.dst = a) ↔ ∃ s ∈ ph.flatten, s.dst = a := by
  constructor
  · rintro ⟨t, i, hi, rfl⟩
    unfold threads at hi
    rw [List.mem_map] at hi
    obtain ⟨s, hs, rfl⟩ := hi
    have ht : t < ph.length := by
      by_contra hc
      rw [List.getD_eq_getElem?_getD, List.getElem?_eq_none (by omega)] at hs
      simp at hs
    rw [List.getD_eq_getElem?_getD, List.getElem?_eq_getElem ht, Option.getD_some] at hs
    exact ⟨s, List.mem_flatten.mpr ⟨_, List.getElem_mem ht, hs⟩, rfl⟩
  · rintro ⟨s, hs, rfl⟩
    rw [List.mem_flatten] at hs
    obtain ⟨l, hl, hs⟩ := hs
    obtain ⟨t, ht, rfl⟩ := List.getElem_of_mem hl
    refine ⟨t, s.instr, ?_, rfl⟩
    unfold threads
    rw [List.getD_eq_getElem?_getD, List.getElem?_eq_getElem ht, Option.getD_some]
    exact List.mem_map.mpr ⟨s, hs, rfl⟩

theorem run_zero {p : List (Stmt A K)} (h : ∀ s ∈ p, s.e = .zero) (m : A → K) (a : A) :
    ((∃ s ∈ p, s.dst = a) → run p m a = 0) ∧ ((¬ ∃ s ∈ p, s.dst = a) → run p m a = m a) := by
  induction p generalizing m with
  | nil => exact ⟨(by rintro ⟨s, hs, _⟩; cases hs), fun _ => rfl⟩
  | cons s p ih =>
    have hs := h s (by simp)
    obtain ⟨i1, i2⟩ := ih (fun t ht => h t (by simp [ht])) (s.run m)
    have hr : ∀ b, s.run m b = if b = s.dst then 0 else m b := by
      intro b; unfold Stmt.run store; rw [hs]; rfl
    show ((∃ t ∈ s :: p, t.dst = a) → run p (s.run m) a = 0) ∧ ((¬ ∃ t ∈ s :: p, t.dst = a) → run p (s.run m) a = m a)
    constructor
    · rintro ⟨t, ht, hta⟩
      by_cases hp : ∃ s ∈ p, s.dst = a
      · exact i1 hp
      · rw [i2 hp, hr]
        rcases List.mem_cons.mp ht with rfl | ht
        · rw [if_pos hta.symm]
        · exact absurd ⟨t, ht, hta⟩ hp
    · intro hn
      rw [i2 (fun ⟨t, ht, hta⟩ => hn ⟨t, by simp [ht], hta⟩), hr, if_neg]
      rintro rfl
      exact hn ⟨s, by simp, rfl⟩

theorem zero_exec {ph : List (List (Stmt A K))} (h : ZeroPhase ph) (m : A → K) (sched : List Nat) :
    let s := exec (progSys (threads ph)) sched (start m)
    (∀ t, (s.loc t).2 = []) ∧
    (∀ a, (∃ t j, j < (s.loc t).1 ∧ ∃ i, (threads ph t)[j]? = some i ∧ i.dst = a) → s.mem a = 0) ∧
    (∀ a, s.mem a = m a ∨ (s.mem a = 0 ∧ ∃ t, ∃ i ∈ threads ph t, i.dst = a)) := by
  induction sched using List.reverseRecOn with
  | nil =>
    refine ⟨fun _ => rfl, ?_, fun _ => .inl rfl⟩
    rintro a ⟨t, j, hj, _⟩
    exact absurd hj (by simp [exec, start])
  | append_singleton sched u ih =>
    have he : exec (progSys (threads ph)) (sched ++ [u]) (start m) =
        step (progSys (threads ph)) u (exec (progSys (threads ph)) sched (start m)) := by
      unfold exec; rw [List.foldl_append]; rfl
    rw [he]
    generalize exec (progSys (threads ph)) sched (start m) = e at ih
    obtain ⟨i1, i2, i3⟩ := ih
    dsimp only at i1 i2 i3 ⊢
    have hst : step (progSys (threads ph)) u e = match (threads ph u)[(e.loc u).1]? with
        | none => e
        | some i => ⟨fun t => if t = u then ((e.loc u).1 + 1, []) else e.loc t, store e.mem i.dst 0⟩ := by
      unfold step progSys
      cases hi : (threads ph u)[(e.loc u).1]? with
      | none => rfl
      | some i =>
        obtain ⟨z1, z2⟩ := threads_zero h u i (List.mem_of_getElem? hi)
        simp only [z1, z2, List.getElem?_nil]
    rw [hst]
    cases hi : (threads ph u)[(e.loc u).1]? with
    | none => exact ⟨i1, i2, i3⟩
    | some i =>
      dsimp only
      refine ⟨?_, ?_, ?_⟩
      · intro t
        split
        · rfl
        · exact i1 t
      · rintro a ⟨t, j, hj, i', hi', hia⟩
        unfold store
        by_cases ha : a = i.dst
        · rw [if_pos ha]
        · rw [if_neg ha]
          refine i2 a ⟨t, j, ?_, i', hi', hia⟩
          by_cases htu : t = u
          · subst htu
            rw [if_pos rfl] at hj
            dsimp only at hj
            by_cases hje : j = (e.loc t).1
            · subst hje
              rw [hi] at hi'
              cases hi'
              exact absurd hia.symm ha
            · omega
          · rw [if_neg htu] at hj; exact hj
      · intro a
        unfold store
        by_cases ha : a = i.dst
        · rw [if_pos ha]
          exact .inr ⟨rfl, u, i, List.mem_of_getElem? hi, ha.symm⟩
        · rw [if_neg ha]; exact i3 a

/-- A phase that only clears elements has one result, even if several threads clear the same element. -/
theorem zero_phase_unique {ph : List (List (Stmt A K))} (h : ZeroPhase ph) {m m' : A → K} (hr : PhaseResult ph m m') :
    m' = run ph.flatten m := by
  obtain ⟨sched, hd, rfl⟩ := hr
  obtain ⟨i1, i2, i3⟩ := zero_exec h m sched
  have hz : ∀ s ∈ ph.flatten, s.e = .zero := by
    intro s hs
    obtain ⟨t, ht, hs⟩ := List.mem_flatten.mp hs
    exact h t ht s hs
  funext a
  obtain ⟨r1, r2⟩ := run_zero hz m a
  by_cases hw : ∃ s ∈ ph.flatten, s.dst = a
  · rw [r1 hw]
    obtain ⟨t, i, hi, hia⟩ := mem_threads.mpr hw
    obtain ⟨j, hj, rfl⟩ := List.getElem_of_mem hi
    refine i2 a ⟨t, j, ?_, _, List.getElem?_eq_getElem hj, hia⟩
    by_contra hc
    have hdt := hd t
    generalize exec (progSys (threads ph)) sched (start m) = e at hdt hc
    have hlt : (e.loc t).1 < (threads ph t).length := by omega
    unfold progSys at hdt
    rw [List.getElem?_eq_getElem hlt] at hdt
    dsimp only at hdt
    rw [(threads_zero h t _ (List.getElem_mem hlt)).1, List.getElem?_nil] at hdt
    cases hdt
  · rw [r2 hw]
    rcases i3 a with h | ⟨_, h⟩
    · exact h
    · exact absurd (mem_threads.mp h) hw

/-- As `parResult_unique`, with phases that only clear elements. -/
theorem parResult_unique' {phs : List (List (List (Stmt A K)))} (h : ∀ ph ∈ phs, PhaseFree ph ∨ ZeroPhase ph)
    {m m' : A → K} (hr : ParResult phs m m') : m' = run (seqOf phs) m := by
  induction hr with
  | nil m => rfl
  | @cons ph rest m m1 m2 h1 _ ih =>
    have e : m1 = run ph.flatten m := by
      rcases h ph (by simp) with h | h
      · exact phase_result_unique h h1
      · exact zero_phase_unique h h1
    rw [ih (fun ph hp => h ph (by simp [hp])), e]
    unfold seqOf
    rw [List.flatten_cons, List.flatten_append, run_append]

/-! ### Conditions for the absence of races -/

/-- The threads `t` and `u` do not interfere. -/
def Apart (t u : List (Stmt A K)) : Prop :=
  (∀ s ∈ t, ∀ s' ∈ u, s.dst ∉ s'.cells) ∧ (∀ s ∈ u, ∀ s' ∈ t, s.dst ∉ s'.cells)

omit [DecidableEq A] [CommRing K] in
theorem phaseFree_of_pairwise {ph : List (List (Stmt A K))} (h : ph.Pairwise Apart) : PhaseFree ph := by
  intro i j hi hj hij s hs s' hs'
  rw [List.pairwise_iff_getElem] at h
  rcases Nat.lt_or_gt_of_ne hij with hlt | hlt
  · exact (h i j hi hj hlt).1 s hs s' hs'
  · exact (h j i hj hi hlt).2 s hs s' hs'

/-- The statement writes a cell of `W` and touches cells of `W` only where `κ` is `i`. -/
def InKey (W : A → Prop) (κ : A → Int) (i : Int) (s : Stmt A K) : Prop := W s.dst ∧ ∀ c ∈ s.cells, W c → κ c = i

omit [DecidableEq A] [CommRing K] in
theorem parfor_apart {lo hi : Int} {body : Int → List (Stmt A K)} (W : A → Prop) (κ : A → Int)
    (h : ∀ i : Int, lo ≤ i → i < hi → ∀ s ∈ body i, InKey W κ i s) : (parfor lo hi body).Pairwise Apart := by
  unfold parfor
  rw [List.pairwise_map]
  refine List.Pairwise.imp_of_mem ?_ (List.pairwise_lt_range (n := (hi - lo).toNat))
  intro i j hi hj hij
  rw [List.mem_range] at hi hj
  have hI := h (lo + i) (by omega) (by omega)
  have hJ := h (lo + j) (by omega) (by omega)
  constructor
  · intro s hs s' hs' hc
    have e1 := (hI s hs).2 s.dst (by simp [Stmt.cells]) (hI s hs).1
    have e2 := (hJ s' hs').2 s.dst hc (hI s hs).1
    omega
  · intro s hs s' hs' hc
    have e1 := (hJ s hs).2 s.dst (by simp [Stmt.cells]) (hJ s hs).1
    have e2 := (hI s' hs').2 s.dst hc (hJ s hs).1
    omega

omit [DecidableEq A] [CommRing K] in
theorem append_apart {p q : List (List (Stmt A K))} (hp : p.Pairwise Apart) (hq : q.Pairwise Apart)
    (h : ∀ s ∈ p.flatten, ∀ s' ∈ q.flatten, s.dst ∉ s'.cells ∧ s'.dst ∉ s.cells) : (p ++ q).Pairwise Apart := by
  rw [List.pairwise_append]
  refine ⟨hp, hq, fun t ht u hu => ⟨fun s hs s' hs' => ?_, fun s hs s' hs' => ?_⟩⟩
  · exact (h s (List.mem_flatten.mpr ⟨t, ht, hs⟩) s' (List.mem_flatten.mpr ⟨u, hu, hs'⟩)).1
  · exact (h s' (List.mem_flatten.mpr ⟨t, ht, hs'⟩) s (List.mem_flatten.mpr ⟨u, hu, hs⟩)).2

/-! ## Linearity -/

/-- The superposition `s·m1 + t·m2` of the wave fields of two memories with the same medium. -/
def comb (fld : A → Bool) (s t : K) (m1 m2 : A → K) : A → K := fun a => if fld a then s * m1 a + t * m2 a else m1 a

theorem eval_comb {fld : A → Bool} {e : Expr A K} (h : e.lin fld = true) (s t : K) (m1 m2 : A → K)
    (hm : ∀ a, fld a = false → m1 a = m2 a) : e.eval (comb fld s t m1 m2) = s * e.eval m1 + t * e.eval m2 := by
  have hcon : ∀ x : Expr A K, x.con fld = true →
      x.eval (comb fld s t m1 m2) = x.eval m1 ∧ x.eval m1 = x.eval m2 := by
    intro x hx
    refine ⟨x.eval_congr (fun a ha => ?_), x.eval_congr (fun a ha => hm a (Expr.con_reads hx a ha))⟩
    unfold comb; rw [if_neg (by rw [Expr.con_reads hx a ha]; decide)]
  induction e with
  | rd a => simp only [Expr.lin] at h; simp [Expr.eval, comb, h]
  | c k => simp [Expr.lin] at h
  | zero => simp [Expr.eval]
  | add x y hx hy =>
    simp only [Expr.lin, Bool.and_eq_true] at h
    simp only [Expr.eval]; rw [hx h.1, hy h.2]; ring
  | sub x y hx hy =>
    simp only [Expr.lin, Bool.and_eq_true] at h
    simp only [Expr.eval]; rw [hx h.1, hy h.2]; ring
  | mul x y hx hy =>
    simp only [Expr.lin, Bool.or_eq_true, Bool.and_eq_true] at h
    simp only [Expr.eval]
    rcases h with ⟨h1, h2⟩ | ⟨h1, h2⟩
    · rw [hy h2, (hcon x h1).1, ← (hcon x h1).2]; ring
    · rw [hx h1, (hcon y h2).1, ← (hcon y h2).2]; ring

theorem run_nonfield {fld : A → Bool} {p : List (Stmt A K)} (h : ∀ s ∈ p, fld s.dst = true) (m : A → K) (a : A)
    (ha : fld a = false) : run p m a = m a := by
  induction p generalizing m with
  | nil => rfl
  | cons s p ih =>
    show run p (s.run m) a = m a
    rw [ih (fun t ht => h t (by simp [ht]))]
    unfold Stmt.run store
    rw [if_neg]
    rintro rfl
    rw [h s (by simp)] at ha; cases ha

theorem run_comb {fld : A → Bool} {p : List (Stmt A K)} (h : ∀ s ∈ p, fld s.dst = true ∧ s.e.lin fld = true)
    (s t : K) (m1 m2 : A → K) (hm : ∀ a, fld a = false → m1 a = m2 a) :
    run p (comb fld s t m1 m2) = comb fld s t (run p m1) (run p m2) := by
  induction p generalizing m1 m2 with
  | nil => rfl
  | cons st p ih =>
    have h0 := h st (by simp)
    have hrun : st.run (comb fld s t m1 m2) = comb fld s t (st.run m1) (st.run m2) := by
      funext a
      unfold Stmt.run store
      rw [eval_comb h0.2 s t m1 m2 hm]
      unfold comb
      by_cases hd : a = st.dst
      · subst hd; simp [h0.1]
      · simp [hd]
    show run p (st.run _) = comb fld s t (run p (st.run m1)) (run p (st.run m2))
    rw [hrun]
    refine ih (fun t ht => h t (by simp [ht])) _ _ ?_
    intro a ha
    have hda : ¬ a = st.dst := by rintro rfl; rw [h0.1] at ha; cases ha
    unfold Stmt.run store
    rw [if_neg hda, if_neg hda, hm a ha]

/-! ## Support -/

theorem eval_zero {fld : A → Bool} {e : Expr A K} (h : e.lin fld = true) {m : A → K}
    (hz : ∀ a ∈ e.reads, fld a = true → m a = 0) : e.eval m = 0 := by
  induction e with
  | rd a => simp only [Expr.lin] at h; exact hz a (by simp [Expr.reads]) h
  | c k => simp [Expr.lin] at h
  | zero => rfl
  | add x y hx hy =>
    simp only [Expr.lin, Bool.and_eq_true] at h
    simp only [Expr.eval]
    rw [hx h.1 (fun a ha => hz a (by simp [Expr.reads, ha])), hy h.2 (fun a ha => hz a (by simp [Expr.reads, ha]))]; ring
  | sub x y hx hy =>
    simp only [Expr.lin, Bool.and_eq_true] at h
    simp only [Expr.eval]
    rw [hx h.1 (fun a ha => hz a (by simp [Expr.reads, ha])), hy h.2 (fun a ha => hz a (by simp [Expr.reads, ha]))]; ring
  | mul x y hx hy =>
    simp only [Expr.lin, Bool.or_eq_true, Bool.and_eq_true] at h
    simp only [Expr.eval]
    rcases h with ⟨_, h2⟩ | ⟨h1, _⟩
    · rw [hy h2 (fun a ha => hz a (by simp [Expr.reads, ha]))]; ring
    · rw [hx h1 (fun a ha => hz a (by simp [Expr.reads, ha]))]; ring

/-- If every assignment to a field cell outside `Ω` is linear and reads no field cell inside `Ω`, a field that vanishes outside
`Ω` keeps doing so. -/
theorem run_support {fld : A → Bool} {Ω : A → Prop} {p : List (Stmt A K)}
    (h : ∀ s ∈ p, s.e.lin fld = true ∧ (¬ Ω s.dst → ∀ a ∈ s.e.reads, fld a = true → ¬ Ω a)) {m : A → K}
    (hm : ∀ a, fld a = true → ¬ Ω a → m a = 0) : ∀ a, fld a = true → ¬ Ω a → run p m a = 0 := by
  induction p generalizing m with
  | nil => exact hm
  | cons s p ih =>
    refine ih (fun t ht => h t (by simp [ht])) (m := s.run m) ?_
    intro a ha hn
    unfold Stmt.run store
    split
    · rename_i hd
      subst hd
      exact eval_zero (h s (by simp)).1 (fun b hb hf => hm b hf ((h s (by simp)).2 hn b hb hf))
    · exact hm a ha hn

end Verif.Sten

import Verif.Base.StencilAt

/-!
# Properties of all assignments of a program

Generic combinators used by the models of finite-difference kernels: a property of all assignments of nested loops, arrays
stored column by column, assignments that leave a grid point alone, phases without races.
-/

namespace Verif.Sten

universe u v
variable {A : Type u} {K : Type v}

/-- A property of all assignments of a list. -/
def All (Q : Stmt A K → Prop) (l : List (Stmt A K)) : Prop := ∀ s ∈ l, Q s

variable {Q : Stmt A K → Prop}

theorem all_nil : All Q [] := by intro s h; cases h

theorem all_append {l1 l2 : List (Stmt A K)} (h1 : All Q l1) (h2 : All Q l2) : All Q (l1 ++ l2) := by
  intro s hs
  rcases List.mem_append.mp hs with h | h
  · exact h1 s h
  · exact h2 s h

theorem all_cons {s : Stmt A K} {l : List (Stmt A K)} (h1 : Q s) (h2 : All Q l) : All Q (s :: l) :=
  List.forall_mem_cons.mpr ⟨h1, h2⟩

theorem all_one {s : Stmt A K} (h1 : Q s) : All Q [s] := all_cons h1 all_nil

theorem all_loop {lo hi : Int} {body : Int → List (Stmt A K)} (h : ∀ i : Int, lo ≤ i → i < hi → All Q (body i)) :
    All Q (loop lo hi body) := by
  intro s hs
  obtain ⟨i, h1, h2, hb⟩ := mem_loop.mp hs
  exact h i h1 h2 s hb

theorem all_parfor {lo hi : Int} {body : Int → List (Stmt A K)} (h : ∀ i : Int, lo ≤ i → i < hi → All Q (body i)) :
    All Q (parfor lo hi body).flatten := by
  intro s hs
  rw [List.mem_flatten] at hs
  obtain ⟨t, ht, hs⟩ := hs
  obtain ⟨i, h1, h2, rfl⟩ := mem_parfor.mp ht
  exact h i h1 h2 s hs

/-- Parallel loop over columns, sequential loop over depth. -/
def sweep (ixo ixe izo ize : Int) (body : Int → Int → List (Stmt A K)) : List (List (Stmt A K)) :=
  parfor ixo ixe fun ix => loop izo ize fun iz => body ix iz

theorem all_sweep {a b c d : Int} {body : Int → Int → List (Stmt A K)}
    (h : ∀ ix : Int, a ≤ ix → ix < b → ∀ iz : Int, c ≤ iz → iz < d → All Q (body ix iz)) :
    All Q (sweep a b c d body).flatten :=
  all_parfor fun ix h1 h2 => all_loop fun iz h3 h4 => h ix h1 h2 iz h3 h4

theorem all_ite {c : Prop} [Decidable c] {l1 l2 : List (Stmt A K)} (h1 : c → All Q l1) (h2 : ¬ c → All Q l2) :
    All Q (if c then l1 else l2) := by
  split
  · exact h1 ‹_›
  · exact h2 ‹_›

theorem all_when {c : Prop} [Decidable c] {l1 : List (Stmt A K)} (h1 : c → All Q l1) : All Q (if c then l1 else []) :=
  all_ite h1 fun _ => all_nil

theorem all_itef {c : Prop} [Decidable c] {l1 : List (List (Stmt A K))} (h1 : c → All Q l1.flatten) :
    All Q (if c then l1 else []).flatten := by
  split
  · exact h1 ‹_›
  · exact all_nil

/-- All assignments of a list of phases. -/
def AllP (Q : Stmt A K → Prop) (l : List (List (List (Stmt A K)))) : Prop := All Q (seqOf l)

theorem allP_append {l1 l2 : List (List (List (Stmt A K)))} (h1 : AllP Q l1) (h2 : AllP Q l2) : AllP Q (l1 ++ l2) := by
  unfold AllP seqOf at *
  rw [List.flatten_append, List.flatten_append]
  exact all_append h1 h2

theorem allP_nil : AllP Q [] := all_nil

theorem allP_cons {p : List (List (Stmt A K))} {l : List (List (List (Stmt A K)))} (h1 : All Q p.flatten) (h2 : AllP Q l) :
    AllP Q (p :: l) := by
  unfold AllP seqOf at *
  rw [List.flatten_cons, List.flatten_append]
  exact all_append h1 h2

theorem allP_one {p : List (List (Stmt A K))} (h : All Q p.flatten) : AllP Q [p] := allP_cons h allP_nil

theorem allP_when {c : Prop} [Decidable c] {l1 : List (List (List (Stmt A K)))} (h1 : c → AllP Q l1) :
    AllP Q (if c then l1 else []) := by
  split
  · exact h1 ‹_›
  · exact allP_nil

theorem all_mono {Q' : Stmt A K → Prop} (h : ∀ s, Q s → Q' s) {l : List (Stmt A K)} (hl : All Q l) : All Q' l :=
  fun s hs => h s (hl s hs)

/-! ## Races -/

theorem nil_apart' : ([] : List (List (Stmt A K))).Pairwise Apart := List.Pairwise.nil

theorem when_apart {c : Prop} [Decidable c] {l : List (List (Stmt A K))} (h : c → l.Pairwise Apart) :
    (if c then l else []).Pairwise Apart := by
  split
  · exact h ‹_›
  · exact nil_apart'

theorem one_free (t : List (Stmt A K)) : PhaseFree [t] := phaseFree_of_pairwise (List.pairwise_singleton _ _)

/-- All phases of a list are free of races. -/
def AllFree (l : List (List (List (Stmt A K)))) : Prop := ∀ ph ∈ l, PhaseFree ph

theorem allFree_append {l1 l2 : List (List (List (Stmt A K)))} (h1 : AllFree l1) (h2 : AllFree l2) : AllFree (l1 ++ l2) := by
  intro ph h
  rcases List.mem_append.mp h with h | h
  · exact h1 ph h
  · exact h2 ph h

theorem allFree_nil : AllFree ([] : List (List (List (Stmt A K)))) := by intro ph h; cases h

theorem allFree_cons {p : List (List (Stmt A K))} {l : List (List (List (Stmt A K)))} (h1 : PhaseFree p) (h2 : AllFree l) :
    AllFree (p :: l) := List.forall_mem_cons.mpr ⟨h1, h2⟩

theorem allFree_one {p : List (List (Stmt A K))} (h1 : PhaseFree p) : AllFree [p] := allFree_cons h1 allFree_nil

theorem allFree_when {c : Prop} [Decidable c] {l : List (List (List (Stmt A K)))} (h : c → AllFree l) :
    AllFree (if c then l else []) := by
  split
  · exact h ‹_›
  · exact allFree_nil

/-- The two groups of threads write different cells than the other one touches. -/
theorem cross_of {W : A → Prop} {W' : A → Prop} {p q : List (List (Stmt A K))}
    (hp : All (fun s => W s.dst ∧ ∀ c ∈ s.cells, ¬ W' c) p.flatten)
    (hq : All (fun s => W' s.dst ∧ ∀ c ∈ s.cells, ¬ W c) q.flatten) :
    ∀ s ∈ p.flatten, ∀ s' ∈ q.flatten, s.dst ∉ s'.cells ∧ s'.dst ∉ s.cells := fun s hs s' hs' =>
  ⟨fun hc => (hq s' hs').2 _ hc (hp s hs).1, fun hc => (hp s hs).2 _ hc (hq s' hs').1⟩

/-! ## Arrays stored column by column -/

section
variable {Ar : Type} [DecidableEq Ar]

/-- Element in column `ix` and row `iz` of an array with `n` rows: `a[ix*n1+iz]`. -/
def el (n ix iz : Int) : Int := ix * n + iz

/-- Column and row of a cell. -/
def colOf (n : Int) (c : Ar × Int) : Int := c.2 / n
def rowOf (n : Int) (c : Ar × Int) : Int := c.2 % n

omit [DecidableEq Ar] in
theorem colOf_el {n ix iz : Int} {a : Ar} (h1 : 0 ≤ iz) (h2 : iz < n) : colOf n (a, el n ix iz) = ix := by
  unfold colOf el
  dsimp only
  rw [Int.add_comm, Int.add_mul_ediv_right _ _ (by omega), Int.ediv_eq_zero_of_lt h1 h2]; omega

omit [DecidableEq Ar] in
theorem rowOf_el {n ix iz : Int} {a : Ar} (h1 : 0 ≤ iz) (h2 : iz < n) : rowOf n (a, el n ix iz) = iz := by
  unfold rowOf el
  dsimp only
  rw [Int.add_comm, Int.add_mul_emod_self_right, Int.emod_eq_of_lt h1 h2]

theorem el_range {n w ix iz : Int} (h1 : 0 ≤ ix) (h2 : ix < w) (h3 : 0 ≤ iz) (h4 : iz < n) :
    0 ≤ el n ix iz ∧ el n ix iz < w * n := by
  unfold el
  have e1 : 0 ≤ ix * n := Int.mul_nonneg h1 (by omega)
  have e2 : (ix + 1) * n ≤ w * n := Int.mul_le_mul_of_nonneg_right (by omega) (by omega)
  rw [Int.add_mul, Int.one_mul] at e2
  omega

/-- Row `-1` is the last row of the column before. -/
theorem el_wrap (n ix iz : Int) : el n ix iz = el n (ix - 1) (iz + n) := by
  unfold el; rw [Int.sub_mul]; omega

/-- The assignment does not write the element of `a` in column `ix` and row `iz`. -/
def Avoids (n : Int) (a : Ar) (ix iz : Int) (s : Stmt (Ar × Int) K) : Prop :=
  s.dst.1 = a → ¬ (colOf n s.dst = ix ∧ rowOf n s.dst = iz)

omit [DecidableEq Ar] in
theorem avoids_arr {n : Int} {a b : Ar} (h : b ≠ a) {ix iz i : Int} {e : Expr (Ar × Int) K} :
    Avoids n a ix iz ⟨(b, i), e⟩ := fun e' => absurd e' h

omit [DecidableEq Ar] in
theorem avoids_el {n : Int} {a b : Ar} {ix iz jx jz : Int} {e : Expr (Ar × Int) K}
    (h : b = a → 0 ≤ jz ∧ jz < n ∧ (jx ≠ ix ∨ jz ≠ iz)) : Avoids n a ix iz ⟨(b, el n jx jz), e⟩ := by
  rintro hb ⟨e1, e2⟩
  obtain ⟨h1, h2, h3⟩ := h hb
  rw [colOf_el h1 h2] at e1
  rw [rowOf_el h1 h2] at e2
  omega

theorem run_avoids [CommRing K] {n : Int} {p : List (Stmt (Ar × Int) K)} {a : Ar} {ix iz : Int}
    (h : All (Avoids n a ix iz) p) (h1 : 0 ≤ iz) (h2 : iz < n) (m : Ar × Int → K) :
    run p m (a, el n ix iz) = m (a, el n ix iz) := by
  refine run_untouched (fun s hs e => ?_) m
  have := h s hs
  rw [Avoids, e] at this
  exact this rfl ⟨colOf_el h1 h2, rowOf_el h1 h2⟩

/-- A two-dimensional loop whose iterations own their grid point, at the point `(ix, iz)`. -/
theorem run_sweep_el [CommRing K] {n : Int} {W : Ar × Int → Prop} {a b c d : Int}
    {body : Int → Int → List (Stmt (Ar × Int) K)}
    (h : ∀ ix : Int, a ≤ ix → ix < b → ∀ iz : Int, c ≤ iz → iz < d → ∀ s ∈ body ix iz,
      InKey W (colOf n) ix s ∧ InKey W (rowOf n) iz s) {ix iz : Int} (hx1 : a ≤ ix) (hx2 : ix < b) (hz1 : c ≤ iz) (hz2 : iz < d)
    (h1 : 0 ≤ iz) (h2 : iz < n) (x : Ar) (m : Ar × Int → K) :
    run (sweep a b c d body).flatten m (x, el n ix iz) = run (body ix iz) m (x, el n ix iz) := by
  unfold sweep
  rw [parfor_flatten, run_loop_at (W := W) (κ := colOf n) _ hx1 hx2 (colOf_el h1 h2),
    run_loop_at (W := W) (κ := rowOf n) _ hz1 hz2 (rowOf_el h1 h2)]
  · exact fun jz e1 e2 s hs => (h ix hx1 hx2 jz e1 e2 s hs).2
  · intro jx e1 e2 s hs
    obtain ⟨jz, e3, e4, hs⟩ := mem_loop.mp hs
    exact (h jx e1 e2 jz e3 e4 s hs).1

end

/-! ## Cells of an explicit assignment -/

theorem rds_add (x y : Expr A K) : (x + y).reads = x.reads ++ y.reads := rfl
theorem rds_sub (x y : Expr A K) : (x - y).reads = x.reads ++ y.reads := rfl
theorem rds_mul (x y : Expr A K) : (x * y).reads = x.reads ++ y.reads := rfl
theorem rds_rd (a : A) : (Expr.rd a : Expr A K).reads = [a] := rfl
theorem rds_c (k : K) : (Expr.c k : Expr A K).reads = [] := rfl
theorem rds_zero : (Expr.zero : Expr A K).reads = [] := rfl

/-- Turn a statement about all cells of explicit assignments into a conjunction. -/
syntax "cells" "[" Lean.Parser.Tactic.simpLemma,* "]" : tactic
macro_rules
  | `(tactic| cells [$ls,*]) => `(tactic|
      simp only [$ls,*, Stmt.cells, rds_add, rds_sub, rds_mul, rds_rd, rds_c, rds_zero, List.forall_mem_cons,
        List.forall_mem_append, List.not_mem_nil, false_imp_iff, implies_true, and_true, true_and, List.append_nil,
        List.nil_append, List.cons_append, reduceCtorEq, or_false, false_or, or_true, true_or, true_imp_iff, and_self,
        not_false_eq_true, or_self, ne_eq])

end Verif.Sten

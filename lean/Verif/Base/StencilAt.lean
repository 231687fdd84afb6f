import Verif.Base.Stencil

/-! # The value a program leaves in one cell

Lemmas that reduce the effect of nested loops at one cell to the iteration that owns the cell. -/

namespace Verif.Sten

open Verif.Par

universe u v
variable {A : Type u} {K : Type v} [DecidableEq A] [CommRing K]

omit [DecidableEq A] in
theorem eval_add (m : A → K) (x y : Expr A K) : (x + y).eval m = x.eval m + y.eval m := rfl

omit [DecidableEq A] in
theorem eval_sub (m : A → K) (x y : Expr A K) : (x - y).eval m = x.eval m - y.eval m := rfl

omit [DecidableEq A] in
theorem eval_mul (m : A → K) (x y : Expr A K) : (x * y).eval m = x.eval m * y.eval m := rfl

/-- A cell that is not assigned keeps its value. -/
theorem run_untouched {p : List (Stmt A K)} {a : A} (h : ∀ s ∈ p, s.dst ≠ a) (m : A → K) : run p m a = m a := by
  induction p generalizing m with
  | nil => rfl
  | cons s p ih =>
    show run p (s.run m) a = m a
    rw [ih (fun t ht => h t (by simp [ht]))]
    unfold Stmt.run store
    rw [if_neg (fun e => h s (by simp) e.symm)]

/-- Memories that agree on a set `S` still do after a program that stays in `S`. -/
theorem run_agree {S : A → Prop} {p : List (Stmt A K)} (h : ∀ s ∈ p, ∀ c ∈ s.cells, S c) {m1 m2 : A → K}
    (hm : ∀ c, S c → m1 c = m2 c) : ∀ c, S c → run p m1 c = run p m2 c := by
  induction p generalizing m1 m2 with
  | nil => exact hm
  | cons s p ih =>
    refine ih (fun t ht => h t (by simp [ht])) (m1 := s.run m1) (m2 := s.run m2) ?_
    intro c hc
    unfold Stmt.run store
    split
    · exact Expr.eval_congr _ fun a ha => hm a (h s (by simp) a (by simp [Stmt.cells, ha]))
    · exact hm c hc

theorem run_flatMap_at {W : A → Prop} {κ : A → Int} {body : Int → List (Stmt A K)} (is : List Int)
    (h : ∀ i ∈ is, ∀ s ∈ body i, InKey W κ i s) (hn : is.Nodup) {i : Int} (hi : i ∈ is) {a : A} (ha : κ a = i) (m : A → K) :
    run (is.flatMap body) m a = run (body i) m a := by
  have keep : ∀ j ∈ is, j ≠ i → ∀ (m : A → K) (c : A), (¬ W c ∨ κ c = i) → run (body j) m c = m c := by
    intro j hj hji m c hc
    refine run_untouched (fun s hs e => ?_) m
    obtain ⟨h1, h2⟩ := h j hj s hs
    have := h2 s.dst (by simp [Stmt.cells]) h1
    subst e
    rcases hc with hc | hc
    · exact hc h1
    · exact hji (by rw [← this, hc])
  induction is generalizing m with
  | nil => cases hi
  | cons j is ih =>
    rw [List.flatMap_cons, run_append]
    by_cases hji : j = i
    · subst hji
      have hnot : j ∉ is := (List.nodup_cons.mp hn).1
      have : ∀ (l : List Int), (∀ x ∈ l, x ∈ is) → ∀ m : A → K, run (l.flatMap body) m a = m a := by
        intro l
        induction l with
        | nil => intro _ m; rfl
        | cons x l ihl =>
          intro hl m
          rw [List.flatMap_cons, run_append, ihl (fun y hy => hl y (by simp [hy]))]
          have hx := hl x (by simp)
          exact keep x (by simp [hx]) (fun e => hnot (e ▸ hx)) m a (Or.inr ha)
      exact this is (fun _ h => h) _
    · have hi' : i ∈ is := by
        rcases List.mem_cons.mp hi with e | e
        · exact absurd e.symm hji
        · exact e
      rw [ih (fun k hk => h k (by simp [hk])) (List.nodup_cons.mp hn).2 hi' _ (fun k hk => keep k (by simp [hk]))]
      refine run_agree (S := fun c => ¬ W c ∨ κ c = i) ?_ ?_ a (Or.inr ha)
      · intro s hs c hc
        by_cases hw : W c
        · exact Or.inr ((h i hi s hs).2 c hc hw)
        · exact Or.inl hw
      · intro c hc
        exact keep j (by simp) hji m c hc

omit [DecidableEq A] [CommRing K] in
/-- The iterations of a loop as a list. -/
theorem loop_eq (lo hi : Int) (body : Int → List (Stmt A K)) :
    loop lo hi body = ((List.range (hi - lo).toNat).map fun k : Nat => lo + (k : Int)).flatMap body := by
  unfold loop
  rw [List.flatMap_map]

omit [DecidableEq A] [CommRing K] in
theorem parfor_flatten (lo hi : Int) (body : Int → List (Stmt A K)) : (parfor lo hi body).flatten = loop lo hi body := by
  unfold parfor loop
  rw [List.flatMap_def]

/-- When iteration `i` owns the cell `a`, only it matters. -/
theorem run_loop_at {W : A → Prop} {κ : A → Int} {lo hi : Int} {body : Int → List (Stmt A K)}
    (h : ∀ i : Int, lo ≤ i → i < hi → ∀ s ∈ body i, InKey W κ i s) {i : Int} (h1 : lo ≤ i) (h2 : i < hi) {a : A} (ha : κ a = i)
    (m : A → K) : run (loop lo hi body) m a = run (body i) m a := by
  rw [loop_eq]
  refine run_flatMap_at (W := W) (κ := κ) _ ?_ ?_ ?_ ha m
  · intro j hj
    rw [List.mem_map] at hj
    obtain ⟨k, hk, rfl⟩ := hj
    rw [List.mem_range] at hk
    exact h _ (by omega) (by omega)
  · exact List.Nodup.map (fun x y e => by have : lo + (x : Int) = lo + (y : Int) := e; omega) List.nodup_range
  · rw [List.mem_map]
    exact ⟨(i - lo).toNat, List.mem_range.mpr (by omega), by omega⟩

end Verif.Sten

import Verif.Base.Loop

/-!
# Pieces of an array

`&a[o]` as a pointer to an array of its own: reading through `row`, writing back with `onRow`.
-/

namespace Verif

universe u v

/-- `&a[o]`. -/
def row {α : Type u} (o : Nat) (a : Nat → α) : Nat → α := fun j => a (o + j)

/-- The array `a` after a function that got `&a[o]` made `r` of it. -/
def onRow {α : Type u} (o : Nat) (a r : Nat → α) : Nat → α := fun i => if i < o then a i else r (i - o)

theorem row_onRow {α : Type u} (o : Nat) (a r : Nat → α) : row o (onRow o a r) = r := by
  funext j
  simp only [row, onRow]
  rw [if_neg (by omega), Nat.add_sub_cancel_left]

/-- Elements that the function left alone. -/
theorem onRow_frame {α : Type u} {o w : Nat} {a r : Nat → α} (h : ∀ k, w ≤ k → r k = a (o + k)) (i : Nat) (hi : i < o ∨ o + w ≤ i) :
    onRow o a r i = a i := by
  simp only [onRow]
  by_cases h1 : i < o
  · rw [if_pos h1]
  · rw [if_neg h1, h _ (by omega)]
    congr 1; omega

theorem onRow_at {α : Type u} (o : Nat) (a r : Nat → α) (k : Nat) : onRow o a r (o + k) = r k := congrFun (row_onRow o a r) k

/-- Rows of width at most the leading dimension do not overlap. -/
theorem row_ne {ld w i i' k k' : Nat} (hw : w ≤ ld) (hk : k < w) (hk' : k' < w) (h : i ≠ i') : i * ld + k ≠ i' * ld + k' := by
  intro e
  rcases Nat.lt_or_gt_of_ne h with h | h
  · have h1 := Nat.mul_le_mul_right ld (show i + 1 ≤ i' from h)
    rw [Nat.add_mul, Nat.one_mul] at h1
    omega
  · have h1 := Nat.mul_le_mul_right ld (show i' + 1 ≤ i from h)
    rw [Nat.add_mul, Nat.one_mul] at h1
    omega

private theorem row_sep {ld w i i' k : Nat} (hw : w ≤ ld) (hk : k < w) (h : i ≠ i') : i * ld + k < i' * ld ∨ i' * ld + w ≤ i * ld + k := by
  rcases Nat.lt_or_gt_of_ne h with h | h
  · have h1 := Nat.mul_le_mul_right ld (show i + 1 ≤ i' from h)
    rw [Nat.add_mul, Nat.one_mul] at h1
    left; omega
  · have h1 := Nat.mul_le_mul_right ld (show i' + 1 ≤ i from h)
    rw [Nat.add_mul, Nat.one_mul] at h1
    right; omega

/-- `for (i=0; i<n; i++) f(i, &a[i*ld])`, the statics `s` going through all the calls. -/
def rowsM {α : Type u} {σ : Type v} (n ld : Nat) (f : Nat → (Nat → α) → σ → Option ((Nat → α) × σ)) (a : Nat → α) (s : σ) :
    Option ((Nat → α) × σ) :=
  match n with
  | 0 => some (a, s)
  | n+1 => (rowsM n ld f a s).bind fun (a, s) => (f n (row (n * ld) a) s).map fun (r, s) => (onRow (n * ld) a r, s)

/-- A loop over rows does to each row what one call does. -/
theorem rowsM_spec {α : Type u} {σ : Type v} (P : σ → Prop) {n ld w : Nat} (hw : w ≤ ld)
    {f : Nat → (Nat → α) → σ → Option ((Nat → α) × σ)} (G : Nat → (Nat → α) → Nat → α)
    (hf : ∀ i, i < n → ∀ a s, P s → ∃ r s', f i a s = some (r, s') ∧ P s' ∧ (∀ k, k < w → r k = G i a k) ∧ ∀ k, w ≤ k → r k = a k)
    (hG : ∀ i, i < n → ∀ a b : Nat → α, (∀ k, k < w → a k = b k) → ∀ k, k < w → G i a k = G i b k) (a : Nat → α) (s : σ) (hs : P s) :
    ∃ a' s', rowsM n ld f a s = some (a', s') ∧ P s' ∧ (∀ i, i < n → ∀ k, k < w → a' (i * ld + k) = G i (row (i * ld) a) k) ∧
      ∀ j, (∀ i k, i < n → k < w → j ≠ i * ld + k) → a' j = a j := by
  induction n with
  | zero => exact ⟨a, s, rfl, hs, fun i hi => by omega, fun _ _ => rfl⟩
  | succ n ih =>
    obtain ⟨a1, s1, e1, p1, b1, f1⟩ := ih (fun i hi => hf i (by omega)) (fun i hi => hG i (by omega))
    obtain ⟨r, s2, e2, p2, b2, f2⟩ := hf n (by omega) (row (n * ld) a1) s1 p1
    refine ⟨onRow (n * ld) a1 r, s2, ?_, p2, fun i hi k hk => ?_, fun j hj => ?_⟩
    · rw [rowsM, e1, Option.bind_some]
      dsimp only
      rw [e2, Option.map_some]
    · by_cases h : i = n
      · subst h
        rw [onRow_at, b2 k hk]
        refine hG i (by omega) _ _ (fun k hk => ?_) k hk
        exact f1 _ (fun i' k' hi' hk' => row_ne hw hk hk' (by omega))
      · rw [onRow_frame f2 _ (row_sep hw hk h), b1 i (by omega) k hk]
    · rw [onRow_frame f2, f1 j (fun i k hi hk => hj i k (by omega) hk)]
      by_cases h : j < n * ld
      · left; exact h
      · right
        by_cases h2 : n * ld + w ≤ j
        · exact h2
        · exact absurd (show j = n * ld + (j - n * ld) by omega) (hj n _ (by omega) (by omega))

/-- `for (i=0; i<n; i++) g(i, &a[i*ld])`, without statics. -/
def rowsN {α : Type u} (n ld : Nat) (g : Nat → (Nat → α) → Nat → α) (a : Nat → α) : Nat → α :=
  forN n (fun i a => onRow (i * ld) a (g i (row (i * ld) a))) a

theorem rowsN_spec {α : Type u} {n ld w : Nat} (hw : w ≤ ld) {g : Nat → (Nat → α) → Nat → α}
    (hf : ∀ i, i < n → ∀ a k, w ≤ k → g i a k = a k)
    (hG : ∀ i, i < n → ∀ a b : Nat → α, (∀ k, k < w → a k = b k) → ∀ k, k < w → g i a k = g i b k) (a : Nat → α) :
    (∀ i, i < n → ∀ k, k < w → rowsN n ld g a (i * ld + k) = g i (row (i * ld) a) k) ∧
      ∀ j, (∀ i k, i < n → k < w → j ≠ i * ld + k) → rowsN n ld g a j = a j := by
  have h : ∀ n a, rowsM (σ := Unit) n ld (fun i a s => some (g i a, s)) a () = some (rowsN n ld g a, ()) := by
    intro n a
    induction n with
    | zero => rfl
    | succ n ih => rw [rowsM, ih]; rfl
  obtain ⟨a', s', e, _, b, f⟩ := rowsM_spec (σ := Unit) (fun _ => True) hw g (n := n) (f := fun i a s => some (g i a, s))
    (fun i hi a s _ => ⟨_, _, rfl, trivial, fun _ _ => rfl, hf i hi a⟩) hG a () trivial
  rw [h, Option.some.injEq, Prod.mk.injEq] at e
  rw [e.1]
  exact ⟨b, f⟩

end Verif

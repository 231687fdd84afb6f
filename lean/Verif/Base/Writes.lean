import Verif.Base.Rows

/-!
# Loops that copy from one array into another

What such a loop leaves behind is told by the relation "it writes `v` to `k`".
-/

namespace Verif

universe u

/-- C assignment `a[i] = v`. -/
def aset {α : Type u} (a : Nat → α) (i : Nat) (v : α) : Nat → α := fun k => if k = i then v else a k

/-- Whatever the array was, afterwards element `k` holds a value that `W` allows, or, when `W` allows none, what it held before. -/
def Writes {α : Type u} (f : (Nat → α) → Nat → α) (W : Nat → α → Prop) : Prop :=
  ∀ a k, W k (f a k) ∨ ((∀ v, ¬ W k v) ∧ f a k = a k)

theorem Writes.aset {α : Type u} (i : Nat) (v : α) : Writes (fun a => aset a i v) (fun k w => k = i ∧ w = v) := by
  intro a k
  by_cases h : k = i
  · left; exact ⟨h, by simp only [Verif.aset, if_pos h]⟩
  · right; exact ⟨fun _ hv => h hv.1, by simp only [Verif.aset, if_neg h]⟩

theorem Writes.comp {α : Type u} {f g : (Nat → α) → Nat → α} {W V : Nat → α → Prop} (hf : Writes f W) (hg : Writes g V) :
    Writes (fun a => g (f a)) (fun k v => W k v ∨ V k v) := by
  intro a k
  rcases hg (f a) k with h | ⟨h, e⟩
  · left; right; exact h
  · dsimp only
    rw [e]
    rcases hf a k with h' | ⟨h', e'⟩
    · left; left; exact h'
    · right
      exact ⟨fun v hv => hv.elim (h' v) (h v), e'⟩

theorem Writes.forN {α : Type u} {n : Nat} {f : Nat → (Nat → α) → Nat → α} {W : Nat → Nat → α → Prop} (hf : ∀ i, i < n → Writes (f i) (W i)) :
    Writes (forN n f) (fun k v => ∃ i, i < n ∧ W i k v) := by
  induction n with
  | zero => intro a k; right; exact ⟨fun v ⟨i, hi, _⟩ => by omega, rfl⟩
  | succ n ih =>
    intro a k
    rcases (ih fun i hi => hf i (by omega)).comp (hf n (by omega)) a k with h | ⟨h, e⟩
    · left
      rcases h with ⟨i, hi, h⟩ | h
      · exact ⟨i, by omega, h⟩
      · exact ⟨n, by omega, h⟩
    · right
      refine ⟨fun v ⟨i, hi, hv⟩ => h v ?_, e⟩
      by_cases hin : i = n
      · subst hin; right; exact hv
      · left; exact ⟨i, by omega, hv⟩

/-- When no element gets two different values, every element written holds its value. -/
theorem Writes.val {α : Type u} {f : (Nat → α) → Nat → α} {W : Nat → α → Prop} (hf : Writes f W) (a : Nat → α) {k : Nat} {v : α} (h : W k v)
    (hu : ∀ w, W k w → w = v) : f a k = v := by
  rcases hf a k with h' | ⟨h', _⟩
  · exact hu _ h'
  · exact absurd h (h' v)

theorem Writes.frame {α : Type u} {f : (Nat → α) → Nat → α} {W : Nat → α → Prop} (hf : Writes f W) (a : Nat → α) {k : Nat}
    (h : ∀ v, ¬ W k v) : f a k = a k := by
  rcases hf a k with h' | ⟨_, e⟩
  · exact absurd h' (h _)
  · exact e

/-- Row and column from the place in a matrix. -/
theorem rc_inj {ld w i i' k k' : Nat} (hw : w ≤ ld) (hk : k < w) (hk' : k' < w) (e : i * ld + k = i' * ld + k') : i = i' ∧ k = k' := by
  by_cases h : i = i'
  · subst h; exact ⟨rfl, by omega⟩
  · exact absurd e (row_ne hw hk hk' h)

end Verif

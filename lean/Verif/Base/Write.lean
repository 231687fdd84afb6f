import Verif.Base.Loop

/-! # Loops that write distinct elements of a buffer -/

namespace Verif
universe u
variable {α : Type u}

/-- A loop of writes to distinct in-range indices succeeds, puts the written values in place and
leaves all other elements alone. -/
theorem writes_spec (n : Nat) (f : Nat → Int) (v : Nat → α) (d : Buf α)
    (hr : ∀ k, k < n → 0 ≤ f k ∧ f k < d.size)
    (hinj : ∀ k l, k < n → l < n → f k = f l → k = l) :
    ∃ d', forNM n (fun k d => d.wr (f k) (v k)) d = some d' ∧ d'.size = d.size ∧
      (∀ k, k < n → d'.val (f k) = v k) ∧ (∀ x, (∀ k, k < n → x ≠ f k) → d'.val x = d.val x) := by
  induction n with
  | zero => exact ⟨d, rfl, rfl, fun k h => absurd h (Nat.not_lt_zero _), fun x _ => rfl⟩
  | succ n ih =>
    obtain ⟨d1, h1, h2, h3, h4⟩ := ih (fun k h => hr k (by omega))
      (fun k l hk hl => hinj k l (by omega) (by omega))
    have hok : d1.ok (f n) := by unfold Buf.ok; rw [h2]; exact hr n (by omega)
    refine ⟨{ d1 with val := fun k => if k = f n then v n else d1.val k }, ?_, h2, ?_, ?_⟩
    · rw [forNM_succ, h1]; exact Buf.wr_ok hok
    · intro k hk
      dsimp only
      by_cases he : f k = f n
      · rw [if_pos he, hinj k n hk (by omega) he]
      · rw [if_neg he]
        exact h3 k (by rcases Nat.lt_succ_iff_lt_or_eq.mp hk with h | h; exact h; subst h; exact absurd rfl he)
    · intro x hx
      dsimp only
      rw [if_neg (hx n (by omega))]
      exact h4 x (fun k hk => hx k (by omega))

/-- Buffers with the same size and the same contents on the allocated range. -/
def Buf.Same (a b : Buf α) : Prop := a.size = b.size ∧ ∀ x, 0 ≤ x → x < a.size → a.val x = b.val x

/-- Invariant rule with a state-independent progress statement per iteration. -/
theorem forNM_some {σ : Type u} {n : Nat} {body : Nat → σ → Option σ} {s s' : σ}
    (P : Nat → σ → Prop) (h : forNM n body s = some s') (h0 : P 0 s)
    (hs : ∀ k, k < n → ∀ s s', P k s → body k s = some s' → P (k+1) s') : P n s' := by
  induction n generalizing s' with
  | zero => cases h; exact h0
  | succ n ih =>
    rw [forNM_succ] at h
    cases hm : forNM n body s with
    | none => rw [hm] at h; exact absurd h (by simp)
    | some t =>
      rw [hm] at h
      exact hs n (by omega) t s' (ih hm (fun k hk => hs k (by omega))) h

end Verif

import Verif.Zfp.Cache
import Mathlib.Logic.Relation
import Mathlib.Data.Nat.Bitwise

/-! # C41: the cache is transparent -/

namespace Verif.Zfp
open Verif

variable {L S : Type}

/-! ## Tags -/

private theorem tagIndex_eq (t : Nat) : tagIndex t = t / 2 := by simp [tagIndex, Nat.shiftRight_eq_div_pow]
private theorem tagDirty_eq (t : Nat) : tagDirty t = decide (t % 2 = 1) := by rw [tagDirty, Nat.and_one_is_mod]; rfl
private theorem tagIndex_mk {x : Nat} (h : x < 2 ^ 31) (d : Bool) : tagIndex (mkTag x d) = x := by
  rw [tagIndex_eq, mkTag]; cases d <;> simp <;> omega
private theorem tagDirty_mk (x : Nat) (d : Bool) : tagDirty (mkTag x d) = d := by
  rw [tagDirty_eq, mkTag]; cases d <;> simp
private theorem mark_eq (t : Nat) : tagMark t = 2 * (t / 2) + 1 := by
  unfold tagMark
  apply Nat.eq_of_testBit_eq
  intro i
  rw [Nat.testBit_or]
  cases i with
  | zero => simp [Nat.testBit_zero]
  | succ i => simp [Nat.testBit_succ]; rw [show (2 * (t / 2) + 1) / 2 = t / 2 from by omega]
private theorem tagIndex_mark (t : Nat) : tagIndex (tagMark t) = tagIndex t := by rw [tagIndex_eq, tagIndex_eq, mark_eq]; omega
private theorem tagDirty_mark (t : Nat) : tagDirty (tagMark t) = true := by rw [tagDirty_eq, mark_eq]; simp

/-! ## The relation between array and specification -/

/-- Where block number `x` may be. -/
def Place (A : Assoc) (mask x i : Nat) : Prop := i = primary mask x ∨ ((match A with | .direct => False | _ => True) ∧ i = secondary A mask x)

/-- The array represents the memory `m` of `n` blocks. -/
structure Rel (A : Assoc) (C : Store L S) (n : Nat) (Ok : S → Prop) (V : L → Prop) (a : Arr L S) (m : Mem L) : Prop where
  ok : Ok a.store
  mask : a.cache.mask < 2 ^ 31
  slot : ∀ i ≤ a.cache.mask, a.cache.tag i ≠ 0 → ∃ b < n, tagIndex (a.cache.tag i) = b + 1 ∧ Place A a.cache.mask (b + 1) i
  uniq : ∀ i ≤ a.cache.mask, ∀ j ≤ a.cache.mask, a.cache.tag i ≠ 0 → tagIndex (a.cache.tag i) = tagIndex (a.cache.tag j) → i = j
  line : ∀ i ≤ a.cache.mask, ∀ b < n, tagIndex (a.cache.tag i) = b + 1 → a.cache.line i = m.cur b ∧ (m.changed b ↔ tagDirty (a.cache.tag i) = true)
  out : ∀ b < n, (∀ i ≤ a.cache.mask, tagIndex (a.cache.tag i) ≠ b + 1) → ¬ m.changed b
  old : ∀ b < n, C.dec b a.store = some (m.old b)
  same : ∀ b < n, ¬ m.changed b → m.cur b = m.old b
  valid : ∀ b < n, V (m.cur b)

private theorem index_zero : tagIndex 0 = 0 := rfl
private theorem ne_zero_of_index {t b : Nat} (h : tagIndex t = b + 1) : t ≠ 0 := by rintro rfl; rw [index_zero] at h; omega

section
variable {A : Assoc} {C : Store L S} {n : Nat} {Ok : S → Prop} {V : L → Prop} {R : L → L → Prop}

/-- Emptying a slot, with write-back if it is dirty. -/
private theorem evict (hC : C.Laws n Ok V R) (hn : n < 2 ^ 31) {a : Arr L S} {m : Mem L} (h : Rel A C n Ok V a m) {i : Nat} (hi : i ≤ a.cache.mask) :
    ∃ s m', (if tagDirty (a.cache.tag i) then C.enc ((tagIndex (a.cache.tag i) + 2 ^ 32 - 1) % 2 ^ 32) (a.cache.line i) a.store else some a.store) = some s ∧
      Relation.ReflTransGen (Mem.Compress n R) m m' ∧ Rel A C n Ok V ⟨{ a.cache with tag := Function.update a.cache.tag i 0 }, s⟩ m' ∧
      (tagDirty (a.cache.tag i) = false → m' = m ∧ s = a.store) := by
  have hne : ∀ j ≤ a.cache.mask, ∀ b, b < n → tagIndex (Function.update a.cache.tag i 0 j) = b + 1 → j ≠ i ∧ tagIndex (a.cache.tag j) = b + 1 := by
    intro j _ b _ e
    by_cases hj : j = i
    · subst hj; rw [Function.update_self, index_zero] at e; omega
    · rw [Function.update_of_ne hj] at e; exact ⟨hj, e⟩
  have huniq : ∀ j ≤ a.cache.mask, ∀ k ≤ a.cache.mask, Function.update a.cache.tag i 0 j ≠ 0 →
      tagIndex (Function.update a.cache.tag i 0 j) = tagIndex (Function.update a.cache.tag i 0 k) → j = k := by
    intro j hj k hk h0 e
    have hji : j ≠ i := by rintro rfl; exact h0 (Function.update_self ..)
    rw [Function.update_of_ne hji] at h0 e
    by_cases hki : k = i
    · subst hki
      obtain ⟨b, _, e2, _⟩ := h.slot j hj h0
      rw [Function.update_self, index_zero, e2] at e; omega
    · rw [Function.update_of_ne hki] at e
      exact h.uniq j hj k hk h0 e
  have hslot : ∀ j ≤ a.cache.mask, Function.update a.cache.tag i 0 j ≠ 0 → ∃ b < n, tagIndex (Function.update a.cache.tag i 0 j) = b + 1 ∧ Place A a.cache.mask (b + 1) j := by
    intro j hj h0
    have hji : j ≠ i := by rintro rfl; exact h0 (Function.update_self ..)
    rw [Function.update_of_ne hji] at h0 ⊢
    exact h.slot j hj h0
  by_cases hd : tagDirty (a.cache.tag i) = true
  · have h0 : a.cache.tag i ≠ 0 := by intro e; rw [e] at hd; exact absurd hd (by decide)
    obtain ⟨b, hb, e, _⟩ := h.slot i hi h0
    obtain ⟨hl, hch⟩ := h.line i hi b hb e
    obtain ⟨s, l, es, hs, hdec, hR, hoth⟩ := hC.enc a.store b (m.cur b) h.ok hb (h.valid b hb)
    refine ⟨s, _, ?_, .single (.mk (l := l) hb (hch.2 hd) hR), ⟨hs, h.mask, hslot, huniq, fun j hj b' hb' e' => ?_, fun b' hb' hno => ?_, fun b' hb' => ?_, fun b' hb' hnc => ?_,
      fun b' hb' => ?_⟩, fun h => by rw [hd] at h; exact absurd h (by decide)⟩
    · rw [if_pos hd, e, hl, show (b + 1 + 2 ^ 32 - 1) % 2 ^ 32 = b from by omega]; exact es
    · obtain ⟨hji, e2⟩ := hne j hj b' hb' e'
      have hbb : b' ≠ b := by
        rintro rfl
        exact hji (h.uniq j hj i hi (ne_zero_of_index e2) (by rw [e2, e]))
      obtain ⟨g1, g2⟩ := h.line j hj b' hb' e2
      dsimp only
      rw [Function.update_of_ne hbb, Function.update_of_ne hji]
      exact ⟨g1, ⟨fun c => g2.1 c.2, fun c => ⟨hbb, g2.2 c⟩⟩⟩
    · rintro ⟨hbb, hc⟩
      refine h.out b' hb' (fun j hj e2 => ?_) hc
      by_cases hji : j = i
      · subst hji; rw [e] at e2; omega
      · exact hno j hj (by dsimp only; rw [Function.update_of_ne hji]; exact e2)
    · dsimp only
      by_cases hbb : b' = b
      · subst hbb; rw [Function.update_self]; exact hdec
      · rw [Function.update_of_ne hbb, hoth b' hb' hbb]; exact h.old b' hb'
    · dsimp only at hnc ⊢
      by_cases hbb : b' = b
      · subst hbb; rw [Function.update_self, Function.update_self]
      · rw [Function.update_of_ne hbb, Function.update_of_ne hbb]
        exact h.same b' hb' fun c => hnc ⟨hbb, c⟩
    · dsimp only
      by_cases hbb : b' = b
      · subst hbb; rw [Function.update_self]
        obtain ⟨l', e1, e2⟩ := hC.dec s b' hs hb'
        rw [hdec] at e1
        cases e1
        exact e2
      · rw [Function.update_of_ne hbb]; exact h.valid b' hb'
  · refine ⟨a.store, m, by rw [if_neg hd], .refl, ⟨h.ok, h.mask, hslot, huniq, fun j hj b' hb' e' => ?_, fun b' hb' hno hc => ?_, h.old, h.same, h.valid⟩, fun _ => ⟨rfl, rfl⟩⟩
    · obtain ⟨hji, e2⟩ := hne j hj b' hb' e'
      dsimp only
      rw [Function.update_of_ne hji]
      exact h.line j hj b' hb' e2
    · by_cases hib : tagIndex (a.cache.tag i) = b' + 1
      · exact hd ((h.line i hi b' hb' hib).2.1 hc)
      · refine h.out b' hb' (fun j hj e2 => ?_) hc
        by_cases hji : j = i
        · subst hji; exact hib e2
        · exact hno j hj (by dsimp only; rw [Function.update_of_ne hji]; exact e2)

/-- The memory after block `b` is opened for writing. -/
private def opened (m : Mem L) (b : Nat) (w : Bool) : Mem L := if w then ⟨m.cur, m.old, fun b' => b' = b ∨ m.changed b'⟩ else m

private theorem opened_changed (m : Mem L) (b : Nat) (w : Bool) (b' : Nat) : (opened m b w).changed b' ↔ (w = true ∧ b' = b) ∨ m.changed b' := by
  cases w <;> simp [opened]
private theorem opened_cur (m : Mem L) (b : Nat) (w : Bool) : (opened m b w).cur = m.cur := by cases w <;> rfl
private theorem opened_old (m : Mem L) (b : Nat) (w : Bool) : (opened m b w).old = m.old := by cases w <;> rfl

/-- Filling an empty slot with a block that is not in the cache. -/
private theorem fill (hn : n < 2 ^ 31) {a : Arr L S} {m : Mem L} (h : Rel A C n Ok V a m) {i b : Nat} (hi : i ≤ a.cache.mask) (h0 : a.cache.tag i = 0) (hb : b < n)
    (hno : ∀ j ≤ a.cache.mask, tagIndex (a.cache.tag j) ≠ b + 1) (hp : Place A a.cache.mask (b + 1) i) (w : Bool) :
    C.dec b a.store = some (m.cur b) ∧
    Rel A C n Ok V ⟨⟨a.cache.mask, Function.update a.cache.tag i (mkTag (b + 1) w), Function.update a.cache.line i (m.cur b)⟩, a.store⟩ (opened m b w) := by
  have hnc : ¬ m.changed b := h.out b hb hno
  have hidx : tagIndex (mkTag (b + 1) w) = b + 1 := tagIndex_mk (by omega) w
  refine ⟨by rw [h.same b hb hnc]; exact h.old b hb, ⟨h.ok, h.mask, fun j hj hj0 => ?_, fun j hj k hk hj0 e => ?_, fun j hj b' hb' e => ?_, fun b' hb' hno' => ?_, ?_, fun b' hb' hc => ?_, ?_⟩⟩
  · by_cases hji : j = i
    · subst hji; exact ⟨b, hb, by dsimp only; rw [Function.update_self, hidx], hp⟩
    · dsimp only at hj0 ⊢
      rw [Function.update_of_ne hji] at hj0 ⊢
      exact h.slot j hj hj0
  · dsimp only at hj hk hj0 e
    by_cases hji : j = i
    · by_cases hki : k = i
      · omega
      · subst hji
        rw [Function.update_self, Function.update_of_ne hki, hidx] at e
        exact absurd e.symm (hno k hk)
    · by_cases hki : k = i
      · subst hki
        rw [Function.update_self, Function.update_of_ne hji, hidx] at e
        exact absurd e (hno j hj)
      · rw [Function.update_of_ne hji] at hj0 e
        rw [Function.update_of_ne hki] at e
        exact h.uniq j hj k hk hj0 e
  · dsimp only at hj e ⊢
    rw [opened_cur, opened_changed]
    by_cases hji : j = i
    · subst hji
      rw [Function.update_self, hidx] at e
      obtain rfl : b = b' := by omega
      rw [Function.update_self, Function.update_self, tagDirty_mk]
      exact ⟨rfl, by simp [hnc]⟩
    · rw [Function.update_of_ne hji] at e ⊢
      rw [Function.update_of_ne hji]
      have hbb : b' ≠ b := by rintro rfl; exact hno j hj e
      have := h.line j hj b' hb' e
      exact ⟨this.1, by rw [← this.2]; simp [hbb]⟩
  · rw [opened_changed]
    dsimp only at hno'
    have hbb : b' ≠ b := by rintro rfl; exact hno' i hi (by rw [Function.update_self, hidx])
    rintro (⟨_, c⟩ | c)
    · exact hbb c
    · refine h.out b' hb' (fun j hj e => ?_) c
      by_cases hji : j = i
      · subst hji; rw [h0, index_zero] at e; omega
      · exact hno' j hj (by rw [Function.update_of_ne hji]; exact e)
  · rw [opened_old]; exact h.old
  · rw [opened_changed] at hc
    rw [opened_old, opened_cur]
    exact h.same b' hb' fun c => hc (Or.inr c)
  · rw [opened_cur]; exact h.valid

/-- A hit. -/
private theorem hit {a : Arr L S} {m : Mem L} (h : Rel A C n Ok V a m) {i b : Nat} (hi : i ≤ a.cache.mask) (hb : b < n) (e : tagIndex (a.cache.tag i) = b + 1) (w : Bool) :
    Rel A C n Ok V ⟨(a.cache.hit i w).1, a.store⟩ (opened m b w) := by
  have hti : tagIndex (if w then tagMark (a.cache.tag i) else a.cache.tag i) = b + 1 := by cases w <;> simp [tagIndex_mark, e]
  have hall : ∀ j, tagIndex (Function.update a.cache.tag i (if w then tagMark (a.cache.tag i) else a.cache.tag i) j) = tagIndex (a.cache.tag j) := by
    intro j
    by_cases hji : j = i
    · subst hji; rw [Function.update_self, hti, e]
    · rw [Function.update_of_ne hji]
  have h0 : ∀ j, Function.update a.cache.tag i (if w then tagMark (a.cache.tag i) else a.cache.tag i) j ≠ 0 → a.cache.tag j ≠ 0 := by
    intro j hj
    by_cases hji : j = i
    · subst hji; exact ne_zero_of_index e
    · rwa [Function.update_of_ne hji] at hj
  unfold Cache.hit
  refine ⟨h.ok, h.mask, fun j hj hj0 => ?_, fun j hj k hk hj0 e => ?_, fun j hj b' hb' e' => ?_, fun b' hb' hno => ?_, ?_, fun b' hb' hc => ?_, ?_⟩
  · dsimp only at hj0 ⊢
    rw [hall]; exact h.slot j hj (h0 j hj0)
  · dsimp only at hj0 e
    rw [hall, hall] at e
    exact h.uniq j hj k hk (h0 j hj0) e
  · dsimp only at e' ⊢
    rw [hall] at e'
    obtain ⟨g1, g2⟩ := h.line j hj b' hb' e'
    rw [opened_cur, opened_changed]
    refine ⟨g1, ?_⟩
    by_cases hji : j = i
    · subst hji
      rw [e] at e'
      obtain rfl : b = b' := by omega
      rw [Function.update_self]
      cases w
      · simp [g2]
      · simp [tagDirty_mark]
    · rw [Function.update_of_ne hji, ← g2]
      have hbb : b' ≠ b := by
        rintro rfl
        exact hji (h.uniq j hj i hi (ne_zero_of_index e') (by rw [e', e]))
      simp [hbb]
  · rw [opened_changed]
    dsimp only at hno
    have hbb : b' ≠ b := by rintro rfl; exact hno i hi (by rw [hall]; exact e)
    rintro (⟨_, c⟩ | c)
    · exact hbb c
    · exact h.out b' hb' (fun j hj e => hno j hj (by rw [hall]; exact e)) c
  · rw [opened_old]; exact h.old
  · rw [opened_changed] at hc
    rw [opened_old, opened_cur]
    exact h.same b' hb' fun c => hc (Or.inr c)
  · rw [opened_cur]; exact h.valid

private theorem primary_le (mask x : Nat) : primary mask x ≤ mask := Nat.and_le_right
private theorem secondary_le (A : Assoc) (mask x : Nat) : secondary A mask x ≤ mask := Nat.and_le_right

/-- `access` finds a block that is in the cache, and otherwise takes a slot where the block may be. -/
private theorem access_cases {a : Arr L S} {m : Mem L} (h : Rel A C n Ok V a m) {b : Nat} (w : Bool) :
    (∃ i ≤ a.cache.mask, tagIndex (a.cache.tag i) = b + 1 ∧ a.cache.access A (b + 1) w = a.cache.hit i w) ∨
    ((∀ j ≤ a.cache.mask, tagIndex (a.cache.tag j) ≠ b + 1) ∧ ∃ i ≤ a.cache.mask, Place A a.cache.mask (b + 1) i ∧ a.cache.access A (b + 1) w = a.cache.miss i (b + 1) w) := by
  have habs : (∀ i, Place A a.cache.mask (b + 1) i → tagIndex (a.cache.tag i) ≠ b + 1) → ∀ j ≤ a.cache.mask, tagIndex (a.cache.tag j) ≠ b + 1 := by
    intro hp j hj e
    obtain ⟨b', _, e', hpl⟩ := h.slot j hj (ne_zero_of_index e)
    obtain rfl : b = b' := by omega
    exact hp j hpl e
  unfold Cache.access
  dsimp only
  by_cases h1 : tagIndex (a.cache.tag (primary a.cache.mask (b + 1))) = b + 1
  · left
    exact ⟨_, primary_le .., h1, by rw [if_pos h1]⟩
  · rw [if_neg h1]
    cases A with
    | direct =>
      right
      refine ⟨habs fun i hp => ?_, _, primary_le .., Or.inl rfl, rfl⟩
      rcases hp with rfl | ⟨hf, _⟩
      · exact h1
      · exact hf.elim
    | twoway =>
      dsimp only
      by_cases h2 : tagIndex (a.cache.tag (secondary .twoway a.cache.mask (b + 1))) = b + 1
      · left
        exact ⟨_, secondary_le .., h2, by rw [if_pos h2]⟩
      · right
        refine ⟨habs fun i hp => ?_, ?_⟩
        · rcases hp with rfl | ⟨_, rfl⟩
          · exact h1
          · exact h2
        · rw [if_neg h2]
          split
          · exact ⟨_, primary_le .., Or.inl rfl, rfl⟩
          · exact ⟨_, secondary_le .., Or.inr ⟨trivial, rfl⟩, rfl⟩
    | twowayFast =>
      dsimp only
      by_cases h2 : tagIndex (a.cache.tag (secondary .twowayFast a.cache.mask (b + 1))) = b + 1
      · left
        exact ⟨_, secondary_le .., h2, by rw [if_pos h2]⟩
      · right
        refine ⟨habs fun i hp => ?_, ?_⟩
        · rcases hp with rfl | ⟨_, rfl⟩
          · exact h1
          · exact h2
        · rw [if_neg h2]
          split
          · exact ⟨_, primary_le .., Or.inl rfl, rfl⟩
          · exact ⟨_, secondary_le .., Or.inr ⟨trivial, rfl⟩, rfl⟩

private theorem lookup_cases {a : Arr L S} {m : Mem L} (h : Rel A C n Ok V a m) {b : Nat} :
    (∃ i ≤ a.cache.mask, tagIndex (a.cache.tag i) = b + 1 ∧ a.cache.lookup A (b + 1) = some (a.cache.line i)) ∨
    ((∀ j ≤ a.cache.mask, tagIndex (a.cache.tag j) ≠ b + 1) ∧ a.cache.lookup A (b + 1) = none) := by
  have habs : (∀ i, Place A a.cache.mask (b + 1) i → tagIndex (a.cache.tag i) ≠ b + 1) → ∀ j ≤ a.cache.mask, tagIndex (a.cache.tag j) ≠ b + 1 := by
    intro hp j hj e
    obtain ⟨b', _, e', hpl⟩ := h.slot j hj (ne_zero_of_index e)
    obtain rfl : b = b' := by omega
    exact hp j hpl e
  unfold Cache.lookup
  dsimp only
  by_cases h1 : tagIndex (a.cache.tag (primary a.cache.mask (b + 1))) = b + 1
  · left
    exact ⟨_, primary_le .., h1, by rw [if_pos h1]⟩
  · rw [if_neg h1]
    cases A with
    | direct =>
      right
      refine ⟨habs fun i hp => ?_, rfl⟩
      rcases hp with rfl | ⟨hf, _⟩
      · exact h1
      · exact hf.elim
    | twoway =>
      dsimp only
      by_cases h2 : tagIndex (a.cache.tag (secondary .twoway a.cache.mask (b + 1))) = b + 1
      · left
        exact ⟨_, secondary_le .., h2, by rw [if_pos h2]⟩
      · right
        refine ⟨habs fun i hp => ?_, by rw [if_neg h2]⟩
        rcases hp with rfl | ⟨_, rfl⟩
        · exact h1
        · exact h2
    | twowayFast =>
      dsimp only
      by_cases h2 : tagIndex (a.cache.tag (secondary .twowayFast a.cache.mask (b + 1))) = b + 1
      · left
        exact ⟨_, secondary_le .., h2, by rw [if_pos h2]⟩
      · right
        refine ⟨habs fun i hp => ?_, by rw [if_neg h2]⟩
        rcases hp with rfl | ⟨_, rfl⟩
        · exact h1
        · exact h2

private theorem getLine_spec (hC : C.Laws n Ok V R) (hn : n < 2 ^ 31) {a : Arr L S} {m : Mem L} (h : Rel A C n Ok V a m) {b : Nat} (hb : b < n) (w : Bool) :
    ∃ a' p m', a.getLine A C b w = some (a', p) ∧ Relation.ReflTransGen (Mem.Compress n R) m m' ∧ Rel A C n Ok V a' (opened m' b w) ∧
      p ≤ a'.cache.mask ∧ tagIndex (a'.cache.tag p) = b + 1 := by
  unfold Arr.getLine
  dsimp only
  rw [show (b + 1) % 2 ^ 32 = b + 1 from by omega]
  rcases access_cases h (b := b) w with ⟨i, hi, e, ha⟩ | ⟨hno, i, hi, hp, ha⟩
  · have hti : tagIndex (a.cache.hit i w).2.2 = b + 1 := by unfold Cache.hit; cases w <;> simp [tagIndex_mark, e]
    rw [ha, hti, show (b + 1 + 2 ^ 32 - 1) % 2 ^ 32 = b from by omega, if_neg (by simp)]
    refine ⟨_, _, m, rfl, .refl, hit h hi hb e w, hi, ?_⟩
    unfold Cache.hit
    dsimp only
    rw [Function.update_self]
    cases w <;> simp [tagIndex_mark, e]
  · rw [ha]
    have hc : (tagIndex (a.cache.miss i (b + 1) w).2.2 + 2 ^ 32 - 1) % 2 ^ 32 ≠ b := by
      have e2 : (a.cache.miss i (b + 1) w).2.2 = a.cache.tag i := rfl
      rw [e2]
      by_cases h0 : a.cache.tag i = 0
      · rw [h0, index_zero]; omega
      · obtain ⟨b', hb', e', _⟩ := h.slot i hi h0
        have := hno i hi
        rw [e'] at this ⊢
        omega
    rw [if_pos hc]
    obtain ⟨s, m', es, hm, hr, _⟩ := evict hC hn h hi
    have hno' : ∀ j ≤ a.cache.mask, tagIndex (Function.update a.cache.tag i 0 j) ≠ b + 1 := by
      intro j hj
      by_cases hji : j = i
      · subst hji; rw [Function.update_self, index_zero]; omega
      · rw [Function.update_of_ne hji]; exact hno j hj
    obtain ⟨hdec, hr2⟩ := fill hn hr (i := i) (b := b) hi (Function.update_self ..) hb hno' hp w
    unfold Cache.miss
    dsimp only at hdec hr2 ⊢
    rw [es, Option.bind_some, hdec]
    rw [Function.update_idem] at hr2
    refine ⟨_, _, m', rfl, hm, hr2, hi, ?_⟩
    dsimp only
    rw [Function.update_self, tagIndex_mk (by omega)]

private theorem setLine {a : Arr L S} {m : Mem L} (h : Rel A C n Ok V a m) {p b : Nat} (hp : p ≤ a.cache.mask) (hb : b < n) (e : tagIndex (a.cache.tag p) = b + 1)
    (hc : m.changed b) {l : L} (hl : V l) :
    Rel A C n Ok V ⟨{ a.cache with line := Function.update a.cache.line p l }, a.store⟩ ⟨Function.update m.cur b l, m.old, m.changed⟩ := by
  refine ⟨h.ok, h.mask, h.slot, h.uniq, fun j hj b' hb' e' => ?_, h.out, h.old, fun b' hb' hnc => ?_, fun b' hb' => ?_⟩
  · dsimp only at e' ⊢
    by_cases hjp : j = p
    · subst hjp
      obtain rfl : b = b' := by omega
      rw [Function.update_self, Function.update_self]
      exact ⟨rfl, (h.line j hj b hb e).2⟩
    · have hbb : b' ≠ b := by
        rintro rfl
        exact hjp (h.uniq j hj p hp (ne_zero_of_index e') (by rw [e', e]))
      rw [Function.update_of_ne hjp, Function.update_of_ne hbb]
      exact h.line j hj b' hb' e'
  · dsimp only at hnc ⊢
    have hbb : b' ≠ b := by rintro rfl; exact hnc hc
    rw [Function.update_of_ne hbb]
    exact h.same b' hb' hnc
  · dsimp only
    by_cases hbb : b' = b
    · subst hbb; rw [Function.update_self]; exact hl
    · rw [Function.update_of_ne hbb]; exact h.valid b' hb'

private theorem flush_spec (hC : C.Laws n Ok V R) (hn : n < 2 ^ 31) {a : Arr L S} {m : Mem L} (h : Rel A C n Ok V a m) :
    ∃ a' m', a.flush C = some a' ∧ Relation.ReflTransGen (Mem.Compress n R) m m' ∧ Rel A C n Ok V a' m' ∧ (∀ i ≤ a'.cache.mask, a'.cache.tag i = 0) := by
  unfold Arr.flush
  obtain ⟨a', e, hm, m', h1, h2, h3⟩ := forNM_inv (n := a.cache.mask + 1) (body := flushSlot C) (s := a)
    (fun k a' => a'.cache.mask = a.cache.mask ∧ ∃ m', Relation.ReflTransGen (Mem.Compress n R) m m' ∧ Rel A C n Ok V a' m' ∧ ∀ i < k, a'.cache.tag i = 0)
    ⟨rfl, m, .refl, h, fun i hi => by omega⟩ (by
      rintro k hk a' ⟨hm, m', h1, h2, h3⟩
      unfold flushSlot
      by_cases hu : tagUsed (a'.cache.tag k)
      · rw [if_pos hu]
        obtain ⟨s, m'', es, g1, g2, _⟩ := evict hC hn h2 (i := k) (by omega)
        rw [es]
        refine ⟨_, rfl, hm, m'', h1.trans g1, g2, fun i hi => ?_⟩
        dsimp only
        by_cases hik : i = k
        · subst hik; rw [Function.update_self]
        · rw [Function.update_of_ne hik]; exact h3 i (by omega)
      · rw [if_neg hu]
        refine ⟨a', rfl, hm, m', h1, h2, fun i hi => ?_⟩
        by_cases hik : i = k
        · subst hik
          unfold tagUsed at hu
          simpa using hu
        · exact h3 i (by omega))
  exact ⟨a', m', e, h1, h2, fun i hi => h3 i (by omega)⟩

private theorem empty_unchanged {a : Arr L S} {m : Mem L} (h : Rel A C n Ok V a m) (h0 : ∀ i ≤ a.cache.mask, a.cache.tag i = 0) : ∀ b < n, ¬ m.changed b := by
  intro b hb
  exact h.out b hb fun i hi e => by rw [h0 i hi, index_zero] at e; omega

end

/-! ## The size of the cache -/

private theorem pow_of_and {m : Nat} (h : m &&& (m + 1) = 0) : ∃ k, m + 1 = 2 ^ k := by
  induction m using Nat.strong_induction_on with
  | _ m ih =>
    rcases Nat.eq_zero_or_pos m with rfl | hpos
    · exact ⟨0, rfl⟩
    · rcases Nat.even_or_odd' m with ⟨q, hq | hq⟩
      · -- an even number shares its higher bits with its successor
        exfalso
        have : (m &&& (m + 1)) / 2 = q := by
          rw [Nat.and_div_two, hq, show 2 * q / 2 = q from by omega, show (2 * q + 1) / 2 = q from by omega, Nat.and_self]
        rw [h] at this
        omega
      · have h2 : q &&& (q + 1) = 0 := by
          have : (m &&& (m + 1)) / 2 = q &&& (q + 1) := by
            rw [Nat.and_div_two, hq, show (2 * q + 1) / 2 = q from by omega, show (2 * q + 1 + 1) / 2 = q + 1 from by omega]
          rw [← this, h]
        obtain ⟨k, hk⟩ := ih q (by omega) h2
        exact ⟨k + 1, by rw [pow_succ, ← hk]; omega⟩

private theorem maskLoop_spec {k : Nat} (hk : k ≤ 31) : ∀ (fuel m : Nat), m < 2 ^ k → 2 ^ k ≤ 2 * m + 1 → 2 ^ k < fuel + m + 1 → maskLoop fuel m + 1 = 2 ^ k := by
  have h31 : 2 ^ k ≤ 2 ^ 31 := Nat.pow_le_pow_right (by omega) hk
  intro fuel
  induction fuel with
  | zero => intro m h1 h2 h3; omega
  | succ fuel ih =>
    intro m h1 h2 h3
    unfold maskLoop
    rw [Nat.mod_eq_of_lt (show m + 1 < 2 ^ 32 by omega)]
    by_cases hz : m &&& (m + 1) = 0
    · rw [if_pos hz]
      obtain ⟨j, hj⟩ := pow_of_and hz
      rw [hj] 
      have h4 : 2 ^ j ≤ 2 ^ k := by omega
      have h5 : 2 ^ k < 2 ^ (j + 1) := by rw [pow_succ]; omega
      have := (Nat.pow_le_pow_iff_right (a := 2) (by omega)).1 h4
      have := (Nat.pow_lt_pow_iff_right (a := 2) (by omega)).1 h5
      rw [show j = k from by omega]
    · rw [if_neg hz]
      have hlt : m + 1 < 2 ^ k := by
        rcases Nat.lt_or_ge (m + 1) (2 ^ k) with h | h
        · exact h
        · exfalso
          apply hz
          have : m = 2 ^ k - 1 := by omega
          rw [this, Nat.sub_add_cancel (Nat.one_le_two_pow), Nat.and_comm, Nat.and_two_pow_sub_one_eq_mod, Nat.mod_self]
      have hor := Nat.or_lt_two_pow h1 hlt
      have hge : m + 1 ≤ m ||| (m + 1) := Nat.right_le_or
      exact ih _ hor (by omega) (by omega)

/-- **C41.** The cache has the smallest power of two of lines that is at least the number asked for (two if none is asked for). -/
theorem cache_size {n : Nat} (hn : n ≤ 2 ^ 31) : ∃ k, maskFor n + 1 = 2 ^ k ∧ n ≤ 2 ^ k ∧ (0 < n → 2 ^ k < 2 * n) ∧ (n = 0 → k = 1) := by
  rcases Nat.eq_zero_or_pos n with rfl | hpos
  · exact ⟨1, maskLoop_spec (k := 1) (by omega) _ _ (by decide) (by decide) (by decide), by omega, by omega, fun _ => rfl⟩
  · have hex : ∃ k, n ≤ 2 ^ k := ⟨31, hn⟩
    classical
    have hs := Nat.find_spec hex
    have hmin := fun j => Nat.find_min hex (m := j)
    have hle : Nat.find hex ≤ 31 := Nat.find_min' hex hn
    generalize Nat.find hex = k at hs hmin hle
    have hlt : 2 ^ k < 2 * n := by
      rcases Nat.eq_zero_or_pos k with rfl | hk
      · omega
      · have := hmin (k - 1) (by omega)
        have e : 2 ^ k = 2 * 2 ^ (k - 1) := by rw [← pow_succ']; congr 1; omega
        omega
    have h31 : 2 ^ k ≤ 2 ^ 31 := Nat.pow_le_pow_right (by omega) hle
    refine ⟨k, ?_, hs, fun _ => hlt, fun h => by omega⟩
    unfold maskFor
    rw [if_pos (by omega)]
    exact maskLoop_spec hle _ _ (by omega) (by omega) (by omega)

/-- Non-vacuity: 5 lines asked for, 8 given. -/
example : maskFor 5 = 7 ∧ maskFor 0 = 1 ∧ maskFor 1 = 0 ∧ maskFor 64 = 63 := by decide +kernel

/-! ## All sequences of calls -/

/-- Calls with block numbers in range, updates that keep lines valid and cache sizes of at most 2^31 lines. -/
def Op.Ok (n : Nat) (V : L → Prop) : Op L → Prop
  | .get b => b < n
  | .upd b f => b < n ∧ ∀ l, V l → V (f l)
  | .peek b => b < n
  | .size k _ => k ≤ 2 ^ 31
  | _ => True

private theorem compress_run {n : Nat} {R : L → L → Prop} {m m' m'' : Mem L} {os : List (Op L)} {rs : List (Option L)} (h : Relation.ReflTransGen (Mem.Compress n R) m m')
    (hr : Mem.Run n R m' os rs m'') : Mem.Run n R m os rs m'' := by
  induction h using Relation.ReflTransGen.head_induction_on with
  | refl => exact hr
  | head h _ ih => exact .compress h ih

private theorem step_spec {A : Assoc} {C : Store L S} {n : Nat} {Ok : S → Prop} {V : L → Prop} {R : L → L → Prop} (hC : C.Laws n Ok V R) (hn : n < 2 ^ 31) {a : Arr L S} {m : Mem L}
    (h : Rel A C n Ok V a m) {o : Op L} (ho : o.Ok n V) :
    ∃ a' r m' m'', a.step A C o = some (a', r) ∧ Relation.ReflTransGen (Mem.Compress n R) m m' ∧ Mem.Call n m' o r m'' ∧ Rel A C n Ok V a' m'' := by
  cases o with
  | get b =>
    obtain ⟨a', p, m', e, h1, h2, h3, h4⟩ := getLine_spec hC hn h (b := b) ho false
    have hl := (h2.line p h3 b ho h4).1
    refine ⟨a', _, m', m', by simp only [Arr.step, e, Option.map_some]; rfl, h1, ?_, h2⟩
    rw [hl]
    exact .get ho
  | upd b f =>
    obtain ⟨a', p, m', e, h1, h2, h3, h4⟩ := getLine_spec hC hn h (b := b) ho.1 true
    have hl := (h2.line p h3 b ho.1 h4).1
    refine ⟨_, _, m', _, by simp only [Arr.step, e, Option.map_some]; rfl, h1, .upd ho.1, ?_⟩
    rw [hl]
    exact setLine h2 h3 ho.1 h4 (Or.inl rfl) (ho.2 _ (h2.valid b ho.1))
  | peek b =>
    have hb : b < n := ho
    unfold Arr.step
    dsimp only
    rw [show (b + 1) % 2 ^ 32 = b + 1 from by omega]
    rcases lookup_cases h (b := b) with ⟨i, hi, e, hl⟩ | ⟨hno, hl⟩
    · rw [hl]
      refine ⟨_, _, m, m, rfl, .refl, ?_, h⟩
      rw [(h.line i hi b hb e).1]
      exact .peek hb
    · rw [hl]
      dsimp only
      rw [h.old b hb, ← h.same b hb (h.out b hb hno)]
      exact ⟨_, _, m, m, rfl, .refl, .peek hb, h⟩
  | flush =>
    obtain ⟨a', m', e, h1, h2, h3⟩ := flush_spec hC hn h
    exact ⟨a', none, m', m', by simp only [Arr.step, e, Option.map_some], h1, .flush (empty_unchanged h2 h3), h2⟩
  | clear =>
    refine ⟨_, _, m, _, rfl, .refl, .clear, ?_⟩
    have h0 : ∀ i ≤ a.cache.mask, a.clear.cache.tag i = 0 := fun i hi => if_pos hi
    refine ⟨h.ok, h.mask, fun i hi hne => absurd (h0 i hi) hne, fun i hi _ _ hne => absurd (h0 i hi) hne, fun i hi b _ e => ?_, fun _ _ _ hf => hf, h.old, fun _ _ _ => rfl, fun b hb => ?_⟩
    · rw [h0 i hi, index_zero] at e; omega
    · obtain ⟨l, e1, e2⟩ := hC.dec a.store b h.ok hb
      rw [h.old b hb] at e1
      cases e1
      exact e2
  | size k fresh =>
    obtain ⟨a', m', e, h1, h2, h3⟩ := flush_spec hC hn h
    have hnc := empty_unchanged h2 h3
    refine ⟨_, none, m', m', by simp only [Arr.step, Arr.setCacheSize, e, Option.map_some]; rfl, h1, .size hnc, ?_⟩
    obtain ⟨j, j1, j2, j3, j4⟩ := cache_size (n := k) ho
    refine ⟨h2.ok, ?_, fun i _ hne => absurd rfl hne, fun i _ _ _ hne => absurd rfl hne, fun i _ b _ e => ?_, fun b hb _ => hnc b hb, h2.old, h2.same, h2.valid⟩
    · have hk : k ≤ 2 ^ 31 := ho
      dsimp only
      rcases Nat.eq_zero_or_pos k with h0 | h0
      · rw [j4 h0] at j1; omega
      · have hj : 2 ^ j < 2 ^ 32 := by have := j3 h0; omega
        have hj2 := (Nat.pow_lt_pow_iff_right (a := 2) (by omega)).1 hj
        have hj3 : 2 ^ j ≤ 2 ^ 31 := Nat.pow_le_pow_right (by omega) (by omega)
        omega
    · dsimp only at e; rw [index_zero] at e; omega

/-- **C41.** Every sequence of calls on an array with a cache of any size, direct mapped or two-way, behaves as the array of blocks without cache in which changed blocks are
compressed at some moments: the calls return the same lines, the program never fails, and the cache represents the resulting memory. Blocks that are not changed are never
compressed again. -/
theorem cache_refines {A : Assoc} {C : Store L S} {n : Nat} {Ok : S → Prop} {V : L → Prop} {R : L → L → Prop} (hC : C.Laws n Ok V R) (hn : n < 2 ^ 31) (os : List (Op L)) :
    ∀ {a : Arr L S} {m : Mem L}, Rel A C n Ok V a m → (∀ o ∈ os, o.Ok n V) →
      ∃ a' rs m', a.run A C os = some (a', rs) ∧ Mem.Run n R m os rs m' ∧ Rel A C n Ok V a' m' := by
  induction os with
  | nil => intro a m h _; exact ⟨a, [], m, rfl, .nil, h⟩
  | cons o os ih =>
    intro a m h ho
    obtain ⟨a1, r, m1, m2, e1, h1, h2, h3⟩ := step_spec hC hn h (ho o (by simp))
    obtain ⟨a2, rs, m3, e2, h4, h5⟩ := ih h3 fun o' ho' => ho o' (by simp [ho'])
    exact ⟨a2, r :: rs, m3, by rw [Arr.run, e1, Option.bind_some, e2]; rfl, compress_run h1 (.call h2 h4), h5⟩

/-- A new array: an empty cache of `2^k` lines on compressed data in which block `b` is `c b`. -/
theorem new_array (A : Assoc) {C : Store L S} {n : Nat} {Ok : S → Prop} {V : L → Prop} {s : S} (hs : Ok s) {c : Nat → L} (hc : ∀ b < n, C.dec b s = some (c b) ∧ V (c b)) {k : Nat}
    (hk : k ≤ 2 ^ 31) (fresh : Nat → L) : Rel A C n Ok V ⟨⟨maskFor k, fun _ => 0, fresh⟩, s⟩ ⟨c, c, fun _ => False⟩ := by
  obtain ⟨j, j1, j2, j3, j4⟩ := cache_size hk
  refine ⟨hs, ?_, fun i _ hne => absurd rfl hne, fun i _ _ _ hne => absurd rfl hne, fun i _ b _ e => ?_, fun _ _ _ hf => hf, fun b hb => (hc b hb).1, fun _ _ _ => rfl, fun b hb => (hc b hb).2⟩
  · dsimp only
    rcases Nat.eq_zero_or_pos k with h0 | h0
    · rw [j4 h0] at j1; omega
    · have hj : 2 ^ j < 2 ^ 32 := by have := j3 h0; omega
      have hj2 := (Nat.pow_lt_pow_iff_right (a := 2) (by omega)).1 hj
      have hj3 : 2 ^ j ≤ 2 ^ 31 := Nat.pow_le_pow_right (by omega) (by omega)
      omega
  · dsimp only at e; rw [index_zero] at e; omega

/-! ## What the caller sees -/

/-- The lines returned by an array of blocks, without cache and without compression. -/
def plainRun : (Nat → L) → List (Op L) → List (Option L)
  | _, [] => []
  | c, .get b :: os => some (c b) :: plainRun c os
  | c, .peek b :: os => some (c b) :: plainRun c os
  | c, .upd b f :: os => none :: plainRun (Function.update c b (f (c b))) os
  | c, _ :: os => none :: plainRun c os

private theorem run_plain {n : Nat} {m m' : Mem L} {os : List (Op L)} {rs : List (Option L)} (h : Mem.Run n (· = ·) m os rs m') (hc : ∀ o ∈ os, o ≠ .clear) : rs = plainRun m.cur os := by
  induction h with
  | nil => rfl
  | compress h1 _ ih =>
    rw [ih hc]
    cases h1 with
    | mk _ _ h => dsimp only; rw [← h, Function.update_eq_self]
  | call h1 _ ih =>
    have ih := ih fun o ho => hc o (by simp [ho])
    rw [ih]
    cases h1 with
    | get => rfl
    | peek => rfl
    | upd => rfl
    | flush => rfl
    | size => rfl
    | clear => exact absurd rfl (hc _ (by simp))

/-- **C41.** With a compressor that loses nothing the calls return exactly what an array of blocks without cache returns: each read the last values written. -/
theorem cache_transparent {A : Assoc} {C : Store L S} {n : Nat} {Ok : S → Prop} {V : L → Prop} (hC : C.Laws n Ok V (· = ·)) (hn : n < 2 ^ 31) {s : S} (hs : Ok s)
    {c : Nat → L} (hc : ∀ b < n, C.dec b s = some (c b)) {k : Nat} (hk : k ≤ 2 ^ 31) (fresh : Nat → L) (os : List (Op L)) (ho : ∀ o ∈ os, o.Ok n V) (hcl : ∀ o ∈ os, o ≠ .clear) :
    ∃ a', Arr.run A C ⟨⟨maskFor k, fun _ => 0, fresh⟩, s⟩ os = some (a', plainRun c os) := by
  obtain ⟨a', rs, m', e, h, _⟩ := cache_refines hC hn os (new_array A hs (c := c) (fun b hb => ⟨hc b hb, by
    obtain ⟨l, e1, e2⟩ := hC.dec s b hs hb
    rw [hc b hb] at e1
    cases e1
    exact e2⟩) hk fresh) ho
  exact ⟨a', by rw [e, run_plain h hcl]⟩

/-- The lines returned for block `b`. -/
def seen (b : Nat) : List (Op L) → List (Option L) → List L
  | .get b' :: os, some l :: rs => if b' = b then l :: seen b os rs else seen b os rs
  | .peek b' :: os, some l :: rs => if b' = b then l :: seen b os rs else seen b os rs
  | _ :: os, _ :: rs => seen b os rs
  | _, _ => []

private theorem run_seen {n : Nat} {R : L → L → Prop} {m m' : Mem L} {os : List (Op L)} {rs : List (Option L)} (h : Mem.Run n R m os rs m') (b : Nat)
    (hc : ∀ o ∈ os, o ≠ .clear ∧ ∀ f, o ≠ .upd b f) :
    (m'.cur b = m.cur b ∨ (m.changed b ∧ R (m.cur b) (m'.cur b))) ∧ (m'.changed b → m.changed b ∧ m'.cur b = m.cur b) ∧
    ∀ l ∈ seen b os rs, l = m.cur b ∨ (m.changed b ∧ R (m.cur b) l ∧ l = m'.cur b) := by
  induction h with
  | nil => exact ⟨Or.inl rfl, fun h => ⟨h, rfl⟩, fun l hl => by simp [seen] at hl⟩
  | @compress m m1 m2 os rs h1 _ ih =>
    obtain ⟨i1, i2, i3⟩ := ih hc
    cases h1 with
    | @mk b' l _ hch hR =>
      dsimp only at i1 i2 i3
      by_cases hb : b = b'
      · subst hb
        rw [Function.update_self] at i1 i2 i3
        rcases i1 with i1 | ⟨⟨hne, _⟩, _⟩
        · refine ⟨Or.inr ⟨hch, by rw [i1]; exact hR⟩, fun h => absurd rfl (i2 h).1.1, fun l' hl' => ?_⟩
          rcases i3 l' hl' with i | ⟨⟨hne, _⟩, _⟩
          · exact Or.inr ⟨hch, by rw [i]; exact hR, by rw [i, i1]⟩
          · exact absurd rfl hne
        · exact absurd rfl hne
      · rw [Function.update_of_ne hb] at i1 i2 i3
        refine ⟨i1.imp id fun h => ⟨h.1.2, h.2⟩, fun h => ⟨(i2 h).1.2, (i2 h).2⟩, fun l' hl' => (i3 l' hl').imp id fun h => ⟨h.1.2, h.2⟩⟩
  | @call m m1 m2 o r os rs h1 _ ih =>
    obtain ⟨i1, i2, i3⟩ := ih fun o ho => hc o (by simp [ho])
    have hcur := hc o (by simp)
    cases h1 with
    | @get b' =>
      refine ⟨i1, i2, fun l hl => ?_⟩
      unfold seen at hl
      by_cases hb : b' = b
      · subst hb
        rw [if_pos rfl] at hl
        rcases List.mem_cons.1 hl with h | h
        · exact Or.inl h
        · exact i3 l h
      · rw [if_neg hb] at hl; exact i3 l hl
    | @peek b' =>
      refine ⟨i1, i2, fun l hl => ?_⟩
      unfold seen at hl
      by_cases hb : b' = b
      · subst hb
        rw [if_pos rfl] at hl
        rcases List.mem_cons.1 hl with h | h
        · exact Or.inl h
        · exact i3 l h
      · rw [if_neg hb] at hl; exact i3 l hl
    | @upd b' f =>
      have hb : b ≠ b' := by rintro rfl; exact hcur.2 f rfl
      dsimp only at i1 i2 i3
      rw [Function.update_of_ne hb] at i1 i2 i3
      refine ⟨i1.imp id fun h => ⟨h.1.resolve_left hb, h.2⟩, fun h => ⟨(i2 h).1.resolve_left hb, (i2 h).2⟩, fun l hl => (i3 l hl).imp id fun h => ⟨h.1.resolve_left hb, h.2⟩⟩
    | flush => exact ⟨i1, i2, i3⟩
    | size => exact ⟨i1, i2, i3⟩
    | clear => exact absurd rfl hcur.1

/-- **C41.** A block that is written and then only read: whatever happens to other blocks in between, every read returns the line as written, or the result of compressing
and decompressing that line once; it is compressed at most once. -/
theorem read_after_write {A : Assoc} {C : Store L S} {n : Nat} {Ok : S → Prop} {V : L → Prop} {R : L → L → Prop} (hC : C.Laws n Ok V R) (hn : n < 2 ^ 31)
    {a : Arr L S} {m : Mem L} (h : Rel A C n Ok V a m) {b : Nat} (hb : b < n) {l : L} (hl : V l) (os : List (Op L)) (ho : ∀ o ∈ os, o.Ok n V)
    (hu : ∀ o ∈ os, o ≠ .clear ∧ ∀ f, o ≠ .upd b f) :
    ∃ a' rs l', a.run A C (.upd b (fun _ => l) :: os) = some (a', none :: rs) ∧ (l' = l ∨ R l l') ∧ ∀ x ∈ seen b os rs, x = l ∨ x = l' := by
  obtain ⟨a1, r, m1, m2, e1, h1, h2, h3⟩ := step_spec hC hn h (o := .upd b fun _ => l) ⟨hb, fun _ _ => hl⟩
  obtain ⟨a2, rs, m3, e2, h4, h5⟩ := cache_refines hC hn os h3 ho
  obtain ⟨i1, _, i3⟩ := run_seen h4 b hu
  have hcur : m2.cur b = l ∧ r = none := by
    cases h2 with
    | upd => exact ⟨by dsimp only; rw [Function.update_self], rfl⟩
  rw [hcur.1] at i1 i3
  refine ⟨a2, rs, m3.cur b, by rw [Arr.run, e1, Option.bind_some, e2, hcur.2]; rfl, i1.imp id fun h => h.2, fun x hx => ?_⟩
  exact (i3 x hx).imp id fun h => h.2.2

/-- **C41.** Reading never changes the array: calls that change nothing leave the compressed data as it is and return the decompressed blocks. -/
theorem reads_keep_data {A : Assoc} {C : Store L S} {n : Nat} {Ok : S → Prop} {V : L → Prop} {R : L → L → Prop} (hC : C.Laws n Ok V R) (hn : n < 2 ^ 31)
    {a : Arr L S} {m : Mem L} (h : Rel A C n Ok V a m) (hch : ∀ b < n, ¬ m.changed b) (os : List (Op L)) (ho : ∀ o ∈ os, o.Ok n V) (hu : ∀ o ∈ os, ∀ b f, o ≠ .upd b f) :
    ∃ a', a.run A C os = some (a', plainRun m.cur os) ∧ ∀ b < n, C.dec b a'.store = C.dec b a.store := by
  obtain ⟨a', rs, m', e, h1, h2⟩ := cache_refines hC hn os h ho
  have key : ∀ {m m' : Mem L} {os : List (Op L)} {rs : List (Option L)}, Mem.Run n R m os rs m' → (∀ o ∈ os, ∀ b f, o ≠ .upd b f) → (∀ b < n, ¬ m.changed b) → (∀ b < n, m.cur b = m.old b) →
      (∀ b < n, m'.old b = m.old b) ∧ ∀ c : Nat → L, (∀ b < n, c b = m.cur b) → rs = plainRun c os := by
    intro m m' os rs hr
    induction hr with
    | nil => intro _ _ _; exact ⟨fun _ _ => rfl, fun _ _ => rfl⟩
    | compress h1 _ _ =>
      intro _ hc _
      cases h1 with
      | mk hb h _ => exact absurd h (hc _ hb)
    | @call m m1 m2 o r os rs h1 _ ih =>
      intro hu hc hs
      have ih := ih fun o ho => hu o (by simp [ho])
      cases h1 with
      | get hb => obtain ⟨i1, i2⟩ := ih hc hs; exact ⟨i1, fun c hcc => by rw [i2 c hcc, plainRun, hcc _ hb]⟩
      | peek hb => obtain ⟨i1, i2⟩ := ih hc hs; exact ⟨i1, fun c hcc => by rw [i2 c hcc, plainRun, hcc _ hb]⟩
      | @upd b f => exact absurd rfl (hu _ (by simp) b f)
      | flush => obtain ⟨i1, i2⟩ := ih hc hs; exact ⟨i1, fun c hcc => by rw [i2 c hcc]; rfl⟩
      | size => obtain ⟨i1, i2⟩ := ih hc hs; exact ⟨i1, fun c hcc => by rw [i2 c hcc]; rfl⟩
      | clear =>
        obtain ⟨i1, i2⟩ := ih (fun _ _ h => h) (fun _ _ => rfl)
        exact ⟨i1, fun c hcc => by rw [i2 c fun b hb => by rw [hcc b hb, hs b hb]]; rfl⟩
  obtain ⟨k1, k2⟩ := key h1 hu hch fun b hb => h.same b hb (hch b hb)
  exact ⟨a', by rw [e, k2 _ fun _ _ => rfl], fun b hb => by rw [h2.old b hb, h.old b hb, k1 b hb]⟩

/-- The blocks in changed lines of the slots `0 … k-1`, in that order. -/
private def dirtyBlocks (a : Arr L S) (k : Nat) : List Nat :=
  (List.range k).filterMap fun i => if tagDirty (a.cache.tag i) then some (tagIndex (a.cache.tag i) - 1) else none

/-- **C41.** Flushing compresses every changed block exactly once, no other block, and leaves the cache empty. -/
theorem flush_once {A : Assoc} {C : Store L S} {n : Nat} {Ok : S → Prop} {V : L → Prop} (hn : n < 2 ^ 31) {a : Arr L S} {m : Mem L} (h : Rel A C n Ok V a m) :
    ∃ bs : List Nat, bs.Nodup ∧ (∀ b, b ∈ bs ↔ b < n ∧ m.changed b) ∧ ∃ c : Cache L, (∀ i ≤ a.cache.mask, c.tag i = 0) ∧ c.mask = a.cache.mask ∧
      a.flush C = (bs.foldlM (fun s b => C.enc b (m.cur b) s) a.store).map fun s => ⟨c, s⟩ := by
  have hdirty : ∀ i ≤ a.cache.mask, tagDirty (a.cache.tag i) = true → ∃ b < n, tagIndex (a.cache.tag i) = b + 1 := by
    intro i hi hd
    obtain ⟨b, hb, e, _⟩ := h.slot i hi (by intro e; rw [e] at hd; exact absurd hd (by decide))
    exact ⟨b, hb, e⟩
  refine ⟨dirtyBlocks a (a.cache.mask + 1), ?_, fun b => ?_, ⟨a.cache.mask, fun i => if i < a.cache.mask + 1 then 0 else a.cache.tag i, a.cache.line⟩, fun i hi => if_pos (by omega), rfl, ?_⟩
  · unfold dirtyBlocks
    refine List.pairwise_filterMap.2 (List.nodup_range.imp_of_mem fun {i j} hi hj hij b eb b' eb' hbb => ?_)
    rw [List.mem_range] at hi hj
    by_cases hdi : tagDirty (a.cache.tag i) = true
    · by_cases hdj : tagDirty (a.cache.tag j) = true
      · rw [if_pos hdi] at eb
        rw [if_pos hdj] at eb'
        obtain ⟨bi, _, ei⟩ := hdirty i (by omega) hdi
        obtain ⟨bj, _, ej⟩ := hdirty j (by omega) hdj
        have e1 := Option.some.inj eb
        have e2 := Option.some.inj eb'
        exact hij (h.uniq i (by omega) j (by omega) (ne_zero_of_index ei) (by omega))
      · rw [if_neg hdj] at eb'; exact absurd eb' (by simp)
    · rw [if_neg hdi] at eb; exact absurd eb (by simp)
  · unfold dirtyBlocks
    simp only [List.mem_filterMap, List.mem_range]
    constructor
    · rintro ⟨i, hi, e⟩
      by_cases hd : tagDirty (a.cache.tag i) = true
      · rw [if_pos hd] at e
        obtain ⟨b', hb', e'⟩ := hdirty i (by omega) hd
        rw [e'] at e
        obtain rfl : b' = b := by simpa using e
        exact ⟨hb', ((h.line i (by omega) b' hb' e').2).2 hd⟩
      · rw [if_neg hd] at e; exact absurd e (by simp)
    · rintro ⟨hb, hc⟩
      by_contra hno
      refine h.out b hb (fun i hi e => hno ⟨i, by omega, ?_⟩) hc
      rw [if_pos (((h.line i hi b hb e).2).1 hc), e]
      rfl
  · unfold Arr.flush
    have key : ∀ k ≤ a.cache.mask + 1, forNM k (flushSlot C) a = ((dirtyBlocks a k).foldlM (fun s b => C.enc b (m.cur b) s) a.store).map fun s =>
        ⟨⟨a.cache.mask, fun i => if i < k then 0 else a.cache.tag i, a.cache.line⟩, s⟩ := by
      intro k
      induction k with
      | zero => intro _; simp [dirtyBlocks]
      | succ k ih =>
        intro hk
        rw [forNM_succ, ih (by omega)]
        have hd : dirtyBlocks a (k + 1) = dirtyBlocks a k ++ (if tagDirty (a.cache.tag k) then [tagIndex (a.cache.tag k) - 1] else []) := by
          unfold dirtyBlocks
          rw [List.range_succ, List.filterMap_append]
          congr 1
          by_cases hd : tagDirty (a.cache.tag k) = true <;> simp [hd]
        rw [hd, List.foldlM_append]
        cases (dirtyBlocks a k).foldlM (fun s b => C.enc b (m.cur b) s) a.store with
        | none => rfl
        | some s =>
          rw [Option.map_some, Option.bind_some]
          unfold flushSlot
          dsimp only
          simp only [Nat.lt_irrefl, ↓reduceIte]
          have hupd : ∀ t : Nat → Nat, (Function.update (fun i => if i < k then 0 else t i) k 0) = fun i => if i < k + 1 then 0 else t i := by
            intro t
            funext i
            by_cases hik : i = k
            · subst hik; rw [Function.update_self, if_pos (by omega)]
            · rw [Function.update_of_ne hik]
              by_cases h' : i < k
              · rw [if_pos h', if_pos (by omega)]
              · rw [if_neg h', if_neg (by omega)]
          by_cases hu : tagUsed (a.cache.tag k) = true
          · rw [if_pos hu]
            by_cases hdk : tagDirty (a.cache.tag k) = true
            · obtain ⟨b, hb, e⟩ := hdirty k (by omega) hdk
              rw [if_pos hdk, if_pos hdk, e, show (b + 1 + 2 ^ 32 - 1) % 2 ^ 32 = b from by omega, (h.line k (by omega) b hb e).1, hupd]
              show Option.map _ _ = Option.map _ (([b].foldlM (fun s b => C.enc b (m.cur b) s) s))
              rw [List.foldlM_cons]
              cases C.enc b (m.cur b) s <;> rfl
            · rw [if_neg hdk, if_neg hdk, hupd]; rfl
          · have h0 : a.cache.tag k = 0 := by unfold tagUsed at hu; simpa using hu
            have hdk : ¬ tagDirty (a.cache.tag k) = true := by rw [h0]; decide
            rw [if_neg hu, if_neg hdk]
            refine congrArg some ?_
            congr 2
            funext i
            by_cases hik : i = k
            · subst hik; rw [if_neg (by omega), if_pos (by omega), h0]
            · by_cases h' : i < k
              · rw [if_pos h', if_pos (by omega)]
              · rw [if_neg h', if_neg (by omega)]
    exact key _ (le_refl _)

/-- **C41.** Replacement in the two-way cache: a line in use is replaced only if both places are in use, and a changed line (which must then be compressed) only if both are changed. -/
theorem cache_replaces {A : Assoc} (hA : A = .twoway ∨ A = .twowayFast) (c : Cache L) (x : Nat) (w : Bool) (h1 : tagIndex (c.tag (primary c.mask x)) ≠ x)
    (h2 : tagIndex (c.tag (secondary A c.mask x)) ≠ x) :
    let t := (c.access A x w).2.2
    let p := (c.access A x w).2.1
    (p = primary c.mask x ∨ p = secondary A c.mask x) ∧ t = c.tag p ∧
    (tagUsed t = true → tagUsed (c.tag (primary c.mask x)) = true ∧ tagUsed (c.tag (secondary A c.mask x)) = true) ∧
    (tagDirty t = true → tagDirty (c.tag (primary c.mask x)) = true ∧ tagDirty (c.tag (secondary A c.mask x)) = true) := by
  have hdu : ∀ t, tagUsed t = false → tagDirty t = false := by
    intro t h
    unfold tagUsed at h
    have : t = 0 := by simpa using h
    subst this
    rfl
  have key : c.access A x w = c.miss (if tagUsed (c.tag (secondary A c.mask x)) && (!tagDirty (c.tag (primary c.mask x)) || tagDirty (c.tag (secondary A c.mask x))) then primary c.mask x
      else secondary A c.mask x) x w := by
    unfold Cache.access
    dsimp only
    rw [if_neg h1]
    rcases hA with rfl | rfl
    · dsimp only; rw [if_neg h2]
    · dsimp only; rw [if_neg h2]
  rw [key]
  unfold Cache.miss
  dsimp only
  generalize primary c.mask x = i at *
  generalize secondary A c.mask x = j at *
  have hi := hdu (c.tag i)
  have hj := hdu (c.tag j)
  cases hu : tagUsed (c.tag i) <;> cases hv : tagUsed (c.tag j) <;> cases hd : tagDirty (c.tag i) <;> cases he : tagDirty (c.tag j) <;> simp_all

/-- Non-vacuity: both places used, the primary one changed: the secondary is replaced. -/
example : (Cache.access .twowayFast ⟨3, fun i => if i = primary 3 5 then 2 * 9 + 1 else 2 * 4, fun _ => (0 : Int)⟩ 5 false).2.1 = secondary .twowayFast 3 5 ∧
    primary 3 5 ≠ secondary .twowayFast 3 5 := by decide +kernel

/-! ## The hypotheses can be met, and what happens outside them -/

/-- A compressor that loses nothing. -/
def exactStore : Store Int (Nat → Int) := ⟨fun b l s => some (Function.update s b l), fun b s => some (s b)⟩

theorem exactStore_laws (n : Nat) : exactStore.Laws n (fun _ => True) (fun _ => True) (· = ·) :=
  ⟨fun s b _ _ => ⟨s b, rfl, trivial⟩,
   fun s b l _ _ _ => ⟨Function.update s b l, l, rfl, trivial, congrArg some (Function.update_self ..), rfl, fun _ _ h => congrArg some (Function.update_of_ne h ..)⟩⟩

/-- A compressor that rounds down to even values. -/
def evenStore : Store Int (Nat → Int) := ⟨fun b l s => some (Function.update s b (2 * (l / 2))), fun b s => some (s b)⟩

theorem evenStore_laws (n : Nat) : evenStore.Laws n (fun _ => True) (fun _ => True) (fun l l' => l' = 2 * (l / 2)) :=
  ⟨fun s b _ _ => ⟨s b, rfl, trivial⟩,
   fun _ _ _ _ _ _ => ⟨_, _, rfl, trivial, congrArg some (Function.update_self ..), rfl, fun _ _ h => congrArg some (Function.update_of_ne h ..)⟩⟩

/-- Non-vacuity of `cache_refines`, `cache_transparent`, `reads_keep_data`, `flush_once`, `read_after_write`: a new array with a compressor. -/
example : Rel .twoway evenStore 100 (fun _ => True) (fun _ => True) ⟨⟨maskFor 3, fun _ => 0, fun _ => 7⟩, fun _ => 0⟩ ⟨fun _ => 0, fun _ => 0, fun _ => False⟩ :=
  new_array .twoway trivial (fun _ _ => ⟨rfl, trivial⟩) (by decide) _

/-- Non-vacuity: with two lines, direct mapped, blocks 1 and 3 share a line; the value 5 of block 1 is compressed to 4 when block 3 is read. -/
example : (Arr.run .direct evenStore ⟨⟨maskFor 2, fun _ => 0, fun _ => 7⟩, fun _ => 0⟩ [.upd 1 (· + 5), .get 1, .get 3, .get 1, .flush, .peek 1]).map (·.2) =
    some [none, some 5, some 0, some 4, none, some 4] := by decide +kernel

/-- The same calls with the exact compressor. -/
example : (Arr.run .direct exactStore ⟨⟨maskFor 2, fun _ => 0, fun _ => 7⟩, fun _ => 0⟩ [.upd 1 (· + 5), .get 1, .get 3, .get 1, .flush, .peek 1]).map (·.2) =
    some (plainRun (fun _ => 0) [.upd 1 (· + 5), .get 1, .get 3, .get 1, .flush, .peek 1]) := by decide +kernel

/-- **C41** fails for arrays of 2^31 blocks or more: the tag of block 2^31-1 (block number plus one, times two) does not fit in 32 bits. A value written to that block is lost, and
flushing the cache writes it to block 2^32-1, which does not exist. -/
theorem cache_tag_wraps :
    (Arr.run .direct exactStore ⟨⟨maskFor 1, fun _ => 0, fun _ => 7⟩, fun _ => 0⟩ [.upd (2 ^ 31 - 1) (fun _ => 5), .get (2 ^ 31 - 1)]).map
      (fun r => (r.2, r.1.store (2 ^ 31 - 1), r.1.store (2 ^ 32 - 1))) = some ([none, some 0], 0, 5) := by decide +kernel

end Verif.Zfp

import Verif.Zfp.CoderEnc

/-! # What the embedded decoder reads -/

namespace Verif.Zfp

/-- The stream reads memory `mem` at bit `p`. -/
def At (W : Nat) (mem : Nat → Nat) (s : Stream) (p : Nat) : Prop := Rd W s p ∧ s.mem = mem

/-- The memory holds the bits of `l` from bit `p` on. -/
def Holds (W : Nat) (mem : Nat → Nat) (p : Nat) (l : List Bool) : Prop := ∀ j < l.length, memBit W mem (p + j) = l.getD j false

theorem readBit_at {W : Nat} (hW : 0 < W) {mem : Nat → Nat} {s : Stream} {p : Nat} (h : At W mem s p) :
    (readBit W s).2 = memBit W mem p ∧ At W mem (readBit W s).1 (p + 1) := by
  obtain ⟨h1, rfl⟩ := h
  obtain ⟨a, b, c⟩ := readBit_rd hW h1
  exact ⟨a, b, c⟩

theorem readBits_at {W : Nat} (hW64 : W ≤ 64) {mem : Nat → Nat} {s : Stream} {p : Nat} (h : At W mem s p) (n : Nat) (hn : n ≤ 64) :
    ∃ s' value, readBits W s n = some (s', value) ∧ At W mem s' (p + n) ∧ value < 2 ^ n ∧ ∀ j < n, value.testBit j = memBit W mem (p + j) := by
  obtain ⟨h1, rfl⟩ := h
  obtain ⟨s', v, a, b, c, d, e⟩ := readBits_rd hW64 h1 n hn
  exact ⟨s', v, a, ⟨b, c⟩, d, e⟩

theorem holds_nil (W : Nat) (mem : Nat → Nat) (p : Nat) : Holds W mem p [] := fun j hj => absurd hj (Nat.not_lt_zero j)

theorem holds_append {W : Nat} {mem : Nat → Nat} {p : Nat} {l m : List Bool} :
    Holds W mem p (l ++ m) ↔ Holds W mem p l ∧ Holds W mem (p + l.length) m := by
  constructor
  · intro h
    constructor
    · intro j hj
      rw [h j (by rw [List.length_append]; omega), List.getD_append _ _ _ _ hj]
    · intro j hj
      rw [Nat.add_assoc, h (l.length + j) (by rw [List.length_append]; omega), List.getD_append_right _ _ _ _ (by omega), Nat.add_sub_cancel_left]
  · rintro ⟨h1, h2⟩ j hj
    rw [List.length_append] at hj
    by_cases h : j < l.length
    · rw [h1 j h, List.getD_append _ _ _ _ h]
    · rw [List.getD_append_right _ _ _ _ (by omega), ← h2 _ (by omega)]
      congr 1; omega

theorem holds_cons {W : Nat} {mem : Nat → Nat} {p : Nat} {a : Bool} {l : List Bool} :
    Holds W mem p (a :: l) ↔ memBit W mem p = a ∧ Holds W mem (p + 1) l := by
  have : a :: l = [a] ++ l := rfl
  rw [this, holds_append]
  refine and_congr_left fun _ => ⟨fun h => h 0 (by simp), fun h j hj => ?_⟩
  have : j = 0 := by simpa using hj
  subst this
  simpa using h

theorem holds_take_cons {W : Nat} {mem : Nat → Nat} {p b : Nat} {a : Bool} {l : List Bool} (hb : b ≠ 0) :
    Holds W mem p ((a :: l).take b) ↔ memBit W mem p = a ∧ Holds W mem (p + 1) (l.take (b - 1)) := by
  obtain ⟨b, rfl⟩ : ∃ c, b = c + 1 := ⟨b - 1, by omega⟩
  rw [List.take_succ_cons, holds_cons]
  rfl

/-- The number with the bits of `l`, lowest first. -/
def ofBits : List Bool → Nat
  | [] => 0
  | b :: l => b.toNat + 2 * ofBits l

theorem ofBits_lt (l : List Bool) : ofBits l < 2 ^ l.length := by
  induction l with
  | nil => simp [ofBits]
  | cons b l ih =>
    have := Bool.toNat_le b
    rw [ofBits, List.length_cons, pow_succ]; omega

theorem ofBits_append (l m : List Bool) : ofBits (l ++ m) = ofBits l + 2 ^ l.length * ofBits m := by
  induction l with
  | nil => simp [ofBits]
  | cons b l ih => rw [List.cons_append, ofBits, ih, ofBits, List.length_cons, pow_succ]; ring

theorem ofBits_zero (l : List Bool) (h : l.any id = false) : ofBits l = 0 := by
  induction l with
  | nil => rfl
  | cons b l ih =>
    rw [List.any_cons, Bool.or_eq_false_iff] at h
    have : b = false := by simpa using h.1
    rw [ofBits, ih h.2, this]; rfl

theorem ofBits_replicate (j : Nat) : ofBits (List.replicate j false) = 0 := ofBits_zero _ (by simp)

theorem bitsOf_ofBits (l : List Bool) : bitsOf (ofBits l) l.length = l := by
  induction l with
  | nil => rfl
  | cons b l ih =>
    rw [List.length_cons, bitsOf_succ, ofBits]
    congr 1
    · rw [Nat.testBit_zero]; cases b <;> simp
    · have := Bool.toNat_le b
      rw [Nat.shiftRight_eq_div_pow, show (b.toNat + 2 * ofBits l) / 2 ^ 1 = ofBits l by omega, ih]

theorem ofBits_bitsOf (x m : Nat) (h : x < 2 ^ m) : ofBits (bitsOf x m) = x := by
  refine Nat.eq_of_testBit_eq fun i => ?_
  have e := bitsOf_ofBits (bitsOf x m)
  rw [bitsOf_length] at e
  by_cases hi : i < m
  · have := congrArg (fun l => l.getD i false) e
    simpa only [bitsOf_getD _ _ _ hi] using this
  · have h2 := ofBits_lt (bitsOf x m)
    rw [bitsOf_length] at h2
    have hm : 2 ^ m ≤ 2 ^ i := Nat.pow_le_pow_right (by omega) (by omega)
    rw [Nat.testBit_lt_two_pow (by omega), Nat.testBit_lt_two_pow (by omega)]

theorem rl_true_ne {r : List Bool} (h : 2 ≤ r.length) : rl true r ≠ [] := by
  cases r with
  | nil => simp at h
  | cons c r =>
    have hr : r ≠ [] := by rintro rfl; simp at h
    simp only [rl, hr, if_false]
    split <;> simp

/-- The inner loop, on any memory; and what it finds in the code of a plane. -/
theorem decInner_spec {W : Nat} (hW : 0 < W) (mem : Nat → Nat) (size : Nat) : ∀ (f : Nat) (s : Stream) (b n p : Nat), At W mem s p → n < size → size - n < f →
    ∃ s' b' n', decInner W size f s b n = some (s', b', n') ∧ b' ≤ b ∧ At W mem s' (p + (b - b')) ∧ n ≤ n' ∧ n' < size ∧
      ∀ r : List Bool, r.any id → n + r.length = size → Holds W mem p ((rl true r).take b) →
        (∃ r', r = List.replicate (n' - n) false ++ true :: r' ∧ (rl true r).length = (b - b') + (rl false r').length ∧
          Holds W mem (p + (b - b')) ((rl false r').take b') ∧ rlRest true r = rlRest false r') ∨ (b' = 0 ∧ b < (rl true r).length) := by
  intro f
  induction f with
  | zero => intro s b n p _ _ h; omega
  | succ f ih =>
    intro s b n p hs hn hf
    rw [decInner]
    obtain ⟨hbit, hs1⟩ := readBit_at hW hs
    split
    · rename_i hc
      dsimp only
      split
      · rename_i hb
        refine ⟨_, b - 1, n, rfl, by omega, by rw [show p + (b - (b - 1)) = p + 1 by omega]; exact hs1, le_refl _, hn, ?_⟩
        intro r ha hl hh
        cases r with
        | nil => simp at ha
        | cons c r =>
          have hr : r ≠ [] := by rintro rfl; simp at hl; omega
          cases c
          · exfalso
            simp only [rl, hr, if_false, Bool.false_eq_true] at hh
            rw [holds_take_cons hc.2, ← hbit, hb] at hh
            exact absurd hh.1 (by simp)
          · left
            simp only [rl, rlRest, hr, if_false, if_true] at hh ⊢
            rw [holds_take_cons hc.2] at hh
            refine ⟨r, by simp, by simp only [List.length_cons]; omega, ?_, rfl⟩
            rw [show p + (b - (b - 1)) = p + 1 by omega]
            exact hh.2
      · rename_i hb
        have hb : (readBit W s).2 = false := by simpa using hb
        obtain ⟨s', b', n', e, h1, h2, h3, h4, h5⟩ := ih (readBit W s).1 (b - 1) (n + 1) (p + 1) hs1 (by omega) (by omega)
        have hpos : p + 1 + (b - 1 - b') = p + (b - b') := by omega
        refine ⟨s', b', n', e, by omega, by rw [← hpos]; exact h2, by omega, h4, ?_⟩
        intro r ha hl hh
        cases r with
        | nil => simp at ha
        | cons c r =>
          have hr : r ≠ [] := by rintro rfl; simp at hl; omega
          cases c
          · have ha' : r.any id := by simpa using ha
            simp only [rl, rlRest, hr, if_false, Bool.false_eq_true] at hh ⊢
            rw [holds_take_cons hc.2] at hh
            rcases h5 r ha' (by simp at hl; omega) hh.2 with ⟨r', g1, g2, g3, g4⟩ | ⟨g1, g2⟩
            · left
              refine ⟨r', ?_, by simp only [List.length_cons]; omega, by rw [← hpos]; exact g3, g4⟩
              rw [show n' - n = (n' - (n + 1)) + 1 by omega, List.replicate_succ, List.cons_append, ← g1]
            · right
              exact ⟨g1, by simp only [List.length_cons]; omega⟩
          · exfalso
            simp only [rl, hr, if_false, if_true] at hh
            rw [holds_take_cons hc.2, ← hbit, hb] at hh
            exact absurd hh.1 (by simp)
    · rename_i hc
      refine ⟨s, b, n, rfl, le_refl _, by simpa using hs, le_refl _, hn, ?_⟩
      intro r ha hl hh
      by_cases h1 : r.length = 1
      · obtain ⟨c, rfl⟩ := List.length_eq_one_iff.1 h1
        have : c = true := by simpa using ha
        subst this
        left
        exact ⟨[], by simp, by simp [rl], by simpa [rl] using holds_nil _ _ _, by simp [rlRest]⟩
      · right
        have h2 : 2 ≤ r.length := by
          have : r ≠ [] := by rintro rfl; simp at ha
          have := List.length_pos_iff.2 this
          omega
        have := List.length_pos_iff.2 (rl_true_ne h2)
        exact ⟨by omega, by omega⟩

/-- The outer loop without the limit of 64 values: `y` collects the bits. -/
def decAbs (W size : Nat) : Nat → Stream → Nat → Nat → Nat → Option (Stream × Nat × Nat × Nat)
  | 0, _, _, _, _ => none
  | f + 1, s, bits, n, y =>
    if n < size ∧ bits ≠ 0 then
      let r := readBit W s
      if r.2 then
        (decInner W size (size + 1) r.1 (bits - 1) n).bind fun (s, bits, n) => decAbs W size f s bits (n + 1) (y + 2 ^ n)
      else some (r.1, bits - 1, n, y)
    else some (s, bits, n, y)

theorem rl_false_ne {r : List Bool} (h : r ≠ []) : rl false r ≠ [] := by
  cases r with
  | nil => exact absurd rfl h
  | cons c r =>
    simp only [rl]
    split <;> simp

theorem add_pow_lt {y n m : Nat} (hy : y < 2 ^ n) (h : n ≤ m) : y + 2 ^ m < 2 ^ (m + 1) := by
  have : (2:Nat) ^ n ≤ 2 ^ m := Nat.pow_le_pow_right (by omega) h
  rw [pow_succ]; omega

theorem decAbs_spec {W : Nat} (hW : 0 < W) (mem : Nat → Nat) (size : Nat) : ∀ (f : Nat) (s : Stream) (b n y p : Nat), At W mem s p → n ≤ size → size - n < f →
    y < 2 ^ n →
    ∃ s' b' n' y', decAbs W size f s b n y = some (s', b', n', y') ∧ b' ≤ b ∧ At W mem s' (p + (b - b')) ∧ n ≤ n' ∧ n' ≤ size ∧ y' < 2 ^ n' ∧
      ∀ r : List Bool, n + r.length = size → Holds W mem p ((rl false r).take b) → b' = b - (rl false r).length ∧
        ((rl false r).length ≤ b → n' + (rlRest false r).length = size ∧ y' = y + 2 ^ n * ofBits r) := by
  intro f
  induction f with
  | zero => intro s b n y p _ _ h; omega
  | succ f ih =>
    intro s b n y p hs hn hf hy
    rw [decAbs]
    obtain ⟨hbit, hs1⟩ := readBit_at hW hs
    split
    · rename_i hc
      have hrne : ∀ r : List Bool, n + r.length = size → r ≠ [] := by rintro r h rfl; simp at h; omega
      dsimp only
      split
      · rename_i hb
        obtain ⟨s1, b1, n1, e1, h1, h2, h3, h4, h5⟩ := decInner_spec hW mem size (size + 1) (readBit W s).1 (b - 1) n (p + 1) hs1 hc.1 (by omega)
        obtain ⟨s2, b2, n2, y2, e2, g1, g2, g3, g4, g5, g6⟩ := ih s1 b1 (n1 + 1) (y + 2 ^ n1) _ h2 (by omega) (by omega) (add_pow_lt hy h3)
        rw [e1, Option.bind_some]
        dsimp only
        have hpos : p + 1 + (b - 1 - b1) + (b1 - b2) = p + (b - b2) := by omega
        refine ⟨s2, b2, n2, y2, e2, by omega, by rw [← hpos]; exact g2, by omega, g4, g5, ?_⟩
        intro r hl hh
        have ha : r.any id := by
          by_contra hcon
          have hcon : r.any id = false := by simpa using hcon
          rw [(rl_false_none r hcon (hrne r hl)).1, holds_take_cons hc.2, ← hbit, hb] at hh
          exact absurd hh.1 (by simp)
        obtain ⟨r1, r2⟩ := rl_false_any r ha
        rw [r1, holds_take_cons hc.2] at hh
        rw [r1, r2, List.length_cons]
        rcases h5 r ha hl hh.2 with ⟨r', c1, c2, c3, c4⟩ | ⟨c1, c2⟩
        · have hlen : n1 + 1 + r'.length = size := by
            have := congrArg List.length c1
            simp at this
            omega
          obtain ⟨d1, d2⟩ := g6 r' hlen c3
          refine ⟨by omega, fun hle => ?_⟩
          obtain ⟨d3, d4⟩ := d2 (by omega)
          rw [c4]
          refine ⟨d3, ?_⟩
          rw [d4, c1, ofBits_append, ofBits_replicate, List.length_replicate, ofBits]
          rw [show n1 = n + (n1 - n) by omega, pow_succ, pow_add]
          rw [show n + (n1 - n) - n = n1 - n by omega, Bool.toNat_true]
          ring
        · have : b2 = 0 := by omega
          exact ⟨by omega, fun hle => by omega⟩
      · rename_i hb
        have hb : (readBit W s).2 = false := by simpa using hb
        refine ⟨_, b - 1, n, y, rfl, by omega, by rw [show p + (b - (b - 1)) = p + 1 by omega]; exact hs1, le_refl _, hn, hy, ?_⟩
        intro r hl hh
        have ha : r.any id = false := by
          by_contra hcon
          have hcon : r.any id := by simpa using hcon
          rw [(rl_false_any r hcon).1, holds_take_cons hc.2, ← hbit, hb] at hh
          exact absurd hh.1 (by simp)
        obtain ⟨r1, r2⟩ := rl_false_none r ha (hrne r hl)
        rw [r1, r2, ofBits_zero r ha]
        exact ⟨by simp, fun _ => ⟨hl, by simp⟩⟩
    · rename_i hc
      refine ⟨s, b, n, y, rfl, le_refl _, by simpa using hs, le_refl _, hn, hy, ?_⟩
      intro r hl hh
      by_cases h0 : r = []
      · subst h0
        simp [rl, rlRest, ofBits]
        simpa using hl
      · have h1 := List.length_pos_iff.2 (rl_false_ne h0)
        have h2 := List.length_pos_iff.2 h0
        exact ⟨by omega, fun h => by omega⟩

/-- For at most 64 values the loop of decode_ints is the abstract one. -/
theorem decOuter_eq {W : Nat} (hW : 0 < W) (mem : Nat → Nat) {size : Nat} (h64 : size ≤ 64) : ∀ (f : Nat) (s : Stream) (b n y p : Nat), At W mem s p →
    n ≤ size → y < 2 ^ n → decOuter W size f s b n y = decAbs W size f s b n y := by
  intro f
  induction f with
  | zero => intros; rfl
  | succ f ih =>
    intro s b n y p hs hn hy
    rw [decOuter, decAbs]
    split
    · rename_i hc
      obtain ⟨_, hs1⟩ := readBit_at hW hs
      dsimp only
      split
      · obtain ⟨s1, b1, n1, e1, h1, h2, h3, h4, _⟩ := decInner_spec hW mem size (size + 1) (readBit W s).1 (b - 1) n (p + 1) hs1 hc.1 (by omega)
        rw [e1, Option.bind_some, Option.bind_some]
        dsimp only
        have hlt := add_pow_lt hy h3
        have h64' : (2:Nat) ^ (n1 + 1) ≤ 2 ^ 64 := Nat.pow_le_pow_right (by omega) (by omega)
        rw [shl64, if_pos (by omega), Option.bind_some, Nat.shiftLeft_eq, Nat.one_mul, Nat.mod_eq_of_lt (by omega), Nat.mod_eq_of_lt (by omega)]
        exact ih s1 b1 (n1 + 1) _ _ h2 (by omega) hlt
      · rfl
    · rfl

/-! ## Depositing -/

/-- The data after the bits of `Y` have been added in plane `k`. -/
def addPlane (w k Y : Nat) (data : List Nat) : List Nat := data.mapIdx fun i d => (d + (Y.testBit i).toNat * 2 ^ k) % 2 ^ w

theorem addPlane_length (w k Y : Nat) (data : List Nat) : (addPlane w k Y data).length = data.length := by simp [addPlane]

theorem addPlane_get (w k Y : Nat) (data : List Nat) (i : Nat) (h : i < data.length) :
    (addPlane w k Y data).getD i 0 = (data.getD i 0 + (Y.testBit i).toNat * 2 ^ k) % 2 ^ w := by
  simp [addPlane, List.getD_eq_getElem?_getD, h]

theorem addPlane_zero (w k : Nat) (data : List Nat) (h : ∀ d ∈ data, d < 2 ^ w) : addPlane w k 0 data = data := by
  refine List.ext_getElem (addPlane_length _ _ _ _) fun i h1 h2 => ?_
  simp [addPlane, Nat.mod_eq_of_lt (h _ (List.getElem_mem h2))]

theorem deposit_eq (w k : Nat) : ∀ (data : List Nat) (x : Nat), x < 2 ^ data.length → (∀ d ∈ data, d < 2 ^ w) →
    deposit w k x data = some (addPlane w k x data) := by
  intro data
  induction data with
  | nil =>
    intro x hx _
    have : x = 0 := by simpa using hx
    subst this
    simp [deposit, addPlane]
  | cons d ds ih =>
    intro x hx hd
    rw [deposit]
    split
    · rename_i h0
      subst h0
      rw [addPlane_zero _ _ _ hd]
    · rw [List.length_cons, pow_succ] at hx
      rw [ih (x >>> 1) (by rw [Nat.shiftRight_eq_div_pow]; omega) fun e he => hd e (by simp [he]), Option.map_some]
      congr 1
      unfold addPlane
      rw [List.mapIdx_cons]
      congr 1
      · rw [Nat.shiftLeft_eq]
        congr 3
        rw [Nat.testBit_zero]
        have : x % 2 = 0 ∨ x % 2 = 1 := by omega
        rcases this with h | h <;> simp [h]
      · congr 1
        funext i e
        rw [Nat.testBit_shiftRight, Nat.add_comm 1 i]

theorem addBit_eq (w k i Y : Nat) (data : List Nat) (hi : i < data.length) (hY : Y < 2 ^ i) :
    addBit w k i (addPlane w k Y data) = some (addPlane w k (Y + 2 ^ i) data) := by
  have hl : i < (addPlane w k Y data).length := by rw [addPlane_length]; exact hi
  unfold addBit
  rw [List.getElem?_eq_getElem hl, Option.map_some]
  congr 1
  have hadd : ∀ j, (Y + 2 ^ i).testBit j = if j < i then Y.testBit j else decide (j = i) := by
    intro j
    have e : Y + 2 ^ i = 2 ^ i * 1 + Y := by ring
    rw [e, Nat.testBit_two_pow_mul_add _ hY]
    split
    · rfl
    · rename_i h
      by_cases hj : j = i
      · subst hj; simp
      · have h1 : 1 < 2 ^ (j - i) := by
          obtain ⟨q, hq⟩ : ∃ q, j - i = q + 1 := ⟨j - i - 1, by omega⟩
          rw [hq, pow_succ]
          have := Nat.one_le_two_pow (n := q)
          omega
        rw [Nat.testBit_lt_two_pow h1]
        simp [hj]
  have hYi : ∀ j, i ≤ j → Y.testBit j = false := fun j hj =>
    Nat.testBit_lt_two_pow (lt_of_lt_of_le hY (Nat.pow_le_pow_right (by omega) hj))
  refine List.ext_getElem (by simp [addPlane_length]) fun j h1 h2 => ?_
  by_cases hj : j = i
  · subst hj
    rw [List.getElem_set_self]
    simp only [addPlane, List.getElem_mapIdx, hadd, hYi j (le_refl _)]
    simp
  · rw [List.getElem_set_ne (by omega)]
    simp only [addPlane, List.getElem_mapIdx, hadd]
    by_cases hlt : j < i
    · simp [hlt]
    · simp [hlt, hj, hYi j (by omega)]

theorem readPlaneBits_spec {W : Nat} (hW : 0 < W) (mem : Nat → Nat) (w k : Nat) (data : List Nat) : ∀ (m : Nat) (s : Stream) (i Y p : Nat), At W mem s p →
    Y < 2 ^ i → i + m ≤ data.length → ∃ s' Y', readPlaneBits W w k s (addPlane w k Y data) i m = some (s', addPlane w k Y' data) ∧
      At W mem s' (p + m) ∧ Y' < 2 ^ (i + m) ∧ (∀ j < i, Y'.testBit j = Y.testBit j) ∧ ∀ j < m, Y'.testBit (i + j) = memBit W mem (p + j) := by
  intro m
  induction m with
  | zero =>
    intro s i Y p hs hY _
    exact ⟨s, Y, rfl, hs, hY, fun _ _ => rfl, fun j hj => absurd hj (Nat.not_lt_zero j)⟩
  | succ m ih =>
    intro s i Y p hs hY hi
    obtain ⟨hbit, hs1⟩ := readBit_at hW hs
    have hstep : ∃ Y1, (if (readBit W s).2 then addBit w k i (addPlane w k Y data) else some (addPlane w k Y data)) = some (addPlane w k Y1 data) ∧
        Y1 < 2 ^ (i + 1) ∧ (∀ j < i, Y1.testBit j = Y.testBit j) ∧ Y1.testBit i = memBit W mem p := by
      rw [← hbit]
      by_cases hb : (readBit W s).2 = true
      · refine ⟨Y + 2 ^ i, by rw [if_pos hb, addBit_eq _ _ _ _ _ (by omega) hY], add_pow_lt hY (le_refl _), fun j hj => ?_, ?_⟩
        · rw [Nat.add_comm, show 2 ^ i + Y = 2 ^ i * 1 + Y by ring, Nat.testBit_two_pow_mul_add _ hY, if_pos hj]
        · rw [Nat.add_comm, show 2 ^ i + Y = 2 ^ i * 1 + Y by ring, Nat.testBit_two_pow_mul_add _ hY, if_neg (by omega), hb]
          simp
      · refine ⟨Y, by rw [if_neg hb], lt_trans hY (Nat.pow_lt_pow_right (by omega) (by omega)), fun _ _ => rfl, ?_⟩
        rw [Nat.testBit_lt_two_pow hY]
        simpa using hb
    obtain ⟨Y1, e1, h1, h2, h3⟩ := hstep
    obtain ⟨s', Y', e, g1, g2, g3, g4⟩ := ih (readBit W s).1 (i + 1) Y1 (p + 1) hs1 h1 (by omega)
    refine ⟨s', Y', ?_, by rw [show p + (m + 1) = p + 1 + m by omega]; exact g1, by rw [show i + (m + 1) = i + 1 + m by omega]; exact g2, ?_, ?_⟩
    · rw [readPlaneBits]
      rw [e1, Option.bind_some, e]
    · intro j hj
      rw [g3 j (by omega), h2 j hj]
    · intro j hj
      cases j with
      | zero => rw [Nat.add_zero, Nat.add_zero, g3 i (by omega), h3]
      | succ j => rw [show i + (j + 1) = i + 1 + j by omega, show p + (j + 1) = p + 1 + j by omega]; exact g4 j (by omega)

theorem decManyOuter_eq {W : Nat} (hW : 0 < W) (mem : Nat → Nat) (w k : Nat) (data : List Nat) : ∀ (f : Nat) (s : Stream) (b n y p : Nat), At W mem s p →
    n ≤ data.length → y < 2 ^ n →
    decManyOuter W w k f s b n (addPlane w k y data) =
      (decAbs W data.length f s b n y).map fun r => (r.1, r.2.1, r.2.2.1, addPlane w k r.2.2.2 data) := by
  intro f
  induction f with
  | zero => intros; rfl
  | succ f ih =>
    intro s b n y p hs hn hy
    rw [decManyOuter, decAbs, addPlane_length]
    split
    · rename_i hc
      obtain ⟨_, hs1⟩ := readBit_at hW hs
      dsimp only
      split
      · obtain ⟨s1, b1, n1, e1, h1, h2, h3, h4, _⟩ :=
          decInner_spec hW mem data.length (data.length + 1) (readBit W s).1 (b - 1) n (p + 1) hs1 hc.1 (by omega)
        rw [e1, Option.bind_some, Option.bind_some]
        dsimp only
        rw [addBit_eq _ _ _ _ _ h4 (lt_of_lt_of_le hy (Nat.pow_le_pow_right (by omega) h3)), Option.bind_some]
        exact ih s1 b1 (n1 + 1) _ _ h2 (by omega) (add_pow_lt hy h3)
      · rfl
    · rfl

/-! ## One bit plane -/

/-- What a decoder does with one bit plane: on any memory it adds some bits in plane `k`, and in the code of a plane it finds its bits. -/
def DecPlaneOk (W w size : Nat) (plane : Nat → Stream → Nat → Nat → List Nat → Option (Stream × Nat × Nat × List Nat)) : Prop :=
  ∀ mem k s b n data p, At W mem s p → n ≤ size → data.length = size → (∀ d ∈ data, d < 2 ^ w) →
    ∃ s' b' n' Y, plane k s b n data = some (s', b', n', addPlane w k Y data) ∧ b' ≤ b ∧ At W mem s' (p + (b - b')) ∧ n' ≤ size ∧
      ∀ B : List Bool, B.length = size → Holds W mem p ((planeCode B n).take b) → b' = b - (planeCode B n).length ∧
        ((planeCode B n).length ≤ b → n' = planeNext B n ∧ bitsOf Y size = B)

/-- The common part of both decoders: `m` bits have been read into `x`, the rest follows. -/
theorem dec_finish {W : Nat} (hW : 0 < W) {mem : Nat → Nat} {size b n x p : Nat} {s1 : Stream} (hn : n ≤ size) (hs1 : At W mem s1 (p + min n b))
    (hx : x < 2 ^ min n b) (hxb : ∀ j < min n b, x.testBit j = memBit W mem (p + j)) :
    ∃ s' b' n' Y, decAbs W size (size + 1) s1 (b - min n b) n x = some (s', b', n', Y) ∧ b' ≤ b ∧ At W mem s' (p + (b - b')) ∧ n' ≤ size ∧ Y < 2 ^ size ∧
      ∀ B : List Bool, B.length = size → Holds W mem p ((planeCode B n).take b) → b' = b - (planeCode B n).length ∧
        ((planeCode B n).length ≤ b → n' = planeNext B n ∧ bitsOf Y size = B) := by
  have hxn : x < 2 ^ n := lt_of_lt_of_le hx (Nat.pow_le_pow_right (by omega) (by omega))
  obtain ⟨s', b', n', Y, e, h1, h2, h3, h4, h5, h6⟩ := decAbs_spec hW mem size (size + 1) s1 (b - min n b) n x _ hs1 hn (by omega) hxn
  have hpos : p + min n b + (b - min n b - b') = p + (b - b') := by omega
  refine ⟨s', b', n', Y, e, by omega, by rw [← hpos]; exact h2, h4, lt_of_lt_of_le h5 (Nat.pow_le_pow_right (by omega) h4), ?_⟩
  intro B hB hh
  have hlt : (B.take n).length = n := by rw [List.length_take]; omega
  have hlen : (planeCode B n).length = n + (rl false (B.drop n)).length := by rw [planeCode, List.length_append, hlt]
  by_cases hnb : n ≤ b
  · rw [Nat.min_eq_left hnb] at *
    have hh' : Holds W mem p (B.take n ++ (rl false (B.drop n)).take (b - n)) := by
      rw [planeCode, List.take_append, hlt, List.take_of_length_le (by omega)] at hh
      exact hh
    rw [holds_append, hlt] at hh'
    obtain ⟨c1, c2⟩ := h6 (B.drop n) (by rw [List.length_drop]; omega) hh'.2
    refine ⟨by omega, fun hle => ?_⟩
    obtain ⟨d1, d2⟩ := c2 (by omega)
    refine ⟨by unfold planeNext; omega, ?_⟩
    have hxB : x = ofBits (B.take n) := by
      have : bitsOf x n = B.take n := by
        refine List.ext_getElem (by simp; omega) fun j j1 j2 => ?_
        rw [bitsOf_getElem, hxb j (by simpa using j1), hh'.1 j j2, List.getD_eq_getElem?_getD, List.getElem?_eq_getElem j2, Option.getD_some]
      rw [← this, ofBits_bitsOf _ _ hxn]
    have : Y = ofBits B := by
      conv_rhs => rw [← List.take_append_drop n B, ofBits_append, hlt]
      rw [d2, hxB]
    rw [this, ← hB, bitsOf_ofBits]
  · exact ⟨by omega, fun hle => by omega⟩

theorem decPlane_ok {W : Nat} (hW : 0 < W) (hW64 : W ≤ 64) (w size : Nat) (h64 : size ≤ 64) : DecPlaneOk W w size (decPlane W w) := by
  intro mem k s b n data p hs hn hlen hd
  obtain ⟨s1, x, e1, h1, h2, h3⟩ := readBits_at hW64 hs (min n b) (by omega)
  obtain ⟨s', b', n', Y, e, g1, g2, g3, g4, g5⟩ := dec_finish hW (size := size) hn h1 h2 h3
  refine ⟨s', b', n', Y, ?_, g1, g2, g3, g5⟩
  rw [decPlane, e1, Option.bind_some]
  dsimp only
  rw [hlen, decOuter_eq hW mem h64 _ _ _ _ _ _ h1 hn (lt_of_lt_of_le h2 (Nat.pow_le_pow_right (by omega) (by omega))), e, Option.bind_some]
  dsimp only
  rw [deposit_eq _ _ _ _ (by rw [hlen]; exact g4) hd, Option.map_some]

theorem decManyPlane_ok {W : Nat} (hW : 0 < W) (w size : Nat) : DecPlaneOk W w size (decManyPlane W w) := by
  intro mem k s b n data p hs hn hlen hd
  obtain ⟨s1, x, e1, h1, h2, _, h3⟩ := readPlaneBits_spec hW mem w k data (min n b) s 0 0 p hs (by simp) (by omega)
  rw [addPlane_zero _ _ _ hd] at e1
  rw [Nat.zero_add] at h2
  obtain ⟨s', b', n', Y, e, g1, g2, g3, g4, g5⟩ := dec_finish hW (size := size) hn h1 h2 (fun j hj => by have := h3 j hj; rwa [Nat.zero_add] at this)
  refine ⟨s', b', n', Y, ?_, g1, g2, g3, g5⟩
  rw [decManyPlane, e1, Option.bind_some]
  dsimp only
  rw [addPlane_length, decManyOuter_eq hW mem w k data _ _ _ _ _ _ h1 (by omega) (lt_of_lt_of_le h2 (Nat.pow_le_pow_right (by omega) (by omega))), hlen, e,
    Option.map_some]

/-! ## All planes -/

theorem planeCode_ne (B : List Bool) (n : Nat) (hB : B ≠ []) : 0 < (planeCode B n).length := by
  unfold planeCode
  rw [List.length_append, List.length_take]
  have := List.length_pos_iff.2 hB
  by_cases h : n = 0
  · subst h
    have := List.length_pos_iff.2 (rl_false_ne (r := B.drop 0) (by simpa using hB))
    omega
  · omega

theorem decPlanes_spec {W w size : Nat} {plane : Nat → Stream → Nat → Nat → List Nat → Option (Stream × Nat × Nat × List Nat)}
    (hp : DecPlaneOk W w size plane) (hsize : 0 < size) (mem : Nat → Nat) (kmin : Nat) : ∀ (k : Nat) (s : Stream) (b n : Nat) (cur : List Nat) (p : Nat),
    At W mem s p → n ≤ size → cur.length = size → (∀ d ∈ cur, d < 2 ^ w) → (∀ d ∈ cur, 2 ^ k ∣ d) → k ≤ w → kmin ≤ k →
    ∃ s' b' out, decPlanes plane kmin k s b n cur = some (s', b', out) ∧ b' ≤ b ∧ At W mem s' (p + (b - b')) ∧ out.length = size ∧
      (∀ d ∈ out, d < 2 ^ w) ∧ (∀ d ∈ out, 2 ^ kmin ∣ d) ∧ (∀ i, out.getD i 0 / 2 ^ k = cur.getD i 0 / 2 ^ k) ∧
      ∀ data : List Nat, data.length = size → (∀ i, cur.getD i 0 = data.getD i 0 / 2 ^ k * 2 ^ k) → Holds W mem p ((fullCode data kmin k n).take b) →
        b' = b - (fullCode data kmin k n).length ∧
        ∀ κ, kmin ≤ κ → κ ≤ k → (fullCode data κ k n).length ≤ b → ∀ i, out.getD i 0 / 2 ^ κ = data.getD i 0 / 2 ^ κ := by
  intro k
  induction k with
  | zero =>
    intro s b n cur p hs hn hl hlt hdv hk hkm
    have : kmin = 0 := by omega
    subst this
    refine ⟨s, b, cur, rfl, le_refl _, by simpa using hs, hl, hlt, by simp, fun _ => rfl, ?_⟩
    intro data hdl hcur _
    refine ⟨rfl, fun κ _ h2 _ i => ?_⟩
    have : κ = 0 := by omega
    subst this
    rw [hcur i]
    simp
  | succ k ih =>
    intro s b n cur p hs hn hl hlt hdv hk hkm
    have hstop : ∀ data : List Nat, (∀ i, cur.getD i 0 = data.getD i 0 / 2 ^ (k + 1) * 2 ^ (k + 1)) → ∀ i,
        cur.getD i 0 / 2 ^ (k + 1) = data.getD i 0 / 2 ^ (k + 1) := by
      intro data hcur i
      rw [hcur i, Nat.mul_div_cancel _ (Nat.two_pow_pos _)]
    rw [decPlanes]
    by_cases hkk : k + 1 > kmin
    · by_cases hb : b = 0
      · rw [if_neg (by omega)]
        refine ⟨s, b, cur, rfl, le_refl _, by simpa using hs, hl, hlt, fun d hd => dvd_trans (pow_dvd_pow 2 hkm) (hdv d hd), fun _ => rfl, ?_⟩
        intro data hdl hcur _
        refine ⟨by omega, fun κ h1 h2 h3 i => ?_⟩
        by_cases hκ : κ = k + 1
        · subst hκ
          exact hstop data hcur i
        · exfalso
          rw [fullCode, if_pos (by omega), List.length_append] at h3
          have := planeCode_ne (planeOf data k) n (by
            intro hc
            have := congrArg List.length hc
            rw [planeOf_length] at this
            simp at this
            subst this
            simp at hdl
            omega)
          omega
      · rw [if_pos ⟨hb, hkk⟩]
        obtain ⟨s1, b1, n1, Y, e1, h1, h2, h3, h4⟩ := hp mem k s b n cur p hs hn hl hlt
        rw [e1, Option.bind_some]
        dsimp only
        have hadd : ∀ i, (addPlane w k Y cur).getD i 0 = if i < size then cur.getD i 0 + (Y.testBit i).toNat * 2 ^ k else 0 := by
          intro i
          by_cases hi : i < size
          · rw [if_pos hi, addPlane_get _ _ _ _ _ (by omega), Nat.mod_eq_of_lt]
            have hi' : i < cur.length := by omega
            have hm : cur.getD i 0 ∈ cur := by
              rw [List.getD_eq_getElem?_getD, List.getElem?_eq_getElem hi']; exact List.getElem_mem hi'
            obtain ⟨q, hq⟩ := hdv _ hm
            have hc := hlt _ hm
            obtain ⟨e, rfl⟩ : ∃ e, w = k + 1 + e := ⟨w - (k + 1), by omega⟩
            rw [hq] at hc ⊢
            rw [pow_add 2 (k + 1) e] at hc ⊢
            have hqe : q < 2 ^ e := Nat.lt_of_mul_lt_mul_left hc
            have hbl := Bool.toNat_le (Y.testBit i)
            have h2k : 2 ^ (k + 1) = 2 * 2 ^ k := by ring
            have hkp : 0 < 2 ^ k := Nat.two_pow_pos k
            have h9 : 2 ^ (k + 1) * (q + 1) ≤ 2 ^ (k + 1) * 2 ^ e := Nat.mul_le_mul_left _ hqe
            rw [Nat.mul_add, Nat.mul_one] at h9
            nlinarith
          · rw [if_neg hi, List.getD_eq_getElem?_getD, List.getElem?_eq_none (by rw [addPlane_length]; omega)]
            rfl
        have hcur0 : ∀ i, ¬ i < size → cur.getD i 0 = 0 := by
          intro i hi
          rw [List.getD_eq_getElem?_getD, List.getElem?_eq_none (by omega)]
          rfl
        have hmem : ∀ d ∈ addPlane w k Y cur, ∃ i, i < size ∧ d = cur.getD i 0 + (Y.testBit i).toNat * 2 ^ k ∧ 2 ^ (k + 1) ∣ cur.getD i 0 := by
          intro d hd
          obtain ⟨i, hi, rfl⟩ := List.mem_iff_getElem.1 hd
          rw [addPlane_length, hl] at hi
          refine ⟨i, hi, ?_, ?_⟩
          · have := hadd i
            rw [if_pos hi, List.getD_eq_getElem?_getD, List.getElem?_eq_getElem (by rw [addPlane_length]; omega), Option.getD_some] at this
            exact this
          · apply hdv
            rw [List.getD_eq_getElem?_getD, List.getElem?_eq_getElem (by omega)]
            exact List.getElem_mem _
        obtain ⟨s2, b2, out, e2, g1, g2, g3, g4, g4', g5, g6⟩ := ih s1 b1 n1 (addPlane w k Y cur) _ h2 h3 (by rw [addPlane_length, hl])
          (by
            intro d hd
            obtain ⟨i, hi, rfl⟩ := List.mem_iff_getElem.1 hd
            simp only [addPlane, List.getElem_mapIdx]
            exact Nat.mod_lt _ (Nat.two_pow_pos w))
          (by
            intro d hd
            obtain ⟨i, _, rfl, hdd⟩ := hmem d hd
            exact Nat.dvd_add (dvd_trans (pow_dvd_pow 2 (Nat.le_succ k)) hdd) (Nat.dvd_mul_left _ _))
          (by omega) (by omega)
        have hpos : p + (b - b1) + (b1 - b2) = p + (b - b2) := by omega
        refine ⟨s2, b2, out, e2, by omega, by rw [← hpos]; exact g2, g3, g4, g4', ?_, ?_⟩
        · intro i
          have h5 := g5 i
          have : ∀ a : Nat, a / 2 ^ (k + 1) = a / 2 ^ k / 2 := fun a => by rw [pow_succ, Nat.div_div_eq_div_mul]
          rw [this, h5, this, hadd i]
          split
          · rename_i hi
            rw [Nat.add_mul_div_right _ _ (Nat.two_pow_pos k)]
            have hdd : 2 ^ (k + 1) ∣ cur.getD i 0 := by
              apply hdv
              rw [List.getD_eq_getElem?_getD, List.getElem?_eq_getElem (by omega)]
              exact List.getElem_mem _
            obtain ⟨q, hq⟩ := hdd
            have hbl := Bool.toNat_le (Y.testBit i)
            rw [hq, pow_succ, Nat.mul_assoc, Nat.mul_div_cancel_left _ (Nat.two_pow_pos k)]
            omega
          · rename_i hi
            rw [hcur0 i hi, Nat.zero_div]
        · intro data hdl hcur hh
          rw [fullCode, if_pos hkk] at hh
          have hh1 : Holds W mem p ((planeCode (planeOf data k) n).take b) := by
            rw [List.take_append, holds_append] at hh
            exact hh.1
          obtain ⟨c1, c2⟩ := h4 (planeOf data k) (by rw [planeOf_length]; exact hdl) hh1
          rw [fullCode, if_pos hkk, List.length_append]
          by_cases hle : (planeCode (planeOf data k) n).length ≤ b
          · obtain ⟨c3, c4⟩ := c2 hle
            have hbit : ∀ i, i < size → Y.testBit i = (data.getD i 0).testBit k := by
              intro i hi
              have := congrArg (fun l => l.getD i false) c4
              rw [bitsOf_getD _ _ _ hi] at this
              rw [this, planeOf]
              simp [List.getD_eq_getElem?_getD, show i < data.length by omega]
            have hnew : ∀ i, (addPlane w k Y cur).getD i 0 = data.getD i 0 / 2 ^ k * 2 ^ k := by
              intro i
              rw [hadd i]
              split
              · rename_i hi
                rw [hcur i, hbit i hi, Nat.testBit_eq_decide_div_mod_eq]
                have e1 : data.getD i 0 / 2 ^ (k + 1) = data.getD i 0 / 2 ^ k / 2 := by rw [pow_succ, Nat.div_div_eq_div_mul]
                rw [e1, pow_succ]
                generalize data.getD i 0 / 2 ^ k = q
                have hq : q = 2 * (q / 2) + q % 2 := by omega
                have : q % 2 = 0 ∨ q % 2 = 1 := by omega
                rcases this with h | h
                · rw [h] at hq ⊢
                  conv_rhs => rw [hq]
                  simp
                  ring
                · rw [h] at hq ⊢
                  conv_rhs => rw [hq]
                  simp
                  ring
              · rename_i hi
                have : data.getD i 0 = 0 := by rw [List.getD_eq_getElem?_getD, List.getElem?_eq_none (by omega)]; rfl
                rw [this]; simp
            have hh2 : Holds W mem (p + (b - b1)) ((fullCode data kmin k n1).take b1) := by
              rw [List.take_append, List.take_of_length_le hle, holds_append] at hh
              rw [c3, show b - b1 = (planeCode (planeOf data k) n).length by omega, c1]
              exact hh.2
            obtain ⟨d1, d2⟩ := g6 data hdl hnew hh2
            rw [c3] at d1
            refine ⟨by omega, fun κ q1 q2 q3 i => ?_⟩
            by_cases hκ : κ = k + 1
            · subst hκ
              have h5 := g5 i
              have this : ∀ a : Nat, a / 2 ^ (k + 1) = a / 2 ^ k / 2 := fun a => by rw [pow_succ, Nat.div_div_eq_div_mul]
              rw [this, h5, hnew i, Nat.mul_div_cancel _ (Nat.two_pow_pos k), ← this]
            · rw [fullCode, if_pos (by omega), List.length_append] at q3
              exact d2 κ q1 (by omega) (by rw [c3]; omega) i
          · have hb2 : b2 = 0 := by omega
            refine ⟨by omega, fun κ q1 q2 q3 i => ?_⟩
            by_cases hκ : κ = k + 1
            · subst hκ
              have h5 := g5 i
              have this : ∀ a : Nat, a / 2 ^ (k + 1) = a / 2 ^ k / 2 := fun a => by rw [pow_succ, Nat.div_div_eq_div_mul]
              rw [this, h5, hadd i]
              split
              · rename_i hi
                rw [hcur i, Nat.add_mul_div_right _ _ (Nat.two_pow_pos k), pow_succ, ← Nat.mul_assoc, Nat.mul_right_comm,
                  Nat.mul_div_cancel _ (Nat.two_pow_pos k)]
                have hbl := Bool.toNat_le (Y.testBit i)
                omega
              · rename_i hi
                have : data.getD i 0 = 0 := by rw [List.getD_eq_getElem?_getD, List.getElem?_eq_none (by omega)]; rfl
                rw [this]; simp
            · rw [fullCode, if_pos (by omega), List.length_append] at q3
              omega
    · rw [if_neg (by omega)]
      have hk' : kmin = k + 1 := by omega
      refine ⟨s, b, cur, rfl, le_refl _, by simpa using hs, hl, hlt, by rw [hk']; exact hdv, fun _ => rfl, ?_⟩
      intro data hdl hcur _
      rw [fullCode, if_neg hkk]
      refine ⟨rfl, fun κ q1 q2 _ i => ?_⟩
      have : κ = k + 1 := by omega
      subst this
      exact hstop data hcur i

end Verif.Zfp

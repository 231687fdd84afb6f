import Verif.Zfp.Array

/-! # What the block loops read and write -/

namespace Verif.Zfp

variable {α : Type}

/-! ## Reading -/

theorem put_same (q : Nat → α) (i : Nat) (v : α) : put q i v i = v := by simp [put]

theorem put_ne (q : Nat → α) {i j : Nat} (h : j ≠ i) (v : α) : put q i v j = q j := by simp [put, h]

/-- The offset of position `i` of a block of full size. -/
def offsetOf : List Int → Nat → Int
  | [], _ => 0
  | s :: ss, i => s * (i / 4 ^ ss.length : Nat) + offsetOf ss (i % 4 ^ ss.length)

/-- The invariant of a loop. -/
theorem forLoop_inv {σ : Type} {f : Nat → σ → Option σ} (I : Nat → σ → Prop) : ∀ (n i : Nat) (s : σ), I i s →
    (∀ j s, i ≤ j → j < i + n → I j s → ∃ s', f j s = some s' ∧ I (j + 1) s') → ∃ s', forLoop f n i s = some s' ∧ I (i + n) s'
  | 0, i, s, h, _ => ⟨s, rfl, h⟩
  | n + 1, i, s, h, hf => by
    obtain ⟨s1, e1, h1⟩ := hf i s (le_refl _) (by omega) h
    obtain ⟨s2, e2, h2⟩ := forLoop_inv I n (i + 1) s1 h1 fun j s hj hj2 => hf j s (by omega) (by omega)
    exact ⟨s2, by rw [forLoop, e1, Option.bind_some, e2], by rw [show i + (n + 1) = i + 1 + n by omega]; exact h2⟩

theorem div_of_block {B i j : Nat} (hB : 0 < B) (h : j < B) : (i * B + j) / B = i ∧ (i * B + j) % B = j := by
  rw [Nat.add_comm, Nat.add_mul_div_right _ _ hB, Nat.add_mul_mod_self_right, Nat.div_eq_of_lt h, Nat.mod_eq_of_lt h]
  exact ⟨Nat.zero_add _, rfl⟩

theorem block_of {B n x : Nat} (hx : x < n * B) : ∃ i j, x = i * B + j ∧ i < n ∧ j < B := by
  rcases Nat.eq_zero_or_pos B with h | h
  · subst h; omega
  · exact ⟨x / B, x % B, by have := Nat.div_add_mod x B; rw [Nat.mul_comm]; omega, (Nat.div_lt_iff_lt_mul h).2 hx, Nat.mod_lt _ h⟩

theorem gather_spec (a : Int → Option α) : ∀ (ss : List Int) (q : Nat → α) (k : Nat) (p : Int) (v : Nat → α),
    (∀ i < 4 ^ ss.length, a (p + offsetOf ss i) = some (v i)) →
    ∃ q', gather a ss (q, k, p) = some (q', k + 4 ^ ss.length, p + advance ss) ∧ (∀ i < 4 ^ ss.length, q' (k + i) = v i) ∧ ∀ j < k, q' j = q j
  | [], q, k, p, v, h => by
    have h0 := h 0 (by simp)
    rw [offsetOf, add_zero] at h0
    refine ⟨put q k (v 0), by simp [gather, h0, advance], ?_, fun j hj => put_ne _ (by omega) _⟩
    intro i hi
    obtain rfl : i = 0 := by simpa using hi
    simp [put]
  | s :: ss, q, k, p, v, h => by
    have hB : 0 < 4 ^ ss.length := Nat.pow_pos (by omega)
    obtain ⟨B, eB⟩ : ∃ B, B = 4 ^ ss.length := ⟨_, rfl⟩
    have hl : 4 ^ (s :: ss).length = 4 * B := by rw [List.length_cons, Nat.pow_succ, eB, Nat.mul_comm]
    rw [hl] at h ⊢
    rw [← eB] at hB
    obtain ⟨⟨q', k', p'⟩, e, h1, h2, h3, h4⟩ := forLoop_inv (f := fun _ st => (gather a ss st).map fun (q, k, p) => (q, k, p + (s - advance ss)))
      (I := fun n (st : (Nat → α) × Nat × Int) => st.2.1 = k + n * B ∧ st.2.2 = p + n * s ∧ (∀ i < n * B, st.1 (k + i) = v i) ∧ ∀ j < k, st.1 j = q j) 4 0 (q, k, p)
      ⟨by simp, by simp, by intro i hi; omega, fun _ _ => rfl⟩ (by
        rintro n ⟨q1, k1, p1⟩ _ hn ⟨rfl, rfl, g1, g2⟩
        dsimp only at g1 g2
        obtain ⟨q2, e2, f1, f2⟩ := gather_spec a ss q1 (k + n * B) (p + n * s) (fun i => v (n * B + i)) (by
          intro i hi
          rw [← eB] at hi
          have := h (n * B + i) (by have := Nat.mul_le_mul_right B (show n + 1 ≤ 4 by omega); rw [Nat.add_mul] at this; omega)
          rw [offsetOf, ← eB, (div_of_block hB hi).1, (div_of_block hB hi).2] at this
          rw [← this]
          congr 1
          ring)
        rw [← eB] at e2 f1
        refine ⟨_, by rw [e2]; rfl, by dsimp only; rw [Nat.add_mul]; omega, by dsimp only; push_cast; ring, fun i hi => ?_, fun j hj => ?_⟩
        · dsimp only
          rw [Nat.add_mul] at hi
          by_cases hin : i < n * B
          · rw [f2 _ (by omega), g1 i hin]
          · have := f1 (i - n * B) (by omega)
            rw [show k + n * B + (i - n * B) = k + i by omega, show n * B + (i - n * B) = i by omega] at this
            exact this
        · dsimp only
          rw [f2 _ (by omega), g2 j hj])
    dsimp only at h1 h2 h3 h4
    refine ⟨q', ?_, h3, h4⟩
    rw [gather, e, h1, h2]
    rfl

/-- The position of the value that stands at position `c` of a padded line of `n` values. -/
def source (n c : Nat) : Nat := if c < n then c else if c = 3 then 0 else n - 1

/-- The offset of the value that stands at position `i` of a padded block. -/
def sourceOf : List (Nat × Int) → Nat → Int
  | [], _ => 0
  | (n, s) :: L, i => s * (source n (i / 4 ^ L.length) : Nat) + sourceOf L (i % 4 ^ L.length)

theorem padBlock_spec (q : Nat → α) (o s n : Nat) (hs : 0 < s) (hn : 1 ≤ n) :
    (∀ c < 4, padBlock q o n s (o + c * s) = q (o + source n c * s)) ∧ ∀ x, (∀ c < 4, n ≤ c → x ≠ o + c * s) → padBlock q o n s x = q x := by
  constructor
  · intro c hc
    have : c = 0 ∨ c = 1 ∨ c = 2 ∨ c = 3 := by omega
    have hn' : n = 1 ∨ n = 2 ∨ n = 3 ∨ 4 ≤ n := by omega
    rcases hn' with rfl | rfl | rfl | hn4
    case inr.inr.inr =>
      rw [padBlock, if_neg (by omega), if_neg (by omega), if_neg (by omega), source, if_pos (by omega)]
    all_goals
      rw [padBlock]
      norm_num
      rcases this with rfl | rfl | rfl | rfl
      all_goals
        simp only [put, source]
        split_ifs <;> first | rfl | omega | (congr 1; omega)
  · intro x hx
    have h1 := hx 1 (by omega)
    have h2 := hx 2 (by omega)
    have h3 := hx 3 (by omega)
    unfold padBlock
    split_ifs <;> simp only [put] <;> split_ifs <;> first | rfl | omega

theorem pads_spec (q : Nat → α) (o B n : Nat) (hB : 0 < B) (hn : 1 ≤ n) (hn4 : n ≤ 4) : ∀ m ≤ B,
    (∀ c < 4, ∀ j < m, (List.range m).foldl (fun q j => padBlock q (o + j) n B) q (o + c * B + j) = q (o + source n c * B + j)) ∧
    ∀ x, (∀ c < 4, ∀ j < m, x ≠ o + c * B + j) → (List.range m).foldl (fun q j => padBlock q (o + j) n B) q x = q x
  | 0, _ => ⟨fun _ _ _ h => absurd h (Nat.not_lt_zero _), fun _ _ => rfl⟩
  | m + 1, hm => by
    obtain ⟨h1, h2⟩ := pads_spec q o B n hB hn hn4 m (by omega)
    rw [List.range_succ, List.foldl_append, List.foldl_cons, List.foldl_nil]
    generalize (List.range m).foldl (fun q j => padBlock q (o + j) n B) q = Q at *
    obtain ⟨g1, g2⟩ := padBlock_spec Q (o + m) B n hB hn
    have hne : ∀ c c' j, j < B → j ≠ m → o + c' * B + j ≠ o + m + c * B := by
      intro c c' j hj hjm h
      have e : (c' * B + j) % B = (c * B + m) % B := by congr 1; omega
      rw [(div_of_block hB hj).2, (div_of_block hB (show m < B by omega)).2] at e
      exact hjm e
    have hs : ∀ c < 4, source n c < 4 := by intro c hc; unfold source; split_ifs <;> omega
    constructor
    · intro c hc j hj
      by_cases hjm : j = m
      · subst hjm
        have := g1 c hc
        rw [show o + j + c * B = o + c * B + j by omega, h2 (o + j + source n c * B)] at this
        · rw [this]; congr 1; omega
        · intro c' _ j' hj' h
          exact hne (source n c) c' j' (by omega) (by omega) h.symm
      · rw [g2 _ fun c' _ _ => hne c' c j (by omega) hjm, h1 c hc j (by omega)]
    · intro x hx
      rw [g2 x fun c hc _ h => hx c hc m (by omega) (by omega), h2 x fun c hc j hj => hx c hc j (by omega)]

theorem gatherPartial_spec (a : Int → Option α) : ∀ (L : List (Nat × Int)) (o : Nat) (q : Nat → α) (p : Int) (v : Nat → α), (∀ d ∈ L, 1 ≤ d.1 ∧ d.1 ≤ 4) →
    (∀ i < 4 ^ L.length, a (p + sourceOf L i) = some (v i)) →
    ∃ q', gatherPartial a L o (q, p) = some (q', p + advancePartial L) ∧ (∀ i < 4 ^ L.length, q' (o + i) = v i) ∧
      ∀ x, (x < o ∨ o + 4 ^ L.length ≤ x) → q' x = q x
  | [], o, q, p, v, _, h => by
    have h0 := h 0 (by simp)
    rw [sourceOf, add_zero] at h0
    refine ⟨put q o (v 0), by simp [gatherPartial, h0, advancePartial], ?_, fun j hj => put_ne _ (by simp at hj; omega) _⟩
    intro i hi
    obtain rfl : i = 0 := by simpa using hi
    simp [put]
  | (n, s) :: L, o, q, p, v, hL, h => by
    obtain ⟨hn1, hn4⟩ := hL (n, s) (by simp)
    dsimp only at hn1 hn4
    have hB : 0 < 4 ^ L.length := Nat.pow_pos (by omega)
    obtain ⟨B, eB⟩ : ∃ B, B = 4 ^ L.length := ⟨_, rfl⟩
    have hl : 4 ^ ((n, s) :: L).length = 4 * B := by rw [List.length_cons, Nat.pow_succ, eB, Nat.mul_comm]
    rw [hl] at h ⊢
    rw [← eB] at hB
    have hsn : ∀ c < 4, source n c < n := by intro c hc; unfold source; split_ifs <;> omega
    obtain ⟨⟨q1, p1⟩, e1, h1, h2, h3⟩ := forLoop_inv (f := fun i st => (gatherPartial a L (o + 4 ^ L.length * i) st).map fun (q, p) => (q, p + (s - advancePartial L)))
      (I := fun t (st : (Nat → α) × Int) => st.2 = p + t * s ∧ (∀ i < t * B, st.1 (o + i) = v i) ∧ ∀ x, (x < o ∨ o + 4 * B ≤ x) → st.1 x = q x) n 0 (q, p)
      ⟨by simp, by intro i hi; omega, fun _ _ => rfl⟩ (by
        rintro t ⟨q1, p1⟩ _ ht ⟨rfl, g1, g2⟩
        dsimp only at g1 g2
        have htB := Nat.mul_le_mul_right B (show t + 1 ≤ 4 by omega)
        rw [Nat.add_mul] at htB
        obtain ⟨q2, e2, f1, f2⟩ := gatherPartial_spec a L (o + B * t) q1 (p + t * s) (fun i => v (t * B + i)) (fun d hd => hL d (by simp [hd])) (by
          intro i hi
          rw [← eB] at hi
          have := h (t * B + i) (by omega)
          rw [sourceOf, ← eB, (div_of_block hB hi).1, (div_of_block hB hi).2, source, if_pos (by omega)] at this
          rw [← this]
          congr 1
          ring)
        rw [← eB] at f1 f2
        rw [Nat.mul_comm B t] at e2 f1 f2
        refine ⟨_, by rw [← eB, Nat.mul_comm B t, e2]; rfl, by dsimp only; push_cast; ring, fun i hi => ?_, fun x hx => ?_⟩
        · dsimp only
          rw [Nat.add_mul] at hi
          by_cases hin : i < t * B
          · rw [f2 _ (by omega), g1 i hin]
          · have := f1 (i - t * B) (by omega)
            rw [show o + t * B + (i - t * B) = o + i by omega, show t * B + (i - t * B) = i by omega] at this
            exact this
        · dsimp only
          rw [f2 _ (by omega), g2 x hx])
    dsimp only at h1 h2 h3
    rw [Nat.zero_add] at h1 h2
    obtain ⟨k1, k2⟩ := pads_spec q1 o B n hB hn1 hn4 B (le_refl B)
    rw [gatherPartial, e1, Option.map_some]
    dsimp only
    rw [← eB]
    refine ⟨_, by rw [h1]; rfl, fun i hi => ?_, fun x hx => ?_⟩
    · obtain ⟨c, j, rfl, hc, hj⟩ := block_of hi
      rw [← Nat.add_assoc, k1 c hc j hj, Nat.add_assoc, h2 _ (by
        have := Nat.mul_le_mul_right B (show source n c + 1 ≤ n from hsn c hc)
        rw [Nat.add_mul] at this
        omega)]
      have e1 := h (source n c * B + j) (by
        have := Nat.mul_le_mul_right B (show source n c + 1 ≤ 4 by have := hsn c hc; omega)
        rw [Nat.add_mul] at this
        omega)
      have e2 := h (c * B + j) hi
      rw [sourceOf, ← eB, (div_of_block hB hj).1, (div_of_block hB hj).2] at e1 e2
      rw [show source n (source n c) = source n c by rw [source, if_pos (hsn c hc)]] at e1
      rw [e1] at e2
      exact Option.some.inj e2
    · rw [k2 x, h3 x hx]
      intro c hc j hj h
      have := Nat.mul_le_mul_right B (show c + 1 ≤ 4 by omega)
      rw [Nat.add_mul] at this
      omega

/-! ## Writing -/

/-- A list of writes. -/
def stores : List (Int × α) → (Int → Option α) → Option (Int → Option α)
  | [], m => some m
  | (p, v) :: l, m => (store m p v).bind (stores l)

theorem stores_append (l l' : List (Int × α)) (m : Int → Option α) : stores (l ++ l') m = (stores l m).bind (stores l') := by
  induction l generalizing m with
  | nil => rfl
  | cons x l ih =>
    obtain ⟨p, v⟩ := x
    rw [List.cons_append, stores, stores]
    cases store m p v with
    | none => rfl
    | some m => rw [Option.bind_some, Option.bind_some, ih]

theorem stores_spec : ∀ (l : List (Int × α)) (m : Int → Option α), (l.map (·.1)).Nodup → (∀ x ∈ l, (m x.1).isSome) →
    ∃ m', stores l m = some m' ∧ (∀ x ∈ l, m' x.1 = some x.2) ∧ ∀ p, p ∉ l.map (·.1) → m' p = m p
  | [], m, _, _ => ⟨m, rfl, by simp, fun _ _ => rfl⟩
  | (p, v) :: l, m, hn, hm => by
    rw [List.map_cons, List.nodup_cons] at hn
    have hp : (m p).isSome := hm (p, v) (by simp)
    obtain ⟨m', e, h1, h2⟩ := stores_spec l (fun x => if x = p then some v else m x) hn.2 (fun x hx => by
      split
      · rfl
      · exact hm x (by simp [hx]))
    refine ⟨m', by rw [stores, store, if_pos hp, Option.bind_some, e], ?_, fun x hx => ?_⟩
    · intro x hx
      rcases List.mem_cons.1 hx with rfl | hx
      · rw [h2 _ hn.1, if_pos rfl]
      · exact h1 x hx
    · rw [List.map_cons, List.mem_cons, not_or] at hx
      rw [h2 x hx.2, if_neg hx.1]

/-- The offsets and positions of the values of a block, in the order of the loops. -/
def cells : List (Nat × Int) → List (Int × Nat)
  | [] => [(0, 0)]
  | (n, s) :: L => (List.range n).flatMap fun (i : Nat) => (cells L).map fun c => (s * i + c.1, i * 4 ^ L.length + c.2)

/-- A loop of writes. -/
theorem forLoop_stores {σ : Type} {f : Nat → (Int → Option α) × σ → Option ((Int → Option α) × σ)} {w : Nat → List (Int × α)} {g : Nat → σ}
    (hf : ∀ i m, f i (m, g i) = (stores (w i) m).map (·, g (i + 1))) : ∀ (n i : Nat) (m : Int → Option α),
    forLoop f n i (m, g i) = (stores ((List.range n).flatMap fun j => w (i + j)) m).map (·, g (i + n))
  | 0, i, m => rfl
  | n + 1, i, m => by
    rw [forLoop, hf, List.range_succ_eq_map, List.flatMap_cons, stores_append, Nat.add_zero]
    cases stores (w i) m with
    | none => rfl
    | some m =>
      rw [Option.map_some, Option.bind_some, Option.bind_some, forLoop_stores hf n (i + 1), List.flatMap_map, show i + 1 + n = i + (n + 1) by omega]
      congr 2
      congr 1
      funext j
      congr 1
      omega

theorem scatter_eq (q : Nat → α) : ∀ (ss : List Int) (m : Int → Option α) (k : Nat) (p : Int),
    scatter q ss (m, k, p) = (stores ((cells (ss.map (4, ·))).map fun c => (p + c.1, q (k + c.2))) m).map (·, k + 4 ^ ss.length, p + advance ss)
  | [], m, k, p => by
    simp only [scatter, List.map_nil, cells, List.map_cons, stores, add_zero, List.length_nil, Nat.pow_zero, advance]
    cases store m p (q k) <;> rfl
  | s :: ss, m, k, p => by
    obtain ⟨B, eB⟩ : ∃ B, B = 4 ^ ss.length := ⟨_, rfl⟩
    have := forLoop_stores (f := fun _ st => (scatter q ss st).map fun (m, k, p) => (m, k, p + (s - advance ss)))
      (w := fun i => (cells (ss.map (4, ·))).map fun c => (p + i * s + c.1, q (k + i * B + c.2))) (g := fun i => (k + i * B, p + i * s)) (fun i m => by
        rw [scatter_eq q ss]
        cases stores ((cells (ss.map (4, ·))).map fun c => (p + i * s + c.1, q (k + i * B + c.2))) m with
        | none => rfl
        | some m =>
          rw [Option.map_some, Option.map_some, Option.map_some, ← eB]
          refine congrArg some (congrArg (Prod.mk m) (Prod.ext ?_ ?_))
          · dsimp only; rw [Nat.add_mul]; omega
          · dsimp only; push_cast; ring) 4 0 m
    rw [Nat.zero_mul, Nat.add_zero, show p + ((0 : Nat) : Int) * s = p by simp] at this
    rw [scatter, this, List.map_cons, cells, List.map_flatMap]
    simp only [List.map_map, Function.comp_def, Nat.zero_add, List.length_map, ← eB]
    rw [show 4 ^ (s :: ss).length = 4 * B by rw [List.length_cons, Nat.pow_succ, eB, Nat.mul_comm]]
    congr 2
    congr 1
    funext i
    congr 1
    funext c
    rw [← Nat.add_assoc, ← add_assoc, mul_comm s]

theorem scatterPartial_eq (q : Nat → α) : ∀ (L : List (Nat × Int)) (m : Int → Option α) (k : Nat) (p : Int), (∀ d ∈ L, d.1 ≤ 4) →
    ∃ k', k' + skipBlock L = k + 4 ^ L.length ∧
    scatterPartial q L (m, k, p) = (stores ((cells L).map fun c => (p + c.1, q (k + c.2))) m).map (·, k', p + advancePartial L)
  | [], m, k, p, _ => by
    refine ⟨k, rfl, ?_⟩
    simp only [scatterPartial, cells, List.map_cons, List.map_nil, stores, add_zero, advancePartial]
    cases store m p (q k) <;> rfl
  | (n, s) :: L, m, k, p, hL => by
    obtain ⟨B, eB⟩ : ∃ B, B = 4 ^ L.length := ⟨_, rfl⟩
    have hn : n ≤ 4 := hL (n, s) (by simp)
    have := forLoop_stores (f := fun _ st => (scatterPartial q L st).map fun (m, k, p) => (m, k + skipBlock L, p + (s - advancePartial L)))
      (w := fun i => (cells L).map fun c => (p + i * s + c.1, q (k + i * B + c.2))) (g := fun i => (k + i * B, p + i * s)) (fun i m => by
        obtain ⟨k', hk, e⟩ := scatterPartial_eq q L m (k + i * B) (p + i * s) fun d hd => hL d (by simp [hd])
        rw [e]
        cases stores ((cells L).map fun c => (p + i * s + c.1, q (k + i * B + c.2))) m with
        | none => rfl
        | some m =>
          rw [Option.map_some, Option.map_some, Option.map_some]
          refine congrArg some (congrArg (Prod.mk m) (Prod.ext ?_ ?_))
          · dsimp only; rw [hk, ← eB, Nat.add_mul]; omega
          · dsimp only; push_cast; ring) n 0 m
    rw [Nat.zero_mul, Nat.add_zero, show p + ((0 : Nat) : Int) * s = p by simp] at this
    refine ⟨k + n * B, ?_, ?_⟩
    · rw [skipBlock, ← eB, List.length_cons, Nat.pow_succ, ← eB, Nat.mul_sub, Nat.mul_comm n B]
      have := Nat.mul_le_mul_left B hn
      omega
    · rw [scatterPartial, this, cells, List.map_flatMap]
      simp only [List.map_map, Function.comp_def, Nat.zero_add, ← eB]
      congr 2
      congr 1
      funext i
      congr 1
      funext c
      rw [← Nat.add_assoc, ← add_assoc, mul_comm s]

end Verif.Zfp

import Verif.Zfp.ArrayLemmas

/-! # The blocks of an array cover its elements once -/

namespace Verif.Zfp

variable {α : Type}

/-- The index `c` is one of an element of the array. -/
def InBox (L : List (Nat × Int)) (c : List Nat) : Prop := List.Forall₂ (fun x d => x < d.1) c L

theorem mem_choices : ∀ {ls : List (List Nat)} {o : List Nat}, o ∈ choices ls ↔ List.Forall₂ (fun x l => x ∈ l) o ls
  | [], o => by simp [choices]
  | l :: ls, o => by
    rw [choices, List.mem_flatMap]
    constructor
    · rintro ⟨x, hx, ho⟩
      obtain ⟨o', ho', rfl⟩ := List.mem_map.1 ho
      exact List.Forall₂.cons hx (mem_choices.1 ho')
    · intro h
      cases h with
      | cons hx ho => exact ⟨_, hx, List.mem_map.2 ⟨_, mem_choices.2 ho, rfl⟩⟩

theorem nodup_choices : ∀ {ls : List (List Nat)}, (∀ l ∈ ls, l.Nodup) → (choices ls).Nodup
  | [], _ => by simp [choices]
  | l :: ls, h => by
    rw [choices, List.nodup_flatMap]
    refine ⟨fun x _ => (nodup_choices fun l hl => h l (by simp [hl])).map (fun a b h => by simpa using h), ?_⟩
    refine (h l (by simp)).imp fun {x y} hxy => ?_
    rw [Function.onFun, List.disjoint_left]
    intro o h1 h2
    obtain ⟨a, _, rfl⟩ := List.mem_map.1 h1
    obtain ⟨b, _, e⟩ := List.mem_map.1 h2
    exact hxy (by simpa using (List.cons.inj e).1.symm)

/-- A block origin: multiples of four inside the array. -/
def IsOrigin (L : List (Nat × Int)) (o : List Nat) : Prop := List.Forall₂ (fun x d => x < d.1 ∧ x % 4 = 0) o L

theorem mem_origins {n x : Nat} : x ∈ origins n ↔ x < n ∧ x % 4 = 0 := by
  unfold origins
  rw [List.mem_map]
  constructor
  · rintro ⟨t, ht, rfl⟩
    rw [List.mem_range] at ht
    omega
  · intro h
    exact ⟨x / 4, by rw [List.mem_range]; omega, by omega⟩

theorem mem_blockOrigins {L : List (Nat × Int)} {o : List Nat} : o ∈ blockOrigins L ↔ IsOrigin L o := by
  unfold blockOrigins IsOrigin
  rw [mem_choices, List.forall₂_map_right_iff]
  constructor <;> intro h <;> refine h.imp fun x d hx => ?_
  · exact mem_origins.1 hx
  · exact mem_origins.2 hx

theorem nodup_blockOrigins (L : List (Nat × Int)) : (blockOrigins L).Nodup := by
  unfold blockOrigins
  refine nodup_choices fun l hl => ?_
  obtain ⟨d, _, rfl⟩ := List.mem_map.1 hl
  exact List.nodup_range.map fun a b h => by simpa using h

/-- The loops end after the listed values for all sizes up to 2^32 - 4. -/
theorem loop4_origins {n : Nat} (hn : n ≤ 2 ^ 32 - 4) : ∀ fuel t, (n + 3) / 4 - t < fuel → 4 * t ≤ n + 3 →
    loop4 n fuel (4 * t) = some ((List.range ((n + 3) / 4 - t)).map fun i => 4 * (t + i))
  | 0, t, h, _ => absurd h (Nat.not_lt_zero _)
  | fuel + 1, t, h, ht => by
    rw [loop4]
    split
    · rename_i hlt
      rw [Nat.mod_eq_of_lt (by omega), show 4 * t + 4 = 4 * (t + 1) by omega, loop4_origins hn fuel (t + 1) (by omega) (by omega), Option.map_some,
        show (n + 3) / 4 - t = (n + 3) / 4 - (t + 1) + 1 by omega, List.range_succ_eq_map, List.map_cons, List.map_map]
      refine congrArg some (congrArg₂ _ (by omega) ?_)
      refine List.map_congr_left fun i _ => ?_
      simp only [Function.comp]
      omega
    · rw [show (n + 3) / 4 - t = 0 by omega]
      rfl

/-! ## Elements -/

theorem address_add : ∀ (L : List (Nat × Int)) (x y : List Nat), x.length = L.length → y.length = L.length → address L (List.zipWith (· + ·) x y) = address L x + address L y
  | [], [], [], _, _ => rfl
  | (n, s) :: L, a :: x, b :: y, hx, hy => by
    rw [List.zipWith_cons_cons, address, address, address, address_add L x y (by simpa using hx) (by simpa using hy)]
    push_cast
    ring

theorem isOrigin_length {L : List (Nat × Int)} {o : List Nat} (h : IsOrigin L o) : o.length = L.length := h.length_eq

theorem blockShape_length {L : List (Nat × Int)} {o : List Nat} (h : IsOrigin L o) : (blockShape L o).length = L.length := by
  induction h with
  | nil => rfl
  | cons _ _ ih => simp [blockShape, ih]

theorem blockShape_range {L : List (Nat × Int)} {o : List Nat} (h : IsOrigin L o) : ∀ d ∈ blockShape L o, 1 ≤ d.1 ∧ d.1 ≤ 4 := by
  induction h with
  | nil => simp [blockShape]
  | @cons x d o L hx _ ih =>
    obtain ⟨n, s⟩ := d
    intro e he
    rw [blockShape] at he
    dsimp only at hx
    rcases List.mem_cons.1 he with rfl | he
    · dsimp only; omega
    · exact ih e he

theorem blockShape_full {L : List (Nat × Int)} {o : List Nat} (h : IsOrigin L o) (hp : isPartial L o = false) : blockShape L o = (L.map (·.2)).map (4, ·) := by
  induction h with
  | nil => rfl
  | @cons x d o L hx _ ih =>
    obtain ⟨n, s⟩ := d
    rw [isPartial, Bool.or_eq_false_iff, decide_eq_false_iff_not] at hp
    rw [blockShape, ih hp.2, show min (n - x) 4 = 4 by omega]
    rfl

theorem address_blockShape {L : List (Nat × Int)} {o : List Nat} (h : IsOrigin L o) : ∀ c : List Nat, address (blockShape L o) c = address L c := by
  induction h with
  | nil => intro c; cases c <;> rfl
  | @cons x d o L hx _ ih =>
    obtain ⟨n, s⟩ := d
    intro c
    cases c with
    | nil => rfl
    | cons y c => rw [blockShape, address, address, ih]

theorem offsetOf_eq : ∀ (ss : List Int) (i : Nat), i < 4 ^ ss.length → offsetOf ss i = sourceOf (ss.map (4, ·)) i
  | [], _, _ => rfl
  | s :: ss, i, hi => by
    have hB : 0 < 4 ^ ss.length := Nat.pow_pos (by omega)
    rw [List.length_cons, Nat.pow_succ, Nat.mul_comm] at hi
    rw [List.map_cons, offsetOf, sourceOf, List.length_map, offsetOf_eq ss _ (Nat.mod_lt _ hB), source, if_pos ((Nat.div_lt_iff_lt_mul hB).2 hi)]

/-- Every position of a padded block holds an element of the array. -/
theorem source_in_box {L : List (Nat × Int)} {o : List Nat} (h : IsOrigin L o) : ∀ i, i < 4 ^ L.length →
    ∃ c, InBox L c ∧ address L o + sourceOf (blockShape L o) i = address L c := by
  induction h with
  | nil => intro i _; exact ⟨[], List.Forall₂.nil, by simp [address, blockShape, sourceOf]⟩
  | @cons x d o L hx ho ih =>
    obtain ⟨n, s⟩ := d
    dsimp only at hx
    intro i hi
    have hB : 0 < 4 ^ L.length := Nat.pow_pos (by omega)
    rw [List.length_cons, Nat.pow_succ, Nat.mul_comm] at hi
    have hc : i / 4 ^ L.length < 4 := (Nat.div_lt_iff_lt_mul hB).2 hi
    obtain ⟨c, hc1, hc2⟩ := ih (i % 4 ^ L.length) (Nat.mod_lt _ hB)
    refine ⟨(x + source (min (n - x) 4) (i / 4 ^ L.length)) :: c, List.Forall₂.cons ?_ hc1, ?_⟩
    · dsimp only
      have : source (min (n - x) 4) (i / 4 ^ L.length) < min (n - x) 4 := by unfold source; split_ifs <;> omega
      omega
    · rw [address, blockShape, sourceOf, blockShape_length ho, address, ← hc2]
      push_cast
      ring

/-- The position of an element in its block. -/
def posOf : List Nat → Nat
  | [] => 0
  | x :: c => x * 4 ^ c.length + posOf c

/-- The indices of a box, in the order of the loops. -/
def boxCoords (L : List (Nat × Int)) : List (List Nat) := choices (L.map fun d => List.range d.1)

theorem mem_boxCoords {L : List (Nat × Int)} {c : List Nat} : c ∈ boxCoords L ↔ InBox L c := by
  unfold boxCoords InBox
  rw [mem_choices, List.forall₂_map_right_iff]
  simp only [List.mem_range]

theorem cells_eq : ∀ L : List (Nat × Int), cells L = (boxCoords L).map fun c => (address L c, posOf c)
  | [] => rfl
  | (n, s) :: L => by
    rw [cells, boxCoords, List.map_cons, choices, List.map_flatMap, cells_eq L]
    congr 1
    funext i
    rw [List.map_map, List.map_map]
    refine List.map_congr_left fun c hc => ?_
    have := (mem_boxCoords.1 hc).length_eq
    simp only [Function.comp, address, posOf, this]

theorem posOf_lt {L : List (Nat × Int)} (hL : ∀ d ∈ L, d.1 ≤ 4) {c : List Nat} (h : InBox L c) : posOf c < 4 ^ L.length := by
  induction h with
  | nil => simp [posOf]
  | @cons x d c L hx hc ih =>
    have h1 := hL d (by simp)
    have h2 := ih fun d hd => hL d (by simp [hd])
    rw [posOf, List.length_cons, hc.length_eq, Nat.pow_succ]
    have := Nat.mul_le_mul_right (4 ^ L.length) (show x + 1 ≤ 4 by omega)
    rw [Nat.add_mul] at this
    omega

theorem sourceOf_pos {L : List (Nat × Int)} (hL : ∀ d ∈ L, d.1 ≤ 4) {c : List Nat} (h : InBox L c) : sourceOf L (posOf c) = address L c := by
  induction h with
  | nil => rfl
  | @cons x d c L hx hc ih =>
    obtain ⟨n, s⟩ := d
    have hB : 0 < 4 ^ L.length := Nat.pow_pos (by omega)
    have h2 := posOf_lt (fun d hd => hL d (by simp [hd])) hc
    rw [posOf, hc.length_eq, sourceOf, (div_of_block hB h2).1, (div_of_block hB h2).2, ih fun d hd => hL d (by simp [hd]), address, source, if_pos hx]

/-- The indices of all elements, in the order in which they are written. -/
def elements (L : List (Nat × Int)) : List (List Nat) := (blockOrigins L).flatMap fun o => (boxCoords (blockShape L o)).map (List.zipWith (· + ·) o)

/-- The origin of the block of an element. -/
def originOf (e : List Nat) : List Nat := e.map fun x => x / 4 * 4

theorem block_element {L : List (Nat × Int)} {o : List Nat} (h : IsOrigin L o) : ∀ {c : List Nat}, InBox (blockShape L o) c →
    InBox L (List.zipWith (· + ·) o c) ∧ originOf (List.zipWith (· + ·) o c) = o := by
  induction h with
  | nil => intro c _; cases c <;> exact ⟨List.Forall₂.nil, rfl⟩
  | @cons x d o L hx ho ih =>
    obtain ⟨n, s⟩ := d
    intro c hc
    rw [blockShape] at hc
    cases hc with
    | cons hy hc =>
      obtain ⟨h1, h2⟩ := ih hc
      dsimp only at hx hy
      refine ⟨List.Forall₂.cons (by dsimp only; omega) h1, ?_⟩
      rw [originOf, List.zipWith_cons_cons, List.map_cons, ← originOf, h2]
      congr 1
      omega

theorem element_block {L : List (Nat × Int)} {e : List Nat} (h : InBox L e) : IsOrigin L (originOf e) ∧
    ∃ c, InBox (blockShape L (originOf e)) c ∧ List.zipWith (· + ·) (originOf e) c = e := by
  induction h with
  | nil => exact ⟨List.Forall₂.nil, [], List.Forall₂.nil, rfl⟩
  | @cons x d e L hx _ ih =>
    obtain ⟨h1, c, h2, h3⟩ := ih
    obtain ⟨n, s⟩ := d
    dsimp only at hx
    refine ⟨List.Forall₂.cons (by dsimp only; omega) h1, (x % 4) :: c, ?_, ?_⟩
    · rw [originOf, List.map_cons, blockShape]
      exact List.Forall₂.cons (by dsimp only; omega) h2
    · rw [originOf, List.map_cons, List.zipWith_cons_cons, ← originOf, h3]
      congr 1
      omega

theorem mem_elements {L : List (Nat × Int)} {e : List Nat} : e ∈ elements L ↔ InBox L e := by
  unfold elements
  rw [List.mem_flatMap]
  constructor
  · rintro ⟨o, ho, he⟩
    obtain ⟨c, hc, rfl⟩ := List.mem_map.1 he
    exact (block_element (mem_blockOrigins.1 ho) (mem_boxCoords.1 hc)).1
  · intro h
    obtain ⟨h1, c, h2, h3⟩ := element_block h
    exact ⟨_, mem_blockOrigins.2 h1, List.mem_map.2 ⟨c, mem_boxCoords.2 h2, h3⟩⟩

theorem zipWith_inj : ∀ {o c c' : List Nat}, c.length = o.length → c'.length = o.length → List.zipWith (· + ·) o c = List.zipWith (· + ·) o c' → c = c'
  | [], [], [], _, _, _ => rfl
  | x :: o, y :: c, z :: c', h1, h2, h => by
    rw [List.zipWith_cons_cons, List.zipWith_cons_cons, List.cons.injEq] at h
    rw [zipWith_inj (by simpa using h1) (by simpa using h2) h.2, show y = z by omega]

theorem nodup_elements (L : List (Nat × Int)) : (elements L).Nodup := by
  unfold elements
  rw [List.nodup_flatMap]
  constructor
  · intro o ho
    have ho := mem_blockOrigins.1 ho
    have hlen : ∀ c ∈ boxCoords (blockShape L o), c.length = o.length := fun c hc => by
      rw [(mem_boxCoords.1 hc).length_eq, blockShape_length ho, isOrigin_length ho]
    refine List.Nodup.map_on (fun a ha b hb h => zipWith_inj (hlen a ha) (hlen b hb) h) ?_
    refine nodup_choices fun l hl => ?_
    obtain ⟨d, _, rfl⟩ := List.mem_map.1 hl
    exact List.nodup_range
  · refine (List.Nodup.pairwise_of_forall_ne (nodup_blockOrigins L) fun o ho o' ho' hne => ?_)
    rw [Function.onFun, List.disjoint_left]
    intro e h1 h2
    obtain ⟨c, hc, rfl⟩ := List.mem_map.1 h1
    obtain ⟨c', hc', h⟩ := List.mem_map.1 h2
    have e1 := (block_element (mem_blockOrigins.1 ho) (mem_boxCoords.1 hc)).2
    have e2 := (block_element (mem_blockOrigins.1 ho') (mem_boxCoords.1 hc')).2
    rw [h, e1] at e2
    exact hne e2

/-! ## Reading and writing a block -/

theorem readBlock_spec {L : List (Nat × Int)} {a : Int → Option α} (ha : ∀ c, InBox L c → (a (address L c)).isSome) (q : Nat → α) {o : List Nat} (h : IsOrigin L o) :
    ∃ v, readBlock a L q o = some v ∧ ∀ i < 4 ^ L.length, a (address L o + sourceOf (blockShape L o) i) = some (v i) := by
  have hsome : ∀ i, ∃ x, i < 4 ^ L.length → a (address L o + sourceOf (blockShape L o) i) = some x := by
    intro i
    by_cases hi : i < 4 ^ L.length
    · obtain ⟨c, hc, e⟩ := source_in_box h i hi
      obtain ⟨x, hx⟩ := Option.isSome_iff_exists.1 (ha c hc)
      exact ⟨x, fun _ => by rw [e, hx]⟩
    · exact ⟨q 0, fun h => absurd h hi⟩
  choose v hv using hsome
  have hl := blockShape_length h
  unfold readBlock
  cases hp : isPartial L o with
  | true =>
    rw [if_pos rfl]
    obtain ⟨q', e, h1, _⟩ := gatherPartial_spec a (blockShape L o) 0 q (address L o) v (blockShape_range h) (by rw [hl]; exact hv)
    rw [hl] at h1
    exact ⟨q', by rw [e]; rfl, fun i hi => by rw [hv i hi, ← h1 i hi, Nat.zero_add]⟩
  | false =>
    rw [if_neg (by simp)]
    have hf := blockShape_full h hp
    obtain ⟨q', e, h1, _⟩ := gather_spec a (L.map (·.2)) q 0 (address L o) v (by
      intro i hi
      rw [offsetOf_eq _ _ hi, ← hf]
      rw [List.length_map] at hi
      exact hv i hi)
    rw [List.length_map] at h1
    exact ⟨q', by rw [e]; rfl, fun i hi => by rw [hv i hi, ← h1 i hi, Nat.zero_add]⟩

theorem writeBlock_eq {L : List (Nat × Int)} (m : Int → Option α) {o : List Nat} (h : IsOrigin L o) (q : Nat → α) :
    writeBlock L m o q = stores ((boxCoords (blockShape L o)).map fun c => (address L (List.zipWith (· + ·) o c), q (posOf c))) m := by
  have key : (cells (blockShape L o)).map (fun c => (address L o + c.1, q (0 + c.2))) =
      (boxCoords (blockShape L o)).map fun c => (address L (List.zipWith (· + ·) o c), q (posOf c)) := by
    rw [cells_eq, List.map_map]
    refine List.map_congr_left fun c hc => ?_
    have hlen := (mem_boxCoords.1 hc).length_eq
    simp only [Function.comp]
    rw [address_add L o c (isOrigin_length h) (by rw [hlen, blockShape_length h]), address_blockShape h, Nat.zero_add]
  unfold writeBlock
  cases hp : isPartial L o with
  | true =>
    rw [if_pos rfl]
    obtain ⟨k', _, e⟩ := scatterPartial_eq q (blockShape L o) m 0 (address L o) fun d hd => (blockShape_range h d hd).2
    rw [e, key, Option.map_map]
    cases stores _ m <;> rfl
  | false =>
    rw [if_neg (by simp), scatter_eq, ← blockShape_full h hp, key, Option.map_map]
    cases stores _ m <;> rfl

end Verif.Zfp

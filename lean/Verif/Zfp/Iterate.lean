import Mathlib.Data.Fintype.Card
import Mathlib.Data.Fintype.Prod
import Mathlib.Data.Set.Function
import Mathlib.Logic.Function.Iterate
import Mathlib.Tactic.Ring
import Mathlib.Tactic.Linarith
import Verif.Zfp.CacheProps

/-! # C63: elements, iterators and pointers of the compressed arrays (zfp/array)

Indices are `uint`: numbers modulo 2^32. -/

namespace Verif.Zfp
open Verif

/-- `bx = (nx + 3) / 4` (zfparray1.h:75, zfparray2.h:86-87, zfparray3.h:88-90). -/
def blocksOf (n : Nat) : Nat := (n + 3) % 2 ^ 32 / 4

/-- `block(i, j)` (zfparray2.h:288). -/
def block2 (bx i j : Nat) : Nat := (i / 4 + bx * (j / 4)) % 2 ^ 32
/-- `CacheLine::index(i, j)` (zfparray2.h:207); `& 3u` is the remainder modulo 4. -/
def offset2 (i j : Nat) : Nat := (i &&& 3) + 4 * (j &&& 3)
/-- `block(i, j, k)` (zfparray3.h:300). -/
def block3 (bx byy i j k : Nat) : Nat := (i / 4 + bx * ((j / 4 + byy * (k / 4)) % 2 ^ 32)) % 2 ^ 32
/-- `CacheLine::index(i, j, k)` (zfparray3.h:219). -/
def offset3 (i j k : Nat) : Nat := (i &&& 3) + 4 * ((j &&& 3) + 4 * (k &&& 3))
/-- `block(i)` and `CacheLine::index(i)` (zfparray1.h:269, 188). -/
def block1 (i : Nat) : Nat := i / 4
@[inherit_doc block1] def offset1 (i : Nat) : Nat := i &&& 3

/-- `iterator::increment` (iterator2.h:26-41); `x & ~3u` is `x / 4 * 4`. -/
def next2 (nx ny : Nat) (p : Nat × Nat) : Nat × Nat :=
  let i := (p.1 + 1) % 2 ^ 32
  if i &&& 3 = 0 ∨ i = nx then
    let i := (i + 2 ^ 32 - 1) % 2 ^ 32 / 4 * 4
    let j := (p.2 + 1) % 2 ^ 32
    if j &&& 3 = 0 ∨ j = ny then
      let j := (j + 2 ^ 32 - 1) % 2 ^ 32 / 4 * 4
      let i := (i + 4) % 2 ^ 32
      if nx ≤ i then
        let j := (j + 4) % 2 ^ 32
        (0, if ny ≤ j then ny else j)
      else (i, j)
    else (i, j)
  else (i, p.2)

/-- `iterator::increment` (iterator3.h:28-51). -/
def next3 (nx ny nz : Nat) (p : Nat × Nat × Nat) : Nat × Nat × Nat :=
  let i := (p.1 + 1) % 2 ^ 32
  if i &&& 3 = 0 ∨ i = nx then
    let i := (i + 2 ^ 32 - 1) % 2 ^ 32 / 4 * 4
    let j := (p.2.1 + 1) % 2 ^ 32
    if j &&& 3 = 0 ∨ j = ny then
      let j := (j + 2 ^ 32 - 1) % 2 ^ 32 / 4 * 4
      let k := (p.2.2 + 1) % 2 ^ 32
      if k &&& 3 = 0 ∨ k = nz then
        let k := (k + 2 ^ 32 - 1) % 2 ^ 32 / 4 * 4
        let i := (i + 4) % 2 ^ 32
        if nx ≤ i then
          let j := (j + 4) % 2 ^ 32
          if ny ≤ j then
            let k := (k + 4) % 2 ^ 32
            (0, 0, if nz ≤ k then nz else k)
          else (0, j, k)
        else (i, j, k)
      else (i, j, k)
    else (i, j, p.2.2)
  else (i, p.2)

/-! ## Elements -/

private theorem and3 (n : Nat) : n &&& 3 = n % 4 := Nat.and_two_pow_sub_one_eq_mod n 2

private theorem blocksOf_eq {n : Nat} (h : n ≤ 2 ^ 32 - 4) : blocksOf n = (n + 3) / 4 := by
  unfold blocksOf; rw [Nat.mod_eq_of_lt (by omega)]

private theorem row_lt {I J B C : Nat} (hI : I < B) (hJ : J < C) : I + B * J < B * C := by
  calc I + B * J < B + B * J := by omega
    _ = B * (J + 1) := by ring
    _ ≤ B * C := Nat.mul_le_mul_left _ hJ

private theorem row_inj {I J I' J' B : Nat} (hI : I < B) (hI' : I' < B) (h : I + B * J = I' + B * J') : I = I' ∧ J = J' := by
  have h1 : (I + B * J) % B = I := by rw [Nat.add_mul_mod_self_left, Nat.mod_eq_of_lt hI]
  have h2 : (I' + B * J') % B = I' := by rw [Nat.add_mul_mod_self_left, Nat.mod_eq_of_lt hI']
  have h3 : (I + B * J) / B = J := by rw [Nat.add_mul_div_left _ _ (by omega), Nat.div_eq_of_lt hI, Nat.zero_add]
  have h4 : (I' + B * J') / B = J' := by rw [Nat.add_mul_div_left _ _ (by omega), Nat.div_eq_of_lt hI', Nat.zero_add]
  rw [h] at h1 h3
  exact ⟨h1.symm.trans h2, h3.symm.trans h4⟩

/-- **C63.** In one dimension every element has its own place: a block of the array and one of its 4 values. -/
theorem elements1 {nx : Nat} (hx : nx ≤ 2 ^ 32 - 4) {i i' : Nat} (hi : i < nx) :
    block1 i < blocksOf nx ∧ offset1 i < 4 ∧ (block1 i = block1 i' → offset1 i = offset1 i' → i = i') := by
  rw [blocksOf_eq hx]; unfold block1 offset1; rw [and3, and3]; omega

/-- **C63.** In two dimensions every element has its own place: a block of the array and one of its 16 values. -/
theorem elements2 {nx ny : Nat} (hx : nx ≤ 2 ^ 32 - 4) (hy : ny ≤ 2 ^ 32 - 4) (hb : blocksOf nx * blocksOf ny ≤ 2 ^ 32) {i j i' j' : Nat} (hi : i < nx) (hj : j < ny) (hi' : i' < nx)
    (hj' : j' < ny) :
    block2 (blocksOf nx) i j < blocksOf nx * blocksOf ny ∧ offset2 i j < 16 ∧
    (block2 (blocksOf nx) i j = block2 (blocksOf nx) i' j' → offset2 i j = offset2 i' j' → i = i' ∧ j = j') := by
  have ex := blocksOf_eq hx
  have ey := blocksOf_eq hy
  have h1 : i / 4 < blocksOf nx := by omega
  have h2 : j / 4 < blocksOf ny := by omega
  have h3 : i' / 4 < blocksOf nx := by omega
  have h4 : j' / 4 < blocksOf ny := by omega
  have r1 := row_lt h1 h2
  have r2 := row_lt h3 h4
  unfold block2 offset2
  rw [Nat.mod_eq_of_lt (by omega), Nat.mod_eq_of_lt (by omega)]
  simp only [and3]
  refine ⟨r1, by omega, fun e1 e2 => ?_⟩
  have := row_inj h1 h3 e1
  omega

/-- **C63.** In three dimensions every element has its own place: a block of the array and one of its 64 values. -/
theorem elements3 {nx ny nz : Nat} (hx : nx ≤ 2 ^ 32 - 4) (hy : ny ≤ 2 ^ 32 - 4) (hz : nz ≤ 2 ^ 32 - 4) (hb : blocksOf nx * (blocksOf ny * blocksOf nz) ≤ 2 ^ 32) {i j k i' j' k' : Nat}
    (hi : i < nx) (hj : j < ny) (hk : k < nz) (hi' : i' < nx) (hj' : j' < ny) (hk' : k' < nz) :
    block3 (blocksOf nx) (blocksOf ny) i j k < blocksOf nx * (blocksOf ny * blocksOf nz) ∧ offset3 i j k < 64 ∧
    (block3 (blocksOf nx) (blocksOf ny) i j k = block3 (blocksOf nx) (blocksOf ny) i' j' k' → offset3 i j k = offset3 i' j' k' → i = i' ∧ j = j' ∧ k = k') := by
  have ex := blocksOf_eq hx
  have ey := blocksOf_eq hy
  have ez := blocksOf_eq hz
  have h1 : i / 4 < blocksOf nx := by omega
  have h2 : j / 4 < blocksOf ny := by omega
  have h3 : k / 4 < blocksOf nz := by omega
  have h4 : i' / 4 < blocksOf nx := by omega
  have h5 : j' / 4 < blocksOf ny := by omega
  have h6 : k' / 4 < blocksOf nz := by omega
  have s1 := row_lt h2 h3
  have s2 := row_lt h5 h6
  have r1 := row_lt h1 s1
  have r2 := row_lt h4 s2
  have hle : blocksOf ny * blocksOf nz ≤ 2 ^ 32 := le_trans (Nat.le_mul_of_pos_left _ (by omega)) hb
  unfold block3 offset3
  rw [Nat.mod_eq_of_lt (show j / 4 + blocksOf ny * (k / 4) < 2 ^ 32 by omega), Nat.mod_eq_of_lt (show j' / 4 + blocksOf ny * (k' / 4) < 2 ^ 32 by omega),
    Nat.mod_eq_of_lt (show i / 4 + blocksOf nx * (j / 4 + blocksOf ny * (k / 4)) < 2 ^ 32 by omega),
    Nat.mod_eq_of_lt (show i' / 4 + blocksOf nx * (j' / 4 + blocksOf ny * (k' / 4)) < 2 ^ 32 by omega)]
  simp only [and3]
  refine ⟨r1, by omega, fun e1 e2 => ?_⟩
  obtain ⟨e3, e4⟩ := row_inj h1 h4 e1
  obtain ⟨e5, e6⟩ := row_inj h2 h5 e4
  omega

/-- Non-vacuity: a 10 by 7 array has 3 by 2 blocks; element (9, 6) is value 9 of block 5. -/
example : blocksOf 10 * blocksOf 7 = 6 ∧ block2 (blocksOf 10) 9 6 = 5 ∧ offset2 9 6 = 9 := by decide

/-! ## Reading and writing elements -/

/-- Element accesses: reading, and writing (`set`, `add`, …) by a function of the old value (zfparray2.h:221-238). -/
inductive EOp (K α : Type)
  | get (k : K)
  | upd (k : K) (f : α → α)

/-- The access to the line that an element access makes, given the block and the offset of the elements. -/
def EOp.toOp {K α : Type} (blk off : K → Nat) : EOp K α → Op (Nat → α)
  | .get k => .get (blk k)
  | .upd k f => .upd (blk k) fun l => Function.update l (off k) (f (l (off k)))

/-- The value an element access returns, given the line. -/
def EOp.value {K α : Type} (off : K → Nat) : EOp K α → Option (Nat → α) → Option α
  | .get k, some l => some (l (off k))
  | _, _ => none

/-- The values returned by an ordinary array. -/
def plainElems {K α : Type} [DecidableEq K] : (K → α) → List (EOp K α) → List (Option α)
  | _, [] => []
  | c, .get k :: os => some (c k) :: plainElems c os
  | c, .upd k f :: os => none :: plainElems (Function.update c k (f (c k))) os

private theorem plain_elems {K α : Type} [DecidableEq K] {blk off : K → Nat} (hinj : ∀ k k', blk k = blk k' → off k = off k' → k = k') :
    ∀ (os : List (EOp K α)) (c : Nat → Nat → α) (e : K → α), (∀ k, c (blk k) (off k) = e k) →
      List.zipWith (EOp.value off) os (plainRun c (os.map (EOp.toOp blk off))) = plainElems e os := by
  intro os
  induction os with
  | nil => intro c e _; rfl
  | cons o os ih =>
    intro c e h
    cases o with
    | get k =>
      rw [List.map_cons, EOp.toOp, plainRun, List.zipWith_cons_cons, plainElems, ih c e h, EOp.value, h]
    | upd k f =>
      rw [List.map_cons, EOp.toOp, plainRun, List.zipWith_cons_cons, plainElems]
      refine congrArg₂ _ rfl (ih _ _ fun k' => ?_)
      by_cases hk : k' = k
      · subst hk; rw [Function.update_self, Function.update_self, Function.update_self, h]
      · rw [Function.update_of_ne hk]
        by_cases hb : blk k' = blk k
        · rw [hb, Function.update_self, Function.update_of_ne, ← hb, h]
          exact fun ho => hk (hinj _ _ hb ho)
        · rw [Function.update_of_ne hb, h]

/-- **C63.** With a compressor that loses nothing, reading and writing the elements of a two-dimensional compressed array, in any order and for every cache size, is reading and
writing an ordinary two-dimensional array. -/
theorem array2_elements {α S : Type} {A : Assoc} {C : Store (Nat → α) S} {nx ny : Nat} (hx : nx ≤ 2 ^ 32 - 4) (hy : ny ≤ 2 ^ 32 - 4) (hb : blocksOf nx * blocksOf ny < 2 ^ 31)
    {Ok : S → Prop} (hC : C.Laws (blocksOf nx * blocksOf ny) Ok (fun _ => True) (· = ·)) {s : S} (hs : Ok s) {e : Fin nx × Fin ny → α}
    {c : Nat → Nat → α} (hdec : ∀ b < blocksOf nx * blocksOf ny, C.dec b s = some (c b)) (hc : ∀ i j, c (block2 (blocksOf nx) i.val j.val) (offset2 i.val j.val) = e (i, j))
    {k : Nat} (hk : k ≤ 2 ^ 31) (fresh : Nat → Nat → α) (os : List (EOp (Fin nx × Fin ny) α)) :
    ∃ a' rs, Arr.run A C ⟨⟨maskFor k, fun _ => 0, fresh⟩, s⟩ (os.map (EOp.toOp (fun p => block2 (blocksOf nx) p.1.val p.2.val) (fun p => offset2 p.1.val p.2.val))) = some (a', rs) ∧
      List.zipWith (EOp.value fun p => offset2 p.1.val p.2.val) os rs = plainElems e os := by
  obtain ⟨a', h⟩ := cache_transparent (A := A) hC hb hs hdec hk fresh (os.map (EOp.toOp (fun p => block2 (blocksOf nx) p.1.val p.2.val) (fun p => offset2 p.1.val p.2.val)))
    (by
      intro o ho
      obtain ⟨q, _, rfl⟩ := List.mem_map.1 ho
      cases q with
      | get p => exact (elements2 hx hy (by omega) p.1.2 p.2.2 p.1.2 p.2.2).1
      | upd p f => exact ⟨(elements2 hx hy (by omega) p.1.2 p.2.2 p.1.2 p.2.2).1, fun _ _ => trivial⟩)
    (by
      intro o ho
      obtain ⟨q, _, rfl⟩ := List.mem_map.1 ho
      cases q <;> exact fun h => nomatch h)
  refine ⟨a', _, h, plain_elems (fun p q h1 h2 => ?_) os c e fun p => hc p.1 p.2⟩
  have := (elements2 hx hy (by omega) p.1.2 p.2.2 q.1.2 q.2.2).2.2 h1 h2
  exact Prod.ext (Fin.ext this.1) (Fin.ext this.2)

/-- **C63.** The same in three dimensions. -/
theorem array3_elements {α S : Type} {A : Assoc} {C : Store (Nat → α) S} {nx ny nz : Nat} (hx : nx ≤ 2 ^ 32 - 4) (hy : ny ≤ 2 ^ 32 - 4) (hz : nz ≤ 2 ^ 32 - 4)
    (hb : blocksOf nx * (blocksOf ny * blocksOf nz) < 2 ^ 31)
    {Ok : S → Prop} (hC : C.Laws (blocksOf nx * (blocksOf ny * blocksOf nz)) Ok (fun _ => True) (· = ·)) {s : S} (hs : Ok s) {e : Fin nx × Fin ny × Fin nz → α}
    {c : Nat → Nat → α} (hdec : ∀ b < blocksOf nx * (blocksOf ny * blocksOf nz), C.dec b s = some (c b))
    (hc : ∀ i j k, c (block3 (blocksOf nx) (blocksOf ny) i.val j.val k.val) (offset3 i.val j.val k.val) = e (i, j, k))
    {k : Nat} (hk : k ≤ 2 ^ 31) (fresh : Nat → Nat → α) (os : List (EOp (Fin nx × Fin ny × Fin nz) α)) :
    ∃ a' rs, Arr.run A C ⟨⟨maskFor k, fun _ => 0, fresh⟩, s⟩
        (os.map (EOp.toOp (fun p => block3 (blocksOf nx) (blocksOf ny) p.1.val p.2.1.val p.2.2.val) (fun p => offset3 p.1.val p.2.1.val p.2.2.val))) = some (a', rs) ∧
      List.zipWith (EOp.value fun p => offset3 p.1.val p.2.1.val p.2.2.val) os rs = plainElems e os := by
  obtain ⟨a', h⟩ := cache_transparent (A := A) hC hb hs hdec hk fresh
    (os.map (EOp.toOp (fun p => block3 (blocksOf nx) (blocksOf ny) p.1.val p.2.1.val p.2.2.val) (fun p => offset3 p.1.val p.2.1.val p.2.2.val)))
    (by
      intro o ho
      obtain ⟨q, _, rfl⟩ := List.mem_map.1 ho
      cases q with
      | get p => exact (elements3 hx hy hz (by omega) p.1.2 p.2.1.2 p.2.2.2 p.1.2 p.2.1.2 p.2.2.2).1
      | upd p f => exact ⟨(elements3 hx hy hz (by omega) p.1.2 p.2.1.2 p.2.2.2 p.1.2 p.2.1.2 p.2.2.2).1, fun _ _ => trivial⟩)
    (by
      intro o ho
      obtain ⟨q, _, rfl⟩ := List.mem_map.1 ho
      cases q <;> exact fun h => nomatch h)
  refine ⟨a', _, h, plain_elems (fun p q h1 h2 => ?_) os c e fun p => hc p.1 p.2.1 p.2.2⟩
  have := (elements3 hx hy hz (by omega) p.1.2 p.2.1.2 p.2.2.2 q.1.2 q.2.1.2 q.2.2.2).2.2 h1 h2
  exact Prod.ext (Fin.ext this.1) (Prod.ext (Fin.ext this.2.1) (Fin.ext this.2.2))

/-- A compressor of lines that loses nothing. -/
def exactLines : Store (Nat → Int) (Nat → Nat → Int) := ⟨fun b l s => some (Function.update s b l), fun b s => some (s b)⟩

/-- Non-vacuity of `array2_elements`: a 10 by 7 array of zeros with this compressor. -/
example (os : List (EOp (Fin 10 × Fin 7) Int)) : ∃ a' rs, Arr.run .twoway exactLines ⟨⟨maskFor 2, fun _ => 0, fun _ _ => 1⟩, fun _ _ => 0⟩
    (os.map (EOp.toOp (fun p => block2 3 p.1.val p.2.val) (fun p => offset2 p.1.val p.2.val))) = some (a', rs) ∧
      List.zipWith (EOp.value fun p => offset2 p.1.val p.2.val) os rs = plainElems (fun _ => 0) os :=
  array2_elements (C := exactLines) (nx := 10) (ny := 7) (Ok := fun _ => True) (by decide) (by decide) (by decide)
    ⟨fun s b _ _ => ⟨s b, rfl, trivial⟩,
     fun s b l _ _ _ => ⟨Function.update s b l, l, rfl, trivial, congrArg some (Function.update_self ..), rfl, fun _ _ h => congrArg some (Function.update_of_ne h ..)⟩⟩
    trivial (c := fun _ _ => 0) (fun _ _ => rfl) (fun _ _ => rfl) (by decide) _ os

/-! ## Iterators -/

/-- The number of elements of the array in the block of coordinate `i`, along that coordinate. -/
private def ext (n i : Nat) : Nat := min 4 (n - i / 4 * 4)

private def rank2 (nx ny : Nat) (p : Nat × Nat) : Nat := nx * (p.2 / 4 * 4) + ext ny p.2 * (p.1 / 4 * 4) + p.2 % 4 * ext nx p.1 + p.1 % 4

private theorem coord {n i : Nat} (hn : n ≤ 2 ^ 32 - 4) (hi : i < n) :
    (¬ ((i + 1) % 2 ^ 32 % 4 = 0 ∨ (i + 1) % 2 ^ 32 = n) → (i + 1) % 2 ^ 32 = i + 1 ∧ i + 1 < n ∧ (i + 1) / 4 = i / 4 ∧ (i + 1) % 4 = i % 4 + 1 ∧ ext n (i + 1) = ext n i) ∧
    (((i + 1) % 2 ^ 32 % 4 = 0 ∨ (i + 1) % 2 ^ 32 = n) → ((i + 1) % 2 ^ 32 + 2 ^ 32 - 1) % 2 ^ 32 / 4 * 4 = i / 4 * 4 ∧ i % 4 + 1 = ext n i ∧
      (i / 4 * 4 + 4) % 2 ^ 32 = i / 4 * 4 + 4 ∧ (n ≤ i / 4 * 4 + 4 → i / 4 * 4 + ext n i = n) ∧ (¬ n ≤ i / 4 * 4 + 4 → ext n i = 4)) ∧
    i / 4 * 4 / 4 = i / 4 ∧ i / 4 * 4 % 4 = 0 ∧ ext n (i / 4 * 4) = ext n i ∧ (i / 4 * 4 + 4) / 4 = i / 4 + 1 ∧ (i / 4 * 4 + 4) % 4 = 0 ∧ i / 4 * 4 + i % 4 = i ∧ i % 4 < ext n i ∧
    i / 4 * 4 + ext n i ≤ n := by
  unfold ext
  omega

private theorem next2_spec {nx ny : Nat} (hx : nx ≤ 2 ^ 32 - 4) (hy : ny ≤ 2 ^ 32 - 4) {p : Nat × Nat} (hi : p.1 < nx) (hj : p.2 < ny) :
    ((next2 nx ny p).1 < nx ∧ (next2 nx ny p).2 < ny ∧ rank2 nx ny (next2 nx ny p) = rank2 nx ny p + 1) ∨ (next2 nx ny p = (0, ny) ∧ rank2 nx ny p + 1 = nx * ny) := by
  obtain ⟨i, j⟩ := p
  dsimp only at hi hj
  obtain ⟨a1, a2, a3, a4, a5, a6, a7, a8, a9, a10⟩ := coord hx hi
  obtain ⟨b1, b2, b3, b4, b5, b6, b7, b8, b9, b10⟩ := coord hy hj
  unfold next2
  simp only [and3]
  by_cases h1 : (i + 1) % 2 ^ 32 % 4 = 0 ∨ (i + 1) % 2 ^ 32 = nx
  · obtain ⟨c1, c2, c3, c4, c5⟩ := a2 h1
    rw [if_pos h1, c1]
    by_cases h2 : (j + 1) % 2 ^ 32 % 4 = 0 ∨ (j + 1) % 2 ^ 32 = ny
    · obtain ⟨d1, d2, d3, d4, d5⟩ := b2 h2
      rw [if_pos h2, d1, c3]
      by_cases h3 : nx ≤ i / 4 * 4 + 4
      · rw [if_pos h3, d3]
        have e1 := c4 h3
        by_cases h4 : ny ≤ j / 4 * 4 + 4
        · rw [if_pos h4]
          right
          refine ⟨rfl, ?_⟩
          unfold rank2
          dsimp only
          have e2 := d4 h4
          generalize i % 4 = x at *
          generalize i / 4 * 4 = I at *
          generalize j / 4 * 4 = J at *
          generalize j % 4 = y at *
          rw [← c2, ← d2, ← e1, ← e2, ← c2, ← d2]
          ring
        · rw [if_neg h4]
          left
          refine ⟨by dsimp only; omega, by dsimp only; omega, ?_⟩
          unfold rank2
          dsimp only
          rw [b6, b7, d5 h4]
          have e2 := d5 h4
          rw [e2] at d2
          generalize i / 4 * 4 = I at e1 ⊢
          generalize ext nx i = w at c2 e1 ⊢
          rw [show j % 4 = 3 from by omega, ← e1, ← c2]
          simp
          ring
      · rw [if_neg h3]
        left
        refine ⟨by dsimp only; omega, by dsimp only; omega, ?_⟩
        unfold rank2
        dsimp only
        rw [a6, a7, b3, b4, b5, c5 h3, ← d2, show i % 4 = 3 from by have := c5 h3; omega]
        ring
    · obtain ⟨d1, d2, d3, d4, d5⟩ := b1 h2
      rw [if_neg h2, d1]
      left
      refine ⟨by dsimp only; omega, by dsimp only; omega, ?_⟩
      unfold rank2
      dsimp only
      rw [a3, a4, a5, d3, d4, d5, ← c2]
      ring
  · obtain ⟨c1, c2, c3, c4, c5⟩ := a1 h1
    rw [if_neg h1, c1]
    left
    refine ⟨c2, hj, ?_⟩
    unfold rank2
    dsimp only
    rw [c3, c4, c5]
    ring

private theorem rank2_lt {nx ny : Nat} (hx : nx ≤ 2 ^ 32 - 4) (hy : ny ≤ 2 ^ 32 - 4) {p : Nat × Nat} (hi : p.1 < nx) (hj : p.2 < ny) : rank2 nx ny p < nx * ny := by
  obtain ⟨i, j⟩ := p
  dsimp only at hi hj
  obtain ⟨_, _, _, _, _, _, _, _, a9, a10⟩ := coord hx hi
  obtain ⟨_, _, _, _, _, _, _, _, b9, b10⟩ := coord hy hj
  unfold rank2
  dsimp only
  generalize i % 4 = x at *
  generalize i / 4 * 4 = I at *
  generalize j / 4 * 4 = J at *
  generalize j % 4 = y at *
  generalize ext nx i = w at *
  generalize ext ny j = h at *
  calc nx * J + h * I + y * w + x < nx * J + h * I + y * w + w := by omega
    _ = nx * J + (h * I + (y + 1) * w) := by ring
    _ ≤ nx * J + (h * I + h * w) := by have : (y + 1) * w ≤ h * w := Nat.mul_le_mul_right w b9; omega
    _ = nx * J + (I + w) * h := by ring
    _ ≤ nx * J + nx * h := by have := Nat.mul_le_mul_right h a10; omega
    _ = nx * (J + h) := by ring
    _ ≤ nx * ny := Nat.mul_le_mul_left _ b10

/-- **C63.** The iterator of a two-dimensional array: from `begin()` it visits elements of the array only, every element exactly once, and after `nx * ny` steps it is at `end()`,
not before. -/
theorem iterator2 {nx ny : Nat} (hx : nx ≤ 2 ^ 32 - 4) (hy : ny ≤ 2 ^ 32 - 4) (h0 : 0 < nx) (h1 : 0 < ny) :
    (∀ k < nx * ny, ((next2 nx ny)^[k] (0, 0)).1 < nx ∧ ((next2 nx ny)^[k] (0, 0)).2 < ny) ∧ (next2 nx ny)^[nx * ny] (0, 0) = (0, ny) ∧
    ∀ i < nx, ∀ j < ny, ∃! k, k < nx * ny ∧ (next2 nx ny)^[k] (0, 0) = (i, j) := by
  have key : ∀ k ≤ nx * ny, (((next2 nx ny)^[k] (0, 0)).1 < nx ∧ ((next2 nx ny)^[k] (0, 0)).2 < ny ∧ rank2 nx ny ((next2 nx ny)^[k] (0, 0)) = k) ∨
      ((next2 nx ny)^[k] (0, 0) = (0, ny) ∧ k = nx * ny) := by
    intro k
    induction k with
    | zero => intro _; left; exact ⟨h0, h1, by simp [rank2]⟩
    | succ k ih =>
      intro hk
      rw [Function.iterate_succ_apply']
      rcases ih (by omega) with ⟨g1, g2, g3⟩ | ⟨_, g⟩
      · rcases next2_spec hx hy g1 g2 with ⟨f1, f2, f3⟩ | ⟨f1, f2⟩
        · left; exact ⟨f1, f2, by rw [f3, g3]⟩
        · right; exact ⟨f1, by rw [← f2, g3]⟩
      · omega
  have hval : ∀ k < nx * ny, ((next2 nx ny)^[k] (0, 0)).1 < nx ∧ ((next2 nx ny)^[k] (0, 0)).2 < ny ∧ rank2 nx ny ((next2 nx ny)^[k] (0, 0)) = k := by
    intro k hk
    rcases key k (by omega) with h | ⟨_, h⟩
    · exact h
    · omega
  refine ⟨fun k hk => ⟨(hval k hk).1, (hval k hk).2.1⟩, ?_, ?_⟩
  · rcases key (nx * ny) (le_refl _) with ⟨g1, g2, g3⟩ | ⟨h, _⟩
    · have := rank2_lt hx hy g1 g2
      omega
    · exact h
  · let f : Fin (nx * ny) → Fin nx × Fin ny := fun k => (⟨_, (hval k.1 k.2).1⟩, ⟨_, (hval k.1 k.2).2.1⟩)
    have hf : Function.Injective f := by
      intro a b h
      have e : (next2 nx ny)^[a.1] (0, 0) = (next2 nx ny)^[b.1] (0, 0) :=
        Prod.ext (by have := congrArg (fun q => q.1.val) h; exact this) (by have := congrArg (fun q => q.2.val) h; exact this)
      have e1 := (hval a.1 a.2).2.2
      have e2 := (hval b.1 b.2).2.2
      rw [e] at e1
      exact Fin.ext (e1.symm.trans e2)
    have hb := (Fintype.bijective_iff_injective_and_card f).2 ⟨hf, by simp⟩
    intro i hi j hj
    obtain ⟨k, hk⟩ := hb.2 (⟨i, hi⟩, ⟨j, hj⟩)
    have ek : (next2 nx ny)^[k.1] (0, 0) = (i, j) :=
      Prod.ext (by have := congrArg (fun q => q.1.val) hk; exact this) (by have := congrArg (fun q => q.2.val) hk; exact this)
    refine ⟨k.1, ⟨k.2, ek⟩, fun k' hk' => ?_⟩
    have e1 := (hval k' hk'.1).2.2
    have e2 := (hval k.1 k.2).2.2
    rw [hk'.2] at e1
    rw [ek] at e2
    exact e1.symm.trans e2

/-- Non-vacuity: in a 6 by 3 array the first block is 4 by 3. -/
example : (List.range 13).map (fun k => (next2 6 3)^[k] (0, 0)) =
    [(0, 0), (1, 0), (2, 0), (3, 0), (0, 1), (1, 1), (2, 1), (3, 1), (0, 2), (1, 2), (2, 2), (3, 2), (4, 0)] := by decide

private def rank3 (nx ny nz : Nat) (p : Nat × Nat × Nat) : Nat :=
  nx * ny * (p.2.2 / 4 * 4) + ext nz p.2.2 * (nx * (p.2.1 / 4 * 4)) + ext nz p.2.2 * ext ny p.2.1 * (p.1 / 4 * 4) + (p.2.2 % 4 * ext ny p.2.1 + p.2.1 % 4) * ext nx p.1 + p.1 % 4

private theorem next3_spec {nx ny nz : Nat} (hx : nx ≤ 2 ^ 32 - 4) (hy : ny ≤ 2 ^ 32 - 4) (hz : nz ≤ 2 ^ 32 - 4) {p : Nat × Nat × Nat} (hi : p.1 < nx) (hj : p.2.1 < ny) (hk : p.2.2 < nz) :
    ((next3 nx ny nz p).1 < nx ∧ (next3 nx ny nz p).2.1 < ny ∧ (next3 nx ny nz p).2.2 < nz ∧ rank3 nx ny nz (next3 nx ny nz p) = rank3 nx ny nz p + 1) ∨
    (next3 nx ny nz p = (0, 0, nz) ∧ rank3 nx ny nz p + 1 = nx * ny * nz) := by
  obtain ⟨i, j, k⟩ := p
  dsimp only at hi hj hk
  obtain ⟨a1, a2, a3, a4, a5, a6, a7, a8, a9, a10⟩ := coord hx hi
  obtain ⟨b1, b2, b3, b4, b5, b6, b7, b8, b9, b10⟩ := coord hy hj
  obtain ⟨g1, g2, g3, g4, g5, g6, g7, g8, g9, g10⟩ := coord hz hk
  unfold next3
  simp only [and3]
  by_cases h1 : (i + 1) % 2 ^ 32 % 4 = 0 ∨ (i + 1) % 2 ^ 32 = nx
  · obtain ⟨c1, c2, c3, c4, c5⟩ := a2 h1
    rw [if_pos h1, c1]
    by_cases h2 : (j + 1) % 2 ^ 32 % 4 = 0 ∨ (j + 1) % 2 ^ 32 = ny
    · obtain ⟨d1, d2, d3, d4, d5⟩ := b2 h2
      rw [if_pos h2, d1]
      by_cases h3 : (k + 1) % 2 ^ 32 % 4 = 0 ∨ (k + 1) % 2 ^ 32 = nz
      · obtain ⟨e1, e2, e3, e4, e5⟩ := g2 h3
        rw [if_pos h3, e1, c3]
        by_cases h4 : nx ≤ i / 4 * 4 + 4
        · rw [if_pos h4, d3]
          have f1 := c4 h4
          by_cases h5 : ny ≤ j / 4 * 4 + 4
          · rw [if_pos h5, e3]
            have f2 := d4 h5
            by_cases h6 : nz ≤ k / 4 * 4 + 4
            · rw [if_pos h6]
              right
              refine ⟨rfl, ?_⟩
              have f3 := e4 h6
              unfold rank3
              dsimp only
              generalize i % 4 = x at *
              generalize i / 4 * 4 = I at *
              generalize j / 4 * 4 = J at *
              generalize j % 4 = y at *
              generalize k / 4 * 4 = K at *
              generalize k % 4 = z at *
              rw [← c2, ← d2, ← e2, ← f1, ← f2, ← f3, ← c2, ← d2, ← e2]
              ring
            · rw [if_neg h6]
              left
              refine ⟨by dsimp only; omega, by dsimp only; omega, by dsimp only; omega, ?_⟩
              unfold rank3
              dsimp only
              have f3 := e5 h6
              rw [g6, g7, f3, show k % 4 = 3 from by omega]
              generalize i / 4 * 4 = I at f1 ⊢
              generalize j / 4 * 4 = J at f2 ⊢
              generalize ext nx i = w at c2 f1 ⊢
              generalize ext ny j = h at d2 f2 ⊢
              rw [← f1, ← f2, ← c2, ← d2]
              simp
              ring
          · rw [if_neg h5]
            left
            refine ⟨by dsimp only; omega, by dsimp only; omega, by dsimp only; omega, ?_⟩
            unfold rank3
            dsimp only
            have f2 := d5 h5
            rw [b6, b7, g3, g4, g5, f2, show j % 4 = 3 from by omega]
            generalize i / 4 * 4 = I at f1 ⊢
            generalize ext nx i = w at c2 f1 ⊢
            rw [← e2, ← f1, ← c2]
            simp
            ring
        · rw [if_neg h4]
          left
          refine ⟨by dsimp only; omega, by dsimp only; omega, by dsimp only; omega, ?_⟩
          unfold rank3
          dsimp only
          have f1 := c5 h4
          rw [a6, a7, b3, b4, b5, g3, g4, g5, f1, show i % 4 = 3 from by omega, ← d2, ← e2]
          ring
      · obtain ⟨e1, e2, e3, e4, e5⟩ := g1 h3
        rw [if_neg h3, e1]
        left
        refine ⟨by dsimp only; omega, by dsimp only; omega, by dsimp only; omega, ?_⟩
        unfold rank3
        dsimp only
        rw [a3, a4, a5, b3, b4, b5, e3, e4, e5, ← c2, ← d2]
        ring
    · obtain ⟨d1, d2, d3, d4, d5⟩ := b1 h2
      rw [if_neg h2, d1]
      left
      refine ⟨by dsimp only; omega, by dsimp only; omega, hk, ?_⟩
      unfold rank3
      dsimp only
      rw [a3, a4, a5, d3, d4, d5, ← c2]
      ring
  · obtain ⟨c1, c2, c3, c4, c5⟩ := a1 h1
    rw [if_neg h1, c1]
    left
    refine ⟨c2, hj, hk, ?_⟩
    unfold rank3
    dsimp only
    rw [c3, c4, c5]
    ring

private theorem rank3_lt {nx ny nz : Nat} (hx : nx ≤ 2 ^ 32 - 4) (hy : ny ≤ 2 ^ 32 - 4) (hz : nz ≤ 2 ^ 32 - 4) {p : Nat × Nat × Nat} (hi : p.1 < nx) (hj : p.2.1 < ny) (hk : p.2.2 < nz) :
    rank3 nx ny nz p < nx * ny * nz := by
  obtain ⟨i, j, k⟩ := p
  dsimp only at hi hj hk
  obtain ⟨_, _, _, _, _, _, _, _, a9, a10⟩ := coord hx hi
  obtain ⟨_, _, _, _, _, _, _, _, b9, b10⟩ := coord hy hj
  obtain ⟨_, _, _, _, _, _, _, _, g9, g10⟩ := coord hz hk
  unfold rank3
  dsimp only
  generalize i % 4 = x at *
  generalize i / 4 * 4 = I at *
  generalize j / 4 * 4 = J at *
  generalize j % 4 = y at *
  generalize k / 4 * 4 = K at *
  generalize k % 4 = z at *
  generalize ext nx i = w at *
  generalize ext ny j = h at *
  generalize ext nz k = d at *
  calc nx * ny * K + d * (nx * J) + d * h * I + (z * h + y) * w + x < nx * ny * K + d * (nx * J) + d * h * I + (z * h + y) * w + w := by omega
    _ = nx * ny * K + d * (nx * J) + d * h * I + (z * h + (y + 1)) * w := by ring
    _ ≤ nx * ny * K + d * (nx * J) + d * h * I + (z * h + h) * w := by have := Nat.mul_le_mul_right w (show z * h + (y + 1) ≤ z * h + h by omega); omega
    _ = nx * ny * K + d * (nx * J) + d * h * I + (z + 1) * (h * w) := by ring
    _ ≤ nx * ny * K + d * (nx * J) + d * h * I + d * (h * w) := by have : (z + 1) * (h * w) ≤ d * (h * w) := Nat.mul_le_mul_right (h * w) g9; omega
    _ = nx * ny * K + d * (nx * J) + (I + w) * (d * h) := by ring
    _ ≤ nx * ny * K + d * (nx * J) + nx * (d * h) := by have := Nat.mul_le_mul_right (d * h) a10; omega
    _ = nx * ny * K + (J + h) * (nx * d) := by ring
    _ ≤ nx * ny * K + ny * (nx * d) := by have := Nat.mul_le_mul_right (nx * d) b10; omega
    _ = (K + d) * (nx * ny) := by ring
    _ ≤ nz * (nx * ny) := Nat.mul_le_mul_right _ g10
    _ = nx * ny * nz := by ring

/-- **C63.** The iterator of a three-dimensional array: from `begin()` it visits elements of the array only, every element exactly once, and after `nx * ny * nz` steps it is at
`end()`, not before. -/
theorem iterator3 {nx ny nz : Nat} (hx : nx ≤ 2 ^ 32 - 4) (hy : ny ≤ 2 ^ 32 - 4) (hz : nz ≤ 2 ^ 32 - 4) (h0 : 0 < nx) (h1 : 0 < ny) (h2 : 0 < nz) :
    (∀ k < nx * ny * nz, ((next3 nx ny nz)^[k] (0, 0, 0)).1 < nx ∧ ((next3 nx ny nz)^[k] (0, 0, 0)).2.1 < ny ∧ ((next3 nx ny nz)^[k] (0, 0, 0)).2.2 < nz) ∧
    (next3 nx ny nz)^[nx * ny * nz] (0, 0, 0) = (0, 0, nz) ∧
    ∀ i < nx, ∀ j < ny, ∀ l < nz, ∃! k, k < nx * ny * nz ∧ (next3 nx ny nz)^[k] (0, 0, 0) = (i, j, l) := by
  have key : ∀ k ≤ nx * ny * nz, (((next3 nx ny nz)^[k] (0, 0, 0)).1 < nx ∧ ((next3 nx ny nz)^[k] (0, 0, 0)).2.1 < ny ∧ ((next3 nx ny nz)^[k] (0, 0, 0)).2.2 < nz ∧
      rank3 nx ny nz ((next3 nx ny nz)^[k] (0, 0, 0)) = k) ∨ ((next3 nx ny nz)^[k] (0, 0, 0) = (0, 0, nz) ∧ k = nx * ny * nz) := by
    intro k
    induction k with
    | zero => intro _; left; exact ⟨h0, h1, h2, by simp [rank3]⟩
    | succ k ih =>
      intro hk
      rw [Function.iterate_succ_apply']
      rcases ih (by omega) with ⟨g1, g2, g3, g4⟩ | ⟨_, g⟩
      · rcases next3_spec hx hy hz g1 g2 g3 with ⟨f1, f2, f3, f4⟩ | ⟨f1, f2⟩
        · left; exact ⟨f1, f2, f3, by rw [f4, g4]⟩
        · right; exact ⟨f1, by rw [← f2, g4]⟩
      · omega
  have hval : ∀ k < nx * ny * nz, ((next3 nx ny nz)^[k] (0, 0, 0)).1 < nx ∧ ((next3 nx ny nz)^[k] (0, 0, 0)).2.1 < ny ∧ ((next3 nx ny nz)^[k] (0, 0, 0)).2.2 < nz ∧
      rank3 nx ny nz ((next3 nx ny nz)^[k] (0, 0, 0)) = k := by
    intro k hk
    rcases key k (by omega) with h | ⟨_, h⟩
    · exact h
    · omega
  refine ⟨fun k hk => ⟨(hval k hk).1, (hval k hk).2.1, (hval k hk).2.2.1⟩, ?_, ?_⟩
  · rcases key (nx * ny * nz) (le_refl _) with ⟨g1, g2, g3, g4⟩ | ⟨h, _⟩
    · have := rank3_lt hx hy hz g1 g2 g3
      omega
    · exact h
  · let f : Fin (nx * ny * nz) → Fin nx × Fin ny × Fin nz := fun k => (⟨_, (hval k.1 k.2).1⟩, ⟨_, (hval k.1 k.2).2.1⟩, ⟨_, (hval k.1 k.2).2.2.1⟩)
    have hval' : ∀ (k : Fin (nx * ny * nz)) (i : Fin nx) (j : Fin ny) (l : Fin nz), f k = (i, j, l) → (next3 nx ny nz)^[k.1] (0, 0, 0) = (i.1, j.1, l.1) := by
      intro k i j l h
      refine Prod.ext ?_ (Prod.ext ?_ ?_)
      · have := congrArg (fun q => q.1.val) h; exact this
      · have := congrArg (fun q => q.2.1.val) h; exact this
      · have := congrArg (fun q => q.2.2.val) h; exact this
    have hf : Function.Injective f := by
      intro a b h
      have ea := hval' a _ _ _ rfl
      have eb := hval' b _ _ _ rfl
      have e1 := (hval a.1 a.2).2.2.2
      have e2 := (hval b.1 b.2).2.2.2
      have e : (next3 nx ny nz)^[a.1] (0, 0, 0) = (next3 nx ny nz)^[b.1] (0, 0, 0) := by
        rw [hval' a (f b).1 (f b).2.1 (f b).2.2 h]
      rw [e] at e1
      exact Fin.ext (e1.symm.trans e2)
    have hb := (Fintype.bijective_iff_injective_and_card f).2 ⟨hf, by simp [mul_assoc]⟩
    intro i hi j hj l hl
    obtain ⟨k, hk⟩ := hb.2 (⟨i, hi⟩, ⟨j, hj⟩, ⟨l, hl⟩)
    have ek := hval' k _ _ _ hk
    refine ⟨k.1, ⟨k.2, ek⟩, fun k' hk' => ?_⟩
    have e1 := (hval k' hk'.1).2.2.2
    have e2 := (hval k.1 k.2).2.2.2
    rw [hk'.2] at e1
    rw [ek] at e2
    exact e1.symm.trans e2

/-- Non-vacuity: the steps from one block to the next of a 5 by 6 by 3 array. -/
example : next3 5 6 3 (3, 3, 2) = (4, 0, 0) ∧ next3 5 6 3 (4, 3, 2) = (0, 4, 0) ∧ next3 5 6 3 (4, 5, 2) = (0, 0, 3) := by decide

/-! ## Pointers -/

/-- `pointer::index()` (pointer2.h:30): computed as `uint`, then converted. -/
def pIndex2 (nx : Nat) (p : Nat × Nat) : Int := ((p.1 + nx * p.2) % 2 ^ 32 : Nat)
/-- `pointer::set` (pointer2.h:31) with `ij` (zfparray2.h:291-296): the index is converted to `uint`. -/
def pSet2 (nx : Nat) (d : Int) : Nat × Nat := ((d % 2 ^ 32).toNat % nx, (d % 2 ^ 32).toNat / nx)
/-- `p + d` (pointer2.h:13-15). -/
def pAdd2 (nx : Nat) (p : Nat × Nat) (d : Int) : Nat × Nat := pSet2 nx (pIndex2 nx p + d)
/-- `p - q` (pointer2.h:17). -/
def pDiff2 (nx : Nat) (p q : Nat × Nat) : Int := pIndex2 nx p - pIndex2 nx q
/-- `increment` (pointer2.h:32-38). -/
def pInc2 (nx : Nat) (p : Nat × Nat) : Nat × Nat :=
  if (p.1 + 1) % 2 ^ 32 = nx then (0, (p.2 + 1) % 2 ^ 32) else ((p.1 + 1) % 2 ^ 32, p.2)
/-- `decrement` (pointer2.h:39-45). -/
def pDec2 (nx : Nat) (p : Nat × Nat) : Nat × Nat :=
  if p.1 = 0 then ((nx + 2 ^ 32 - 1) % 2 ^ 32, (p.2 + 2 ^ 32 - 1) % 2 ^ 32) else ((p.1 + 2 ^ 32 - 1) % 2 ^ 32, p.2)

private theorem pIndex2_eq {nx ny : Nat} (hn : nx * ny < 2 ^ 32) {p : Nat × Nat} (h1 : p.1 < nx) (h2 : p.2 < ny ∨ p = (0, ny)) : pIndex2 nx p = ((p.1 + nx * p.2 : Nat) : Int) ∧ p.1 + nx * p.2 ≤ nx * ny := by
  have hle : p.1 + nx * p.2 ≤ nx * ny := by
    rcases h2 with h2 | rfl
    · exact le_of_lt (row_lt h1 h2)
    · simp
  refine ⟨?_, hle⟩
  unfold pIndex2
  rw [Nat.mod_eq_of_lt (by omega)]

/-- **C63.** Pointers to the elements of a two-dimensional array of fewer than 2^32 elements behave as pointers into the array in row order: adding `d` gives the pointer `d` elements
further (as long as it stays in the array or one past its end), the difference of the two is `d`, and increment and decrement add and subtract one. -/
theorem pointer2 {nx ny : Nat} (hn : nx * ny < 2 ^ 32) {i j : Nat} (hi : i < nx) (hj : j < ny) {d : Int} (h0 : 0 ≤ (i + nx * j : Nat) + d) (h1 : (i + nx * j : Nat) + d ≤ (nx * ny : Nat)) :
    ((pAdd2 nx (i, j) d).1 < nx ∧ ((pAdd2 nx (i, j) d).1 + nx * (pAdd2 nx (i, j) d).2 : Nat) = (i + nx * j : Nat) + d) ∧
    pDiff2 nx (pAdd2 nx (i, j) d) (i, j) = d ∧
    (d = 1 → pInc2 nx (i, j) = pAdd2 nx (i, j) d) ∧ (d = -1 → pDec2 nx (i, j) = pAdd2 nx (i, j) d) := by
  obtain ⟨e1, e2⟩ := pIndex2_eq hn (p := (i, j)) hi (Or.inl hj)
  have e3 := row_lt hi hj
  dsimp only at e1 e2
  have hadd : pAdd2 nx (i, j) d = (((i + nx * j : Nat) + d).toNat % nx, ((i + nx * j : Nat) + d).toNat / nx) := by
    unfold pAdd2 pSet2
    rw [e1, Int.emod_eq_of_lt h0 (by omega)]
  have hpos : 0 < nx := by omega
  have hdm := Nat.mod_add_div ((i + nx * j : Nat) + d).toNat nx
  have hmod : ((i + nx * j : Nat) + d).toNat % nx < nx := Nat.mod_lt _ hpos
  have hsum : ((pAdd2 nx (i, j) d).1 + nx * (pAdd2 nx (i, j) d).2 : Nat) = (i + nx * j : Nat) + d := by
    rw [hadd]; dsimp only; rw [hdm]; omega
  refine ⟨⟨by rw [hadd]; exact hmod, hsum⟩, ?_, fun hd => ?_, fun hd => ?_⟩
  · unfold pDiff2
    rw [e1]
    have : pIndex2 nx (pAdd2 nx (i, j) d) = (i + nx * j : Nat) + d := by
      rw [← hsum]; unfold pIndex2; rw [Nat.mod_eq_of_lt (by omega)]
    rw [this]; omega
  · subst hd
    rw [hadd, show ((i + nx * j : Nat) + (1 : Int)).toNat = i + 1 + nx * j from by omega]
    unfold pInc2
    dsimp only
    have hx : nx ≤ nx * ny := Nat.le_mul_of_pos_right _ (by omega)
    have hy : ny ≤ nx * ny := Nat.le_mul_of_pos_left _ hpos
    rw [Nat.mod_eq_of_lt (show i + 1 < 2 ^ 32 by omega), Nat.mod_eq_of_lt (show j + 1 < 2 ^ 32 by omega)]
    rw [Nat.add_mul_mod_self_left, Nat.add_mul_div_left _ _ hpos]
    by_cases h : i + 1 = nx
    · rw [if_pos h, h, Nat.mod_self, Nat.div_self hpos, Nat.add_comm]
    · rw [if_neg h, Nat.mod_eq_of_lt (by omega), Nat.div_eq_of_lt (by omega), Nat.zero_add]
  · subst hd
    have hx : nx ≤ nx * ny := Nat.le_mul_of_pos_right _ (by omega)
    have hy : ny ≤ nx * ny := Nat.le_mul_of_pos_left _ hpos
    rw [hadd]
    unfold pDec2
    dsimp only
    by_cases h : i = 0
    · subst h
      have hj0 : 0 < j := by
        rcases Nat.eq_zero_or_pos j with rfl | h
        · simp at h0
        · exact h
      obtain ⟨q, rfl⟩ : ∃ q, j = q + 1 := ⟨j - 1, by omega⟩
      rw [if_pos rfl, show ((0 + nx * (q + 1) : Nat) + (-1 : Int)).toNat = (nx - 1) + nx * q from by rw [Nat.mul_add]; omega]
      rw [Nat.add_mul_mod_self_left, Nat.add_mul_div_left _ _ hpos, Nat.mod_eq_of_lt (show nx - 1 < nx by omega), Nat.div_eq_of_lt (show nx - 1 < nx by omega)]
      refine Prod.ext ?_ ?_
      · dsimp only; omega
      · dsimp only; omega
    · rw [if_neg h, show ((i + nx * j : Nat) + (-1 : Int)).toNat = (i - 1) + nx * j from by omega]
      rw [Nat.add_mul_mod_self_left, Nat.add_mul_div_left _ _ hpos, Nat.mod_eq_of_lt (show i - 1 < nx by omega), Nat.div_eq_of_lt (show i - 1 < nx by omega), Nat.zero_add]
      refine Prod.ext ?_ rfl
      dsimp only; omega

/-- Non-vacuity: in a 6 by 3 array, 8 further than element (5, 0) is element (1, 2). -/
example : pAdd2 6 (5, 0) 8 = (1, 2) ∧ pDiff2 6 (1, 2) (5, 0) = 8 ∧ pInc2 6 (5, 0) = (0, 1) ∧ pDec2 6 (0, 1) = (5, 0) := by decide

/-- **C63** fails for larger arrays: the index of a pointer is computed with 32 bits, so in an array of 65536 by 65537 elements the pointers to the first elements of the first and
of the last row have difference 0, and the pointer 2^32 elements after the first is the first. -/
theorem pointer2_wraps : pDiff2 65536 (0, 65536) (0, 0) = 0 ∧ pAdd2 65536 (0, 0) (2 ^ 32) = (0, 0) := by decide

/-- **C63** fails for arrays with more than 2^32 - 4 rows or columns: the number of blocks wraps to 0. -/
theorem blocks_wrap : blocksOf (2 ^ 32 - 3) = 0 := by decide

end Verif.Zfp

import Mathlib.Data.Nat.Bitwise
import Mathlib.Tactic.Ring
import Mathlib.Tactic.Linarith

/-! # zfp bit streams (zfp/src/inline/bitstream.c)

`W` is `wsize`, the number of bits of a buffered word: 8, 16, 32 or 64. The theorems hold for every `0 < W ≤ 64`. Unsigned integers are
natural numbers, reduced modulo their size where C reduces them; a shift by 64 or more is undefined behaviour and gives `none`.
Strided streams (`BIT_STREAM_STRIDED`, not enabled in this repository) are not modelled, and the memory is unbounded: the library does not check
for overruns (bitstream.c:99-101). -/

namespace Verif.Zfp

/-- bitstream.c:124-134. `mem i` is word `i` counted from `begin`, `ptr` the index of the next word. -/
structure Stream where
  bits : Nat
  buffer : Nat
  ptr : Nat
  mem : Nat → Nat

/-- `uint64` left shift. -/
def shl64 (v k : Nat) : Option Nat := if k < 64 then some ((v <<< k) % 2 ^ 64) else none

/-- `uint64` right shift. -/
def shr64 (v k : Nat) : Option Nat := if k < 64 then some (v >>> k) else none

/-- stream_write_word (bitstream.c:149-157). -/
def Stream.writeWord (s : Stream) (v : Nat) : Stream :=
  { s with mem := fun i => if i = s.ptr then v else s.mem i, ptr := s.ptr + 1 }

/-- stream_read_bit (bitstream.c:205-217). -/
def readBit (W : Nat) (s : Stream) : Stream × Bool :=
  let s := if s.bits = 0 then { s with buffer := s.mem s.ptr, ptr := s.ptr + 1, bits := W } else s
  ({ s with bits := s.bits - 1, buffer := s.buffer >>> 1 }, s.buffer.testBit 0)

/-- stream_write_bit (bitstream.c:219-230). -/
def writeBit (W : Nat) (s : Stream) (bit : Bool) : Stream :=
  let s := { s with buffer := (s.buffer + (bit.toNat <<< s.bits) % 2 ^ W) % 2 ^ W, bits := s.bits + 1 }
  if s.bits = W then { s.writeWord s.buffer with buffer := 0, bits := 0 } else s

/-- The loop of stream_read_bits (bitstream.c:239-244); the first argument bounds the number of turns. -/
def fetch (W n : Nat) : Nat → Stream → Nat → Option (Stream × Nat)
  | 0, _, _ => none
  | f + 1, s, value =>
    (shl64 (s.mem s.ptr) s.bits).bind fun x =>
    let value := (value + x) % 2 ^ 64
    let s := { s with buffer := s.mem s.ptr, ptr := s.ptr + 1, bits := s.bits + W }
    if W < 64 ∧ s.bits < n then fetch W n f s value else some (s, value)

/-- stream_read_bits (bitstream.c:232-263). -/
def readBits (W : Nat) (s : Stream) (n : Nat) : Option (Stream × Nat) :=
  let value := s.buffer
  if s.bits < n then
    (fetch W n n s value).bind fun (s, value) =>
    let s := { s with bits := s.bits - n }
    if s.bits = 0 then some ({ s with buffer := 0 }, value)
    else
      (shl64 2 (n - 1)).map fun m => ({ s with buffer := s.buffer >>> (W - s.bits) }, value &&& ((m + 2 ^ 64 - 1) % 2 ^ 64))
  else
    (shl64 1 n).map fun m => ({ s with bits := s.bits - n, buffer := s.buffer >>> n }, value &&& (m - 1))

/-- The loop of stream_write_bits (bitstream.c:277-285); the first argument bounds the number of turns. -/
def drain (W value n : Nat) : Nat → Stream → Option Stream
  | 0, _ => none
  | f + 1, s =>
    let s := { s with bits := s.bits - W }
    let s := s.writeWord s.buffer
    if n < s.bits then none else
    (shr64 value (n - s.bits)).bind fun x =>
    let s := { s with buffer := x % 2 ^ W }
    if W < 64 ∧ s.bits ≥ W then drain W value n f s else some s

/-- stream_write_bits (bitstream.c:265-291); returns the stream and the remaining bits of `value`. -/
def writeBits (W : Nat) (s : Stream) (value n : Nat) : Option (Stream × Nat) :=
  (shl64 value s.bits).bind fun x =>
  let s := { s with buffer := (s.buffer + x % 2 ^ W) % 2 ^ W, bits := s.bits + n }
  if s.bits ≥ W then
    let value := value >>> 1
    let n := n - 1
    (drain W value n s.bits s).bind fun s =>
    (shr64 value n).map fun r => ({ s with buffer := s.buffer &&& (2 ^ s.bits - 1) }, r)
  else
    (shr64 value n).map fun r => ({ s with buffer := s.buffer &&& (2 ^ s.bits - 1) }, r)

/-- stream_rtell (bitstream.c:293-298). -/
def rtell (W : Nat) (s : Stream) : Nat := W * s.ptr - s.bits

/-- stream_wtell (bitstream.c:300-305). -/
def wtell (W : Nat) (s : Stream) : Nat := W * s.ptr + s.bits

/-- stream_rewind (bitstream.c:307-314). -/
def rewind (s : Stream) : Stream := { s with ptr := 0, buffer := 0, bits := 0 }

/-- stream_rseek (bitstream.c:316-330). -/
def rseek (W : Nat) (s : Stream) (offset : Nat) : Stream :=
  let n := offset % W
  let p := offset / W
  if n ≠ 0 then { s with ptr := p + 1, buffer := s.mem p >>> n, bits := W - n }
  else { s with ptr := p, buffer := 0, bits := 0 }

/-- stream_wseek (bitstream.c:332-348). -/
def wseek (W : Nat) (s : Stream) (offset : Nat) : Stream :=
  let n := offset % W
  let p := offset / W
  if n ≠ 0 then { s with ptr := p, buffer := s.mem p &&& (2 ^ n - 1), bits := n }
  else { s with ptr := p, buffer := 0, bits := 0 }

/-- stream_skip (bitstream.c:350-355). -/
def skip (W : Nat) (s : Stream) (n : Nat) : Stream := rseek W s (rtell W s + n)

/-- The loop of stream_pad (bitstream.c:361-364); the first argument bounds the number of turns. -/
def padLoop (W : Nat) : Nat → Stream → Option Stream
  | 0, s => if s.bits ≥ W then none else some s
  | f + 1, s =>
    if s.bits ≥ W then
      let s := s.writeWord s.buffer
      padLoop W f { s with buffer := 0, bits := s.bits - W }
    else some s

/-- stream_pad (bitstream.c:357-365); `bits` is a 32 bit integer. -/
def pad (W : Nat) (s : Stream) (n : Nat) : Option Stream :=
  let b := (s.bits + n) % 2 ^ 32
  padLoop W b { s with bits := b }

/-- stream_align (bitstream.c:367-375). -/
def align (W : Nat) (s : Stream) : Stream × Nat := (if s.bits ≠ 0 then skip W s s.bits else s, s.bits)

/-- stream_flush (bitstream.c:377-385). -/
def flush (W : Nat) (s : Stream) : Option (Stream × Nat) :=
  let bits := (W - s.bits) % W
  if bits ≠ 0 then (pad W s bits).map (·, bits) else some (s, bits)

/-- stream_open on a memory buffer (bitstream.c:416-430). -/
def openStream (mem : Nat → Nat) : Stream := ⟨0, 0, 0, mem⟩

/-! ## Abstract contents -/

/-- Bit `i` of the memory, words filled from the low end. -/
def memBit (W : Nat) (mem : Nat → Nat) (i : Nat) : Bool := (mem (i / W)).testBit (i % W)

/-- The `n` low bits of `v`, lowest first. -/
def bitsOf (v n : Nat) : List Bool := (List.range n).map v.testBit

@[simp] theorem bitsOf_length (v n : Nat) : (bitsOf v n).length = n := by simp [bitsOf]

theorem bitsOf_getElem (v n i : Nat) (h : i < (bitsOf v n).length) : (bitsOf v n)[i] = v.testBit i := by simp [bitsOf]

theorem memBit_word {W : Nat} (mem : Nat → Nat) (p j : Nat) (hj : j < W) : memBit W mem (W * p + j) = (mem p).testBit j := by
  unfold memBit
  rw [Nat.mul_add_div (by omega), Nat.div_eq_of_lt hj, Nat.mul_add_mod, Nat.mod_eq_of_lt hj]
  rfl

/-- Bit `i` of a stream that is being written. -/
def wbit (W : Nat) (s : Stream) (i : Nat) : Bool :=
  if i < W * s.ptr then memBit W s.mem i else s.buffer.testBit (i - W * s.ptr)

/-- The stream is being written, and the bits written so far are those of `c` below `P`. -/
structure Wr (W : Nat) (s : Stream) (c : Nat → Bool) (P : Nat) : Prop where
  bits : s.bits < W
  buf : s.buffer < 2 ^ s.bits
  tell : wtell W s = P
  mem : ∀ i, s.mem i < 2 ^ W
  bit : ∀ i < P, wbit W s i = c i

/-- The stream is being read and the next bit is bit `p` of the memory. -/
structure Rd (W : Nat) (s : Stream) (p : Nat) : Prop where
  bits : s.bits < W
  buf : s.buffer < 2 ^ s.bits
  tell : p + s.bits = W * s.ptr
  mem : ∀ i, s.mem i < 2 ^ W
  bit : ∀ j < s.bits, s.buffer.testBit j = memBit W s.mem (p + j)

/-- Contents `c` below `P`, then `d`. -/
def splice (P : Nat) (c d : Nat → Bool) (i : Nat) : Bool := if i < P then c i else d (i - P)

/-! ## Writing -/

theorem testBit_append {a b k : Nat} (h : a < 2 ^ k) (j : Nat) :
    (a + (b <<< k)).testBit j = if j < k then a.testBit j else b.testBit (j - k) := by
  rw [Nat.add_comm, Nat.shiftLeft_eq, Nat.mul_comm, Nat.testBit_two_pow_mul_add b h]

theorem add_mod_mod (a b m : Nat) : (a + b % m) % m = (a + b) % m := by simp [Nat.add_mod]

theorem Wr.congr {W : Nat} {s : Stream} {c c' : Nat → Bool} {P : Nat} (h : Wr W s c P) (hc : ∀ i < P, c i = c' i) : Wr W s c' P :=
  ⟨h.bits, h.buf, h.tell, h.mem, fun i hi => by rw [h.bit i hi, hc i hi]⟩

/-- Words outside `[a, b)` are the same. -/
def SameOutside (m m' : Nat → Nat) (a b : Nat) : Prop := ∀ i, i < a ∨ b ≤ i → m' i = m i

theorem SameOutside.refl (m : Nat → Nat) (a b : Nat) : SameOutside m m a b := fun _ _ => rfl

theorem SameOutside.trans {m m' m'' : Nat → Nat} {a b c : Nat} (h : SameOutside m m' a b) (h' : SameOutside m' m'' b c) (hab : a ≤ b) (hbc : b ≤ c) :
    SameOutside m m'' a c := fun i hi => by
  rw [h' i (by omega), h i (by omega)]

theorem mem_writeWord {W : Nat} {s : Stream} {v : Nat} (hv : v < 2 ^ W) (h : ∀ i, s.mem i < 2 ^ W) (i : Nat) : (s.writeWord v).mem i < 2 ^ W := by
  simp only [Stream.writeWord]
  split
  · exact hv
  · exact h i

theorem memBit_writeWord_old {W : Nat} (s : Stream) (v i : Nat) (h : i < W * s.ptr) :
    memBit W (s.writeWord v).mem i = memBit W s.mem i := by
  have hd : i / W ≠ s.ptr := Nat.ne_of_lt (Nat.div_lt_of_lt_mul h)
  simp [memBit, Stream.writeWord, hd]

theorem memBit_writeWord_new {W : Nat} (s : Stream) (v j : Nat) (hj : j < W) :
    memBit W (s.writeWord v).mem (W * s.ptr + j) = v.testBit j := by
  rw [memBit_word _ _ _ hj]; simp [Stream.writeWord]

theorem writeBit_wr {W : Nat} {s : Stream} {c : Nat → Bool} {P : Nat} (h : Wr W s c P) (b : Bool) :
    Wr W (writeBit W s b) (splice P c fun _ => b) (P + 1) ∧
      SameOutside s.mem (writeBit W s b).mem s.ptr (writeBit W s b).ptr ∧ s.ptr ≤ (writeBit W s b).ptr := by
  obtain ⟨h1, h2, h3, h4, h5⟩ := h
  have hb : s.buffer + (b.toNat <<< s.bits) < 2 ^ (s.bits + 1) := by
    rw [Nat.shiftLeft_eq, pow_succ]
    have : b.toNat ≤ 1 := Bool.toNat_le b
    nlinarith
  have hbuf : (s.buffer + (b.toNat <<< s.bits) % 2 ^ W) % 2 ^ W = s.buffer + (b.toNat <<< s.bits) := by
    rw [add_mod_mod, Nat.mod_eq_of_lt]
    exact lt_of_lt_of_le hb (Nat.pow_le_pow_right (by omega) (by omega))
  have htb : ∀ j, j ≤ s.bits → (s.buffer + (b.toNat <<< s.bits)).testBit j = if j < s.bits then s.buffer.testBit j else b := by
    intro j hj
    rw [testBit_append h2]
    split
    · rfl
    · rw [show j - s.bits = 0 by omega]; cases b <;> rfl
  unfold wtell at h3
  have hc : ∀ j, j ≤ s.bits → (s.buffer + (b.toNat <<< s.bits)).testBit j = splice P c (fun _ => b) (W * s.ptr + j) := by
    intro j hj
    rw [htb j hj]
    unfold splice
    split
    · rw [if_pos (by omega), ← h5 _ (by omega)]
      simp [wbit]
    · rw [if_neg (by omega)]
  unfold writeBit
  simp only [hbuf]
  split
  · rename_i he
    refine ⟨⟨by simp; omega, by simp, ?_, ?_, ?_⟩, ?_, ?_⟩
    · simp only [wtell, Stream.writeWord]; rw [Nat.mul_add]; omega
    · intro i
      exact mem_writeWord (by rw [he] at hb; exact hb) h4 i
    · intro i hi
      rw [wbit, if_pos (by simp only [Stream.writeWord]; rw [Nat.mul_add]; omega)]
      by_cases hlt : i < W * s.ptr
      · refine Eq.trans (memBit_writeWord_old (W := W) ⟨0, 0, s.ptr, s.mem⟩ _ i hlt) ?_
        rw [splice, if_pos (by omega), ← h5 i (by omega), wbit, if_pos hlt]
      · obtain ⟨j, rfl⟩ : ∃ j, i = W * s.ptr + j := ⟨i - W * s.ptr, by omega⟩
        have := memBit_writeWord_new (W := W) ⟨s.bits + 1, s.buffer + (b.toNat <<< s.bits), s.ptr, s.mem⟩ (s.buffer + (b.toNat <<< s.bits)) j (by omega)
        refine Eq.trans this ?_
        exact hc j (by omega)
    · intro i hi
      simp only [Stream.writeWord] at hi ⊢
      rw [if_neg (by omega)]
    · simp [Stream.writeWord]
  · rename_i he
    refine ⟨⟨by dsimp only; omega, hb, by simp only [wtell]; omega, h4, ?_⟩, SameOutside.refl _ _ _, le_refl _⟩
    intro i hi
    unfold wbit
    dsimp only
    by_cases hlt : i < W * s.ptr
    · rw [if_pos hlt, splice, if_pos (by omega), ← h5 i (by omega), wbit, if_pos hlt]
    · rw [if_neg hlt]
      obtain ⟨j, rfl⟩ : ∃ j, i = W * s.ptr + j := ⟨i - W * s.ptr, by omega⟩
      rw [Nat.add_sub_cancel_left]
      exact hc j (by omega)

/-- The loop of `writeBits`: at its entry the buffer is a complete word of the contents `c`. -/
theorem drain_wr {W : Nat} (hW64 : W ≤ 64) (value n : Nat) (hn : n < 64) (c : Nat → Bool) (P : Nat)
    (hval : ∀ i < P, P ≤ i + n → c i = value.testBit (i + n - P)) :
    ∀ (f : Nat) (s : Stream), 0 < W → W ≤ s.bits → s.bits ≤ f → s.bits < 64 + W → s.bits ≤ n + W → wtell W s = P →
    (∀ i, s.mem i < 2 ^ W) → s.buffer < 2 ^ W →
    (∀ i < W * s.ptr, memBit W s.mem i = c i) → (∀ j < W, s.buffer.testBit j = c (W * s.ptr + j)) →
    ∃ s', drain W value n f s = some s' ∧ Wr W { s' with buffer := s'.buffer % 2 ^ s'.bits } c P ∧
      SameOutside s.mem s'.mem s.ptr s'.ptr ∧ s.ptr ≤ s'.ptr := by
  intro f
  induction f with
  | zero => intro s h0 h1 h2; omega
  | succ f ih =>
    intro s h0 h1 h2 h3 h4 h5 h6 h7 h8 h9
    unfold wtell at h5
    have hM : ∀ i < W * (s.ptr + 1), memBit W (s.writeWord s.buffer).mem i = c i := by
      intro i hi
      rw [Nat.mul_add] at hi
      by_cases hlt : i < W * s.ptr
      · rw [memBit_writeWord_old _ _ _ hlt, h8 i hlt]
      · obtain ⟨j, rfl⟩ : ∃ j, i = W * s.ptr + j := ⟨i - W * s.ptr, by omega⟩
        rw [memBit_writeWord_new _ _ _ (by omega), h9 j (by omega)]
    have hP : W * (s.ptr + 1) + (s.bits - W) = P := by rw [Nat.mul_add]; omega
    have hB : ∀ j < W, W * (s.ptr + 1) + j < P → ((value >>> (n - (s.bits - W))) % 2 ^ W).testBit j = c (W * (s.ptr + 1) + j) := by
      intro j hj hlt
      rw [Nat.testBit_mod_two_pow, Nat.testBit_shiftRight, hval _ hlt (by omega)]
      simp only [hj, decide_true, Bool.true_and]
      congr 1
      omega
    have hmem : ∀ i, (s.writeWord s.buffer).mem i < 2 ^ W := mem_writeWord h7 h6
    rw [drain]
    simp only [Stream.writeWord, show ¬(n < s.bits - W) by omega, if_false, shr64, show n - (s.bits - W) < 64 by omega, if_true, Option.bind_some]
    split
    · rename_i hc
      obtain ⟨s', e, hwr, hso, hp⟩ := ih ⟨s.bits - W, (value >>> (n - (s.bits - W))) % 2 ^ W, s.ptr + 1, (s.writeWord s.buffer).mem⟩ h0 hc.2
        (by dsimp only; omega) (by dsimp only; omega) (by dsimp only; omega) hP hmem (Nat.mod_lt _ (Nat.two_pow_pos W)) hM
        (fun j hj => hB j hj (by omega))
      refine ⟨s', e, hwr, ?_, by dsimp only at hp; omega⟩
      intro i hi
      dsimp only at hp
      rw [hso i (by dsimp only; omega)]
      dsimp only [Stream.writeWord]
      rw [if_neg (by omega)]
    · rename_i hc
      have hlt : s.bits - W < W := by omega
      refine ⟨_, rfl, ⟨hlt, Nat.mod_lt _ (Nat.two_pow_pos _), hP, hmem, ?_⟩, ?_, by dsimp only; omega⟩
      · intro i hi
        unfold wbit
        dsimp only
        by_cases hl : i < W * (s.ptr + 1)
        · rw [if_pos hl]; exact hM i hl
        · rw [if_neg hl]
          obtain ⟨j, rfl⟩ : ∃ j, i = W * (s.ptr + 1) + j := ⟨i - W * (s.ptr + 1), by omega⟩
          rw [Nat.add_sub_cancel_left, Nat.testBit_mod_two_pow, hB j (by omega) hi]
          simp only [show j < s.bits - W by omega, decide_true, Bool.true_and]
      · intro i hi
        dsimp only at hi ⊢
        rw [if_neg (by omega)]

theorem mask_eq (a k : Nat) : a &&& (2 ^ k - 1) = a % 2 ^ k := Nat.and_two_pow_sub_one_eq_mod a k

theorem shr_shr (v n : Nat) (hn : 0 < n) : (v >>> 1) >>> (n - 1) = v / 2 ^ n := by
  rw [← Nat.shiftRight_add, show 1 + (n - 1) = n by omega, Nat.shiftRight_eq_div_pow]

/-- Writing `n ≤ 64` bits appends them and returns the rest of the value. -/
theorem writeBits_wr {W : Nat} (hW64 : W ≤ 64) {s : Stream} {c : Nat → Bool} {P : Nat} (h : Wr W s c P) (value n : Nat)
    (hn : n ≤ 64) (hv : value < 2 ^ 64) :
    ∃ s', writeBits W s value n = some (s', value / 2 ^ n) ∧ Wr W s' (splice P c value.testBit) (P + n) ∧
      SameOutside s.mem s'.mem s.ptr s'.ptr ∧ s.ptr ≤ s'.ptr := by
  obtain ⟨h1, h2, h3, h4, h5⟩ := h
  unfold wtell at h3
  have hx : (s.buffer + ((value <<< s.bits) % 2 ^ 64) % 2 ^ W) % 2 ^ W = (s.buffer + (value <<< s.bits)) % 2 ^ W := by
    rw [Nat.mod_mod_of_dvd _ (Nat.pow_dvd_pow 2 hW64), add_mod_mod]
  have hbit : ∀ j < W, ((s.buffer + (value <<< s.bits)) % 2 ^ W).testBit j = splice P c value.testBit (W * s.ptr + j) := by
    intro j hj
    rw [Nat.testBit_mod_two_pow, testBit_append h2]
    simp only [hj, decide_true, Bool.true_and, splice]
    by_cases hl : j < s.bits
    · rw [if_pos hl, if_pos (by omega), ← h5 _ (by omega)]
      simp [wbit]
    · rw [if_neg hl, if_neg (by omega)]
      congr 1
      omega
  have hold : ∀ i < W * s.ptr, memBit W s.mem i = splice P c value.testBit i := by
    intro i hi
    rw [splice, if_pos (by omega), ← h5 i (by omega), wbit, if_pos hi]
  rw [writeBits, shl64, if_pos (by omega)]
  simp only [Option.bind_some, hx]
  split
  · rename_i hge
    have hn0 : 0 < n := by omega
    obtain ⟨s', e, hwr, hso, hp⟩ := drain_wr hW64 (value >>> 1) (n - 1) (by omega) (splice P c value.testBit) (P + n)
      (by
        intro i hi hi2
        rw [splice, if_neg (by omega), Nat.testBit_shiftRight]
        congr 1
        omega)
      (s.bits + n) ⟨s.bits + n, (s.buffer + (value <<< s.bits)) % 2 ^ W, s.ptr, s.mem⟩ (by omega) hge (le_refl _) (by dsimp only; omega)
      (by dsimp only; omega) (by simp only [wtell]; omega) h4 (Nat.mod_lt _ (Nat.two_pow_pos W)) hold hbit
    rw [e, Option.bind_some, shr64, if_pos (by omega), Option.map_some, shr_shr _ _ hn0, mask_eq]
    exact ⟨_, rfl, hwr, hso, hp⟩
  · rename_i hlt
    rw [shr64, if_pos (by omega), Option.map_some, mask_eq, Nat.shiftRight_eq_div_pow]
    refine ⟨_, rfl, ⟨by dsimp only; omega, Nat.mod_lt _ (Nat.two_pow_pos _), by simp only [wtell]; omega, h4, ?_⟩, SameOutside.refl _ _ _, le_refl _⟩
    intro i hi
    unfold wbit
    dsimp only
    by_cases hl : i < W * s.ptr
    · rw [if_pos hl]; exact hold i hl
    · rw [if_neg hl]
      obtain ⟨j, rfl⟩ : ∃ j, i = W * s.ptr + j := ⟨i - W * s.ptr, by omega⟩
      rw [Nat.add_sub_cancel_left, Nat.testBit_mod_two_pow, hbit j (by omega)]
      simp only [show j < s.bits + n by omega, decide_true, Bool.true_and]

/-! ## Reading -/

theorem readBit_rd {W : Nat} (hW : 0 < W) {s : Stream} {p : Nat} (h : Rd W s p) :
    (readBit W s).2 = memBit W s.mem p ∧ Rd W (readBit W s).1 (p + 1) ∧ (readBit W s).1.mem = s.mem := by
  obtain ⟨h1, h2, h3, h4, h5⟩ := h
  -- the state after the word has been fetched
  have key : ∀ t : Stream, t.mem = s.mem → 0 < t.bits → t.bits ≤ W → t.buffer < 2 ^ t.bits → p + t.bits = W * t.ptr →
      (∀ j < t.bits, t.buffer.testBit j = memBit W s.mem (p + j)) →
      t.buffer.testBit 0 = memBit W s.mem p ∧ Rd W { t with bits := t.bits - 1, buffer := t.buffer >>> 1 } (p + 1) := by
    intro t hm t0 t1 t2 t3 t4
    refine ⟨t4 0 t0, ⟨by dsimp only; omega, ?_, by dsimp only; omega, by dsimp only; rw [hm]; exact h4, ?_⟩⟩
    · dsimp only
      rw [Nat.shiftRight_eq_div_pow, Nat.div_lt_iff_lt_mul (by omega), ← pow_add, show t.bits - 1 + 1 = t.bits by omega]
      exact t2
    · intro j hj
      dsimp only at hj ⊢
      rw [Nat.testBit_shiftRight, t4 _ (by omega), hm, Nat.add_assoc]
  unfold readBit
  by_cases hb : s.bits = 0
  · rw [if_pos hb]
    obtain ⟨k1, k2⟩ := key ⟨W, s.mem s.ptr, s.ptr + 1, s.mem⟩ rfl hW (le_refl _) (h4 _) (by dsimp only; rw [Nat.mul_add]; omega)
      (by
        intro j hj
        rw [show p + j = W * s.ptr + j by omega, memBit_word _ _ _ hj])
    exact ⟨k1, k2, rfl⟩
  · rw [if_neg hb]
    obtain ⟨k1, k2⟩ := key s rfl (by omega) (by omega) h2 h3 h5
    exact ⟨k1, k2, rfl⟩

/-- The loop of `readBits`. -/
theorem fetch_rd {W : Nat} (hW : 0 < W) (hW64 : W ≤ 64) (n : Nat) (hn : n ≤ 64) (p : Nat) (mem : Nat → Nat) (hmem : ∀ i, mem i < 2 ^ W) :
    ∀ (f : Nat) (s : Stream) (value : Nat), s.mem = mem → s.bits < n → n ≤ f + s.bits → p + s.bits = W * s.ptr → value < 2 ^ s.bits →
      (∀ j < s.bits, value.testBit j = memBit W mem (p + j)) →
      ∃ s' value', fetch W n f s value = some (s', value') ∧ s'.mem = mem ∧ n ≤ s'.bits ∧ s'.bits < n + W ∧ p + s'.bits = W * s'.ptr ∧
        value' < 2 ^ 64 ∧ value' < 2 ^ s'.bits ∧ (∀ j < min s'.bits 64, value'.testBit j = memBit W mem (p + j)) ∧
        s'.buffer < 2 ^ W ∧ (∀ j < W, s'.buffer.testBit j = memBit W mem (p + s'.bits - W + j)) := by
  intro f
  induction f with
  | zero => intro s v _ h1 h2; omega
  | succ f ih =>
    intro s v hm h1 h2 h3 h4 h5
    rw [fetch, shl64, if_pos (by omega)]
    simp only [Option.bind_some, hm, add_mod_mod]
    have hlt : v + mem s.ptr <<< s.bits < 2 ^ (s.bits + W) := by
      rw [Nat.shiftLeft_eq, pow_add]
      have := hmem s.ptr
      nlinarith [Nat.two_pow_pos s.bits]
    have hb : ∀ j < s.bits + W, (v + mem s.ptr <<< s.bits).testBit j = memBit W mem (p + j) := by
      intro j hj
      rw [testBit_append h4]
      split
      · rename_i hl; exact h5 j hl
      · rename_i hl
        rw [show p + j = W * s.ptr + (j - s.bits) by omega, memBit_word _ _ _ (by omega)]
    split
    · rename_i hc
      have hpow : (2 : Nat) ^ (s.bits + W) ≤ 2 ^ 64 := Nat.pow_le_pow_right (by omega) (by omega)
      rw [Nat.mod_eq_of_lt (by omega)]
      exact ih ⟨s.bits + W, mem s.ptr, s.ptr + 1, mem⟩ _ rfl hc.2 (by dsimp only; omega) (by dsimp only; rw [Nat.mul_add]; omega) hlt hb
    · rename_i hc
      refine ⟨_, _, rfl, rfl, by dsimp only; omega, by dsimp only; omega, by dsimp only; rw [Nat.mul_add]; omega, Nat.mod_lt _ (Nat.two_pow_pos 64),
        lt_of_le_of_lt (Nat.mod_le _ _) hlt, ?_, hmem _, ?_⟩
      · intro j hj
        dsimp only at hj
        rw [Nat.testBit_mod_two_pow, hb j (by omega)]
        simp only [show j < 64 by omega, decide_true, Bool.true_and]
      · intro j hj
        dsimp only
        rw [show p + (s.bits + W) - W + j = W * s.ptr + j by omega, memBit_word _ _ _ hj]

theorem readMask (n : Nat) (h0 : 0 < n) (hn : n ≤ 64) : ((2 <<< (n - 1)) % 2 ^ 64 + 2 ^ 64 - 1) % 2 ^ 64 = 2 ^ n - 1 := by
  have e2n : 2 <<< (n - 1) = 2 ^ n := by
    rw [Nat.shiftLeft_eq, ← pow_succ']; congr 1; omega
  rw [e2n]
  rcases Nat.lt_or_ge n 64 with hl | hl
  · have h1 : (2 : Nat) ^ n < 2 ^ 64 := Nat.pow_lt_pow_right (by omega) hl
    have h2 := Nat.two_pow_pos n
    rw [Nat.mod_eq_of_lt h1]
    generalize (2 : Nat) ^ 64 = M at h1
    rw [show 2 ^ n + M - 1 = 2 ^ n - 1 + M by omega, Nat.add_mod_right, Nat.mod_eq_of_lt (by omega)]
  · have : n = 64 := by omega
    subst this
    rfl

/-- Reading `n ≤ 64` bits returns the next `n` bits of the memory. -/
theorem readBits_rd {W : Nat} (hW64 : W ≤ 64) {s : Stream} {p : Nat} (h : Rd W s p) (n : Nat) (hn : n ≤ 64) :
    ∃ s' value, readBits W s n = some (s', value) ∧ Rd W s' (p + n) ∧ s'.mem = s.mem ∧ value < 2 ^ n ∧
      ∀ j < n, value.testBit j = memBit W s.mem (p + j) := by
  obtain ⟨h1, h2, h3, h4, h5⟩ := h
  unfold readBits
  dsimp only
  split
  · rename_i hlt
    obtain ⟨s', v', e, e1, e2, e3, e4, e5, e5', e6, e7, e8⟩ := fetch_rd (by omega) hW64 n hn p s.mem h4 n s s.buffer rfl hlt (by omega) h3 h2 h5
    rw [e]
    simp only [Option.bind_some]
    split
    · rename_i h0
      have hbn : s'.bits = n := by omega
      refine ⟨_, _, rfl, ⟨by dsimp only; omega, by dsimp only; exact Nat.two_pow_pos _, by dsimp only; omega, by dsimp only; rw [e1]; exact h4, ?_⟩, e1, ?_, ?_⟩
      · intro j hj; dsimp only at hj; omega
      · rw [hbn] at e5'; exact e5'
      · intro j hj; exact e6 j (by omega)
    · rename_i h0
      rw [shl64, if_pos (by omega), Option.map_some]
      have hmask := readMask n (by omega) hn
      rw [hmask, mask_eq]
      refine ⟨_, _, rfl, ⟨by dsimp only; omega, ?_, by dsimp only; omega, by dsimp only; rw [e1]; exact h4, ?_⟩, e1, Nat.mod_lt _ (Nat.two_pow_pos n), ?_⟩
      · dsimp only
        rw [Nat.shiftRight_eq_div_pow, Nat.div_lt_iff_lt_mul (Nat.two_pow_pos _), ← pow_add, show s'.bits - n + (W - (s'.bits - n)) = W by omega]
        exact e7
      · intro j hj
        dsimp only at hj ⊢
        have hp0 : 0 < s'.ptr := by
          rcases Nat.eq_zero_or_pos s'.ptr with h | h
          · rw [h, Nat.mul_zero] at e4; omega
          · exact h
        have hWp : W ≤ W * s'.ptr := Nat.le_mul_of_pos_right W hp0
        rw [Nat.testBit_shiftRight, e8 _ (by omega), e1, show p + s'.bits - W + (W - (s'.bits - n) + j) = p + n + j by omega]
      · intro j hj
        rw [Nat.testBit_mod_two_pow, e6 j (by omega)]
        simp only [hj, decide_true, Bool.true_and]
  · rename_i hge
    rw [shl64, if_pos (by omega), Option.map_some]
    have hmask : (1 <<< n) % 2 ^ 64 - 1 = 2 ^ n - 1 := by
      rw [Nat.shiftLeft_eq, Nat.one_mul, Nat.mod_eq_of_lt (Nat.pow_lt_pow_right (by omega) (by omega))]
    rw [hmask, mask_eq]
    refine ⟨_, _, rfl, ⟨by dsimp only; omega, ?_, by dsimp only; omega, h4, ?_⟩, rfl, Nat.mod_lt _ (Nat.two_pow_pos n), ?_⟩
    · dsimp only
      rw [Nat.shiftRight_eq_div_pow, Nat.div_lt_iff_lt_mul (Nat.two_pow_pos _), ← pow_add, show s.bits - n + n = s.bits by omega]
      exact h2
    · intro j hj
      dsimp only at hj ⊢
      rw [Nat.testBit_shiftRight, h5 _ (by omega)]
      congr 1
      omega
    · intro j hj
      rw [Nat.testBit_mod_two_pow, h5 j (by omega)]
      simp only [hj, decide_true, Bool.true_and]

/-! ## Positioning, padding, flushing -/

theorem rewind_rd {W : Nat} (hW : 0 < W) {s : Stream} (h : ∀ i, s.mem i < 2 ^ W) : Rd W (rewind s) 0 :=
  ⟨hW, by simp [rewind], by simp [rewind], h, by intro j hj; exact absurd hj (Nat.not_lt_zero j)⟩

theorem rewind_wr {W : Nat} (hW : 0 < W) {s : Stream} (h : ∀ i, s.mem i < 2 ^ W) (c : Nat → Bool) : Wr W (rewind s) c 0 :=
  ⟨hW, by simp [rewind], by simp [rewind, wtell], h, by intro i hi; exact absurd hi (Nat.not_lt_zero i)⟩

theorem rseek_rd {W : Nat} (hW : 0 < W) {s : Stream} (h : ∀ i, s.mem i < 2 ^ W) (p : Nat) : Rd W (rseek W s p) p ∧ (rseek W s p).mem = s.mem := by
  have hd := Nat.div_add_mod p W
  have hm := Nat.mod_lt p hW
  unfold rseek
  dsimp only
  split
  · rename_i hn
    refine ⟨⟨by dsimp only; omega, ?_, by dsimp only; rw [Nat.mul_add]; omega, h, ?_⟩, rfl⟩
    · dsimp only
      rw [Nat.shiftRight_eq_div_pow, Nat.div_lt_iff_lt_mul (Nat.two_pow_pos _), ← pow_add, show W - p % W + p % W = W by omega]
      exact h _
    · intro j hj
      dsimp only at hj ⊢
      rw [Nat.testBit_shiftRight, ← memBit_word (W := W) s.mem (p / W) _ (by omega)]
      congr 1
      omega
  · rename_i hn
    exact ⟨⟨hW, by simp, by dsimp only; omega, h, by intro j hj; exact absurd hj (Nat.not_lt_zero j)⟩, rfl⟩

/-- Seeking for writing keeps the bits before the position. -/
theorem wseek_wr {W : Nat} (hW : 0 < W) {s : Stream} (h : ∀ i, s.mem i < 2 ^ W) (p : Nat) :
    Wr W (wseek W s p) (memBit W s.mem) p ∧ (wseek W s p).mem = s.mem ∧ (wseek W s p).ptr = p / W := by
  have hd := Nat.div_add_mod p W
  have hm := Nat.mod_lt p hW
  unfold wseek
  dsimp only
  split
  · rename_i hn
    refine ⟨⟨hm, ?_, by simp only [wtell]; omega, h, ?_⟩, rfl, rfl⟩
    · dsimp only; rw [mask_eq]; exact Nat.mod_lt _ (Nat.two_pow_pos _)
    · intro i hi
      unfold wbit
      dsimp only
      split
      · rfl
      · rename_i hl
        obtain ⟨j, rfl⟩ : ∃ j, i = W * (p / W) + j := ⟨i - W * (p / W), by omega⟩
        rw [Nat.add_sub_cancel_left, mask_eq, Nat.testBit_mod_two_pow, memBit_word _ _ _ (by omega)]
        simp only [show j < p % W by omega, decide_true, Bool.true_and]
  · rename_i hn
    refine ⟨⟨hW, by simp, by simp only [wtell]; omega, h, ?_⟩, rfl, rfl⟩
    intro i hi
    unfold wbit
    dsimp only
    rw [if_pos (by omega)]

theorem padLoop_wr {W : Nat} (hW : 0 < W) (c : Nat → Bool) (P : Nat) :
    ∀ (f : Nat) (s : Stream), s.bits ≤ f → s.buffer < 2 ^ W → s.buffer < 2 ^ s.bits → wtell W s = P → (∀ i, s.mem i < 2 ^ W) →
      (∀ i < P, wbit W s i = c i) →
      ∃ s', padLoop W f s = some s' ∧ Wr W s' c P ∧ SameOutside s.mem s'.mem s.ptr s'.ptr ∧ s.ptr ≤ s'.ptr := by
  intro f
  induction f with
  | zero =>
    intro s h0 h1 h1' h2 h3 h4
    rw [padLoop, if_neg (by omega)]
    exact ⟨s, rfl, ⟨by omega, h1', h2, h3, h4⟩, SameOutside.refl _ _ _, le_refl _⟩
  | succ f ih =>
    intro s h0 h1 h1' h2 h3 h4
    rw [padLoop]
    split
    · rename_i hge
      unfold wtell at h2
      have hw : ∀ i < P, wbit W ⟨s.bits - W, 0, s.ptr + 1, (s.writeWord s.buffer).mem⟩ i = c i := by
        intro i hi
        rw [← h4 i hi]
        unfold wbit
        dsimp only
        by_cases hl : i < W * s.ptr
        · rw [if_pos (by rw [Nat.mul_add]; omega), if_pos hl, memBit_writeWord_old _ _ _ hl]
        · obtain ⟨j, rfl⟩ : ∃ j, i = W * s.ptr + j := ⟨i - W * s.ptr, by omega⟩
          rw [if_neg hl, Nat.add_sub_cancel_left]
          split
          · rename_i hl2
            rw [Nat.mul_add] at hl2
            rw [memBit_writeWord_new _ _ _ (by omega)]
          · rename_i hl2
            rw [Nat.mul_add] at hl2
            rw [Nat.zero_testBit, Nat.testBit_lt_two_pow (lt_of_lt_of_le h1 (Nat.pow_le_pow_right (by omega) (by omega)))]
      obtain ⟨s', e, hwr, hso, hp⟩ := ih ⟨s.bits - W, 0, s.ptr + 1, (s.writeWord s.buffer).mem⟩ (by dsimp only; omega) (by simp) (by simp)
        (by simp only [wtell]; rw [Nat.mul_add]; omega) (mem_writeWord h1 h3) hw
      refine ⟨s', e, hwr, ?_, by dsimp only at hp; omega⟩
      intro i hi
      dsimp only at hp
      rw [hso i (by dsimp only; omega)]
      dsimp only [Stream.writeWord]
      rw [if_neg (by omega)]
    · rename_i hlt
      exact ⟨s, rfl, ⟨by omega, h1', h2, h3, h4⟩, SameOutside.refl _ _ _, le_refl _⟩

/-- Padding appends zero bits. -/
theorem pad_wr {W : Nat} {s : Stream} {c : Nat → Bool} {P : Nat} (h : Wr W s c P) (n : Nat) (hn : s.bits + n < 2 ^ 32) :
    ∃ s', pad W s n = some s' ∧ Wr W s' (splice P c fun _ => false) (P + n) ∧ SameOutside s.mem s'.mem s.ptr s'.ptr ∧ s.ptr ≤ s'.ptr := by
  obtain ⟨h1, h2, h3, h4, h5⟩ := h
  unfold wtell at h3
  unfold pad
  rw [Nat.mod_eq_of_lt hn]
  refine padLoop_wr (by omega) _ (P + n) (s.bits + n) ⟨s.bits + n, s.buffer, s.ptr, s.mem⟩ (le_refl _)
    (lt_of_lt_of_le h2 (Nat.pow_le_pow_right (by omega) (by omega))) (lt_of_lt_of_le h2 (Nat.pow_le_pow_right (by omega) (by dsimp only; omega)))
    (by simp only [wtell]; omega) h4 ?_
  intro i hi
  unfold splice
  split
  · rename_i hl; exact h5 i hl
  · rename_i hl
    unfold wbit
    dsimp only
    rw [if_neg (by omega), Nat.testBit_lt_two_pow (lt_of_lt_of_le h2 (Nat.pow_le_pow_right (by omega) (by omega)))]

/-- After a flush all written bits are in memory, followed by zeros up to a word boundary. -/
theorem flush_wr {W : Nat} (hW64 : W ≤ 64) {s : Stream} {c : Nat → Bool} {P : Nat} (h : Wr W s c P) :
    ∃ s' k, flush W s = some (s', k) ∧ k < W ∧ W * s'.ptr = P + k ∧ Wr W s' (splice P c fun _ => false) (P + k) ∧ (∀ i, s'.mem i < 2 ^ W) ∧
      (∀ i < P, memBit W s'.mem i = c i) ∧ SameOutside s.mem s'.mem s.ptr s'.ptr ∧ s.ptr ≤ s'.ptr := by
  have hb := h.bits
  have ht := h.tell
  unfold wtell at ht
  unfold flush
  dsimp only
  have fin : ∀ (s' : Stream) (k : Nat), (W - s.bits) % W = k → Wr W s' (splice P c fun _ => false) (P + k) → SameOutside s.mem s'.mem s.ptr s'.ptr → s.ptr ≤ s'.ptr →
      k < W ∧ W * s'.ptr = P + k ∧ Wr W s' (splice P c fun _ => false) (P + k) ∧ (∀ i, s'.mem i < 2 ^ W) ∧
      (∀ i < P, memBit W s'.mem i = c i) ∧ SameOutside s.mem s'.mem s.ptr s'.ptr ∧ s.ptr ≤ s'.ptr := by
    intro s' k hk hwr hso hp
    have hkW : k < W := by rw [← hk]; exact Nat.mod_lt _ (by omega)
    have h3 := hwr.tell
    have h1 := hwr.bits
    unfold wtell at h3
    have hal : ∃ q, P + k = W * q := by
      by_cases h0 : s.bits = 0
      · rw [h0, Nat.sub_zero, Nat.mod_self] at hk
        exact ⟨s.ptr, by omega⟩
      · rw [Nat.mod_eq_of_lt (by omega)] at hk
        exact ⟨s.ptr + 1, by rw [Nat.mul_add]; omega⟩
    obtain ⟨q, hq⟩ := hal
    have hb0 : s'.bits = 0 := by
      have e : (W * s'.ptr + s'.bits) % W = (W * q) % W := by rw [h3, hq]
      rw [Nat.mul_add_mod, Nat.mul_mod_right, Nat.mod_eq_of_lt h1] at e
      exact e
    refine ⟨hkW, by omega, hwr, hwr.mem, ?_, hso, hp⟩
    intro i hi
    have := hwr.bit i (by omega)
    rw [wbit, if_pos (by omega), splice, if_pos hi] at this
    exact this
  split
  · have hlt : (W - s.bits) % W < W := Nat.mod_lt _ (by omega)
    obtain ⟨s', e, hwr, hso, hp⟩ := pad_wr h ((W - s.bits) % W) (by omega)
    exact ⟨s', _, by rw [e]; rfl, fin s' _ rfl hwr hso hp⟩
  · rename_i h0
    have h0' : (W - s.bits) % W = 0 := by omega
    refine ⟨s, _, rfl, fin s _ rfl ?_ (SameOutside.refl _ _ _) (le_refl _)⟩
    rw [h0', Nat.add_zero]
    exact h.congr fun i hi => by rw [splice, if_pos hi]

end Verif.Zfp

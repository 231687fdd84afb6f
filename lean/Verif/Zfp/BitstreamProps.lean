import Verif.Zfp.Bitstream

/-! # C32, C33: bit streams return what was written -/

namespace Verif.Zfp

/-- One call of the writing interface: `stream_write_bit` or `stream_write_bits`. -/
inductive WOp
  | bit (b : Bool)
  | bits (value n : Nat)

/-- The arguments are in range: a 64 bit value, at most 64 bits. -/
def WOp.ok : WOp → Prop
  | .bit _ => True
  | .bits v n => v < 2 ^ 64 ∧ n ≤ 64

/-- Number of bits of a field. -/
def WOp.width : WOp → Nat
  | .bit _ => 1
  | .bits _ n => n

/-- The value a reader expects for a field. -/
def WOp.value : WOp → Nat
  | .bit b => b.toNat
  | .bits v n => v % 2 ^ n

/-- The bits of a field in stream order, lowest first. -/
def WOp.stream : WOp → List Bool
  | .bit b => [b]
  | .bits v n => bitsOf v n

/-- The calls one after the other. -/
def writeAll (W : Nat) : Stream → List WOp → Option Stream
  | s, [] => some s
  | s, .bit b :: ops => writeAll W (writeBit W s b) ops
  | s, .bits v n :: ops => (writeBits W s v n).bind fun r => writeAll W r.1 ops

/-- Reading fields of the same kinds and widths one after the other. -/
def readAll (W : Nat) : Stream → List WOp → Option (Stream × List Nat)
  | s, [] => some (s, [])
  | s, .bit _ :: ops =>
    let r := readBit W s
    (readAll W r.1 ops).map fun q => (q.1, r.2.toNat :: q.2)
  | s, .bits _ n :: ops => (readBits W s n).bind fun r => (readAll W r.1 ops).map fun q => (q.1, r.2 :: q.2)

/-- Sum of the widths. -/
def total (ops : List WOp) : Nat := (ops.map WOp.width).sum

/-- All bits in stream order. -/
def allBits (ops : List WOp) : List Bool := ops.flatMap WOp.stream

/-- The first `n` bits of the memory as a list. -/
def memBits (W : Nat) (mem : Nat → Nat) (p n : Nat) : List Bool := (List.range n).map fun j => memBit W mem (p + j)

theorem stream_length (o : WOp) : o.stream.length = o.width := by cases o <;> simp [WOp.stream, WOp.width]

theorem allBits_length (ops : List WOp) : (allBits ops).length = total ops := by
  induction ops with
  | nil => rfl
  | cons o ops ih => simp only [allBits, List.flatMap_cons, List.length_append, total, List.map_cons, List.sum_cons, stream_length] at ih ⊢; omega

theorem splice_list (P : Nat) (c : Nat → Bool) (l m : List Bool) (i : Nat) (hi : i < P + l.length + m.length) :
    splice (P + l.length) (splice P c fun j => l.getD j false) (fun j => m.getD j false) i = splice P c (fun j => (l ++ m).getD j false) i := by
  unfold splice
  by_cases h1 : i < P
  · rw [if_pos (by omega), if_pos h1, if_pos h1]
  · rw [if_neg h1, if_neg h1]
    by_cases h2 : i < P + l.length
    · rw [if_pos h2]
      exact (List.getD_append _ _ _ _ (by omega)).symm
    · rw [if_neg h2]
      beta_reduce
      rw [List.getD_append_right _ _ _ _ (by omega), Nat.sub_sub]

theorem bitsOf_getD (v n i : Nat) (h : i < n) : (bitsOf v n).getD i false = v.testBit i := by
  simp [bitsOf, h]

/-- Writing fields appends their bits. -/
theorem writeAll_wr {W : Nat} (hW64 : W ≤ 64) (ops : List WOp) : ∀ (s : Stream) (c : Nat → Bool) (P : Nat), Wr W s c P → (∀ o ∈ ops, o.ok) →
    ∃ s', writeAll W s ops = some s' ∧ Wr W s' (splice P c fun j => (allBits ops).getD j false) (P + total ops) ∧
      SameOutside s.mem s'.mem s.ptr s'.ptr ∧ s.ptr ≤ s'.ptr := by
  induction ops with
  | nil =>
    intro s c P h _
    refine ⟨s, rfl, ?_, SameOutside.refl _ _ _, le_refl _⟩
    exact h.congr fun i hi => by rw [splice, if_pos hi]
  | cons o ops ih =>
    intro s c P h hok
    have step : ∀ s1, Wr W s1 (splice P c fun j => o.stream.getD j false) (P + o.width) → SameOutside s.mem s1.mem s.ptr s1.ptr → s.ptr ≤ s1.ptr →
        ∃ s', writeAll W s1 ops = some s' ∧ Wr W s' (splice P c fun j => (allBits (o :: ops)).getD j false) (P + total (o :: ops)) ∧
        SameOutside s.mem s'.mem s.ptr s'.ptr ∧ s.ptr ≤ s'.ptr := by
      intro s1 h1 hso hp
      obtain ⟨s', e, hwr, hso', hp'⟩ := ih s1 _ _ h1 fun o ho => hok o (List.mem_cons_of_mem _ ho)
      refine ⟨s', e, ?_, hso.trans hso' hp hp', by omega⟩
      have ht : P + total (o :: ops) = P + o.width + total ops := by simp only [total, List.map_cons, List.sum_cons]; omega
      rw [ht]
      refine hwr.congr fun i hi => ?_
      rw [← stream_length] at hi ⊢
      exact splice_list P c o.stream (allBits ops) i (by rw [allBits_length]; exact hi)
    cases o with
    | bit b =>
      obtain ⟨hwr, hso, hp⟩ := writeBit_wr h b
      refine step _ (hwr.congr fun i hi => ?_) hso hp
      unfold splice
      split
      · rfl
      · rw [show i - P = 0 by omega]; rfl
    | bits v n =>
      obtain ⟨hv, hn⟩ := hok (.bits v n) List.mem_cons_self
      obtain ⟨s1, e, hwr, hso, hp⟩ := writeBits_wr hW64 h v n hn hv
      rw [writeAll, e, Option.bind_some]
      refine step _ (hwr.congr fun i hi => ?_) hso hp
      unfold splice
      split
      · rfl
      · exact (bitsOf_getD _ _ _ (by omega)).symm

/-- Reading where the memory holds the bits of the fields returns their values. -/
theorem readAll_rd {W : Nat} (hW : 0 < W) (hW64 : W ≤ 64) (mem : Nat → Nat) (ops : List WOp) : ∀ (s : Stream) (p : Nat), Rd W s p → s.mem = mem → (∀ o ∈ ops, o.ok) →
    (∀ j < total ops, memBit W mem (p + j) = (allBits ops).getD j false) →
    ∃ s', readAll W s ops = some (s', ops.map WOp.value) ∧ Rd W s' (p + total ops) ∧ s'.mem = mem := by
  induction ops with
  | nil => intro s p h hm _ _; exact ⟨s, rfl, h, hm⟩
  | cons o ops ih =>
    intro s p h hm hok hb
    have ht : total (o :: ops) = o.width + total ops := by simp only [total, List.map_cons, List.sum_cons]
    have hb1 : ∀ j < o.width, memBit W mem (p + j) = o.stream.getD j false := by
      intro j hj
      rw [hb j (by omega), allBits, List.flatMap_cons, List.getD_append _ _ _ _ (by rw [stream_length]; exact hj)]
    have hb2 : ∀ j < total ops, memBit W mem (p + o.width + j) = (allBits ops).getD j false := by
      intro j hj
      rw [Nat.add_assoc, hb _ (by omega), allBits, List.flatMap_cons, List.getD_append_right _ _ _ _ (by rw [stream_length]; omega), stream_length,
        Nat.add_sub_cancel_left]
      rfl
    cases o with
    | bit b =>
      obtain ⟨r1, r2, r3⟩ := readBit_rd hW h
      obtain ⟨s', e, hrd, hm'⟩ := ih _ (p + 1) r2 (r3.trans hm) (fun o ho => hok o (List.mem_cons_of_mem _ ho)) hb2
      rw [readAll]
      refine ⟨s', ?_, by rw [ht, ← Nat.add_assoc]; exact hrd, hm'⟩
      have hbit := hb1 0 (by simp [WOp.width])
      rw [Nat.add_zero] at hbit
      rw [e, r1, hm, hbit]
      rfl
    | bits v n =>
      obtain ⟨hv, hn⟩ := hok (.bits v n) List.mem_cons_self
      obtain ⟨s1, x, e, r2, r3, r4, r5⟩ := readBits_rd hW64 h n hn
      obtain ⟨s', e', hrd, hm'⟩ := ih s1 (p + n) r2 (r3.trans hm) (fun o ho => hok o (List.mem_cons_of_mem _ ho)) hb2
      rw [readAll, e, Option.bind_some, e']
      refine ⟨s', ?_, by rw [ht, ← Nat.add_assoc]; exact hrd, hm'⟩
      have hx : x = v % 2 ^ n := by
        refine Nat.eq_of_testBit_eq fun j => ?_
        rw [Nat.testBit_mod_two_pow]
        by_cases hj : j < n
        · rw [r5 j hj, hm, hb1 j hj, WOp.stream, bitsOf_getD _ _ _ hj]; simp [hj]
        · rw [Nat.testBit_lt_two_pow (lt_of_lt_of_le r4 (Nat.pow_le_pow_right (by omega) (by omega)))]; simp [hj]
      rw [hx]
      rfl

theorem rtell_eq {W : Nat} {s : Stream} {p : Nat} (h : Rd W s p) : rtell W s = p := by
  have := h.tell
  unfold rtell
  omega

/-! ## Property theorems -/

/-- C32. Any sequence of writes to a new stream, flushed and rewound, is read back; the write and read positions are the sum of the
widths. No shift by 64 or more occurs. -/
theorem round_trip {W : Nat} (hW : 0 < W) (hW64 : W ≤ 64) (mem : Nat → Nat) (hmem : ∀ i, mem i < 2 ^ W) (ops : List WOp) (hok : ∀ o ∈ ops, o.ok) :
    ∃ s1 s2 s3 k, writeAll W (openStream mem) ops = some s1 ∧ wtell W s1 = total ops ∧ flush W s1 = some (s2, k) ∧
      readAll W (rewind s2) ops = some (s3, ops.map WOp.value) ∧ rtell W s3 = total ops := by
  obtain ⟨s1, e1, hwr, _, _⟩ := writeAll_wr hW64 ops (openStream mem) (fun _ => false) 0 (rewind_wr (s := openStream mem) hW hmem _) hok
  obtain ⟨s2, k, e2, _, _, _, hm2, hb2, _, _⟩ := flush_wr hW64 hwr
  obtain ⟨s3, e3, hrd, _⟩ := readAll_rd hW hW64 s2.mem ops (rewind s2) 0 (rewind_rd hW hm2) rfl hok (by
    intro j hj
    rw [hb2 _ (by omega)]
    simp [splice])
  refine ⟨s1, s2, s3, k, e1, by rw [hwr.tell]; omega, e2, e3, by rw [rtell_eq hrd]; omega⟩

/-- C32: after the flush the memory holds the bits of the fields in order, whatever widths they are read with later; only the words
up to the end of the flushed data are written. -/
theorem flushed_memory {W : Nat} (hW : 0 < W) (hW64 : W ≤ 64) (mem : Nat → Nat) (hmem : ∀ i, mem i < 2 ^ W) (ops : List WOp) (hok : ∀ o ∈ ops, o.ok) :
    ∃ s1 s2 k, writeAll W (openStream mem) ops = some s1 ∧ flush W s1 = some (s2, k) ∧ memBits W s2.mem 0 (total ops) = allBits ops ∧
      W * s2.ptr = total ops + k ∧ k < W ∧ ∀ i, s2.ptr ≤ i → s2.mem i = mem i := by
  obtain ⟨s1, e1, hwr, hso, hp⟩ := writeAll_wr hW64 ops (openStream mem) (fun _ => false) 0 (rewind_wr (s := openStream mem) hW hmem _) hok
  obtain ⟨s2, k, e2, hk, hal, _, hm2, hb2, hso', hp'⟩ := flush_wr hW64 hwr
  refine ⟨s1, s2, k, e1, e2, ?_, by omega, hk, ?_⟩
  · refine List.ext_getElem (by simp [memBits, allBits_length]) fun i h1 h2 => ?_
    rw [allBits_length] at h2
    simp only [memBits, List.getElem_map, List.getElem_range, Nat.zero_add]
    rw [hb2 i (by omega)]
    simp [splice, List.getD_eq_getElem?_getD, List.getElem?_eq_getElem (show i < (allBits ops).length by rw [allBits_length]; exact h2)]
  · intro i hi
    rw [hso' i (.inr hi), hso i (.inr (by omega))]
    rfl


/-- C33: after seeking for reading to bit `p`, the next read returns the bits from `p` on. -/
theorem seek_read {W : Nat} (hW : 0 < W) (hW64 : W ≤ 64) (s : Stream) (hmem : ∀ i, s.mem i < 2 ^ W) (p n : Nat) (hn : n ≤ 64) :
    ∃ s' v, readBits W (rseek W s p) n = some (s', v) ∧ v < 2 ^ n ∧ (∀ j < n, v.testBit j = memBit W s.mem (p + j)) ∧ rtell W s' = p + n := by
  obtain ⟨h1, h2⟩ := rseek_rd hW hmem p
  obtain ⟨s', v, e, hrd, _, hv, hb⟩ := readBits_rd hW64 h1 n hn
  exact ⟨s', v, e, hv, by rw [h2] at hb; exact hb, rtell_eq hrd⟩

/-- C33: seeking for writing to bit `p`, writing any fields and flushing leaves the bits before `p` and every word after the
flushed data as they were, and stores the new bits from `p` on. -/
theorem seek_write {W : Nat} (hW : 0 < W) (hW64 : W ≤ 64) (s : Stream) (hmem : ∀ i, s.mem i < 2 ^ W) (p : Nat) (ops : List WOp) (hok : ∀ o ∈ ops, o.ok) :
    ∃ s1 s2 k, writeAll W (wseek W s p) ops = some s1 ∧ flush W s1 = some (s2, k) ∧ (∀ i < p, memBit W s2.mem i = memBit W s.mem i) ∧
      memBits W s2.mem p (total ops) = allBits ops ∧ W * s2.ptr = p + total ops + k ∧ k < W ∧ ∀ i, s2.ptr ≤ i → s2.mem i = s.mem i := by
  obtain ⟨h1, h2, _⟩ := wseek_wr hW hmem p
  obtain ⟨s1, e1, hwr, hso, hp⟩ := writeAll_wr hW64 ops _ _ _ h1 hok
  obtain ⟨s2, k, e2, hk, hal, _, hm2, hb2, hso', hp'⟩ := flush_wr hW64 hwr
  refine ⟨s1, s2, k, e1, e2, ?_, ?_, hal, hk, ?_⟩
  · intro i hi
    rw [hb2 i (by omega), splice, if_pos hi]
  · refine List.ext_getElem (by simp [memBits, allBits_length]) fun i h1 h2 => ?_
    rw [allBits_length] at h2
    simp only [memBits, List.getElem_map, List.getElem_range]
    rw [hb2 _ (by omega)]
    simp [splice, List.getD_eq_getElem?_getD, List.getElem?_eq_getElem (show i < (allBits ops).length by rw [allBits_length]; exact h2)]
  · intro i hi
    rw [hso' i (.inr hi), hso i (.inr (by omega)), h2]

/-- Skipping `n` bits moves the read position by `n`. -/
theorem skip_tell {W : Nat} (hW : 0 < W) {s : Stream} {p : Nat} (h : Rd W s p) (n : Nat) : Rd W (skip W s n) (p + n) ∧ (skip W s n).mem = s.mem := by
  unfold skip
  rw [rtell_eq h]
  exact rseek_rd hW h.mem _

/-- Aligning moves the read position to the next word boundary and returns the number of bits skipped. -/
theorem align_tell {W : Nat} (hW : 0 < W) {s : Stream} {p : Nat} (h : Rd W s p) :
    (align W s).2 < W ∧ Rd W (align W s).1 (p + (align W s).2) ∧ W ∣ p + (align W s).2 := by
  refine ⟨h.bits, ?_, ⟨s.ptr, h.tell⟩⟩
  unfold align
  dsimp only
  split
  · exact (skip_tell hW h _).1
  · rename_i h0
    have : s.bits = 0 := by omega
    rw [this]
    exact h

/-- stream_copy (bitstream.c:387-400); the first argument bounds the number of turns. -/
def copyLoop (W : Nat) : Nat → Stream → Stream → Nat → Option (Stream × Stream)
  | 0, _, _, _ => none
  | f + 1, dst, src, n =>
    if n > W then
      (readBits W src W).bind fun r => (writeBits W dst (r.2 % 2 ^ W) W).bind fun q => copyLoop W f q.1 r.1 (n - W)
    else if n ≠ 0 then
      (readBits W src n).bind fun r => (writeBits W dst (r.2 % 2 ^ W) n).map fun q => (q.1, r.1)
    else some (dst, src)

/-- Copying appends the next `n` bits of the source, for any `n`. -/
theorem copy_correct {W : Nat} (hW : 0 < W) (hW64 : W ≤ 64) (mem : Nat → Nat) : ∀ (f n : Nat), n < f → ∀ (dst src : Stream) (c : Nat → Bool) (P p : Nat),
    Wr W dst c P → Rd W src p → src.mem = mem →
    ∃ dst' src', copyLoop W f dst src n = some (dst', src') ∧ Wr W dst' (splice P c fun j => memBit W mem (p + j)) (P + n) ∧ Rd W src' (p + n) := by
  intro f
  induction f with
  | zero => intro n h; omega
  | succ f ih =>
    intro n hn dst src c P p hw hr hm
    have one : ∀ k, 0 < k → k ≤ W → ∃ src' v dst' r, readBits W src k = some (src', v) ∧ writeBits W dst (v % 2 ^ W) k = some (dst', r) ∧
        Wr W dst' (splice P c fun j => memBit W mem (p + j)) (P + k) ∧ Rd W src' (p + k) ∧ src'.mem = mem := by
      intro k hk0 hk
      obtain ⟨src', v, e, hrd, hm', hv, hb⟩ := readBits_rd hW64 hr k (by omega)
      have hvW : v % 2 ^ W = v := Nat.mod_eq_of_lt (lt_of_lt_of_le hv (Nat.pow_le_pow_right (by omega) hk))
      obtain ⟨dst', e', hwr, _, _⟩ := writeBits_wr hW64 hw (v % 2 ^ W) k (by omega) (by
        rw [hvW]; exact lt_of_lt_of_le hv (Nat.pow_le_pow_right (by omega) (by omega)))
      refine ⟨src', v, dst', _, e, e', hwr.congr fun i hi => ?_, hrd, hm'.trans hm⟩
      unfold splice
      split
      · rfl
      · rw [hvW, hb _ (by omega), hm]
    rw [copyLoop]
    split
    · rename_i hgt
      obtain ⟨src', v, dst', r, e, e', hwr, hrd, hm'⟩ := one W hW (le_refl _)
      rw [e, Option.bind_some]
      dsimp only
      rw [e', Option.bind_some]
      obtain ⟨d2, s2, e2, hwr2, hrd2⟩ := ih (n - W) (by omega) dst' src' _ _ _ hwr hrd hm'
      refine ⟨d2, s2, e2, ?_, by rw [show p + n = p + W + (n - W) by omega]; exact hrd2⟩
      rw [show P + n = P + W + (n - W) by omega]
      refine hwr2.congr fun i hi => ?_
      unfold splice
      by_cases h1 : i < P
      · rw [if_pos (by omega), if_pos h1]
      · rw [if_neg h1]
        split
        · rfl
        · beta_reduce
          rw [show p + W + (i - (P + W)) = p + (i - P) by omega]
    · split
      · rename_i h1 h2
        obtain ⟨src', v, dst', r, e, e', hwr, hrd, hm'⟩ := one n (by omega) (by omega)
        rw [e, Option.bind_some]
        dsimp only
        rw [e', Option.map_some]
        exact ⟨_, _, rfl, hwr, hrd⟩
      · rename_i h1 h2
        have : n = 0 := by omega
        subst this
        exact ⟨_, _, rfl, hw.congr fun i hi => by rw [splice, if_pos hi], hr⟩

/-- The hypotheses are met: three fields in a stream of bytes. -/
example : ∃ s1 s2 s3 k, writeAll 8 (openStream fun _ => 0) [.bits 5 3, .bit true, .bits (2 ^ 63 + 1) 64] = some s1 ∧ wtell 8 s1 = 68 ∧ flush 8 s1 = some (s2, k) ∧
    readAll 8 (rewind s2) [.bits 5 3, .bit true, .bits (2 ^ 63 + 1) 64] = some (s3, [5, 1, 2 ^ 63 + 1]) ∧ rtell 8 s3 = 68 :=
  round_trip (by omega) (by omega) (fun _ => 0) (by simp) [.bits 5 3, .bit true, .bits (2 ^ 63 + 1) 64] (by simp [WOp.ok])

end Verif.Zfp

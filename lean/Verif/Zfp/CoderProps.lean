import Verif.Zfp.CoderDec
import Mathlib.Tactic.NormNum

/-! # The embedded coder: round trip, budget, progressive decoding (C36, C37) -/

namespace Verif.Zfp

/-! ## Blocks and sequences of blocks -/

/-- A block handed to the coder: its coefficients, bit budget and precision. -/
structure Blk where
  data : List Nat
  maxbits : Nat
  maxprec : Nat

/-- The choice of coder (encode.c:149-152): the code for at most 64 values, or the code for larger blocks. -/
def encodeBlk (W intprec : Nat) (s : Stream) (b : Blk) : Option (Stream × Nat) :=
  if b.data.length ≤ 64 then encodeInts W intprec s b.maxbits b.maxprec b.data else encodeManyInts W intprec s b.maxbits b.maxprec b.data

/-- The choice of decoder (decode.c:126-129). -/
def decodeBlk (W intprec : Nat) (s : Stream) (size maxbits maxprec : Nat) : Option (Stream × Nat × List Nat) :=
  if size ≤ 64 then decodeInts W intprec s maxbits maxprec size else decodeManyInts W intprec s maxbits maxprec size

/-- Blocks coded one after the other, as by compress.c; returns the bit counts. -/
def encodeBlks (W intprec : Nat) : Stream → List Blk → Option (Stream × List Nat)
  | s, [] => some (s, [])
  | s, b :: bs => (encodeBlk W intprec s b).bind fun (s, u) => (encodeBlks W intprec s bs).map fun (s, us) => (s, u :: us)

/-- Blocks decoded one after the other (decompress.c); of the blocks only size, budget and precision are used. -/
def decodeBlks (W intprec : Nat) : Stream → List (Nat × Nat × Nat) → Option (Stream × List (Nat × List Nat))
  | s, [] => some (s, [])
  | s, (size, mb, mp) :: bs =>
    (decodeBlk W intprec s size mb mp).bind fun (s, u, d) => (decodeBlks W intprec s bs).map fun (s, r) => (s, (u, d) :: r)

/-- Coefficients are words of `intprec` bits and the block is not empty. -/
def Blk.ok (intprec : Nat) (b : Blk) : Prop := b.data ≠ [] ∧ ∀ d ∈ b.data, d < 2 ^ intprec

/-- Bits that suffice for the `n` highest planes of a block of `size` values. -/
def enough (size n : Nat) : Nat := n * size + (size - 1)

/-! ## One block -/

theorem encodeBlk_spec {W intprec : Nat} (hW64 : W ≤ 64) (b : Blk) (s : Stream) (hs : Wok W s) :
    ∃ s', encodeBlk W intprec s b = some (s', ((fullCode b.data (intprec - b.maxprec) intprec 0).take b.maxbits).length) ∧
      Emits W s ((fullCode b.data (intprec - b.maxprec) intprec 0).take b.maxbits) s' := by
  unfold encodeBlk
  split
  · rename_i h
    obtain ⟨s', b', e, h1, h2⟩ := encPlanes_take (encPlane_ok hW64 b.data h) (intprec - b.maxprec) intprec b.maxbits 0 s hs (by omega)
    exact ⟨s', by rw [encodeInts, e, Option.map_some, ← h2], h1⟩
  · obtain ⟨s', b', e, h1, h2⟩ := encPlanes_take (encManyPlane_ok (W := W) b.data) (intprec - b.maxprec) intprec b.maxbits 0 s hs (by omega)
    exact ⟨s', by rw [encodeManyInts, e, Option.map_some, ← h2], h1⟩

theorem getD_replicate (size i : Nat) : (List.replicate size 0).getD i 0 = 0 := by
  rw [List.getD_eq_getElem?_getD, List.getElem?_replicate]
  split <;> rfl

theorem getD_lt {data : List Nat} {M : Nat} (hM : 0 < M) (h : ∀ d ∈ data, d < M) (i : Nat) : data.getD i 0 < M := by
  by_cases hi : i < data.length
  · rw [List.getD_eq_getElem?_getD, List.getElem?_eq_getElem hi]
    exact h _ (List.getElem_mem hi)
  · rw [List.getD_eq_getElem?_getD, List.getElem?_eq_none (by omega)]
    exact hM

/-- What a decoder given `maxbits` finds in memory, whatever is there; and what it finds if a code is there. -/
theorem decodeBlk_spec {W intprec : Nat} (hW : 0 < W) (hW64 : W ≤ 64) (size maxbits maxprec : Nat) (hsize : 0 < size) (mem : Nat → Nat) (s : Stream) (p : Nat)
    (hs : At W mem s p) :
    ∃ s' used out, decodeBlk W intprec s size maxbits maxprec = some (s', used, out) ∧ used ≤ maxbits ∧ At W mem s' (p + used) ∧ out.length = size ∧
      (∀ d ∈ out, d < 2 ^ intprec ∧ 2 ^ (intprec - maxprec) ∣ d) ∧
      ∀ data : List Nat, data.length = size → (∀ d ∈ data, d < 2 ^ intprec) → Holds W mem p ((fullCode data (intprec - maxprec) intprec 0).take maxbits) →
        used = ((fullCode data (intprec - maxprec) intprec 0).take maxbits).length ∧
        ∀ κ, intprec - maxprec ≤ κ → κ ≤ intprec → enough size (intprec - κ) ≤ maxbits → ∀ i, out.getD i 0 / 2 ^ κ = data.getD i 0 / 2 ^ κ := by
  have core : ∀ plane, DecPlaneOk W intprec size plane → ∃ s' b' out, decPlanes plane (intprec - maxprec) intprec s maxbits 0 (List.replicate size 0) = some (s', b', out) ∧
      maxbits - b' ≤ maxbits ∧ At W mem s' (p + (maxbits - b')) ∧ out.length = size ∧
      (∀ d ∈ out, d < 2 ^ intprec ∧ 2 ^ (intprec - maxprec) ∣ d) ∧
      ∀ data : List Nat, data.length = size → (∀ d ∈ data, d < 2 ^ intprec) → Holds W mem p ((fullCode data (intprec - maxprec) intprec 0).take maxbits) →
        maxbits - b' = ((fullCode data (intprec - maxprec) intprec 0).take maxbits).length ∧
        ∀ κ, intprec - maxprec ≤ κ → κ ≤ intprec → enough size (intprec - κ) ≤ maxbits → ∀ i, out.getD i 0 / 2 ^ κ = data.getD i 0 / 2 ^ κ := by
    intro plane hp
    obtain ⟨s', b', out, e, h1, h2, h3, h4, h5, _, h6⟩ := decPlanes_spec hp hsize mem (intprec - maxprec) intprec s maxbits 0 (List.replicate size 0) p hs
      (by omega) (by simp) (by intro d hd; rw [(List.mem_replicate.1 hd).2]; exact Nat.two_pow_pos _)
      (by intro d hd; rw [(List.mem_replicate.1 hd).2]; exact dvd_zero _) (le_refl _) (by omega)
    refine ⟨s', b', out, e, by omega, h2, h3, fun d hd => ⟨h4 d hd, h5 d hd⟩, ?_⟩
    intro data hl hd hh
    obtain ⟨g1, g2⟩ := h6 data hl (by
      intro i
      rw [getD_replicate, Nat.div_eq_of_lt (getD_lt (Nat.two_pow_pos _) hd i), Nat.zero_mul]) hh
    refine ⟨by rw [List.length_take]; omega, fun κ k1 k2 k3 i => g2 κ k1 k2 ?_ i⟩
    have hne : data ≠ [] := by rintro rfl; simp at hl; omega
    have := fullCode_length data hne κ intprec 0 (by omega)
    unfold enough at k3
    rw [hl] at this
    omega
  unfold decodeBlk
  split
  · rename_i h
    obtain ⟨s', b', out, e, h⟩ := core _ (decPlane_ok hW hW64 intprec size h)
    exact ⟨s', maxbits - b', out, by rw [decodeInts, e, Option.map_some], h⟩
  · obtain ⟨s', b', out, e, h⟩ := core _ (decManyPlane_ok hW intprec size)
    exact ⟨s', maxbits - b', out, by rw [decodeManyInts, e, Option.map_some], h⟩

/-! ## Sequences -/

/-- The codes of all blocks. -/
def codes (intprec : Nat) (bs : List Blk) : List Bool := bs.flatMap fun b => (fullCode b.data (intprec - b.maxprec) intprec 0).take b.maxbits

theorem encodeBlks_spec {W intprec : Nat} (hW64 : W ≤ 64) (bs : List Blk) : ∀ (s : Stream), Wok W s →
    ∃ s', encodeBlks W intprec s bs = some (s', bs.map fun b => ((fullCode b.data (intprec - b.maxprec) intprec 0).take b.maxbits).length) ∧
      Emits W s (codes intprec bs) s' := by
  induction bs with
  | nil => intro s _; exact ⟨s, rfl, Emits.refl W s⟩
  | cons b bs ih =>
    intro s hs
    obtain ⟨s1, e1, h1⟩ := encodeBlk_spec (intprec := intprec) hW64 b s hs
    obtain ⟨s2, e2, h2⟩ := ih s1 (h1.ok hs)
    refine ⟨s2, ?_, ?_⟩
    · rw [encodeBlks, e1, Option.bind_some]
      dsimp only
      rw [e2]
      rfl
    · have := h1.trans h2
      simpa [codes] using this

/-- What the decoder must return for a block: a bit count within the budget; every plane the budget surely covers, exactly; zeros below the
precision. -/
structure Decoded (intprec : Nat) (b : Blk) (r : Nat × List Nat) : Prop where
  budget : r.1 ≤ b.maxbits
  size : r.2.length = b.data.length
  planes : ∀ κ, intprec - b.maxprec ≤ κ → κ ≤ intprec → enough b.data.length (intprec - κ) ≤ b.maxbits →
    r.2.map (· / 2 ^ κ) = b.data.map (· / 2 ^ κ)
  low : ∀ d ∈ r.2, d < 2 ^ intprec ∧ 2 ^ (intprec - b.maxprec) ∣ d

theorem map_div_eq {a b : List Nat} (hl : a.length = b.length) (M : Nat) (h : ∀ i, a.getD i 0 / M = b.getD i 0 / M) : a.map (· / M) = b.map (· / M) := by
  refine List.ext_getElem (by simp [hl]) fun i h1 h2 => ?_
  have := h i
  simp only [List.length_map] at h1 h2
  rw [List.getD_eq_getElem?_getD, List.getD_eq_getElem?_getD, List.getElem?_eq_getElem h1, List.getElem?_eq_getElem h2] at this
  simpa using this

theorem decodeBlks_spec {W intprec : Nat} (hW : 0 < W) (hW64 : W ≤ 64) (mem : Nat → Nat) (bs : List Blk) : ∀ (s : Stream) (p : Nat), At W mem s p →
    (∀ b ∈ bs, b.ok intprec) → Holds W mem p (codes intprec bs) →
    ∃ s' r, decodeBlks W intprec s (bs.map fun b => (b.data.length, b.maxbits, b.maxprec)) = some (s', r) ∧ At W mem s' (p + (codes intprec bs).length) ∧
      r.map Prod.fst = (bs.map fun b => ((fullCode b.data (intprec - b.maxprec) intprec 0).take b.maxbits).length) ∧ List.Forall₂ (Decoded intprec) bs r := by
  induction bs with
  | nil => intro s p hs _ _; exact ⟨s, [], rfl, hs, rfl, .nil⟩
  | cons b bs ih =>
    intro s p hs hok hh
    obtain ⟨hne, hd⟩ := hok b (by simp)
    have hc : codes intprec (b :: bs) = (fullCode b.data (intprec - b.maxprec) intprec 0).take b.maxbits ++ codes intprec bs := by simp [codes]
    rw [hc, holds_append] at hh
    obtain ⟨s1, u, out, e1, h1, h2, h3, h4, h5⟩ := decodeBlk_spec (intprec := intprec) hW hW64 b.data.length b.maxbits b.maxprec (List.length_pos_iff.2 hne) mem s p hs
    obtain ⟨g1, g2⟩ := h5 b.data rfl hd hh.1
    obtain ⟨s2, r, e2, k1, k2, k3⟩ := ih s1 (p + u) h2 (fun b' hb' => hok b' (by simp [hb'])) (by rw [g1]; exact hh.2)
    refine ⟨s2, (u, out) :: r, ?_, ?_, ?_, .cons ⟨h1, h3, fun κ a b c => map_div_eq h3 _ (g2 κ a b c), h4⟩ k3⟩
    · rw [List.map_cons, decodeBlks, e1, Option.bind_some]
      dsimp only
      rw [e2]
      rfl
    · rw [hc, List.length_append, ← Nat.add_assoc, ← g1]
      exact k1
    · rw [List.map_cons, List.map_cons, k2, g1]

theorem flushed_holds {W : Nat} (hW64 : W ≤ 64) {s s' : Stream} {l : List Bool} {c : Nat → Bool} {P : Nat} (h : Wr W s c P) (he : Emits W s l s') :
    ∃ s2 k, flush W s' = some (s2, k) ∧ (∀ i, s2.mem i < 2 ^ W) ∧ Holds W s2.mem P l ∧ wtell W s' = P + l.length ∧ ∀ i < P, memBit W s2.mem i = c i := by
  obtain ⟨h1, h2, h3⟩ := he c P h
  obtain ⟨s2, k, e2, _, _, _, hm2, hb2, _, _⟩ := flush_wr hW64 h1
  refine ⟨s2, k, e2, hm2, fun j hj => ?_, h1.tell, fun i hi => ?_⟩
  · rw [hb2 _ (by omega), splice, if_neg (by omega), Nat.add_sub_cancel_left]
  · rw [hb2 _ (by omega), splice, if_pos hi]

/-! ## Property theorems -/

/-- C36 and C37. Any sequence of blocks of any sizes, written with any budgets and precisions to a new stream and decoded with the same
budgets and precisions: encoder and decoder agree on the number of bits of every block, no budget is exceeded, and the decoded
coefficients agree with the given ones in all planes that the budget covers whatever the contents. -/
theorem blocks_round_trip {W intprec : Nat} (hW : 0 < W) (hW64 : W ≤ 64) (mem : Nat → Nat) (hmem : ∀ i, mem i < 2 ^ W) (bs : List Blk)
    (hok : ∀ b ∈ bs, b.ok intprec) :
    ∃ s1 s2 s3 k used r, encodeBlks W intprec (openStream mem) bs = some (s1, used) ∧ flush W s1 = some (s2, k) ∧
      decodeBlks W intprec (rewind s2) (bs.map fun b => (b.data.length, b.maxbits, b.maxprec)) = some (s3, r) ∧
      r.map Prod.fst = used ∧ wtell W s1 = used.sum ∧ rtell W s3 = used.sum ∧ List.Forall₂ (Decoded intprec) bs r := by
  have hwr := rewind_wr (s := openStream mem) hW hmem (fun _ => false)
  obtain ⟨s1, e1, h1⟩ := encodeBlks_spec (intprec := intprec) hW64 bs (openStream mem) ⟨_, _, hwr⟩
  obtain ⟨s2, k, e2, hm2, hh, hw, _⟩ := flushed_holds hW64 hwr h1
  obtain ⟨s3, r, e3, h3, h4, h5⟩ := decodeBlks_spec hW hW64 s2.mem bs (rewind s2) 0 ⟨rewind_rd hW hm2, rfl⟩ hok hh
  have hsum : (codes intprec bs).length = (bs.map fun b => ((fullCode b.data (intprec - b.maxprec) intprec 0).take b.maxbits).length).sum := by
    simp only [codes, List.length_flatMap]
  exact ⟨s1, s2, s3, k, _, r, e1, e2, e3, h4, by rw [hw, hsum, Nat.zero_add], by rw [rtell_eq h3.1, hsum, Nat.zero_add], h5⟩

/-- C36: with enough bits for the kept planes, the decoder returns the coefficients with the planes below the precision cleared; with full
precision exactly the coefficients. -/
theorem decoded_enough {intprec : Nat} {b : Blk} {r : Nat × List Nat} (h : Decoded intprec b r)
    (hb : enough b.data.length (min b.maxprec intprec) ≤ b.maxbits) : r.2 = b.data.map fun d => d / 2 ^ (intprec - b.maxprec) * 2 ^ (intprec - b.maxprec) := by
  have hp := h.planes (intprec - b.maxprec) (le_refl _) (by omega) (by rwa [show intprec - (intprec - b.maxprec) = min b.maxprec intprec by omega])
  refine List.ext_getElem (by simp [h.size]) fun i h1 h2 => ?_
  have e : (r.2.map (· / 2 ^ (intprec - b.maxprec)))[i]'(by simpa using h1) = (b.data.map (· / 2 ^ (intprec - b.maxprec)))[i]'(by simpa using h2) := by
    simp only [hp]
  rw [List.getElem_map, List.getElem_map] at e
  rw [List.getElem_map, ← e]
  exact (Nat.div_mul_cancel (h.low _ (List.getElem_mem h1)).2).symm

theorem decoded_exact {intprec : Nat} {b : Blk} {r : Nat × List Nat} (h : Decoded intprec b r) (hprec : intprec ≤ b.maxprec)
    (hb : enough b.data.length intprec ≤ b.maxbits) : r.2 = b.data := by
  rw [decoded_enough h (by rwa [Nat.min_eq_right hprec]), Nat.sub_eq_zero_of_le hprec]
  simp

/-- The maximal budget of the library, ZFP_MAX_BITS = 16651 (zfp.h), less the exponent bits of a double, covers every block of 4^d doubles
completely. -/
theorem max_bits_suffices (d : Nat) (hd : d ≤ 4) : enough (4 ^ d) 64 + 12 ≤ 16651 := by
  have : (4:Nat) ^ d ≤ 4 ^ 4 := Nat.pow_le_pow_right (by omega) hd
  unfold enough
  omega

/-- The bound is attained: 16651 bits are needed for four-dimensional blocks. -/
theorem max_bits_tight : enough (4 ^ 4) 64 + 12 = 16651 := rfl

/-- C37, embedded coding: a smaller budget gives a prefix of the bits of a larger one. -/
theorem embedded {W intprec : Nat} (hW : 0 < W) (hW64 : W ≤ 64) (mem : Nat → Nat) (hmem : ∀ i, mem i < 2 ^ W) (data : List Nat)
    (maxprec m1 m2 : Nat) (hm : m1 ≤ m2) :
    ∃ s1 s1' u1 k1 s2 s2' u2 k2, encodeBlk W intprec (openStream mem) ⟨data, m1, maxprec⟩ = some (s1, u1) ∧ flush W s1 = some (s1', k1) ∧
      encodeBlk W intprec (openStream mem) ⟨data, m2, maxprec⟩ = some (s2, u2) ∧ flush W s2 = some (s2', k2) ∧
      u1 = min m1 u2 ∧ memBits W s1'.mem 0 u1 = memBits W s2'.mem 0 u1 := by
  have hwr := rewind_wr (s := openStream mem) hW hmem (fun _ => false)
  obtain ⟨s1, e1, h1⟩ := encodeBlk_spec (intprec := intprec) hW64 ⟨data, m1, maxprec⟩ (openStream mem) ⟨_, _, hwr⟩
  obtain ⟨s2, e2, h2⟩ := encodeBlk_spec (intprec := intprec) hW64 ⟨data, m2, maxprec⟩ (openStream mem) ⟨_, _, hwr⟩
  obtain ⟨s1', k1, f1, _, g1, _⟩ := flushed_holds hW64 hwr h1
  obtain ⟨s2', k2, f2, _, g2, _⟩ := flushed_holds hW64 hwr h2
  refine ⟨s1, s1', _, k1, s2, s2', _, k2, e1, f1, e2, f2, ?_, ?_⟩
  · simp only [List.length_take]; omega
  · refine List.map_congr_left fun j hj => ?_
    have hj := List.mem_range.1 hj
    rw [g1 j hj, g2 j (by simp only [List.length_take] at hj ⊢; omega)]
    rw [List.length_take] at hj
    dsimp only at hj ⊢
    rw [List.getD_eq_getElem?_getD, List.getD_eq_getElem?_getD, List.getElem?_take_of_lt (by omega), List.getElem?_take_of_lt (by omega)]

/-- C37, decoding with a smaller budget than the encoder's: the decoder stays within its budget and returns every plane its budget surely
covers exactly. -/
theorem progressive {W intprec : Nat} (hW : 0 < W) (hW64 : W ≤ 64) (mem : Nat → Nat) (hmem : ∀ i, mem i < 2 ^ W) (data : List Nat)
    (maxprec m1 m2 : Nat) (hm : m2 ≤ m1) (hok : (Blk.mk data m2 maxprec).ok intprec) :
    ∃ s1 s2 s3 u1 k u2 out, encodeBlk W intprec (openStream mem) ⟨data, m1, maxprec⟩ = some (s1, u1) ∧ flush W s1 = some (s2, k) ∧
      decodeBlk W intprec (rewind s2) data.length m2 maxprec = some (s3, u2, out) ∧ u2 = min m2 u1 ∧ Decoded intprec ⟨data, m2, maxprec⟩ (u2, out) := by
  have hwr := rewind_wr (s := openStream mem) hW hmem (fun _ => false)
  obtain ⟨s1, e1, h1⟩ := encodeBlk_spec (intprec := intprec) hW64 ⟨data, m1, maxprec⟩ (openStream mem) ⟨_, _, hwr⟩
  obtain ⟨s2, k, e2, hm2, hh, _, _⟩ := flushed_holds hW64 hwr h1
  obtain ⟨hne, hd⟩ := hok
  obtain ⟨s3, u, out, e3, g1, g2, g3, g4, g5⟩ := decodeBlk_spec (intprec := intprec) hW hW64 data.length m2 maxprec (List.length_pos_iff.2 hne) s2.mem (rewind s2) 0
    ⟨rewind_rd hW hm2, rfl⟩
  obtain ⟨c1, c2⟩ := g5 data rfl hd (by
    intro j hj
    rw [List.length_take] at hj
    rw [hh j (by rw [List.length_take]; dsimp only; omega)]
    dsimp only
    rw [List.getD_eq_getElem?_getD, List.getD_eq_getElem?_getD, List.getElem?_take_of_lt (by omega), List.getElem?_take_of_lt (by omega)])
  refine ⟨s1, s2, s3, _, k, u, out, e1, e2, e3, ?_, ⟨g1, g3, fun κ a b c => map_div_eq g3 _ (c2 κ a b c), g4⟩⟩
  rw [c1]
  simp only [List.length_take]
  omega

/-- C37: on any memory, even one that holds no code, the decoder finishes, reads at most its budget, and every access stays inside the
block. -/
theorem decoder_total {W intprec : Nat} (hW : 0 < W) (hW64 : W ≤ 64) (size maxbits maxprec : Nat) (hsize : 0 < size) (s : Stream) (p : Nat) (hs : Rd W s p) :
    ∃ s' used out, decodeBlk W intprec s size maxbits maxprec = some (s', used, out) ∧ used ≤ maxbits ∧ Rd W s' (p + used) ∧ s'.mem = s.mem ∧
      out.length = size ∧ ∀ d ∈ out, d < 2 ^ intprec := by
  obtain ⟨s', u, out, e, h1, h2, h3, h4, _⟩ := decodeBlk_spec (intprec := intprec) hW hW64 size maxbits maxprec hsize s.mem s p ⟨hs, rfl⟩
  exact ⟨s', u, out, e, h1, h2.1, h2.2, h3, fun d hd => (h4 d hd).1⟩

/-! ## Cases that meet the hypotheses -/

/-- Blocks of 4 and of 65 values; the second with a small budget. -/
def someBlks : List Blk := [⟨[5, 0, 2, 7], 15, 8⟩, ⟨(List.range 65).map (· % 16), 70, 8⟩, ⟨[255, 3, 1, 9], 100, 2⟩]

example : ∀ b ∈ someBlks, b.ok 8 := by
  intro b hb
  simp only [someBlks, List.mem_cons, List.not_mem_nil, or_false] at hb
  rcases hb with rfl | rfl | rfl <;> exact ⟨by decide, by decide⟩

/-- The coder runs on a stream of 8-bit words. -/
example : ((encodeBlks 8 8 (openStream fun _ => 0) someBlks).bind fun (s, used) => (flush 8 s).map fun (s, k) => (used, k, s.mem 0, s.mem 1, s.ptr)).isSome = true := by decide +kernel

example : enough 4 (min 2 8) ≤ 100 := by decide

example : ∀ i, (fun _ : Nat => 0) i < 2 ^ 8 := fun _ => by norm_num

example : Rd 8 (openStream fun _ => 77) 0 := rewind_rd (s := openStream fun _ => 77) (by decide) (fun _ => by norm_num [openStream])

end Verif.Zfp

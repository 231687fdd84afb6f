import Verif.Zfp.Header

/-! # The header: round trip and rejection (C39), and what the three mode settings promise (C56) -/

namespace Verif.Zfp

/-! ## Property theorems -/

/-- C39. A header with any choice of parts, for any field and parameters it can describe, written anywhere in a stream, flushed, and read
from there into any field and parameters: the chosen parts are read back unchanged, the others are left alone, and the reader stops where the
writer stopped. -/
theorem header_round_trip {W : Nat} (hW64 : W ≤ 64) {s : Stream} {c : Nat → Bool} {P : Nat} (hs : Wr W s c P) {f : Field} (hf : f.Fits) {Z : Params} (hZ : Z.Fits)
    (k : Mask) (f0 : Field) (Z0 : Params) :
    ∃ s1 n s2 j, writeHeader W s f Z k = some (s1, n) ∧ n ≤ 148 ∧ wtell W s1 = P + n ∧ flush W s1 = some (s2, j) ∧
      ∃ s3, readHeader W (rseek W s2 P) f0 Z0 k = some (s3, if k.fmeta then f.unstrided else f0, if k.mode then Z else Z0, n) ∧ rtell W s3 = P + n := by
  obtain ⟨mode, e, hp, hnull, hm64, hshort⟩ := mode_round_trip hZ
  have hfm := (metadata_round_trip hf).1
  obtain ⟨s1, e1, h1⟩ := writeHeader_spec hW64 ⟨_, _, hs⟩ (lt_of_lt_of_le hfm (by norm_num)) e hm64 k
  obtain ⟨s2, j, e2, hm2, hh, hw, _⟩ := flushed_holds hW64 hs h1
  obtain ⟨r1, r2⟩ := rseek_rd (by have := hs.bits; omega) (s := s2) hm2 P
  obtain ⟨s3, e3, h3⟩ := readHeader_spec hW64 ⟨r1, r2⟩ (f0 := f0) (Z0 := Z0) hf hp hnull hm64 hshort k hh
  refine ⟨s1, _, s2, j, e1, ?_, hw, e2, s3, e3, rtell_eq h3.1⟩
  unfold headerCode
  rw [List.length_append, List.length_append]
  have a1 : (if k.magic then bytesCode magicBytes else []).length ≤ 32 := by split <;> simp [magic_length]
  have a2 : (if k.fmeta then bitsOf f.metadata 52 else []).length ≤ 52 := by split <;> simp
  have a3 : (if k.mode then bitsOf mode (if mode > 4094 then 64 else 12) else []).length ≤ 64 := by split <;> [skip; simp]; rw [bitsOf_length]; split <;> omega
  omega

theorem checkBytes_sound {W : Nat} (hW64 : W ≤ 64) {mem : Nat → Nat} : ∀ (l : List Nat) {s : Stream} {p : Nat}, At W mem s p → (∀ b ∈ l, b < 256) →
    ∃ s' ok q, checkBytes W s l = some (s', ok) ∧ (ok = true → Holds W mem p (bytesCode l)) ∧ At W mem s' q
  | [], s, p, hs, _ => ⟨s, true, p, rfl, fun _ => holds_nil W mem p, hs⟩
  | b :: l, s, p, hs, hl => by
    obtain ⟨s1, v, e1, h1, hv, hb⟩ := readBits_at hW64 hs 8 (by omega)
    obtain ⟨s2, ok, q, e2, h2, h3⟩ := checkBytes_sound hW64 l h1 fun c hc => hl c (by simp [hc])
    by_cases h : v = b
    · refine ⟨s2, ok, q, by rw [checkBytes, e1, Option.bind_some]; dsimp only; rw [if_neg (by simpa using h), e2], fun hok => ?_, h3⟩
      rw [bytesCode, List.flatMap_cons, holds_append, bitsOf_length]
      refine ⟨fun j hj => ?_, h2 hok⟩
      rw [bitsOf_length] at hj
      rw [← hb j hj, bitsOf_getD _ _ _ hj, h]
    · exact ⟨s1, false, _, by rw [checkBytes, e1, Option.bind_some]; dsimp only; rw [if_pos h], fun h => by simp at h, h1⟩

theorem setMode_valid (Z : Params) (mode : Nat) : (setMode Z mode).2 ≠ .null →
    (setMode Z mode).1.minbits ≤ (setMode Z mode).1.maxbits ∧ 0 < (setMode Z mode).1.maxprec ∧ (setMode Z mode).1.maxprec ≤ 64 := by
  unfold setMode setParams
  dsimp only
  split
  · intro h; simp at h
  · rename_i h
    intro _
    dsimp only
    omega

/-- C39: what every short mode word stands for. Words up to 2047 are a rate, 2048 to 2111 a precision, 2112 to 2175 are rejected, 2176 to 4094
are the exponent of a tolerance. -/
theorem short_modes (Z : Params) (mode : Nat) (h : mode ≤ 4094) :
    (mode ≤ 2047 → (setMode Z mode).1 = ⟨mode + 1, mode + 1, 64, -1074⟩ ∧ (setMode Z mode).2 ≠ .null) ∧
    (2048 ≤ mode → mode ≤ 2111 → (setMode Z mode).1 = ⟨1, 16651, mode - 2047, -1074⟩ ∧ (setMode Z mode).2 ≠ .null) ∧
    (2112 ≤ mode → mode ≤ 2175 → setMode Z mode = (Z, .null)) ∧
    (2176 ≤ mode → (setMode Z mode).1 = ⟨1, 16651, 64, (mode : Int) - 3251⟩ ∧ (setMode Z mode).2 ≠ .null) := by
  have key : ∀ P : Params, paramsOf mode = P → P.minbits ≤ P.maxbits → 0 < P.maxprec ∧ P.maxprec ≤ 64 → (setMode Z mode).1 = P ∧ (setMode Z mode).2 ≠ .null := by
    intro P hP h1 h2
    unfold setMode setParams
    rw [hP, if_neg (by omega)]
    refine ⟨rfl, ?_⟩
    dsimp only
    rw [if_pos rfl]
    unfold Params.compressionMode
    rw [if_neg (by omega)]
    split_ifs <;> simp
  unfold paramsOf at key
  rw [if_pos h] at key
  refine ⟨fun h1 => key _ (by rw [if_pos (by omega)]) (le_refl _) ⟨by dsimp only; omega, by dsimp only; omega⟩, fun h1 h2 => ?_, fun h1 h2 => ?_, fun h1 => ?_⟩
  · exact key _ (by rw [if_neg (by omega), if_pos (by omega), show mode + 1 - 2048 = mode - 2047 by omega]) (by dsimp only; omega) ⟨by dsimp only; omega, by dsimp only; omega⟩
  · unfold setMode setParams paramsOf
    rw [if_pos h, if_neg (show ¬ mode < 2048 by omega), if_pos (show mode < 2048 + 128 by omega)]
    dsimp only
    rw [if_pos (by right; omega)]
    rfl
  · refine key _ ?_ (by dsimp only; omega) ⟨by dsimp only; omega, by dsimp only; omega⟩
    rw [if_neg (by omega), if_neg (by omega)]
    congr 1
    rw [Int.bmod_eq_of_le (by omega) (by omega)]
    omega

theorem readMode_some {W : Nat} (hW64 : W ≤ 64) {mem : Nat → Nat} {s : Stream} {p : Nat} (hs : At W mem s p) (Z0 : Params) (n : Nat) :
    ∃ s' Z n', readMode W s Z0 n = some (s', Z, n') ∧ (n' ≠ 0 → Z.minbits ≤ Z.maxbits ∧ 0 < Z.maxprec ∧ Z.maxprec ≤ 64) := by
  obtain ⟨s1, v, e1, h1, hv, hb⟩ := readBits_at hW64 hs 12 (by omega)
  unfold readMode
  rw [e1, Option.bind_some]
  dsimp only
  have key : ∀ (s : Stream) (mode n : Nat), ∃ s' Z n', some (s, (setMode Z0 mode).1, if (setMode Z0 mode).2 = .null then 0 else n) = some (s', Z, n') ∧
      (n' ≠ 0 → Z.minbits ≤ Z.maxbits ∧ 0 < Z.maxprec ∧ Z.maxprec ≤ 64) := fun s mode n => by
    refine ⟨_, _, _, rfl, fun h => setMode_valid Z0 mode fun hc => h (if_pos hc)⟩
  split
  · obtain ⟨s2, w, e2, h2, _⟩ := readBits_at hW64 h1 52 (by omega)
    rw [e2]
    exact key _ _ _
  · exact key _ _ _

/-- C39, rejection: whatever the memory holds, if reading a header that must have the magic word succeeds then the next 32 bits are `zfp` and
the version of the codec, and if the header has parameters they are valid. -/
theorem header_accepts {W : Nat} (hW64 : W ≤ 64) {mem : Nat → Nat} {s : Stream} {p : Nat} (hs : At W mem s p) (f0 : Field) (Z0 : Params) (k : Mask) :
    ∃ s' f Z n, readHeader W s f0 Z0 k = some (s', f, Z, n) ∧ (n ≠ 0 → k.magic = true → Holds W mem p (bytesCode magicBytes)) ∧
      (n ≠ 0 → k.mode = true → Z.minbits ≤ Z.maxbits ∧ 0 < Z.maxprec ∧ Z.maxprec ≤ 64) := by
  have hA : ∃ s1 ok q, (if k.magic then checkBytes W s magicBytes else some (s, true)) = some (s1, ok) ∧ (ok = true → k.magic = true → Holds W mem p (bytesCode magicBytes)) ∧
      At W mem s1 q := by
    by_cases hk : k.magic = true
    · obtain ⟨s1, ok, q, e1, h1, h2⟩ := checkBytes_sound hW64 magicBytes hs (by decide)
      exact ⟨s1, ok, q, by rw [if_pos hk, e1], fun h _ => h1 h, h2⟩
    · exact ⟨s, true, p, by rw [if_neg hk], fun _ h => absurd h hk, hs⟩
  obtain ⟨s1, ok, q, e1, h1, h2⟩ := hA
  unfold readHeader
  rw [e1, Option.bind_some]
  dsimp only
  cases ok with
  | false => exact ⟨s1, f0, Z0, 0, rfl, fun h => absurd rfl h, fun h => absurd rfl h⟩
  | true =>
    rw [if_pos rfl]
    have hB : ∀ n, ∃ s2 f n' q, (if k.fmeta then (readBits W s1 52).map fun (s, m) => (s, Field.setMetadata m, n + 52) else some (s1, f0, n)) = some (s2, f, n') ∧ At W mem s2 q := by
      intro n
      split
      · obtain ⟨s2, w, e2, h2, _⟩ := readBits_at hW64 h2 52 (by omega)
        exact ⟨s2, _, _, _, by rw [e2]; rfl, h2⟩
      · exact ⟨s1, _, _, _, rfl, h2⟩
    obtain ⟨s2, f, n', q2, e2, h3⟩ := hB (if k.magic then 32 else 0)
    rw [e2, Option.bind_some]
    dsimp only
    by_cases hk : k.mode = true
    · obtain ⟨s3, Z, n3, e3, h4⟩ := readMode_some hW64 h3 Z0 n'
      rw [if_pos hk, e3]
      exact ⟨s3, f, Z, n3, rfl, fun _ => h1 rfl, fun h _ => h4 h⟩
    · rw [if_neg hk]
      exact ⟨s2, f, Z0, n', rfl, fun _ => h1 rfl, fun _ h => absurd h hk⟩

/-- C39 fails for sizes beyond the bits of the header: zfp_write_header does not check them and a 2-D field with `2^24 + 1` columns and 3 rows
is written as one with 1 column and 4 rows. -/
theorem metadata_truncated : let f : Field := ⟨.float, 2 ^ 24 + 1, 3, 0, 0, 0, 0, 0, 0⟩
    Field.setMetadata (f.metadata % 2 ^ 52) = ⟨.float, 1, 4, 0, 0, 0, 0, 0, 0⟩ := by decide +kernel

/-! ## The three ways to set parameters (C56) -/

/-- C56, accuracy: for a positive tolerance the parameters ask for the largest power of two that is not above it, which is returned, and
for doubles the header can hold them. Other tolerances ask for everything. -/
theorem set_accuracy (tol : ℚ) : (0 < tol → (setAccuracy tol).2 = 2 ^ (setAccuracy tol).1.minexp ∧ (setAccuracy tol).2 ≤ tol ∧ tol < 2 * (setAccuracy tol).2) ∧
    (tol ≤ 0 → setAccuracy tol = (Params.default, 0)) ∧ (setAccuracy tol).1 = { Params.default with minexp := (setAccuracy tol).1.minexp } := by
  unfold setAccuracy Params.default
  refine ⟨fun h => ?_, fun h => ?_, rfl⟩
  · dsimp only
    rw [if_pos h, if_pos h, add_sub_cancel_right]
    have h1 := Int.zpow_log_le_self (b := 2) (by norm_num) h
    have h2 := Int.lt_zpow_succ_log_self (b := 2) (by norm_num) tol
    rw [zpow_add_one₀ (by norm_num)] at h2
    refine ⟨rfl, by exact_mod_cast h1, ?_⟩
    push_cast at h2
    linarith
  · dsimp only
    rw [if_neg (by linarith), if_neg (by linarith)]

/-- C56, accuracy, with the codec: a block compressed after setting a tolerance and decompressed is within that
tolerance, unless the tolerance is beyond the precision of the integers (`2^(2d+2-w)` relative to the block) or the largest value of the block
is between a quarter and a half of the power of two that is returned (`accuracy_violated` shows that the tolerance is then exceeded). -/
theorem set_accuracy_block_partial {F : FTraits} (hF : F.Ok) {W : Nat} (hW : 0 < W) (hW64 : W ≤ 64) (mem : Nat → Nat) (hmem : ∀ i, mem i < 2 ^ W)
    {tol : ℚ} (htol : 0 < tol) {x : Nat → ℚ} (hx : ∀ i < 4 ^ F.T.d, |x i| < 2 ^ (F.ebias + 1))
    (hbig : (∀ i < 4 ^ F.T.d, x i = 0) ∨ ∃ i < 4 ^ F.T.d, (2:ℚ) ^ ((F.T.w : Int) - 2 - F.ebias - 1) ≤ |x i|) (hedge : F.emax x ≠ (setAccuracy tol).1.minexp - 1)
    (hres : (2:ℚ) ^ (F.emax x + (2 * F.T.d + 2) - F.T.w) ≤ tol) :
    ∃ n, ∃ y : Nat → ℚ, floatTrip .wraps F W (setAccuracy tol).1 id mem x = some (n, n, n, y) ∧ ∀ i < 4 ^ F.T.d, |y i - x i| ≤ tol := by
  obtain ⟨h1, -, h3⟩ := set_accuracy tol
  obtain ⟨e1, l1, l2⟩ := h1 htol
  have hbits : F.ebits + 1 + enough (4 ^ F.T.d) F.T.w ≤ 16651 := by
    have hd := hF.1.good.d
    have h4 : 4 ^ F.T.d ≤ 4 ^ 4 := Nat.pow_le_pow_right (by omega) hd.2
    unfold enough
    obtain ⟨_, ⟨hw, he⟩ | ⟨hw, he⟩⟩ := hF <;> rw [hw, he] <;> omega
  have hprec : F.T.w ≤ 64 := by obtain ⟨_, ⟨hw, _⟩ | ⟨hw, _⟩⟩ := hF <;> omega
  obtain ⟨n, y, e, hy⟩ := float_accuracy_partial hF hW hW64 mem hmem (Z := (setAccuracy tol).1) (by rw [h3]; exact ⟨by norm_num [Params.default], by norm_num [Params.default]⟩) (by rw [h3]; exact hprec)
    (by rw [h3]; exact hbits) id rfl hx hbig hedge
  refine ⟨n, y, e, fun i hi => (hy i hi).trans ?_⟩
  exact max_le (by rw [← e1]; exact l1) hres

/-- C56, precision: the number of bit planes is the one asked for, at most 64, and 64 if it is 0. -/
theorem set_precision (p : Nat) : (setPrecision p).1 = { Params.default with maxprec := (setPrecision p).2 } ∧
    (1 ≤ p → p ≤ 64 → (setPrecision p).2 = p) ∧ (p = 0 ∨ 64 < p → (setPrecision p).2 = 64) ∧ (setPrecision p).1.Fits := by
  unfold setPrecision Params.default
  dsimp only
  refine ⟨rfl, fun h1 h2 => by rw [if_pos (by omega)]; omega, fun h => by split <;> omega, ⟨by norm_num, ?_, by norm_num, fun _ => ⟨rfl, le_refl _⟩, fun h => le_refl _⟩⟩
  dsimp only
  split <;> omega

/-- C56, rate: a rate of `r ≥ 0` bits per value gives blocks of exactly `n r'` bits where `r'` is the rate returned and `n` the number of values:
the nearest number of bits to `n r` unless that is too few for the exponent, and with word alignment the next multiple of the word. -/
theorem set_rate {W : Nat} (hW : 0 < W) (hW64 : W ≤ 64) {r : ℚ} (hr : 0 ≤ r) {type : ZType} {dims : Nat} (hsmall : (4:ℚ) ^ dims * r ≤ 2 ^ 31) (wra : Bool) :
    ∃ bits b : Nat, setRate W r type dims wra = some (⟨bits, bits, 64, -1074⟩, (bits : ℚ) / 4 ^ dims) ∧
      (∃ b0 : Nat, |(b0 : ℚ) - 4 ^ dims * r| ≤ 1 / 2 ∧ b = max b0 (if type = .float then 9 else if type = .double then 12 else 0)) ∧
      (wra = false → bits = b) ∧ (wra = true → W ∣ bits ∧ b ≤ bits ∧ bits < b + W) := by
  have h0 : 0 ≤ ⌊(4:ℚ) ^ dims * r + 1 / 2⌋ := Int.floor_nonneg.2 (by positivity)
  have hlt : ⌊(4:ℚ) ^ dims * r + 1 / 2⌋ < 2 ^ 31 + 1 := by
    rw [Int.floor_lt]
    push_cast
    linarith
  have hb0 : |((⌊(4:ℚ) ^ dims * r + 1 / 2⌋.toNat : Nat) : ℚ) - 4 ^ dims * r| ≤ 1 / 2 := by
    have e : ((⌊(4:ℚ) ^ dims * r + 1 / 2⌋.toNat : Nat) : ℚ) = (⌊(4:ℚ) ^ dims * r + 1 / 2⌋ : ℚ) := by
      have : ((⌊(4:ℚ) ^ dims * r + 1 / 2⌋.toNat : Nat) : Int) = ⌊(4:ℚ) ^ dims * r + 1 / 2⌋ := by omega
      exact_mod_cast this
    rw [e, abs_le]
    have h1 := Int.floor_le ((4:ℚ) ^ dims * r + 1 / 2)
    have h2 := Int.lt_floor_add_one ((4:ℚ) ^ dims * r + 1 / 2)
    constructor <;> linarith
  unfold setRate
  dsimp only
  rw [if_pos ⟨h0, by omega⟩]
  obtain ⟨b0, e0⟩ : ∃ b0, b0 = ⌊(4:ℚ) ^ dims * r + 1 / 2⌋.toNat := ⟨_, rfl⟩
  have hs0 : b0 ≤ 2 ^ 31 := by omega
  rw [← e0] at hb0 ⊢
  have key : ∀ b : Nat, b ≤ 2 ^ 31 → (wra = false → (if wra then (b + (W - 1)) % 2 ^ 32 / W * W else b) = b) ∧ (wra = true →
      W ∣ (if wra then (b + (W - 1)) % 2 ^ 32 / W * W else b) ∧ b ≤ (if wra then (b + (W - 1)) % 2 ^ 32 / W * W else b) ∧ (if wra then (b + (W - 1)) % 2 ^ 32 / W * W else b) < b + W) := by
    intro b hb
    cases wra with
    | false => simp
    | true =>
      refine ⟨fun h => by simp at h, fun _ => ?_⟩
      rw [if_pos rfl, Nat.mod_eq_of_lt (by omega)]
      have h1 := Nat.div_add_mod (b + (W - 1)) W
      have h2 := Nat.mod_lt (b + (W - 1)) hW
      rw [Nat.mul_comm] at h1
      exact ⟨⟨_, Nat.mul_comm _ _⟩, by omega, by omega⟩
  cases type
  case float => exact ⟨_, _, rfl, ⟨b0, hb0, rfl⟩, key (max b0 9) (by omega)⟩
  case double => exact ⟨_, _, rfl, ⟨b0, hb0, rfl⟩, key (max b0 12) (by omega)⟩
  all_goals exact ⟨_, b0, rfl, ⟨b0, hb0, (Nat.max_zero b0).symm⟩, key b0 hs0⟩

/-- C56 and C39: what the three settings produce for a rate of up to 32768 bits per block and a tolerance in the range of a double can be
written to a header. -/
theorem settings_fit : (∀ bits : Nat, 1 ≤ bits → bits ≤ 2 ^ 15 → (⟨bits, bits, 64, -1074⟩ : Params).Fits) ∧ (∀ p, (setPrecision p).1.Fits) ∧
    ∀ tol : ℚ, (0 < tol → 2 ^ (-1074 : Int) ≤ tol ∧ tol < 2 ^ 1024) → (setAccuracy tol).1.Fits := by
  refine ⟨fun bits h1 h2 => ⟨⟨h1, le_refl _, h2⟩, by norm_num, by norm_num, fun ⟨h3, h4⟩ => ?_, fun _ => le_refl _⟩, fun p => (set_precision p).2.2.2, fun tol h => ?_⟩
  · dsimp only at h3 h4; omega
  · obtain ⟨a1, a2, a3⟩ := set_accuracy tol
    have hr : -1074 ≤ (setAccuracy tol).1.minexp ∧ (setAccuracy tol).1.minexp ≤ 1023 := by
      by_cases ht : 0 < tol
      · obtain ⟨b1, b2, b3⟩ := a1 ht
        obtain ⟨c1, c2⟩ := h ht
        rw [b1] at b2 b3
        constructor
        · by_contra hc
          have := zpow_le_zpow_right₀ (by norm_num : (1:ℚ) ≤ 2) (show (setAccuracy tol).1.minexp + 1 ≤ -1074 by omega)
          rw [zpow_add_one₀ (by norm_num)] at this
          linarith
        · by_contra hc
          have := zpow_le_zpow_right₀ (by norm_num : (1:ℚ) ≤ 2) (show ((1024 : Nat) : Int) ≤ (setAccuracy tol).1.minexp by omega)
          rw [zpow_natCast] at this
          linarith
      · rw [a2 (not_lt.1 ht)]
        decide
    rw [a3]
    refine ⟨by norm_num [Params.default], by norm_num [Params.default], ⟨?_, ?_⟩, fun _ => ⟨rfl, hr.1⟩, fun _ => hr.1⟩ <;> dsimp only <;> omega

/-! ## Cases that meet the hypotheses -/

example : (⟨.float, 2 ^ 24, 1000, 0, 0, 4, 7, 0, 0⟩ : Field).Fits := ⟨by decide, Or.inr (Or.inl ⟨by decide, by decide, rfl, rfl⟩)⟩

example : (⟨.int64, 4096, 1, 77, 4096, 0, 0, 0, 0⟩ : Field).Fits := ⟨by decide, Or.inr (Or.inr (Or.inr ⟨by decide, by decide, by decide, by decide⟩))⟩

/-- Expert parameters that need the long format. -/
example : (⟨17, 4000, 30, -1100⟩ : Params).Fits := ⟨by decide, by decide, by decide, by decide, by decide⟩

example : Wr 64 (openStream fun _ => 0) (fun _ => false) 0 := rewind_wr (s := openStream fun _ => 0) (by decide) (by intro i; exact Nat.pow_pos (by decide)) _

/-- A full header of 148 bits written and read. -/
example : ((writeHeader 64 (openStream fun _ => 0) ⟨.float, 2 ^ 24, 1000, 0, 0, 4, 7, 0, 0⟩ ⟨17, 4000, 30, -1100⟩ ⟨true, true, true⟩).bind fun (s, n) =>
    (flush 64 s).bind fun (s, _) => (readHeader 64 (rewind s) ⟨.none, 0, 0, 0, 0, 0, 0, 0, 0⟩ .default ⟨true, true, true⟩).map fun (_, f, Z, n') => (n, n', f, Z)) =
    some (148, 148, ⟨.float, 2 ^ 24, 1000, 0, 0, 0, 0, 0, 0⟩, ⟨17, 4000, 30, -1100⟩) := by decide +kernel

/-- Memory without the magic word is rejected. -/
example : ((readHeader 64 (rewind (openStream fun _ => 0)) ⟨.none, 0, 0, 0, 0, 0, 0, 0, 0⟩ .default ⟨true, true, true⟩).map fun (_, _, _, n) => n) = some 0 := by decide +kernel

example : setRate 64 (17 / 2) .float 2 false = some (⟨136, 136, 64, -1074⟩, 17 / 2) := by
  obtain ⟨bits, b, e, ⟨b0, h1, h2⟩, h3, _⟩ := set_rate (W := 64) (r := 17 / 2) (type := .float) (dims := 2) (by decide) (by decide) (by norm_num) (by norm_num) false
  rw [if_pos rfl] at h2
  have hb : b0 = 136 := by
    rw [abs_le] at h1
    have l1 : (135 : ℚ) < b0 := by linarith
    have l2 : (b0 : ℚ) < 137 := by linarith
    have l1 : 135 < b0 := by exact_mod_cast l1
    have l2 : b0 < 137 := by exact_mod_cast l2
    omega
  rw [e, h3 rfl, h2, hb]
  norm_num

example : setAccuracy (1 / 1000) = (⟨1, 16651, 64, -10⟩, 1 / 1024) := by
  have h : Int.log 2 ((1:ℚ) / 1000) = -10 := by decide +kernel
  unfold setAccuracy
  dsimp only
  rw [if_pos (by norm_num), if_pos (by norm_num), h]
  norm_num

end Verif.Zfp

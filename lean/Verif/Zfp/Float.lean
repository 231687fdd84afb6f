import Verif.Zfp.BlockProps
import Mathlib.Data.Int.Log
import Mathlib.Data.Rat.Floor
import Mathlib.Tactic.FieldSimp
import Mathlib.Tactic.Positivity

/-! # Floating-point blocks (zfp/src/template/encodef.c, decodef.c, codecf.c; C55)

Floating-point numbers are rational numbers. Products with powers of two are exact in the program unless they underflow, and then the
conversion to integers that follows makes them zero in either case. The rounding of the decoded value is a parameter. -/

namespace Verif.Zfp

/-- The traits of a floating-point type (traitsf.h, traitsd.h). -/
structure FTraits where
  T : Traits
  ebits : Nat

/-- EBIAS (codec.h:3). -/
def FTraits.ebias (F : FTraits) : Int := 2 ^ (F.ebits - 1) - 1

/-- `float` with 32 bit integers and 8 exponent bits, `double` with 64 and 11. -/
def FTraits.Ok (F : FTraits) : Prop := F.T.Ok ∧ (F.T.w = 32 ∧ F.ebits = 8 ∨ F.T.w = 64 ∧ F.ebits = 11)

/-- exponent (encodef.c:7-17): frexp returns the `e` with `2^(e-1) ≤ x < 2^e`. -/
def FTraits.exponent (F : FTraits) (q : ℚ) : Int := if q > 0 then max (Int.log 2 q + 1) (1 - F.ebias) else -F.ebias

/-- The loop of exponent_block (encodef.c:23-28). -/
def blockMax (n : Nat) (x : Nat → ℚ) : ℚ := (List.range n).foldl (fun m i => if m < |x i| then |x i| else m) 0

/-- exponent_block (encodef.c:20-30). -/
def FTraits.emax (F : FTraits) (x : Nat → ℚ) : Int := F.exponent (blockMax (4 ^ F.T.d) x)

/-- precision (codecf.c:1-6). -/
def precision (maxexp : Int) (maxprec : Nat) (minexp : Int) (dims : Nat) : Nat := min maxprec (max 0 (maxexp - minexp + 2 * (dims + 1))).toNat

/-- Conversion of a floating-point number to an integer: towards zero. -/
def trunc (q : ℚ) : Int := if 0 ≤ q then ⌊q⌋ else ⌈q⌉

/-- fwd_cast (encodef.c:40-49). The scale factor is infinite when its exponent exceeds that of the type; converting the infinite products to
integers is undefined. -/
def FTraits.fwdCast (F : FTraits) (x : Nat → ℚ) (emax : Int) : Option (Nat → Int) :=
  if (F.T.w : Int) - 2 - emax ≤ F.ebias then some fun i => trunc (2 ^ ((F.T.w : Int) - 2 - emax) * x i) else none

/-- Unsigned subtraction, converted to `int`. -/
def sub32 (a b : Nat) : Int := ((a : Int) - b).bmod (2 ^ 32)

/-- zfp_encode_block (encodef.c:51-82). -/
def encodeFloatBlock (F : FTraits) (W : Nat) (Z : Params) (s : Stream) (x : Nat → ℚ) : Option (Stream × Nat) :=
  let emax := F.emax x
  let maxprec := precision emax Z.maxprec Z.minexp F.T.d
  let e := if maxprec ≠ 0 then ((emax + F.ebias) % 2 ^ 32).toNat else 0
  if e ≠ 0 then
    let ebits := F.ebits + 1
    (writeBits W s ((2 * e + 1) % 2 ^ 32) ebits).bind fun (s, _) =>
    (F.fwdCast x emax).bind fun v =>
    (encodeBlock F.T W s (sub32 Z.minbits ebits) (sub32 Z.maxbits ebits) maxprec v).map fun (s, n) => (s, ((ebits + n) % 2 ^ 32).toNat)
  else
    let s := writeBit W s false
    if Z.minbits > 1 then (pad W s (Z.minbits - 1)).map (·, Z.minbits) else some (s, 1)

/-- zfp_decode_block (decodef.c:25-56); `rnd` is the rounding of the product in inv_cast (decodef.c:13-22). -/
def decodeFloatBlock (m : Overflow) (F : FTraits) (W : Nat) (Z : Params) (rnd : ℚ → ℚ) (s : Stream) : Option (Stream × Nat × (Nat → ℚ)) :=
  let r := readBit W s
  if r.2 then
    let ebits := F.ebits + 1
    (readBits W r.1 (ebits - 1)).bind fun (s, e) =>
    let emax := (e : Int) - F.ebias
    let maxprec := precision emax Z.maxprec Z.minexp F.T.d
    (decodeBlock m F.T W s (sub32 Z.minbits ebits) (sub32 Z.maxbits ebits) maxprec (List.replicate (4 ^ F.T.d) 0)).map fun (s, n, v) =>
      (s, ((ebits + n) % 2 ^ 32).toNat, fun i => rnd (2 ^ (emax - ((F.T.w : Int) - 2)) * v i))
  else if Z.minbits > 1 then some (skip W r.1 (Z.minbits - 1), Z.minbits, fun _ => 0) else some (r.1, 1, fun _ => 0)

/-! ## The common exponent -/

theorem foldl_max (x : Nat → ℚ) : ∀ (l : List Nat) (m : ℚ), m ≤ l.foldl (fun m i => if m < |x i| then |x i| else m) m ∧
    (∀ i ∈ l, |x i| ≤ l.foldl (fun m i => if m < |x i| then |x i| else m) m) ∧
    (l.foldl (fun m i => if m < |x i| then |x i| else m) m = m ∨ ∃ i ∈ l, l.foldl (fun m i => if m < |x i| then |x i| else m) m = |x i|)
  | [], m => ⟨le_refl _, by simp, Or.inl rfl⟩
  | j :: l, m => by
    obtain ⟨h1, h2, h3⟩ := foldl_max x l (if m < |x j| then |x j| else m)
    rw [List.foldl_cons]
    have hj : m ≤ (if m < |x j| then |x j| else m) ∧ |x j| ≤ (if m < |x j| then |x j| else m) := by split <;> constructor <;> linarith
    refine ⟨hj.1.trans h1, ?_, ?_⟩
    · intro i hi
      rcases List.mem_cons.1 hi with rfl | hi
      · exact hj.2.trans h1
      · exact h2 i hi
    · rcases h3 with h3 | ⟨i, hi, h3⟩
      · by_cases hlt : m < |x j|
        · rw [if_pos hlt] at h3 ⊢
          exact Or.inr ⟨j, by simp, h3⟩
        · rw [if_neg hlt] at h3 ⊢
          exact Or.inl h3
      · exact Or.inr ⟨i, by simp [hi], h3⟩

theorem le_blockMax {n : Nat} {x : Nat → ℚ} {i : Nat} (hi : i < n) : |x i| ≤ blockMax n x := (foldl_max x _ 0).2.1 i (List.mem_range.2 hi)

theorem blockMax_nonneg (n : Nat) (x : Nat → ℚ) : 0 ≤ blockMax n x := (foldl_max x _ 0).1

theorem blockMax_mem (n : Nat) (x : Nat → ℚ) : blockMax n x = 0 ∨ ∃ i < n, blockMax n x = |x i| := by
  rcases (foldl_max x (List.range n) 0).2.2 with h | ⟨i, hi, h⟩
  · exact Or.inl h
  · exact Or.inr ⟨i, List.mem_range.1 hi, h⟩

theorem FTraits.Ok.bias {F : FTraits} (h : F.Ok) : 1 ≤ F.ebias ∧ 2 * F.ebias + 1 = ((2 ^ F.ebits : Nat) : Int) - 1 ∧ F.ebits ≤ 11 ∧ 32 ≤ F.T.w := by
  obtain ⟨_, ⟨hw, he⟩ | ⟨hw, he⟩⟩ := h <;> rw [FTraits.ebias, he, hw] <;> norm_num

/-- All values are below `2 ^ emax`; if the common exponent is not the clamped one, `2 ^ (emax - 1)` is reached. -/
theorem emax_spec {F : FTraits} (hF : F.Ok) (x : Nat → ℚ) : (∀ i < 4 ^ F.T.d, |x i| < 2 ^ F.emax x) ∧ -F.ebias ≤ F.emax x ∧
    (F.emax x = -F.ebias → ∀ i < 4 ^ F.T.d, x i = 0) ∧ (1 - F.ebias < F.emax x → ∃ i < 4 ^ F.T.d, (2:ℚ) ^ (F.emax x - 1) ≤ |x i|) := by
  have hb := hF.bias
  unfold FTraits.emax FTraits.exponent
  rcases (blockMax_nonneg (4 ^ F.T.d) x).lt_or_eq with h | h
  · rw [if_pos h]
    have hlt : blockMax (4 ^ F.T.d) x < 2 ^ max (Int.log 2 (blockMax (4 ^ F.T.d) x) + 1) (1 - F.ebias) := by
      refine lt_of_lt_of_le (Int.lt_zpow_succ_log_self (b := 2) (by norm_num) _) ?_
      have := zpow_le_zpow_right₀ (by norm_num : (1:ℚ) ≤ 2) (le_max_left (Int.log 2 (blockMax (4 ^ F.T.d) x) + 1) (1 - F.ebias))
      exact_mod_cast this
    refine ⟨fun i hi => lt_of_le_of_lt (le_blockMax hi) hlt, by omega, fun h => by omega, fun hc => ?_⟩
    have hmax : max (Int.log 2 (blockMax (4 ^ F.T.d) x) + 1) (1 - F.ebias) = Int.log 2 (blockMax (4 ^ F.T.d) x) + 1 := by omega
    rw [hmax, add_sub_cancel_right]
    rcases blockMax_mem (4 ^ F.T.d) x with h0 | ⟨i, hi, hm⟩
    · exact absurd h0 (ne_of_gt h)
    · refine ⟨i, hi, ?_⟩
      rw [← hm]
      have := Int.zpow_log_le_self (b := 2) (by norm_num) h
      exact_mod_cast this
  · rw [if_neg (by rw [← h]; exact lt_irrefl _)]
    have hz : ∀ i < 4 ^ F.T.d, x i = 0 := fun i hi => by
      have := le_blockMax (x := x) hi
      rw [← h] at this
      exact abs_eq_zero.1 (le_antisymm this (abs_nonneg _))
    refine ⟨fun i hi => by rw [hz i hi, abs_zero]; exact zpow_pos (by norm_num) _, le_refl _, fun _ => hz, fun hc => by omega⟩

theorem emax_le {F : FTraits} (hF : F.Ok) {x : Nat → ℚ} {k : Int} (hk : 1 - F.ebias ≤ k) (h : ∀ i < 4 ^ F.T.d, |x i| < 2 ^ k) : F.emax x ≤ k := by
  obtain ⟨_, h2, _, h4⟩ := emax_spec hF x
  by_contra hc
  obtain ⟨i, hi, hi2⟩ := h4 (by omega)
  have := zpow_le_zpow_right₀ (by norm_num : (1:ℚ) ≤ 2) (show k ≤ F.emax x - 1 by omega)
  exact absurd (h i hi) (not_lt.2 (this.trans hi2))

theorem le_emax {F : FTraits} (hF : F.Ok) {x : Nat → ℚ} {k : Int} {i : Nat} (hi : i < 4 ^ F.T.d) (h : (2:ℚ) ^ (k - 1) ≤ |x i|) : k ≤ F.emax x := by
  by_contra hc
  have h1 := (emax_spec hF x).1 i hi
  have := zpow_le_zpow_right₀ (by norm_num : (1:ℚ) ≤ 2) (show F.emax x ≤ k - 1 by omega)
  exact absurd (lt_of_lt_of_le h1 this) (not_lt.2 h)

theorem trunc_spec (q : ℚ) : |q - trunc q| < 1 ∧ |(trunc q : ℚ)| ≤ |q| := by
  unfold trunc
  split
  · rename_i h
    have h1 := Int.floor_le q
    have h2 := Int.lt_floor_add_one q
    have h3 : (0:ℚ) ≤ ⌊q⌋ := by exact_mod_cast Int.floor_nonneg.2 h
    rw [abs_of_nonneg (by linarith), abs_of_nonneg h3, abs_of_nonneg h]
    exact ⟨by linarith, h1⟩
  · rename_i h
    have h := not_le.1 h
    have h1 := Int.le_ceil q
    have h2 := Int.ceil_lt_add_one q
    have h3 : (⌈q⌉ : ℚ) ≤ 0 := by exact_mod_cast Int.ceil_le.2 (by simpa using h.le)
    rw [abs_of_nonpos (by linarith), abs_of_nonpos h3, abs_of_neg h]
    exact ⟨by linarith, by linarith⟩

/-! ## The code of a block -/

/-- The bits of a block with a common exponent. -/
def floatCode (F : FTraits) (Z : Params) (e maxprec : Nat) (u : Nat → Int) : List Bool :=
  true :: bitsOf e F.ebits ++ blockCode F.T.w (coeffs F.T u) (Z.minbits - (F.ebits + 1)) (Z.maxbits - (F.ebits + 1)) maxprec

/-- The bits of a block of zeros. -/
def zeroCode (Z : Params) : List Bool := false :: List.replicate (Z.minbits - 1) false

theorem sub32_small {a b : Nat} (ha : a < 2 ^ 31) (hb : b < 2 ^ 31) : sub32 a b = (a : Int) - b := by
  unfold sub32
  apply Int.bmod_eq_of_le
  · have : ((2 ^ 32 : Nat) : Int) = 4294967296 := by norm_num
    omega
  · have : ((2 ^ 32 : Nat) : Int) = 4294967296 := by norm_num
    omega

theorem floatCode_length (F : FTraits) (Z : Params) (e maxprec : Nat) (u : Nat → Int) (h : F.ebits + 1 ≤ Z.maxbits) :
    Z.minbits ≤ (floatCode F Z e maxprec u).length ∧ (floatCode F Z e maxprec u).length ≤ max Z.minbits Z.maxbits ∧
    (floatCode F Z e maxprec u).length = F.ebits + 1 + (blockCode F.T.w (coeffs F.T u) (Z.minbits - (F.ebits + 1)) (Z.maxbits - (F.ebits + 1)) maxprec).length := by
  have := blockCode_length F.T.w (coeffs F.T u) (Z.minbits - (F.ebits + 1)) (Z.maxbits - (F.ebits + 1)) maxprec
  have hl : (floatCode F Z e maxprec u).length = F.ebits + 1 + (blockCode F.T.w (coeffs F.T u) (Z.minbits - (F.ebits + 1)) (Z.maxbits - (F.ebits + 1)) maxprec).length := by
    simp [floatCode]; omega
  rw [hl]
  omega

theorem zeroCode_length (Z : Params) : (zeroCode Z).length = max 1 Z.minbits := by simp [zeroCode]; omega

/-- The biased exponent as an unsigned word. -/
theorem biased {F : FTraits} (hF : F.Ok) {emax : Int} (h1 : -F.ebias ≤ emax) (h2 : emax ≤ F.ebias + 1) :
    (((emax + F.ebias) % 2 ^ 32).toNat : Int) = emax + F.ebias ∧ ((emax + F.ebias) % 2 ^ 32).toNat < 2 ^ F.ebits := by
  obtain ⟨hb, hb2, hb3, _⟩ := hF.bias
  have hp : (2:Nat) ^ F.ebits ≤ 2 ^ 11 := Nat.pow_le_pow_right (by omega) hb3
  rw [Int.emod_eq_of_lt (by omega) (by omega)]
  generalize (2:Nat) ^ F.ebits = M at *
  omega

theorem encodeFloat_spec {F : FTraits} (hF : F.Ok) {W : Nat} (hW64 : W ≤ 64) {Z : Params} (hZ : Z.ok) (hmax : F.ebits + 1 ≤ Z.maxbits) {s : Stream} (hs : Wok W s)
    {x : Nat → ℚ} (hx : F.emax x ≤ F.ebias + 1) {v u : Nat → Int} (hv : F.fwdCast x (F.emax x) = some v) (hu : fwdXform (2 ^ (F.T.w - 1)) F.T.d v = some u)
    (hp : precision (F.emax x) Z.maxprec Z.minexp F.T.d ≠ 0) (he : F.emax x ≠ -F.ebias) :
    ∃ s', encodeFloatBlock F W Z s x = some (s', (floatCode F Z (F.emax x + F.ebias).toNat (precision (F.emax x) Z.maxprec Z.minexp F.T.d) u).length) ∧
      Emits W s (floatCode F Z (F.emax x + F.ebias).toNat (precision (F.emax x) Z.maxprec Z.minexp F.T.d) u) s' := by
  obtain ⟨hb, hb2, hb3, _⟩ := hF.bias
  obtain ⟨z1, z2⟩ := hZ
  have hlo := (emax_spec hF x).2.1
  obtain ⟨e1, e2⟩ := biased hF hlo hx
  have ee : ((F.emax x + F.ebias) % 2 ^ 32).toNat = (F.emax x + F.ebias).toNat := by omega
  rw [ee] at e1 e2
  have hp11 : (2:Nat) ^ F.ebits ≤ 2 ^ 11 := Nat.pow_le_pow_right (by omega) hb3
  obtain ⟨s1, k1, h1⟩ := emits_bits hW64 hs (2 * (F.emax x + F.ebias).toNat + 1) (F.ebits + 1) (by omega) (by omega)
  obtain ⟨s2, k2, h2⟩ := encodeBlock_spec hF.1.good hW64 (h1.ok hs) (minbits := (Z.minbits : Int) - (F.ebits + 1)) (maxbits := (Z.maxbits : Int) - (F.ebits + 1))
    (by omega) (by omega) (precision (F.emax x) Z.maxprec Z.minexp F.T.d) hu
  rw [show ((Z.minbits : Int) - (F.ebits + 1)).toNat = Z.minbits - (F.ebits + 1) by omega,
    show ((Z.maxbits : Int) - (F.ebits + 1)).toNat = Z.maxbits - (F.ebits + 1) by omega] at k2 h2
  have hbits : bitsOf (2 * (F.emax x + F.ebias).toNat + 1) (F.ebits + 1) = true :: bitsOf (F.emax x + F.ebias).toNat F.ebits := by
    rw [bitsOf_succ, Nat.shiftRight_one, show (2 * (F.emax x + F.ebias).toNat + 1) / 2 = (F.emax x + F.ebias).toNat by omega]
    congr 1
    rw [Nat.testBit_zero]
    simp
  refine ⟨s2, ?_, ?_⟩
  · unfold encodeFloatBlock
    dsimp only
    rw [if_pos hp, ee, if_pos (by omega), Nat.mod_eq_of_lt (by omega), k1, Option.bind_some]
    dsimp only
    rw [hv, Option.bind_some, sub32_small z1 (by omega), sub32_small z2 (by omega)]
    push_cast
    rw [k2, Option.map_some]
    congr 2
    have hl := floatCode_length F Z (F.emax x + F.ebias).toNat (precision (F.emax x) Z.maxprec Z.minexp F.T.d) u hmax
    rw [hl.2.2]
    rw [Int.emod_eq_of_lt (by omega) (by omega)]
    omega
  · have := h1.trans h2
    rwa [hbits] at this

theorem encodeZero_spec {F : FTraits} {W : Nat} {Z : Params} (hZ : Z.ok) {s : Stream} (hs : Wok W s) (hW64 : W ≤ 64) {x : Nat → ℚ}
    (h : precision (F.emax x) Z.maxprec Z.minexp F.T.d = 0 ∨ F.emax x = -F.ebias) :
    ∃ s', encodeFloatBlock F W Z s x = some (s', (zeroCode Z).length) ∧ Emits W s (zeroCode Z) s' := by
  obtain ⟨z1, z2⟩ := hZ
  unfold encodeFloatBlock
  dsimp only
  have he : (if precision (F.emax x) Z.maxprec Z.minexp F.T.d ≠ 0 then ((F.emax x + F.ebias) % 2 ^ 32).toNat else 0) = 0 := by
    split
    · rename_i hc
      rw [h.resolve_left hc, neg_add_cancel]
      rfl
    · rfl
  rw [he, if_neg (by simp)]
  have h1 := emits_bit W s false
  rw [zeroCode_length]
  split
  · obtain ⟨c, P, hw⟩ := h1.ok hs
    obtain ⟨s2, e2, h2⟩ := emits_pad (h1.ok hs) (Z.minbits - 1) (by have := hw.bits; omega)
    refine ⟨s2, by rw [e2, Option.map_some]; congr 2; omega, h1.trans h2⟩
  · refine ⟨_, by congr 2; omega, ?_⟩
    rw [zeroCode, show Z.minbits - 1 = 0 by omega]
    exact h1

theorem decodeZero_spec (m : Overflow) {F : FTraits} {W : Nat} (hW : 0 < W) {Z : Params} (rnd : ℚ → ℚ) {mem : Nat → Nat} {s : Stream} {P : Nat} (hs : At W mem s P)
    (hh : Holds W mem P (zeroCode Z)) :
    ∃ s', decodeFloatBlock m F W Z rnd s = some (s', (zeroCode Z).length, fun _ => 0) ∧ At W mem s' (P + (zeroCode Z).length) := by
  rw [zeroCode, holds_cons] at hh
  obtain ⟨r1, r2⟩ := readBit_at hW hs
  unfold decodeFloatBlock
  dsimp only
  rw [r1, hh.1, if_neg (by simp), zeroCode_length]
  split
  · obtain ⟨k1, k2⟩ := skip_tell hW r2.1 (Z.minbits - 1)
    refine ⟨_, by congr 3; omega, ?_, by rw [← r2.2]; exact k2⟩
    rw [show P + max 1 Z.minbits = P + 1 + (Z.minbits - 1) by omega]
    exact k1
  · refine ⟨_, by congr 3; omega, ?_⟩
    rw [show P + max 1 Z.minbits = P + 1 by omega]
    exact r2

/-- The decoder of the integers of a block finds its code and returns values with the property `Q`. -/
def DecOk (m : Overflow) (F : FTraits) (W : Nat) (Z : Params) (maxprec : Nat) (u : Nat → Int) (Q : (Nat → Int) → Prop) : Prop :=
  ∀ (mem : Nat → Nat) (s : Stream) (P : Nat), At W mem s P →
    Holds W mem P (blockCode F.T.w (coeffs F.T u) (Z.minbits - (F.ebits + 1)) (Z.maxbits - (F.ebits + 1)) maxprec) →
    ∃ s' v', decodeBlock m F.T W s ((Z.minbits : Int) - (F.ebits + 1)) ((Z.maxbits : Int) - (F.ebits + 1)) maxprec (List.replicate (4 ^ F.T.d) 0) =
        some (s', ((blockCode F.T.w (coeffs F.T u) (Z.minbits - (F.ebits + 1)) (Z.maxbits - (F.ebits + 1)) maxprec).length : Int), v') ∧
      At W mem s' (P + (blockCode F.T.w (coeffs F.T u) (Z.minbits - (F.ebits + 1)) (Z.maxbits - (F.ebits + 1)) maxprec).length) ∧ Q v'

theorem decodeFloat_spec (m : Overflow) {F : FTraits} (hF : F.Ok) {W : Nat} (hW : 0 < W) (hW64 : W ≤ 64) {Z : Params} (hZ : Z.ok) (hmax : F.ebits + 1 ≤ Z.maxbits)
    (rnd : ℚ → ℚ) {mem : Nat → Nat} {s : Stream} {P : Nat} (hs : At W mem s P) {emax : Int} (h1 : -F.ebias ≤ emax) (h2 : emax ≤ F.ebias + 1) {u : Nat → Int}
    (hh : Holds W mem P (floatCode F Z (emax + F.ebias).toNat (precision emax Z.maxprec Z.minexp F.T.d) u)) {Q : (Nat → Int) → Prop}
    (hQ : DecOk m F W Z (precision emax Z.maxprec Z.minexp F.T.d) u Q) :
    ∃ s', ∃ v' : Nat → Int, decodeFloatBlock m F W Z rnd s = some (s', (floatCode F Z (emax + F.ebias).toNat (precision emax Z.maxprec Z.minexp F.T.d) u).length,
        fun i => rnd (2 ^ (emax - ((F.T.w : Int) - 2)) * (v' i : Int))) ∧
      At W mem s' (P + (floatCode F Z (emax + F.ebias).toNat (precision emax Z.maxprec Z.minexp F.T.d) u).length) ∧ Q v' := by
  obtain ⟨hb, hb2, hb3, _⟩ := hF.bias
  obtain ⟨z1, z2⟩ := hZ
  obtain ⟨e1, e2⟩ := biased hF h1 h2
  have ee : ((emax + F.ebias) % 2 ^ 32).toNat = (emax + F.ebias).toNat := by omega
  rw [ee] at e1 e2
  have hl := floatCode_length F Z (emax + F.ebias).toNat (precision emax Z.maxprec Z.minexp F.T.d) u hmax
  rw [hl.2.2]
  have hlb := blockCode_length F.T.w (coeffs F.T u) (Z.minbits - (F.ebits + 1)) (Z.maxbits - (F.ebits + 1)) (precision emax Z.maxprec Z.minexp F.T.d)
  rw [floatCode, List.cons_append, holds_cons, holds_append, bitsOf_length] at hh
  obtain ⟨r1, r2⟩ := readBit_at hW hs
  obtain ⟨s1, val, k1, k2, k3, k4⟩ := readBits_at hW64 r2 F.ebits (by omega)
  have hval : val = (emax + F.ebias).toNat := by
    refine Nat.eq_of_testBit_eq fun j => ?_
    by_cases hj : j < F.ebits
    · rw [k4 j hj, hh.2.1 j (by simpa using hj), List.getD_eq_getElem?_getD, List.getElem?_eq_getElem (by simpa using hj), Option.getD_some, bitsOf_getElem]
    · rw [Nat.testBit_lt_two_pow (lt_of_lt_of_le k3 (Nat.pow_le_pow_right (by omega) (by omega))),
        Nat.testBit_lt_two_pow (lt_of_lt_of_le e2 (Nat.pow_le_pow_right (by omega) (by omega)))]
  subst hval
  obtain ⟨s2, v', g1, g2, g3⟩ := hQ mem s1 _ k2 hh.2.2
  refine ⟨s2, v', ?_, ?_, g3⟩
  · unfold decodeFloatBlock
    dsimp only
    rw [r1, hh.1, if_pos rfl, Nat.add_sub_cancel, k1, Option.bind_some]
    dsimp only
    rw [e1, add_sub_cancel_right, sub32_small z1 (by omega), sub32_small z2 (by omega)]
    push_cast
    rw [g1, Option.map_some]
    congr 3
    dsimp only
    rw [Int.emod_eq_of_lt (by omega) (by omega)]
    omega
  · rw [show P + (F.ebits + 1 + (blockCode F.T.w (coeffs F.T u) (Z.minbits - (F.ebits + 1)) (Z.maxbits - (F.ebits + 1)) (precision emax Z.maxprec Z.minexp F.T.d)).length) =
      P + 1 + F.ebits + (blockCode F.T.w (coeffs F.T u) (Z.minbits - (F.ebits + 1)) (Z.maxbits - (F.ebits + 1)) (precision emax Z.maxprec Z.minexp F.T.d)).length by omega]
    exact g2

theorem decOk_close (m : Overflow) {F : FTraits} (hF : F.Ok) {W : Nat} (hW : 0 < W) (hW64 : W ≤ 64) {Z : Params} (hZ : Z.ok) (hmax : F.ebits + 1 ≤ Z.maxbits)
    {maxprec : Nat} {A : Int} (hA : 2 ≤ A) {v u : Nat → Int} (hv : ∀ i < 4 ^ F.T.d, |v i| ≤ A) (hu : fwdXform (2 ^ (F.T.w - 1)) F.T.d v = some u) {κ : Nat}
    (hκ : F.T.w - maxprec ≤ κ ∧ κ ≤ F.T.w) (hen : F.ebits + 1 + enough (4 ^ F.T.d) (F.T.w - κ) ≤ Z.maxbits)
    (hroom : Room m A (errB (F.T.d - 1) (2 ^ κ - 1)) (2 ^ (F.T.w - 1))) :
    DecOk m F W Z maxprec u fun v' => ∀ i < 4 ^ F.T.d, |v' i - v i| ≤ errB F.T.d (2 ^ κ - 1) := by
  intro mem s P hs hh
  obtain ⟨z1, z2⟩ := hZ
  have := decodeBlock_spec m hF.1.good hW hW64 hs (minbits := (Z.minbits : Int) - (F.ebits + 1)) (maxbits := (Z.maxbits : Int) - (F.ebits + 1))
    (by omega) (by omega) maxprec hA hv hu (List.replicate (4 ^ F.T.d) 0) (by simp) (by
      rw [show ((Z.minbits : Int) - (F.ebits + 1)).toNat = Z.minbits - (F.ebits + 1) by omega,
        show ((Z.maxbits : Int) - (F.ebits + 1)).toNat = Z.maxbits - (F.ebits + 1) by omega]
      exact hh) hκ (by omega) hroom
  rwa [show ((Z.minbits : Int) - (F.ebits + 1)).toNat = Z.minbits - (F.ebits + 1) by omega,
    show ((Z.maxbits : Int) - (F.ebits + 1)).toNat = Z.maxbits - (F.ebits + 1) by omega] at this

/-! ## Wrapping arithmetic: results are words whatever the coefficients -/

theorem bmod_word (v : Int) {B : Int} (hB : 0 < B) : -B ≤ v.bmod (2 * B).toNat ∧ v.bmod (2 * B).toNat < B := by
  have h1 := Int.le_bmod (x := v) (m := (2 * B).toNat) (by omega)
  have h2 := Int.bmod_lt (x := v) (m := (2 * B).toNat) (by omega)
  omega

theorem invLift_word {B : Int} (hB : 0 < B) (q : Int × Int × Int × Int) : ∃ x y z w, app (invLift .wraps B) q = some (x, y, z, w) ∧ (-B ≤ x ∧ x < B) ∧
    (-B ≤ y ∧ y < B) ∧ (-B ≤ z ∧ z < B) ∧ (-B ≤ w ∧ w < B) := by
  simp only [app, invLift, ar, Option.bind_some]
  exact ⟨_, _, _, _, rfl, bmod_word _ hB, bmod_word _ hB, bmod_word _ hB, bmod_word _ hB⟩

theorem invXform_word {B : Int} (hB : 0 < B) {d : Nat} (hd : 1 ≤ d ∧ d ≤ 4) (v : Nat → Int) :
    ∃ v', invXform .wraps B d v = some v' ∧ ∀ i < 4 ^ d, -B ≤ v' i ∧ v' i < B := by
  obtain ⟨hok, hlen⟩ := passes_ok d hd
  unfold invXform
  cases hp : passes d with
  | nil => rw [hp] at hlen; simp at hlen; omega
  | cons P Ps =>
    obtain ⟨r, hr⟩ := Option.isSome_iff_exists.1 (invRun_some B Ps v)
    rw [invRun, hr, Option.bind_some]
    have hP : TableOk (4 ^ d) P := hok P (by rw [hp]; simp)
    obtain ⟨v', e, h1, _⟩ := runLines_spec (f := invLift .wraps B) P r (fun l hl => (hP.1 l hl).1) hP.2.1
      (fun l _ => by obtain ⟨x, y, z, w, e, _⟩ := invLift_word hB (quad r l); rw [e]; rfl)
    refine ⟨v', e, fun i hi => ?_⟩
    obtain ⟨l, hl, hm⟩ := hP.2.2 i hi
    obtain ⟨x, y, z, w, e2, g1, g2, g3, g4⟩ := invLift_word hB (quad r l)
    rw [h1 l hl] at e2
    simp only [quad, Option.some.injEq, Prod.mk.injEq] at e2
    simp only [pts, List.mem_cons, List.not_mem_nil, or_false] at hm
    rcases hm with rfl | rfl | rfl | rfl
    · rw [e2.1]; exact g1
    · rw [e2.2.1]; exact g2
    · rw [e2.2.2.1]; exact g3
    · rw [e2.2.2.2]; exact g4

theorem decOk_word {F : FTraits} (hF : F.Ok) {W : Nat} (hW : 0 < W) (hW64 : W ≤ 64) {Z : Params} (hZ : Z.ok) (hmax : F.ebits + 1 ≤ Z.maxbits) (maxprec : Nat)
    (u : Nat → Int) : DecOk .wraps F W Z maxprec u fun v' => ∀ i < 4 ^ F.T.d, -2 ^ (F.T.w - 1) ≤ v' i ∧ v' i < 2 ^ (F.T.w - 1) := by
  intro mem s P hs hh
  obtain ⟨z1, z2⟩ := hZ
  have hT := hF.1.good
  rw [blockCode, holds_append] at hh
  obtain ⟨s1, used, out, e1, g1, g2, g3, g4, g5⟩ := decodeBlk_spec (intprec := F.T.w) hW hW64 (4 ^ F.T.d) (Z.maxbits - (F.ebits + 1)) maxprec (Nat.pow_pos (by omega)) mem s P hs
  obtain ⟨c1, -⟩ := g5 (coeffs F.T u) (coeffs_length hT u) (by
    intro c hc
    obtain ⟨p, _, rfl⟩ := List.mem_map.1 hc
    exact BitVec.isLt _) hh.1
  obtain ⟨b, eb, -⟩ := invOrder_spec F.T.mask F.T.perm (out.map (BitVec.ofNat F.T.w)) (List.replicate (4 ^ F.T.d) 0) (by rw [List.length_map, hT.perm.len, g3]) hT.perm.nodup
    (fun p hp => by simpa using hT.perm.lt p hp)
  obtain ⟨v', ev, hv'⟩ := invXform_word (B := 2 ^ (F.T.w - 1)) (by positivity) hT.d fun i => (b.getD i 0).toInt
  unfold decodeBlock
  rw [Int.emod_eq_of_lt (by omega) (by omega), show ((Z.maxbits : Int) - (F.ebits + 1)).toNat = Z.maxbits - (F.ebits + 1) by omega, e1, Option.bind_some]
  dsimp only
  rw [bmod_small (by omega), eb, Option.bind_some, ev, Option.map_some, blockCode, List.length_append, List.length_replicate, ← c1]
  by_cases hlt : (used : Int) < Z.minbits - (F.ebits + 1)
  · rw [if_pos hlt]
    obtain ⟨k1, k2⟩ := skip_tell hW g2.1 ((Z.minbits : Int) - (F.ebits + 1) - used).toNat
    refine ⟨_, v', by congr 3; dsimp only; omega, ⟨?_, by rw [← g2.2]; exact k2⟩, hv'⟩
    rw [show P + (used + (Z.minbits - (F.ebits + 1) - used)) = P + used + ((Z.minbits : Int) - (F.ebits + 1) - used).toNat by omega]
    exact k1
  · rw [if_neg hlt]
    refine ⟨_, v', by congr 3; dsimp only; omega, ?_, hv'⟩
    rw [show P + (used + (Z.minbits - (F.ebits + 1) - used)) = P + used by omega]
    exact g2

end Verif.Zfp

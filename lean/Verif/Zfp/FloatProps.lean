import Verif.Zfp.Float
import Mathlib.Tactic.NormNum
import Mathlib.Tactic.LinearCombination

/-! # Floating-point blocks: round trip, size and tolerance (C55) -/

namespace Verif.Zfp

/-- Written to a new stream, flushed, rewound and read back. -/
def floatTrip (m : Overflow) (F : FTraits) (W : Nat) (Z : Params) (rnd : ℚ → ℚ) (mem : Nat → Nat) (x : Nat → ℚ) : Option (Nat × Nat × Nat × (Nat → ℚ)) :=
  (encodeFloatBlock F W Z (openStream mem) x).bind fun (s1, n) => (flush W s1).bind fun (s2, _) =>
  (decodeFloatBlock m F W Z rnd (rewind s2)).map fun (s3, n', x') => (n, n', rtell W s3, x')

/-- The block is not encoded bit by bit: it is below the precision asked for, or zero. -/
def Skipped (F : FTraits) (Z : Params) (x : Nat → ℚ) : Prop := precision (F.emax x) Z.maxprec Z.minexp F.T.d = 0 ∨ F.emax x = -F.ebias

theorem cast_spec {F : FTraits} {x : Nat → ℚ} {v : Nat → Int} (hv : F.fwdCast x (F.emax x) = some v) (i : Nat) :
    |(2:ℚ) ^ (F.emax x - ((F.T.w : Int) - 2)) * v i - x i| < 2 ^ (F.emax x - ((F.T.w : Int) - 2)) ∧
    |(v i : ℚ)| ≤ 2 ^ ((F.T.w : Int) - 2 - F.emax x) * |x i| := by
  unfold FTraits.fwdCast at hv
  split at hv
  · have hv := (Option.some.inj hv).symm
    subst hv
    dsimp only
    obtain ⟨h1, h2⟩ := trunc_spec (2 ^ ((F.T.w : Int) - 2 - F.emax x) * x i)
    have hpos : (0:ℚ) < 2 ^ ((F.T.w : Int) - 2 - F.emax x) := zpow_pos (by norm_num) _
    have hinv : (2:ℚ) ^ (F.emax x - ((F.T.w : Int) - 2)) * 2 ^ ((F.T.w : Int) - 2 - F.emax x) = 1 := by
      rw [← zpow_add₀ (by norm_num)]; simp
    have hpos2 : (0:ℚ) < 2 ^ (F.emax x - ((F.T.w : Int) - 2)) := zpow_pos (by norm_num) _
    constructor
    · generalize (2:ℚ) ^ (F.emax x - ((F.T.w : Int) - 2)) = a at *
      generalize (2:ℚ) ^ ((F.T.w : Int) - 2 - F.emax x) = b at *
      rw [show a * (trunc (b * x i) : ℚ) - x i = -(a * (b * x i - trunc (b * x i))) by linear_combination (x i) * hinv]
      rw [abs_neg, abs_mul, abs_of_pos hpos2]
      nlinarith
    · rwa [abs_mul, abs_of_pos hpos] at h2
  · exact absurd hv (by simp)

/-- With the bound of the cast, the error in terms of values. -/
theorem value_error {F : FTraits} {x : Nat → ℚ} {v v' : Nat → Int} (hv : F.fwdCast x (F.emax x) = some v) {i : Nat} {E : Int} (h : |v' i - v i| ≤ E) :
    |(2:ℚ) ^ (F.emax x - ((F.T.w : Int) - 2)) * v' i - x i| ≤ 2 ^ (F.emax x - ((F.T.w : Int) - 2)) * (E + 1) := by
  have h1 := (cast_spec hv i).1
  have h2 : |(v' i : ℚ) - v i| ≤ E := by exact_mod_cast h
  have hpos2 : (0:ℚ) < 2 ^ (F.emax x - ((F.T.w : Int) - 2)) := zpow_pos (by norm_num) _
  generalize (2:ℚ) ^ (F.emax x - ((F.T.w : Int) - 2)) = a at *
  have h3 : |a * ((v' i : ℚ) - v i)| ≤ a * E := by rw [abs_mul, abs_of_pos hpos2]; exact mul_le_mul_of_nonneg_left h2 hpos2.le
  calc |a * (v' i : ℚ) - x i| = |a * ((v' i : ℚ) - v i) + (a * v i - x i)| := by congr 1; ring
    _ ≤ |a * ((v' i : ℚ) - v i)| + |a * v i - x i| := abs_add_le _ _
    _ ≤ a * (E + 1) := by linarith

/-- The integers of a block, from the bound on its values. -/
theorem cast_bound {F : FTraits} {x : Nat → ℚ} {v : Nat → Int} (hv : F.fwdCast x (F.emax x) = some v) {A : Int}
    (hxA : ∀ i < 4 ^ F.T.d, |x i| * 2 ^ ((F.T.w : Int) - 2 - F.emax x) < A + 1) : ∀ i < 4 ^ F.T.d, |v i| ≤ A := fun i hi => by
  have h1 := (cast_spec hv i).2
  have h2 := hxA i hi
  have : |(v i : ℚ)| < A + 1 := by linarith
  have : |v i| < A + 1 := by exact_mod_cast this
  omega

theorem enough_mono {n a b : Nat} (h : a ≤ b) : enough n a ≤ enough n b := by
  have := Nat.mul_le_mul_right n h
  unfold enough
  omega

theorem floatCode_length_le {F : FTraits} (hF : F.Ok) (Z : Params) (e : Nat) {maxprec : Nat} (u : Nat → Int) (hmax : F.ebits + 1 ≤ Z.maxbits) (hp : maxprec ≤ Z.maxprec) :
    (floatCode F Z e maxprec u).length ≤ max Z.minbits (F.ebits + 1 + enough (4 ^ F.T.d) (min Z.maxprec F.T.w)) := by
  have hl := coeffs_length hF.1.good u
  have h2 := blockCode_length_le F.T.w (coeffs F.T u) (List.length_pos_iff.1 (by rw [hl]; exact Nat.pow_pos (by omega)))
    (Z.minbits - (F.ebits + 1)) (Z.maxbits - (F.ebits + 1)) maxprec
  have h3 := enough_mono (n := 4 ^ F.T.d) (show min maxprec F.T.w ≤ min Z.maxprec F.T.w by omega)
  rw [hl] at h2
  rw [(floatCode_length F Z e maxprec u hmax).2.2]
  omega

/-- The block is written as a fixed list of bits, whatever the state of the stream, and read from these bits as `y` with `R y`. -/
def FloatCoded (m : Overflow) (F : FTraits) (W : Nat) (Z : Params) (rnd : ℚ → ℚ) (x : Nat → ℚ) (R : (Nat → ℚ) → Prop) : Prop :=
  ∃ l : List Bool, Z.minbits ≤ l.length ∧ l.length ≤ max Z.minbits Z.maxbits ∧ l.length ≤ max Z.minbits (F.ebits + 1 + enough (4 ^ F.T.d) (min Z.maxprec F.T.w)) ∧
    (∀ s, Wok W s → ∃ s', encodeFloatBlock F W Z s x = some (s', l.length) ∧ Emits W s l s') ∧
    ∀ mem s P, At W mem s P → Holds W mem P l → ∃ s' y, decodeFloatBlock m F W Z rnd s = some (s', l.length, y) ∧ At W mem s' (P + l.length) ∧ R y

/-- A block that is encoded. -/
theorem coded_block (m : Overflow) {F : FTraits} (hF : F.Ok) {W : Nat} (hW : 0 < W) (hW64 : W ≤ 64) {Z : Params} (hZ : Z.ok)
    (hmax : F.ebits + 1 ≤ Z.maxbits) (rnd : ℚ → ℚ) {x : Nat → ℚ} (hx : ∀ i < 4 ^ F.T.d, |x i| < 2 ^ (F.ebias + 1)) (hne : ¬ Skipped F Z x)
    {v u : Nat → Int} (hv : F.fwdCast x (F.emax x) = some v) (hu : fwdXform (2 ^ (F.T.w - 1)) F.T.d v = some u) {Q : (Nat → Int) → Prop}
    (hQ : DecOk m F W Z (precision (F.emax x) Z.maxprec Z.minexp F.T.d) u Q) :
    FloatCoded m F W Z rnd x fun y => ∃ v' : Nat → Int, (y = fun i => rnd (2 ^ (F.emax x - ((F.T.w : Int) - 2)) * (v' i : Int))) ∧ Q v' := by
  unfold Skipped at hne
  rw [not_or] at hne
  obtain ⟨hb, _⟩ := hF.bias
  have hle := emax_le hF (by omega) hx
  have hl := floatCode_length F Z (F.emax x + F.ebias).toNat (precision (F.emax x) Z.maxprec Z.minexp F.T.d) u hmax
  refine ⟨_, hl.1, hl.2.1, floatCode_length_le hF Z _ u hmax (min_le_left _ _), fun s hs => encodeFloat_spec hF hW64 hZ hmax hs hle hv hu hne.1 hne.2, ?_⟩
  intro mem s P hs hh
  obtain ⟨s3, v', e3, g1, g2⟩ := decodeFloat_spec m hF hW hW64 hZ hmax rnd hs (emax_spec hF x).2.1 hle hh hQ
  exact ⟨s3, _, e3, g1, v', rfl, g2⟩

/-- A block that is not encoded. -/
theorem skipped_block (m : Overflow) {F : FTraits} {W : Nat} (hW : 0 < W) (hW64 : W ≤ 64) {Z : Params} (hZ : Z.ok) (hmax : F.ebits + 1 ≤ Z.maxbits)
    (rnd : ℚ → ℚ) {x : Nat → ℚ} (h : Skipped F Z x) : FloatCoded m F W Z rnd x fun y => y = fun _ => 0 := by
  refine ⟨_, by rw [zeroCode_length]; omega, by rw [zeroCode_length]; omega, by rw [zeroCode_length]; omega, fun s hs => encodeZero_spec hZ hs hW64 h, ?_⟩
  intro mem s P hs hh
  obtain ⟨s3, e3, g1⟩ := decodeZero_spec m (F := F) hW rnd hs hh
  exact ⟨s3, _, e3, g1, rfl⟩

theorem FloatCoded.trip {m : Overflow} {F : FTraits} {W : Nat} {Z : Params} {rnd : ℚ → ℚ} {x : Nat → ℚ} {R : (Nat → ℚ) → Prop} (h : FloatCoded m F W Z rnd x R)
    (hW : 0 < W) (hW64 : W ≤ 64) (mem : Nat → Nat) (hmem : ∀ i, mem i < 2 ^ W) :
    ∃ n y, floatTrip m F W Z rnd mem x = some (n, n, n, y) ∧ Z.minbits ≤ n ∧ n ≤ max Z.minbits Z.maxbits ∧ R y := by
  obtain ⟨l, l1, l2, _, henc, hdec⟩ := h
  have hwr := rewind_wr (s := openStream mem) hW hmem (fun _ => false)
  obtain ⟨s1, e1, h1⟩ := henc (openStream mem) ⟨_, _, hwr⟩
  obtain ⟨s2, k, e2, hm2, hh, hw, _⟩ := flushed_holds hW64 hwr h1
  obtain ⟨s3, y, e3, g1, g2⟩ := hdec _ (rewind s2) 0 ⟨rewind_rd hW hm2, rfl⟩ hh
  refine ⟨_, y, ?_, l1, l2, g2⟩
  unfold floatTrip
  rw [e1, Option.bind_some]
  dsimp only
  rw [e2, Option.bind_some]
  dsimp only
  rw [e3, Option.map_some]
  dsimp only
  rw [rtell_eq g1.1, Nat.zero_add]

theorem FloatCoded.mono {m : Overflow} {F : FTraits} {W : Nat} {Z : Params} {rnd : ℚ → ℚ} {x : Nat → ℚ} {R R' : (Nat → ℚ) → Prop} (h : FloatCoded m F W Z rnd x R)
    (hR : ∀ y, R y → R' y) : FloatCoded m F W Z rnd x R' := by
  obtain ⟨l, l1, l2, l3, henc, hdec⟩ := h
  refine ⟨l, l1, l2, l3, henc, fun mem s P hs hh => ?_⟩
  obtain ⟨s', y, e, h1, h2⟩ := hdec mem s P hs hh
  exact ⟨s', y, e, h1, hR y h2⟩

/-- Kept planes and the tolerance they give. -/
theorem errB_pow {δ : Int} (hδ : 0 ≤ δ) : ∀ n, errB n δ + 1 ≤ 4 ^ n * (δ + 1)
  | 0 => by simp [errB]
  | n + 1 => by
    have ih := errB_pow hδ n
    have h0 := errB_nonneg hδ n
    have : errB (n + 1) δ + 1 ≤ 4 * (errB n δ + 1) := by
      rw [errB]
      generalize errB n δ = e at *
      unfold gain
      split <;> omega
    calc errB (n + 1) δ + 1 ≤ 4 * (errB n δ + 1) := this
      _ ≤ 4 * (4 ^ n * (δ + 1)) := by omega
      _ = 4 ^ (n + 1) * (δ + 1) := by ring

theorem fwdCast_some {F : FTraits} {x : Nat → ℚ} (h : (F.T.w : Int) - 2 - F.ebias ≤ F.emax x) : ∃ v, F.fwdCast x (F.emax x) = some v := by
  unfold FTraits.fwdCast
  rw [if_pos (by omega)]
  exact ⟨_, rfl⟩

/-- The values of a block in units of the last place of its integers. -/
theorem units_lt {F : FTraits} (hF : F.Ok) (x : Nat → ℚ) {i : Nat} (hi : i < 4 ^ F.T.d) :
    |x i| * 2 ^ ((F.T.w : Int) - 2 - F.emax x) < ((2 ^ (F.T.w - 2) - 1 : Int) : ℚ) + 1 := by
  have h1 := (emax_spec hF x).1 i hi
  have hw : 32 ≤ F.T.w := hF.bias.2.2.2
  have hpos : (0:ℚ) < 2 ^ ((F.T.w : Int) - 2 - F.emax x) := zpow_pos (by norm_num) _
  have h2 := mul_lt_mul_of_pos_right h1 hpos
  rw [← zpow_add₀ (by norm_num), show F.emax x + ((F.T.w : Int) - 2 - F.emax x) = ((F.T.w - 2 : Nat) : Int) by omega, zpow_natCast] at h2
  push_cast
  linarith

theorem pow_split {F : FTraits} (hF : F.Ok) : (2:Int) ^ (F.T.w - 1) = 2 * 2 ^ (F.T.w - 2) ∧ (2:Int) ^ 30 ≤ 2 ^ (F.T.w - 2) := by
  have hw : 32 ≤ F.T.w := hF.bias.2.2.2
  constructor
  · rw [← pow_succ']; congr 1; omega
  · exact pow_le_pow_right₀ (by norm_num) (by omega)

theorem fwd_some {F : FTraits} (hF : F.Ok) {v : Nat → Int} (hv : ∀ i < 4 ^ F.T.d, |v i| ≤ 2 ^ (F.T.w - 2) - 1) : ∃ u, fwdXform (2 ^ (F.T.w - 1)) F.T.d v = some u := by
  obtain ⟨p1, p2⟩ := pow_split hF
  have hd := hF.1.good.d
  have hr : Room .wraps (2 ^ (F.T.w - 2) - 1) (errB (F.T.d - 1) 0) (2 ^ (F.T.w - 1)) := by
    have h3 : errB (F.T.d - 1) 0 ≤ errB 3 0 := errB_le_errB (le_refl _) (by omega)
    have h4 := gain_mono (errB_nonneg (le_refl 0) (F.T.d - 1)) h3
    rw [show gain (errB 3 0) = 151 by decide] at h4
    exact ⟨by omega, by omega⟩
  obtain ⟨u, e, _⟩ := xform_round_trip .wraps F.T.d hd (by omega) (le_refl _) hr v hv
  exact ⟨u, e⟩

/-- An error of fewer than `4^d 2^κ` units, in terms of the exponent that goes with the kept planes. -/
theorem unit_tolerance {w d κ : Nat} {emax : Int} {k : Int} (hk : (2 * d + κ : Int) + (emax - ((w : Int) - 2)) ≤ k) {E : Int} (hE : E + 1 ≤ 4 ^ d * 2 ^ κ) :
    (2:ℚ) ^ (emax - ((w : Int) - 2)) * (E + 1) ≤ 2 ^ k := by
  have h1 : ((E : ℚ) + 1) ≤ 2 ^ ((2 * d + κ : Nat) : Int) := by
    rw [zpow_natCast, pow_add, pow_mul]
    norm_num
    exact_mod_cast hE
  have hpos : (0:ℚ) < 2 ^ (emax - ((w : Int) - 2)) := zpow_pos (by norm_num) _
  calc (2:ℚ) ^ (emax - ((w : Int) - 2)) * (E + 1) ≤ 2 ^ (emax - ((w : Int) - 2)) * 2 ^ ((2 * d + κ : Nat) : Int) := mul_le_mul_of_nonneg_left h1 hpos.le
    _ = 2 ^ (emax - ((w : Int) - 2) + ((2 * d + κ : Nat) : Int)) := (zpow_add₀ (by norm_num) _ _).symm
    _ ≤ 2 ^ k := zpow_le_zpow_right₀ (by norm_num) (by push_cast; omega)

/-! ## Property theorems -/

/-- The bits of a block, whatever the state of the stream. -/
theorem float_written {F : FTraits} (hF : F.Ok) {W : Nat} (hW64 : W ≤ 64) {Z : Params} (hZ : Z.ok) (hmax : F.ebits + 1 ≤ Z.maxbits)
    {x : Nat → ℚ} (hx : ∀ i < 4 ^ F.T.d, |x i| < 2 ^ (F.ebias + 1))
    (hbig : (∀ i < 4 ^ F.T.d, x i = 0) ∨ ∃ i < 4 ^ F.T.d, (2:ℚ) ^ ((F.T.w : Int) - 2 - F.ebias - 1) ≤ |x i|) :
    ∃ l : List Bool, Z.minbits ≤ l.length ∧ l.length ≤ max Z.minbits Z.maxbits ∧ l.length ≤ max Z.minbits (F.ebits + 1 + enough (4 ^ F.T.d) (min Z.maxprec F.T.w)) ∧
      ∀ s, Wok W s → ∃ s', encodeFloatBlock F W Z s x = some (s', l.length) ∧ Emits W s l s' := by
  have hb := hF.bias
  by_cases hsk : Skipped F Z x
  · exact ⟨_, by rw [zeroCode_length]; omega, by rw [zeroCode_length]; omega, by rw [zeroCode_length]; omega, fun s hs => encodeZero_spec hZ hs hW64 hsk⟩
  · have hne := hsk
    unfold Skipped at hne
    rw [not_or] at hne
    have hscale : (F.T.w : Int) - 2 - F.ebias ≤ F.emax x := by
      rcases hbig with h0 | ⟨i, hi, h⟩
      · exfalso
        apply hne.2
        unfold FTraits.emax FTraits.exponent
        rw [if_neg]
        rcases blockMax_mem (4 ^ F.T.d) x with h | ⟨i, hi, h⟩
        · rw [h]; exact lt_irrefl _
        · rw [h, h0 i hi, abs_zero]; exact lt_irrefl _
      · exact le_emax hF hi h
    obtain ⟨v, hv⟩ := fwdCast_some hscale
    obtain ⟨u, hu⟩ := fwd_some hF (cast_bound hv fun i hi => units_lt hF x hi)
    have hl := floatCode_length F Z (F.emax x + F.ebias).toNat (precision (F.emax x) Z.maxprec Z.minexp F.T.d) u hmax
    exact ⟨_, hl.1, hl.2.1, floatCode_length_le hF Z _ u hmax (min_le_left _ _),
      fun s hs => encodeFloat_spec hF hW64 hZ hmax hs (emax_le hF (by omega) hx) hv hu hne.1 hne.2⟩

/-- C55, size: for every block of finite numbers that is zero or not smaller than the scale factor permits, with room for the exponent, the
encoder writes at least `minbits` and at most `maxbits` bits, and beyond `minbits` no more than the exponent and `maxprec` bit planes need. -/
theorem float_block_size {F : FTraits} (hF : F.Ok) {W : Nat} (hW64 : W ≤ 64) {Z : Params} (hZ : Z.ok) (hmm : Z.minbits ≤ Z.maxbits) (hmax : F.ebits + 1 ≤ Z.maxbits)
    {s : Stream} {c : Nat → Bool} {P : Nat} (hs : Wr W s c P) {x : Nat → ℚ} (hx : ∀ i < 4 ^ F.T.d, |x i| < 2 ^ (F.ebias + 1))
    (hbig : (∀ i < 4 ^ F.T.d, x i = 0) ∨ ∃ i < 4 ^ F.T.d, (2:ℚ) ^ ((F.T.w : Int) - 2 - F.ebias - 1) ≤ |x i|) :
    ∃ s' n c', encodeFloatBlock F W Z s x = some (s', n) ∧ Z.minbits ≤ n ∧ n ≤ Z.maxbits ∧
      n ≤ max Z.minbits (F.ebits + 1 + enough (4 ^ F.T.d) (min Z.maxprec F.T.w)) ∧ Wr W s' c' (P + n) ∧ ∀ i < P, c' i = c i := by
  obtain ⟨l, l1, l2, l3, henc⟩ := float_written hF hW64 hZ hmax hx hbig
  obtain ⟨s1, e1, h1⟩ := henc s ⟨_, _, hs⟩
  exact ⟨s1, _, _, e1, l1, by omega, l3, (h1 c P hs).1, fun i hi => by rw [splice, if_pos hi]⟩

/-- C55, round trip: a block that is encoded, with values below `A + 1` units of the last place, decodes from the same bits to the rounding of
values within the error of the kept planes. With overflow undefined this needs the room stated. -/
theorem float_round_trip (m : Overflow) {F : FTraits} (hF : F.Ok) {W : Nat} (hW : 0 < W) (hW64 : W ≤ 64) (mem : Nat → Nat) (hmem : ∀ i, mem i < 2 ^ W) {Z : Params} (hZ : Z.ok)
    (hmax : F.ebits + 1 ≤ Z.maxbits) (rnd : ℚ → ℚ) {x : Nat → ℚ} (hx : ∀ i < 4 ^ F.T.d, |x i| < 2 ^ (F.ebias + 1)) (hne : ¬ Skipped F Z x)
    (hscale : (F.T.w : Int) - 2 - F.ebias ≤ F.emax x) {A : Int} (hA : 2 ≤ A) (hxA : ∀ i < 4 ^ F.T.d, |x i| * 2 ^ ((F.T.w : Int) - 2 - F.emax x) < A + 1) {κ : Nat}
    (hκ : F.T.w - precision (F.emax x) Z.maxprec Z.minexp F.T.d ≤ κ ∧ κ ≤ F.T.w) (hen : F.ebits + 1 + enough (4 ^ F.T.d) (F.T.w - κ) ≤ Z.maxbits)
    (hroom : Room m A (errB (F.T.d - 1) (2 ^ κ - 1)) (2 ^ (F.T.w - 1))) :
    ∃ n, ∃ y : Nat → ℚ, floatTrip m F W Z rnd mem x = some (n, n, n, fun i => rnd (y i)) ∧ Z.minbits ≤ n ∧ n ≤ max Z.minbits Z.maxbits ∧
      ∀ i < 4 ^ F.T.d, |y i - x i| ≤ 2 ^ (F.emax x - ((F.T.w : Int) - 2)) * (errB F.T.d (2 ^ κ - 1) + 1) := by
  obtain ⟨v, hv⟩ := fwdCast_some hscale
  have hvA := cast_bound hv hxA
  obtain ⟨u, hu, _⟩ := xform_round_trip m F.T.d hF.1.good.d hA (delta_nonneg κ) hroom v hvA
  obtain ⟨n, _, e, h1, h2, v', rfl, h3⟩ := (coded_block m hF hW hW64 hZ hmax rnd hx hne hv hu (decOk_close m hF hW hW64 hZ hmax hA hvA hu hκ hen hroom)).trip hW hW64 mem hmem
  exact ⟨n, fun i => 2 ^ (F.emax x - ((F.T.w : Int) - 2)) * (v' i : Int), e, h1, h2, fun i hi => value_error hv (h3 i hi)⟩

/-- The core of the accuracy theorem, in any stream. -/
theorem float_accuracy_block {F : FTraits} (hF : F.Ok) {W : Nat} (hW : 0 < W) (hW64 : W ≤ 64) {Z : Params} (hZ : Z.ok)
    (hprec : F.T.w ≤ Z.maxprec) (hbits : F.ebits + 1 + enough (4 ^ F.T.d) F.T.w ≤ Z.maxbits) (rnd : ℚ → ℚ) (hrnd : rnd 0 = 0)
    {x : Nat → ℚ} (hx : ∀ i < 4 ^ F.T.d, |x i| < 2 ^ (F.ebias + 1))
    (hbig : (∀ i < 4 ^ F.T.d, x i = 0) ∨ ∃ i < 4 ^ F.T.d, (2:ℚ) ^ ((F.T.w : Int) - 2 - F.ebias - 1) ≤ |x i|) (hedge : F.emax x ≠ Z.minexp - 1) :
    FloatCoded .wraps F W Z rnd x fun z => ∃ y : Nat → ℚ, (z = fun i => rnd (y i)) ∧
      ∀ i < 4 ^ F.T.d, |y i - x i| ≤ max (2 ^ Z.minexp) (2 ^ (F.emax x + (2 * F.T.d + 2) - F.T.w)) := by
  obtain ⟨hb, _, _, hw⟩ := hF.bias
  obtain ⟨p1, p2⟩ := pow_split hF
  have hd := hF.1.good.d
  have hmaxb : F.ebits + 1 ≤ Z.maxbits := by omega
  by_cases hsk : Skipped F Z x
  · refine (skipped_block .wraps (F := F) hW hW64 hZ hmaxb rnd hsk).mono ?_
    rintro _ rfl
    refine ⟨fun _ => 0, by funext; exact hrnd.symm, fun i hi => ?_⟩
    rw [zero_sub, abs_neg]
    refine le_trans ?_ (le_max_left _ _)
    rcases hsk with h | h
    · have hlt := (emax_spec hF x).1 i hi
      refine hlt.le.trans (zpow_le_zpow_right₀ (by norm_num) ?_)
      unfold precision at h
      omega
    · rw [(emax_spec hF x).2.2.1 h i hi, abs_zero]
      exact (zpow_pos (by norm_num) _).le
  · have hne := hsk
    unfold Skipped at hne
    rw [not_or] at hne
    have hscale : (F.T.w : Int) - 2 - F.ebias ≤ F.emax x := by
      rcases hbig with h0 | ⟨i, hi, h⟩
      · exfalso
        apply hne.2
        unfold FTraits.emax FTraits.exponent
        rw [if_neg]
        rcases blockMax_mem (4 ^ F.T.d) x with h | ⟨i, hi, h⟩
        · rw [h]; exact lt_irrefl _
        · rw [h, h0 i hi, abs_zero]; exact lt_irrefl _
      · exact le_emax hF hi h
    obtain ⟨v, hv⟩ := fwdCast_some hscale
    have hvA := cast_bound hv fun i hi => units_lt hF x hi
    obtain ⟨u, hu⟩ := fwd_some hF hvA
    have hpr : precision (F.emax x) Z.maxprec Z.minexp F.T.d ≠ 0 := hne.1
    have hpos4 : 0 < 4 ^ F.T.d := Nat.pow_pos (by omega)
    obtain ⟨κ, hκ⟩ : ∃ κ, κ = F.T.w - precision (F.emax x) Z.maxprec Z.minexp F.T.d := ⟨_, rfl⟩
    have hk : (2 * F.T.d + κ : Int) + (F.emax x - ((F.T.w : Int) - 2)) ≤ Z.minexp ∨ κ = 0 := by
      unfold precision at hκ hpr
      omega
    have fin : ∀ {v' : Nat → Int} {i : Nat} {E : Int}, |v' i - v i| ≤ E → E + 1 ≤ 4 ^ F.T.d * 2 ^ κ →
        |(2:ℚ) ^ (F.emax x - ((F.T.w : Int) - 2)) * (v' i : Int) - x i| ≤ max (2 ^ Z.minexp) (2 ^ (F.emax x + (2 * F.T.d + 2) - F.T.w)) := by
      intro v' i E h1 h2
      refine (value_error hv h1).trans ?_
      rcases hk with hk | hk
      · exact (unit_tolerance hk h2).trans (le_max_left _ _)
      · exact (unit_tolerance (by rw [hk]; push_cast; omega) h2).trans (le_max_right _ _)
    by_cases hlow : Z.minexp ≤ F.emax x
    · have hsum : 2 * F.T.d + κ ≤ F.T.w - 2 := by
        unfold precision at hκ hpr
        omega
      have herr := errB_pow (delta_nonneg κ) F.T.d
      rw [sub_add_cancel] at herr
      have hroom : Room .wraps (2 ^ (F.T.w - 2) - 1) (errB (F.T.d - 1) (2 ^ κ - 1)) (2 ^ (F.T.w - 1)) := by
        refine ⟨by omega, ?_⟩
        have h1 : errB F.T.d (2 ^ κ - 1) = gain (errB (F.T.d - 1) (2 ^ κ - 1)) + 2 := by
          obtain ⟨k, hk⟩ : ∃ k, F.T.d = k + 1 := ⟨F.T.d - 1, by omega⟩
          rw [hk, errB, Nat.add_sub_cancel]
        have h2 : (4:Int) ^ F.T.d * 2 ^ κ ≤ 2 ^ (F.T.w - 2) := by
          rw [show (4:Int) = 2 ^ 2 by norm_num, ← pow_mul, ← pow_add]
          exact pow_le_pow_right₀ (by norm_num) hsum
        omega
      refine (coded_block .wraps hF hW hW64 hZ hmaxb rnd hx hsk hv hu
        (decOk_close .wraps hF hW hW64 hZ hmaxb (by omega) hvA hu (κ := κ) ⟨by omega, by omega⟩ (by
          have : enough (4 ^ F.T.d) (F.T.w - κ) ≤ enough (4 ^ F.T.d) F.T.w := by
            unfold enough
            exact Nat.add_le_add_right (Nat.mul_le_mul_right _ (by omega)) _
          omega) hroom)).mono ?_
      rintro _ ⟨v', rfl, h3⟩
      exact ⟨fun i => 2 ^ (F.emax x - ((F.T.w : Int) - 2)) * (v' i : Int), rfl, fun i hi => fin (h3 i hi) herr⟩
    · have hsum : F.T.w ≤ 2 * F.T.d + κ := by
        unfold precision at hκ hpr
        omega
      refine (coded_block .wraps hF hW hW64 hZ hmaxb rnd hx hsk hv hu (decOk_word hF hW hW64 hZ hmaxb _ u)).mono ?_
      rintro _ ⟨v', rfl, h3⟩
      refine ⟨fun i => 2 ^ (F.emax x - ((F.T.w : Int) - 2)) * (v' i : Int), rfl, fun i hi => fin (E := 3 * 2 ^ (F.T.w - 2) - 1) ?_ ?_⟩
      · have g1 := h3 i hi
        have g2 := abs_le.1 (hvA i hi)
        rw [abs_le]
        constructor <;> omega
      · have h2 : (2:Int) ^ F.T.w ≤ 4 ^ F.T.d * 2 ^ κ := by
          rw [show (4:Int) = 2 ^ 2 by norm_num, ← pow_mul, ← pow_add]
          exact pow_le_pow_right₀ (by norm_num) hsum
        have h4 : (2:Int) ^ F.T.w = 4 * 2 ^ (F.T.w - 2) := by
          rw [show (4:Int) = 2 ^ 2 by norm_num, ← pow_add]; congr 1; omega
        omega

/-- C55, fixed accuracy. With full precision and budget and the tolerance `2 ^ minexp`, every block of finite numbers that is zero or not
too small for the scale factor is returned as the rounding of values within the tolerance, or within the resolution of the integers if
that is coarser. Signed overflow is taken to wrap around. Missing, and false (`accuracy_violated`): blocks whose common exponent is just
below the exponent of the tolerance. -/
theorem float_accuracy_partial {F : FTraits} (hF : F.Ok) {W : Nat} (hW : 0 < W) (hW64 : W ≤ 64) (mem : Nat → Nat) (hmem : ∀ i, mem i < 2 ^ W) {Z : Params} (hZ : Z.ok)
    (hprec : F.T.w ≤ Z.maxprec) (hbits : F.ebits + 1 + enough (4 ^ F.T.d) F.T.w ≤ Z.maxbits) (rnd : ℚ → ℚ) (hrnd : rnd 0 = 0)
    {x : Nat → ℚ} (hx : ∀ i < 4 ^ F.T.d, |x i| < 2 ^ (F.ebias + 1))
    (hbig : (∀ i < 4 ^ F.T.d, x i = 0) ∨ ∃ i < 4 ^ F.T.d, (2:ℚ) ^ ((F.T.w : Int) - 2 - F.ebias - 1) ≤ |x i|) (hedge : F.emax x ≠ Z.minexp - 1) :
    ∃ n, ∃ y : Nat → ℚ, floatTrip .wraps F W Z rnd mem x = some (n, n, n, fun i => rnd (y i)) ∧
      ∀ i < 4 ^ F.T.d, |y i - x i| ≤ max (2 ^ Z.minexp) (2 ^ (F.emax x + (2 * F.T.d + 2) - F.T.w)) := by
  obtain ⟨n, _, e, _, _, y, rfl, h⟩ := (float_accuracy_block hF hW hW64 hZ hprec hbits rnd hrnd hx hbig hedge).trip hW hW64 mem hmem
  exact ⟨n, y, e, h⟩

/-- Blocks of four `float` values. -/
def float1 : FTraits := ⟨int1, 8⟩

/-- The edge left out of `float_accuracy_partial`: values below 1, tolerance 2; the second value, nearly -1, is returned as 1.875. -/
theorem accuracy_violated : ((floatTrip .wraps float1 64 ⟨1, 16651, 64, 1⟩ id (fun _ => 0) fun i => if i = 0 then -1/8 else if i = 1 then -(1 - 1/2^24) else if i = 2 then -3/4 else -7/8).map
    fun r => (decide (2 < |r.2.2.2 1 - (-(1 - 1/2^24))|))) = some true := by decide +kernel

/-- A block of values near 2^-100 cannot be encoded: the scale factor 2^129 is infinite in single precision. -/
theorem tiny_block : (encodeFloatBlock float1 64 ⟨1, 16651, 64, -1074⟩ (openStream fun _ => 0) (fun _ => 1 / 2 ^ 100)).isNone := by decide +kernel

/-- A budget below the nine bits of the exponent, which zfp_stream_set_params accepts, wraps around and is exceeded. -/
theorem budget_violated : ((encodeFloatBlock float1 64 ⟨1, 8, 64, -1074⟩ (openStream fun _ => 0) fun i => (i : ℚ) / 5).map fun r => decide (r.2 > 8)) = some true := by decide +kernel

/-- Single precision numbers have 24 significant bits, so their integers stay 64 units below
`2^30` and there is room for the transforms of exact coefficients in up to three dimensions even when overflow is undefined. -/
theorem room_float (d : Nat) (hd : 1 ≤ d ∧ d ≤ 3) : Room .undefined (2 ^ 30 - 64) (errB (d - 1) 0) (2 ^ 31) := by
  have : d = 1 ∨ d = 2 ∨ d = 3 := by omega
  rcases this with rfl | rfl | rfl <;> show _ ≤ _ <;> decide +kernel

/-- The same for double precision numbers with 53 bits, in up to four dimensions. -/
theorem room_double (d : Nat) (hd : 1 ≤ d ∧ d ≤ 4) : Room .undefined (2 ^ 62 - 512) (errB (d - 1) 0) (2 ^ 63) := by
  have : d = 1 ∨ d = 2 ∨ d = 3 ∨ d = 4 := by omega
  rcases this with rfl | rfl | rfl | rfl <;> show _ ≤ _ <;> decide +kernel

/-! ## Cases that meet the hypotheses -/

/-- Four values and their block. -/
def someFloats (i : Nat) : ℚ := (i : ℚ) / 4 - 1 / 8

example : float1.Ok := ⟨.w32 1 perm1 (Or.inl ⟨rfl, rfl⟩), Or.inl ⟨rfl, rfl⟩⟩

example : float1.ebits + 1 + enough (4 ^ float1.T.d) float1.T.w ≤ 16651 := by decide

example : (∀ i < 4 ^ float1.T.d, |someFloats i| < 2 ^ (float1.ebias + 1)) ∧ ¬ Skipped float1 ⟨1, 16651, 64, -10⟩ someFloats ∧
    (float1.T.w : Int) - 2 - float1.ebias ≤ float1.emax someFloats ∧ float1.emax someFloats ≠ -10 - 1 ∧ float1.emax someFloats = 0 := by
  refine ⟨by decide +kernel, ?_, by decide +kernel, by decide +kernel, by decide +kernel⟩
  unfold Skipped
  decide +kernel

example : ∀ i < 4 ^ float1.T.d, |someFloats i| * 2 ^ ((float1.T.w : Int) - 2 - float1.emax someFloats) < (2 ^ 30 - 64 : Int) + 1 := by decide +kernel

example : ∃ i < 4 ^ float1.T.d, (2:ℚ) ^ ((float1.T.w : Int) - 2 - float1.ebias - 1) ≤ |someFloats i| := ⟨2, by decide +kernel⟩

/-- A round trip with tolerance 2^-10. -/
example : ((floatTrip .undefined float1 64 ⟨1, 16651, 64, -10⟩ id (fun _ => 0) someFloats).map fun r =>
    Nat.beq r.1 r.2.1 && Nat.blt 20 r.1 && (List.range 4).all fun i => decide (|r.2.2.2 i - someFloats i| ≤ 1 / 2 ^ 10)) = some true := by decide +kernel

end Verif.Zfp

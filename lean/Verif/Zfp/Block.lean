import Verif.Zfp.CoderProps
import Verif.Zfp.Coeff
import Verif.Zfp.LiftProps

/-! # zfp blocks (zfp/src/template/encode.c:138-159, decode.c:120-141, encodef.c:51-82, decodef.c:25-56) -/

namespace Verif.Zfp

/-- The traits of a scalar type: word width and NBMASK (traitsi.h, traitsl.h, traitsf.h, traitsd.h), and the dimension with its table. -/
structure Traits where
  w : Nat
  mask : BitVec w
  d : Nat
  perm : List Nat

/-- encode_block (encode.c:138-159), with the transformed block as a list. `minbits` and `maxbits` are `int`; encode_ints takes `maxbits` as
`uint` and its result is stored in an `int`. -/
def encodeBlock (T : Traits) (W : Nat) (s : Stream) (minbits maxbits : Int) (maxprec : Nat) (v : Nat → Int) : Option (Stream × Int) :=
  (fwdXform (2 ^ (T.w - 1)) T.d v).bind fun u =>
  (fwdOrder T.mask T.perm ((List.range (4 ^ T.d)).map fun i => BitVec.ofInt T.w (u i))).bind fun ub =>
  (encodeBlk W T.w s ⟨ub.map BitVec.toNat, (maxbits % 2 ^ 32).toNat, maxprec⟩).bind fun (s, n) =>
  let bits := (n : Int).bmod (2 ^ 32)
  if bits < minbits then (pad W s (minbits - bits).toNat).map fun s => (s, minbits) else some (s, bits)

/-- decode_block (decode.c:120-141). `old` is the uninitialised content of the block. -/
def decodeBlock (m : Overflow) (T : Traits) (W : Nat) (s : Stream) (minbits maxbits : Int) (maxprec : Nat) (old : List (BitVec T.w)) : Option (Stream × Int × (Nat → Int)) :=
  (decodeBlk W T.w s (4 ^ T.d) (maxbits % 2 ^ 32).toNat maxprec).bind fun (s, n, ub) =>
  let bits := (n : Int).bmod (2 ^ 32)
  let r := if bits < minbits then (skip W s (minbits - bits).toNat, minbits) else (s, bits)
  (invOrder T.mask T.perm (ub.map (BitVec.ofNat T.w)) old).bind fun b =>
  (invXform m (2 ^ (T.w - 1)) T.d fun i => (b.getD i 0).toInt).map fun v => (r.1, r.2, v)

/-- The traits of the program: 32 bit words (int32, float) and 64 bit words (int64, double), one to four dimensions. -/
inductive Traits.Ok : Traits → Prop
  | w32 (d : Nat) (perm : List Nat) : (d = 1 ∧ perm = perm1 ∨ d = 2 ∧ perm = perm2 ∨ d = 3 ∧ perm = perm3 ∨ d = 4 ∧ perm = perm4) →
      Traits.Ok ⟨32, nbmask32, d, perm⟩
  | w64 (d : Nat) (perm : List Nat) : (d = 1 ∧ perm = perm1 ∨ d = 2 ∧ perm = perm2 ∨ d = 3 ∧ perm = perm3 ∨ d = 4 ∧ perm = perm4) →
      Traits.Ok ⟨64, nbmask64, d, perm⟩

/-- What the proofs use of the traits. -/
structure Good (T : Traits) : Prop where
  n : ∃ n, T.w = 2 * n ∧ T.mask.toNat = odds n ∧ 0 < n
  d : 1 ≤ T.d ∧ T.d ≤ 4
  perm : Lists (4 ^ T.d) T.perm
  w : T.w ≤ 64

theorem Traits.Ok.good {T : Traits} (h : T.Ok) : Good T := by
  have hl : ∀ {d : Nat} {perm : List Nat}, (d = 1 ∧ perm = perm1 ∨ d = 2 ∧ perm = perm2 ∨ d = 3 ∧ perm = perm3 ∨ d = 4 ∧ perm = perm4) →
      (1 ≤ d ∧ d ≤ 4) ∧ Lists (4 ^ d) perm := by
    rintro d perm (⟨rfl, rfl⟩ | ⟨rfl, rfl⟩ | ⟨rfl, rfl⟩ | ⟨rfl, rfl⟩)
    · exact ⟨by omega, perm1_lists⟩
    · exact ⟨by omega, perm2_lists⟩
    · exact ⟨by omega, perm3_lists⟩
    · exact ⟨by omega, perm4_lists⟩
  cases h with
  | w32 d perm hd => exact ⟨⟨16, rfl, mask32, by omega⟩, (hl hd).1, (hl hd).2, by dsimp only; omega⟩
  | w64 d perm hd => exact ⟨⟨32, rfl, mask64, by omega⟩, (hl hd).1, (hl hd).2, by dsimp only; omega⟩

/-! ## Coefficients that agree in the high planes -/

theorem base2neg_diff (k u v : Nat) : |base2neg k u - base2neg k v| ≤ 2 ^ k - 1 := by
  unfold base2neg
  rw [← Finset.sum_sub_distrib]
  induction k with
  | zero => simp
  | succ k ih =>
    rw [Finset.sum_range_succ, pow_succ]
    refine le_trans (abs_add_le _ _) ?_
    have h2 : |(-2 : Int) ^ k| = 2 ^ k := by rw [abs_pow]; norm_num
    have hp : (0:Int) ≤ 2 ^ k := by positivity
    have : |(if u.testBit k then (-2 : Int) ^ k else 0) - (if v.testBit k then (-2 : Int) ^ k else 0)| ≤ 2 ^ k := by
      split <;> split
      · simp
      · rw [sub_zero, h2]
      · rw [zero_sub, abs_neg, h2]
      · simp
    linarith

/-- Words that agree above plane `k` stand for coefficients less than `2 ^ k` apart, if there is room. -/
theorem planes_close {n : Nat} (mask : BitVec (2 * n)) (hm : mask.toNat = odds n) (hn : 0 < n) {u u' : BitVec (2 * n)} {k : Nat} (hk : k ≤ 2 * n)
    (h : u.toNat / 2 ^ k = u'.toNat / 2 ^ k) (hr : |(uint2int mask u).toInt| + (2 ^ k - 1) < 2 ^ (2 * n - 1)) :
    |(uint2int mask u').toInt - (uint2int mask u).toInt| ≤ 2 ^ k - 1 := by
  have h1 := uint2int_modEq mask hm u
  have h2 := uint2int_modEq mask hm u'
  rw [base2neg_trunc (2 * n) k u.toNat hk] at h1
  rw [base2neg_trunc (2 * n) k u'.toNat hk, ← h] at h2
  have h3 := h2.sub h1
  rw [add_sub_add_left_eq_sub] at h3
  have hb := base2neg_diff k u'.toNat u.toNat
  generalize base2neg k u'.toNat - base2neg k u.toNat = D at *
  have h4 : (uint2int mask u').toInt ≡ (uint2int mask u).toInt + D [ZMOD (2 ^ (2 * n) : Nat)] := by
    have := h3.add_right (uint2int mask u).toInt
    rwa [sub_add_cancel, add_comm D] at this
  have l1 := BitVec.toInt_lt (x := uint2int mask u')
  have l2 := BitVec.le_toInt (x := uint2int mask u')
  generalize (uint2int mask u').toInt = a' at *
  generalize (uint2int mask u).toInt = a at *
  have e2 : ((2 ^ (2 * n) : Nat) : Int) = 2 * 2 ^ (2 * n - 1) := by
    rw [← pow_succ']; push_cast; congr 1; omega
  rw [e2] at h4
  have hbb := abs_le.1 hb
  have hlt : |a + D| < 2 ^ (2 * n - 1) := by
    have := abs_add_le a D
    linarith
  have hab := abs_lt.1 hlt
  generalize (2:Int) ^ (2 * n - 1) = M at *
  obtain ⟨c, hc⟩ := (Int.modEq_iff_dvd.1 h4)
  have hc0 : c = 0 := by
    by_contra hne
    have : c ≤ -1 ∨ 1 ≤ c := by omega
    have hM : 0 < M := by linarith [abs_nonneg (a + D)]
    rcases this with hh | hh <;> nlinarith
  rw [hc0, mul_zero] at hc
  rw [show a' - a = D by linarith]
  exact hb

/-! ## Bits of one block -/

/-- The code of a block of transformed coefficients: cut to the budget, then padded to the minimum. -/
def blockCode (w : Nat) (ub : List Nat) (minbits maxbits : Nat) (maxprec : Nat) : List Bool :=
  (fullCode ub (w - maxprec) w 0).take maxbits ++ List.replicate (minbits - ((fullCode ub (w - maxprec) w 0).take maxbits).length) false

theorem emits_pad {W : Nat} {s : Stream} (hs : Wok W s) (n : Nat) (hn : s.bits + n < 2 ^ 32) :
    ∃ s', pad W s n = some s' ∧ Emits W s (List.replicate n false) s' := by
  obtain ⟨c, P, h⟩ := hs
  obtain ⟨s', e, _⟩ := pad_wr h n hn
  refine ⟨s', e, fun c P h => ?_⟩
  obtain ⟨s2, e2, h1, h2, h3⟩ := pad_wr h n hn
  rw [e] at e2
  obtain rfl : s' = s2 := by simpa using e2
  refine ⟨?_, h2, h3⟩
  rw [List.length_replicate]
  refine h1.congr fun i hi => ?_
  unfold splice
  split
  · rfl
  · dsimp only
    rw [List.getD_replicate _ (by omega)]

/-- The coefficients as the coder gets them. -/
def coeffs (T : Traits) (u : Nat → Int) : List Nat := T.perm.map fun p => (int2uint T.mask (BitVec.ofInt T.w (u p))).toNat

theorem coeffs_length {T : Traits} (hT : Good T) (u : Nat → Int) : (coeffs T u).length = 4 ^ T.d := by rw [coeffs, List.length_map, hT.perm.len]

theorem bmod_small {n : Nat} (h : n < 2 ^ 31) : (n : Int).bmod (2 ^ 32) = n := by
  apply Int.bmod_eq_of_le
  · have : ((2 ^ 32 : Nat) : Int) = 4294967296 := by norm_num
    omega
  · have : ((2 ^ 32 : Nat) : Int) = 4294967296 := by norm_num
    omega

theorem encodeBlock_spec {T : Traits} (hT : Good T) {W : Nat} (hW64 : W ≤ 64) {s : Stream} (hs : Wok W s) {minbits maxbits : Int}
    (hmin : minbits < 2 ^ 31) (hmax : 0 ≤ maxbits ∧ maxbits < 2 ^ 31) (maxprec : Nat) {v u : Nat → Int} (hu : fwdXform (2 ^ (T.w - 1)) T.d v = some u) :
    ∃ s', encodeBlock T W s minbits maxbits maxprec v = some (s', ((blockCode T.w (coeffs T u) minbits.toNat maxbits.toNat maxprec).length : Int)) ∧
      Emits W s (blockCode T.w (coeffs T u) minbits.toNat maxbits.toNat maxprec) s' := by
  have hfo : fwdOrder T.mask T.perm ((List.range (4 ^ T.d)).map fun i => BitVec.ofInt T.w (u i)) =
      some (T.perm.map fun p => int2uint T.mask (BitVec.ofInt T.w (u p))) := by
    rw [fwdOrder_eq _ _ _ fun p hp => by simpa using hT.perm.lt p hp]
    congr 1
    refine List.map_congr_left fun p hp => ?_
    have := hT.perm.lt p hp
    simp [List.getD_eq_getElem?_getD, this]
  have hmb : (maxbits % 2 ^ 32).toNat = maxbits.toNat := by
    rw [Int.emod_eq_of_lt hmax.1 (by omega)]
  obtain ⟨s1, e1, h1⟩ := encodeBlk_spec (intprec := T.w) hW64 ⟨coeffs T u, maxbits.toNat, maxprec⟩ s hs
  have hcl : ((fullCode (coeffs T u) (T.w - maxprec) T.w 0).take maxbits.toNat).length < 2 ^ 31 := by
    rw [List.length_take]; omega
  unfold encodeBlock
  rw [hu, Option.bind_some, hfo, Option.bind_some, List.map_map, hmb]
  rw [show List.map (BitVec.toNat ∘ fun p => int2uint T.mask (BitVec.ofInt T.w (u p))) T.perm = coeffs T u from rfl, e1, Option.bind_some]
  dsimp only
  rw [bmod_small hcl]
  unfold blockCode
  generalize (fullCode (coeffs T u) (T.w - maxprec) T.w 0).take maxbits.toNat = code at *
  split
  · rename_i hlt
    obtain ⟨s2, e2, h2⟩ := emits_pad (h1.ok hs) (minbits - code.length).toNat (by
      obtain ⟨c, P, hw⟩ := h1.ok hs
      have := hw.bits
      omega)
    refine ⟨s2, ?_, ?_⟩
    · rw [e2, Option.map_some, List.length_append, List.length_replicate]
      congr 2
      omega
    · rw [show minbits.toNat - code.length = (minbits - code.length).toNat by omega]
      exact h1.trans h2
  · rename_i hge
    refine ⟨s1, ?_, ?_⟩
    · rw [show minbits.toNat - code.length = 0 by omega, List.replicate_zero, List.append_nil]
    · rw [show minbits.toNat - code.length = 0 by omega, List.replicate_zero, List.append_nil]
      exact h1

/-- The decoder on the code of a block. -/
theorem decodeBlock_spec (m : Overflow) {T : Traits} (hT : Good T) {W : Nat} (hW : 0 < W) (hW64 : W ≤ 64) {mem : Nat → Nat} {s : Stream} {P : Nat} (hs : At W mem s P)
    {minbits maxbits : Int} (hmin : minbits < 2 ^ 31) (hmax : 0 ≤ maxbits ∧ maxbits < 2 ^ 31) (maxprec : Nat) {A : Int} (hA : 2 ≤ A) {v u : Nat → Int}
    (hv : ∀ i < 4 ^ T.d, |v i| ≤ A) (hu : fwdXform (2 ^ (T.w - 1)) T.d v = some u) (old : List (BitVec T.w)) (hold : old.length = 4 ^ T.d)
    (hh : Holds W mem P (blockCode T.w (coeffs T u) minbits.toNat maxbits.toNat maxprec)) {κ : Nat} (hκ : T.w - maxprec ≤ κ ∧ κ ≤ T.w)
    (hen : (enough (4 ^ T.d) (T.w - κ) : Int) ≤ maxbits) (hroom : Room m A (errB (T.d - 1) (2 ^ κ - 1)) (2 ^ (T.w - 1))) :
    ∃ s' v', decodeBlock m T W s minbits maxbits maxprec old = some (s', ((blockCode T.w (coeffs T u) minbits.toNat maxbits.toNat maxprec).length : Int), v') ∧
      At W mem s' (P + (blockCode T.w (coeffs T u) minbits.toNat maxbits.toNat maxprec).length) ∧
      ∀ i < 4 ^ T.d, |v' i - v i| ≤ errB T.d (2 ^ κ - 1) := by
  obtain ⟨n, hn, hm, hn0⟩ := hT.n
  have hδ : (0:Int) ≤ 2 ^ κ - 1 := by have : (1:Int) ≤ 2 ^ κ := one_le_pow₀ (by norm_num)
                                      linarith
  obtain ⟨u0, hu0, hur, hinv⟩ := xform_round_trip m (B := 2 ^ (T.w - 1)) T.d hT.d hA hδ hroom v hv
  rw [hu] at hu0
  obtain rfl : u = u0 := by simpa using hu0
  have hmb : (maxbits % 2 ^ 32).toNat = maxbits.toNat := by rw [Int.emod_eq_of_lt hmax.1 (by omega)]
  have hpos : 0 < 4 ^ T.d := Nat.pow_pos (by omega)
  rw [blockCode, holds_append] at hh
  obtain ⟨s1, used, out, e1, h1, h2, h3, h4, h5⟩ := decodeBlk_spec (intprec := T.w) hW hW64 (4 ^ T.d) maxbits.toNat maxprec hpos mem s P hs
  have hlt : ∀ c ∈ coeffs T u, c < 2 ^ T.w := by
    intro c hc
    obtain ⟨p, _, rfl⟩ := List.mem_map.1 hc
    exact BitVec.isLt _
  obtain ⟨g1, g2⟩ := h5 (coeffs T u) (coeffs_length hT u) hlt hh.1
  have hcl : used < 2 ^ 31 := by omega
  have hob : ∀ p ∈ T.perm, p < old.length := fun p hp => by rw [hold]; exact hT.perm.lt p hp
  obtain ⟨b, eb, hbl, -, hbi⟩ := invOrder_spec T.mask T.perm (out.map (BitVec.ofNat T.w)) old (by rw [List.length_map, hT.perm.len, h3]) hT.perm.nodup hob
  have hclose : ∀ i < 4 ^ T.d, |(b.getD i 0).toInt - u i| ≤ 2 ^ κ - 1 := by
    intro i hi
    obtain ⟨j, hj, rfl⟩ := List.mem_iff_getElem.1 (hT.perm.all i hi)
    have hjo : j < out.length := by rw [h3, ← hT.perm.len]; exact hj
    have hb := hbi j hj (by simpa using hjo)
    rw [List.getD_eq_getElem?_getD, hb, Option.getD_some, List.getElem_map]
    have hq := g2 κ hκ.1 hκ.2 (by omega) j
    have hcj : (coeffs T u).getD j 0 = (int2uint T.mask (BitVec.ofInt T.w (u T.perm[j]))).toNat := by
      simp [coeffs, List.getD_eq_getElem?_getD, hj]
    have hoj : out.getD j 0 = out[j] := by simp [List.getD_eq_getElem?_getD, hjo]
    rw [hcj, hoj] at hq
    have hout : out[j] < 2 ^ T.w := (h4 _ (List.getElem_mem hjo)).1
    have hto : (BitVec.ofNat T.w out[j]).toNat = out[j] := by rw [BitVec.toNat_ofNat, Nat.mod_eq_of_lt hout]
    have huv : (BitVec.ofInt T.w (u T.perm[j])).toInt = u T.perm[j] := by
      rw [BitVec.toInt_ofInt]
      have hab := abs_le.1 (hur _ hi)
      have htwo := hroom.two (errB_nonneg hδ _)
      have e2 : ((2 ^ T.w : Nat) : Int) = 2 * 2 ^ (T.w - 1) := by
        rw [← pow_succ']; push_cast; congr 1; omega
      apply Int.bmod_eq_of_le <;> omega
    have hgm : A + (2 ^ κ - 1) < 2 ^ (T.w - 1) := by
      have h0 : Room m A (errB 0 (2 ^ κ - 1)) (2 ^ (T.w - 1)) := hroom.mono hδ (by omega)
      rw [errB] at h0
      have htwo := h0.two hδ
      cases m <;> simp only [Room, gain, gainMid] at h0 <;> split at h0 <;> omega
    have key : ∀ (w : Nat) (mask : BitVec w) (n : Nat), w = 2 * n → mask.toNat = odds n → 0 < n → ∀ x y : BitVec w,
        (int2uint mask x).toNat / 2 ^ κ = y.toNat / 2 ^ κ → κ ≤ w → |x.toInt| + (2 ^ κ - 1) < 2 ^ (w - 1) → |(uint2int mask y).toInt - x.toInt| ≤ 2 ^ κ - 1 := by
      rintro w mask n rfl hm hn x y hxy hk hr
      have := planes_close mask hm hn hk hxy (by rwa [(negabinary_bijective mask x).1])
      rwa [(negabinary_bijective mask x).1] at this
    have := key T.w T.mask n hn hm hn0 (BitVec.ofInt T.w (u T.perm[j])) (BitVec.ofNat T.w out[j]) (by rw [hto]; exact hq.symm) hκ.2 (by
      rw [huv]
      have := hur _ hi
      omega)
    rwa [huv] at this
  obtain ⟨v', ev, hv'⟩ := hinv (fun i => (b.getD i 0).toInt) hclose
  unfold decodeBlock
  rw [hmb, e1, Option.bind_some]
  dsimp only
  rw [bmod_small hcl, eb, Option.bind_some, ev, Option.map_some, blockCode, List.length_append, List.length_replicate, ← g1]
  by_cases hmb : (used : Int) < minbits
  · rw [if_pos hmb]
    refine ⟨_, v', by congr 3; dsimp only; omega, ?_, hv'⟩
    obtain ⟨k1, k2⟩ := skip_tell hW h2.1 (minbits - used).toNat
    refine ⟨?_, by rw [← h2.2]; exact k2⟩
    rw [show P + (used + (minbits.toNat - used)) = P + used + (minbits - used).toNat by omega]
    exact k1
  · rw [if_neg hmb]
    refine ⟨_, v', by congr 3; dsimp only; omega, ?_, hv'⟩
    rw [show P + (used + (minbits.toNat - used)) = P + used by omega]
    exact h2

end Verif.Zfp

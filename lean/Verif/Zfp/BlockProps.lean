import Verif.Zfp.Block

/-! # Integer blocks: round trip, rate and random access (C54) -/

namespace Verif.Zfp

/-- The parameters of a zfp_stream (zfp.h): all `uint` but the last. -/
structure Params where
  minbits : Nat
  maxbits : Nat
  maxprec : Nat
  minexp : Int

/-- Conversion of a `uint` to `int`. -/
def toInt32 (n : Nat) : Int := (n : Int).bmod (2 ^ 32)

/-- zfp_encode_block for integers (encodei.c:5-14). -/
def encodeIntBlock (T : Traits) (W : Nat) (Z : Params) (s : Stream) (v : Nat → Int) : Option (Stream × Int) :=
  encodeBlock T W s (toInt32 Z.minbits) (toInt32 Z.maxbits) Z.maxprec v

/-- zfp_decode_block for integers (decodei.c:5-9). The contents of the block before the call are all zero here; they are overwritten. -/
def decodeIntBlock (m : Overflow) (T : Traits) (W : Nat) (Z : Params) (s : Stream) : Option (Stream × Int × (Nat → Int)) :=
  decodeBlock m T W s (toInt32 Z.minbits) (toInt32 Z.maxbits) Z.maxprec (List.replicate (4 ^ T.d) 0)

/-- The loop over all blocks of an array (compress.c:3-24 and the like). -/
def encodeIntBlocks (T : Traits) (W : Nat) (Z : Params) : Stream → List (Nat → Int) → Option (Stream × List Int)
  | s, [] => some (s, [])
  | s, v :: vs => (encodeIntBlock T W Z s v).bind fun (s, n) => (encodeIntBlocks T W Z s vs).map fun (s, ns) => (s, n :: ns)

/-- The loop over all blocks (decompress.c). -/
def decodeIntBlocks (m : Overflow) (T : Traits) (W : Nat) (Z : Params) : Nat → Stream → Option (Stream × List (Int × (Nat → Int)))
  | 0, s => some (s, [])
  | k + 1, s => (decodeIntBlock m T W Z s).bind fun (s, r) => (decodeIntBlocks m T W Z k s).map fun (s, rs) => (s, r :: rs)

/-- The bits of one block. -/
def intCode (T : Traits) (Z : Params) (u : Nat → Int) : List Bool := blockCode T.w (coeffs T u) Z.minbits Z.maxbits Z.maxprec

theorem toInt32_small {n : Nat} (h : n < 2 ^ 31) : toInt32 n = n := bmod_small h

theorem blockCode_length (w : Nat) (ub : List Nat) (minbits maxbits maxprec : Nat) :
    minbits ≤ (blockCode w ub minbits maxbits maxprec).length ∧ (blockCode w ub minbits maxbits maxprec).length ≤ max minbits maxbits := by
  unfold blockCode
  rw [List.length_append, List.length_replicate]
  have : ((fullCode ub (w - maxprec) w 0).take maxbits).length ≤ maxbits := by rw [List.length_take]; omega
  omega

/-- The code of a block never needs more than the bits of its planes. -/
theorem blockCode_length_le (w : Nat) (ub : List Nat) (hub : ub ≠ []) (minbits maxbits maxprec : Nat) :
    (blockCode w ub minbits maxbits maxprec).length ≤ max minbits (enough ub.length (min maxprec w)) := by
  unfold blockCode enough
  rw [List.length_append, List.length_replicate]
  have h := fullCode_length ub hub (w - maxprec) w 0 (by omega)
  rw [show w - (w - maxprec) = min maxprec w by omega] at h
  have : ((fullCode ub (w - maxprec) w 0).take maxbits).length ≤ (fullCode ub (w - maxprec) w 0).length := by rw [List.length_take]; omega
  omega

/-- Any parameters of the library's range: sizes fit an `int`. -/
def Params.ok (Z : Params) : Prop := Z.minbits < 2 ^ 31 ∧ Z.maxbits < 2 ^ 31

theorem encodeIntBlock_spec {T : Traits} (hT : Good T) {W : Nat} (hW64 : W ≤ 64) {Z : Params} (hZ : Z.ok) {s : Stream} (hs : Wok W s) {v u : Nat → Int}
    (hu : fwdXform (2 ^ (T.w - 1)) T.d v = some u) :
    ∃ s', encodeIntBlock T W Z s v = some (s', ((intCode T Z u).length : Int)) ∧ Emits W s (intCode T Z u) s' := by
  obtain ⟨h1, h2⟩ := hZ
  obtain ⟨s', e, h⟩ := encodeBlock_spec hT hW64 hs (minbits := (Z.minbits : Int)) (maxbits := (Z.maxbits : Int)) (by omega) (by omega) Z.maxprec hu
  rw [Int.toNat_natCast, Int.toNat_natCast] at e h
  exact ⟨s', by rw [encodeIntBlock, toInt32_small h1, toInt32_small h2, e, intCode], h⟩

/-- What is needed for blocks of values of magnitude at most `A` to keep all planes from `κ` on. -/
structure Keeps (m : Overflow) (T : Traits) (Z : Params) (A : Int) (κ : Nat) : Prop where
  prec : T.w - Z.maxprec ≤ κ
  plane : κ ≤ T.w
  bits : enough (4 ^ T.d) (T.w - κ) ≤ Z.maxbits
  mag : 2 ≤ A
  room : Room m A (errB (T.d - 1) (2 ^ κ - 1)) (2 ^ (T.w - 1))

theorem delta_nonneg (κ : Nat) : (0:Int) ≤ 2 ^ κ - 1 := by
  have : (1:Int) ≤ 2 ^ κ := one_le_pow₀ (by norm_num)
  linarith

theorem Keeps.fwd {m : Overflow} {T : Traits} {Z : Params} {A : Int} {κ : Nat} (h : Keeps m T Z A κ) (hT : Good T) {v : Nat → Int} (hv : ∀ i < 4 ^ T.d, |v i| ≤ A) :
    ∃ u, fwdXform (2 ^ (T.w - 1)) T.d v = some u := by
  obtain ⟨u, e, _⟩ := xform_round_trip m T.d hT.d h.mag (delta_nonneg κ) h.room v hv
  exact ⟨u, e⟩

theorem decodeIntBlock_spec {m : Overflow} {T : Traits} (hT : Good T) {W : Nat} (hW : 0 < W) (hW64 : W ≤ 64) {Z : Params} (hZ : Z.ok) {A : Int} {κ : Nat}
    (hk : Keeps m T Z A κ) {mem : Nat → Nat} {s : Stream} {P : Nat} (hs : At W mem s P) {v u : Nat → Int} (hv : ∀ i < 4 ^ T.d, |v i| ≤ A)
    (hu : fwdXform (2 ^ (T.w - 1)) T.d v = some u) (hh : Holds W mem P (intCode T Z u)) :
    ∃ s' v', decodeIntBlock m T W Z s = some (s', ((intCode T Z u).length : Int), v') ∧ At W mem s' (P + (intCode T Z u).length) ∧
      ∀ i < 4 ^ T.d, |v' i - v i| ≤ errB T.d (2 ^ κ - 1) := by
  obtain ⟨h1, h2⟩ := hZ
  have := decodeBlock_spec m hT hW hW64 hs (minbits := (Z.minbits : Int)) (maxbits := (Z.maxbits : Int)) (by omega) (by omega) Z.maxprec hk.mag hv hu
    (List.replicate (4 ^ T.d) 0) (by simp) (by rw [Int.toNat_natCast, Int.toNat_natCast]; exact hh) ⟨hk.prec, hk.plane⟩
    (by have := hk.bits; omega) hk.room
  rw [Int.toNat_natCast, Int.toNat_natCast] at this
  rw [decodeIntBlock, toInt32_small h1, toInt32_small h2]
  exact this

/-- The codes of all blocks. -/
def intCodes (T : Traits) (Z : Params) (us : List (Nat → Int)) : List Bool := us.flatMap (intCode T Z)

theorem encodeIntBlocks_spec {T : Traits} (hT : Good T) {W : Nat} (hW64 : W ≤ 64) {Z : Params} (hZ : Z.ok) {vs us : List (Nat → Int)}
    (h : List.Forall₂ (fun v u => fwdXform (2 ^ (T.w - 1)) T.d v = some u) vs us) : ∀ s : Stream, Wok W s →
    ∃ s', encodeIntBlocks T W Z s vs = some (s', us.map fun u => ((intCode T Z u).length : Int)) ∧ Emits W s (intCodes T Z us) s' := by
  induction h with
  | nil => intro s _; exact ⟨s, rfl, Emits.refl W s⟩
  | cons hu _ ih =>
    intro s hs
    obtain ⟨s1, e1, h1⟩ := encodeIntBlock_spec hT hW64 hZ hs hu
    obtain ⟨s2, e2, h2⟩ := ih s1 (h1.ok hs)
    refine ⟨s2, ?_, ?_⟩
    · rw [encodeIntBlocks, e1, Option.bind_some]
      dsimp only
      rw [e2]
      rfl
    · have := h1.trans h2
      simpa [intCodes] using this

theorem decodeIntBlocks_spec {m : Overflow} {T : Traits} (hT : Good T) {W : Nat} (hW : 0 < W) (hW64 : W ≤ 64) {Z : Params} (hZ : Z.ok) {A : Int} {κ : Nat}
    (hk : Keeps m T Z A κ) {mem : Nat → Nat} {vs us : List (Nat → Int)} (h : List.Forall₂ (fun v u => fwdXform (2 ^ (T.w - 1)) T.d v = some u) vs us) :
    (∀ v ∈ vs, ∀ i < 4 ^ T.d, |v i| ≤ A) → ∀ (s : Stream) (P : Nat), At W mem s P → Holds W mem P (intCodes T Z us) →
    ∃ s' rs, decodeIntBlocks m T W Z vs.length s = some (s', rs) ∧ At W mem s' (P + (intCodes T Z us).length) ∧
      rs.map Prod.fst = (us.map fun u => ((intCode T Z u).length : Int)) ∧
      List.Forall₂ (fun v r => ∀ i < 4 ^ T.d, |r.2 i - v i| ≤ errB T.d (2 ^ κ - 1)) vs rs := by
  induction h with
  | nil => intro _ s P hs _; exact ⟨s, [], rfl, hs, rfl, .nil⟩
  | @cons v u vs us hu _ ih =>
    intro hv s P hs hh
    have hc : intCodes T Z (u :: us) = intCode T Z u ++ intCodes T Z us := by simp [intCodes]
    rw [hc, holds_append] at hh
    obtain ⟨s1, v', e1, h1, h2⟩ := decodeIntBlock_spec hT hW hW64 hZ hk hs (hv v (by simp)) hu hh.1
    obtain ⟨s2, rs, e2, g1, g2, g3⟩ := ih (fun v hm => hv v (by simp [hm])) s1 _ h1 hh.2
    refine ⟨s2, (((intCode T Z u).length : Int), v') :: rs, ?_, ?_, ?_, .cons h2 g3⟩
    · rw [List.length_cons, decodeIntBlocks, e1, Option.bind_some]
      dsimp only
      rw [e2]
      rfl
    · rw [hc, List.length_append, ← Nat.add_assoc]; exact g1
    · rw [List.map_cons, List.map_cons, g2]

theorem forward_all {m : Overflow} {T : Traits} {Z : Params} {A : Int} {κ : Nat} (h : Keeps m T Z A κ) (hT : Good T) (vs : List (Nat → Int))
    (hv : ∀ v ∈ vs, ∀ i < 4 ^ T.d, |v i| ≤ A) : ∃ us, List.Forall₂ (fun v u => fwdXform (2 ^ (T.w - 1)) T.d v = some u) vs us := by
  induction vs with
  | nil => exact ⟨[], .nil⟩
  | cons v vs ih =>
    obtain ⟨us, hus⟩ := ih (fun v hm => hv v (by simp [hm]))
    obtain ⟨u, hu⟩ := h.fwd hT (hv v (by simp))
    exact ⟨u :: us, .cons hu hus⟩

theorem codes_fixed {T : Traits} {Z : Params} (hm : Z.minbits = Z.maxbits) (u : Nat → Int) : (intCode T Z u).length = Z.maxbits := by
  have := blockCode_length T.w (coeffs T u) Z.minbits Z.maxbits Z.maxprec
  unfold intCode
  omega

theorem holds_block {W : Nat} {mem : Nat → Nat} {T : Traits} {Z : Params} (hm : Z.minbits = Z.maxbits) : ∀ (us : List (Nat → Int)) (P : Nat),
    Holds W mem P (intCodes T Z us) → ∀ (i : Nat) (h : i < us.length), Holds W mem (P + i * Z.maxbits) (intCode T Z us[i])
  | [], _, _, i, h => absurd h (Nat.not_lt_zero i)
  | u :: us, P, hh, i, h => by
    have hc : intCodes T Z (u :: us) = intCode T Z u ++ intCodes T Z us := by simp [intCodes]
    rw [hc, holds_append, codes_fixed hm] at hh
    cases i with
    | zero => simpa using hh.1
    | succ i =>
      have := holds_block hm us _ hh.2 i (by simpa using h)
      rw [List.getElem_cons_succ, show P + (i + 1) * Z.maxbits = P + Z.maxbits + i * Z.maxbits by ring]
      exact this

/-! ## Property theorems -/

/-- C54. Any number of integer blocks in one to four dimensions, written with the same parameters to a new stream, flushed, and read back:
no operation overflows, every block takes at least `minbits` and at most `max minbits maxbits` bits and no more than its planes need, the decoder finds every block where
the encoder put it, and every value is returned up to the error that goes with the kept bit planes. -/
theorem int_blocks_round_trip (m : Overflow) {T : Traits} (hT : T.Ok) {W : Nat} (hW : 0 < W) (hW64 : W ≤ 64) (mem : Nat → Nat) (hmem : ∀ i, mem i < 2 ^ W)
    {Z : Params} (hZ : Z.ok) {A : Int} {κ : Nat} (hk : Keeps m T Z A κ) (vs : List (Nat → Int)) (hv : ∀ v ∈ vs, ∀ i < 4 ^ T.d, |v i| ≤ A) :
    ∃ s1 bits s2 k s3 rs, encodeIntBlocks T W Z (openStream mem) vs = some (s1, bits) ∧ flush W s1 = some (s2, k) ∧
      decodeIntBlocks m T W Z vs.length (rewind s2) = some (s3, rs) ∧
      (∀ n ∈ bits, (Z.minbits : Int) ≤ n ∧ n ≤ max Z.minbits Z.maxbits ∧ n ≤ max Z.minbits (enough (4 ^ T.d) (min Z.maxprec T.w))) ∧ (wtell W s1 : Int) = bits.sum ∧ (rtell W s3 : Int) = bits.sum ∧
      rs.map Prod.fst = bits ∧ List.Forall₂ (fun v r => ∀ i < 4 ^ T.d, |r.2 i - v i| ≤ errB T.d (2 ^ κ - 1)) vs rs := by
  have hT := hT.good
  obtain ⟨us, hus⟩ := forward_all hk hT vs hv
  have hwr := rewind_wr (s := openStream mem) hW hmem (fun _ => false)
  obtain ⟨s1, e1, h1⟩ := encodeIntBlocks_spec hT hW64 hZ hus (openStream mem) ⟨_, _, hwr⟩
  obtain ⟨s2, k, e2, hm2, hh, hw, _⟩ := flushed_holds hW64 hwr h1
  obtain ⟨s3, rs, e3, g1, g2, g3⟩ := decodeIntBlocks_spec hT hW hW64 hZ hk hus hv (rewind s2) 0 ⟨rewind_rd hW hm2, rfl⟩ hh
  have hsum : ((intCodes T Z us).length : Int) = (us.map fun u => ((intCode T Z u).length : Int)).sum := by
    clear * -
    induction us with
    | nil => rfl
    | cons u us ih => rw [List.map_cons, List.sum_cons, ← ih]; simp [intCodes]
  refine ⟨s1, _, s2, k, s3, rs, e1, e2, e3, ?_, by rw [hw, ← hsum]; simp, by rw [rtell_eq g1.1, ← hsum]; simp, g2, g3⟩
  intro n hn
  obtain ⟨u, _, rfl⟩ := List.mem_map.1 hn
  have := blockCode_length T.w (coeffs T u) Z.minbits Z.maxbits Z.maxprec
  have hl := coeffs_length hT u
  have h2 := blockCode_length_le T.w (coeffs T u) (List.length_pos_iff.1 (by rw [hl]; exact Nat.pow_pos (by omega))) Z.minbits Z.maxbits Z.maxprec
  rw [hl] at h2
  unfold intCode
  refine ⟨by omega, by omega, by exact_mod_cast h2⟩

/-- C54, fixed rate: with equal minimum and maximum every block takes exactly that many bits, so any block can be read alone by seeking
to its number times the rate. -/
theorem random_access (m : Overflow) {T : Traits} (hT : T.Ok) {W : Nat} (hW : 0 < W) (hW64 : W ≤ 64) (mem : Nat → Nat) (hmem : ∀ i, mem i < 2 ^ W)
    {Z : Params} (hZ : Z.ok) (hrate : Z.minbits = Z.maxbits) {A : Int} {κ : Nat} (hk : Keeps m T Z A κ) (vs : List (Nat → Int))
    (hv : ∀ v ∈ vs, ∀ i < 4 ^ T.d, |v i| ≤ A) :
    ∃ s1 bits s2 k, encodeIntBlocks T W Z (openStream mem) vs = some (s1, bits) ∧ flush W s1 = some (s2, k) ∧ (∀ n ∈ bits, n = Z.maxbits) ∧
      wtell W s1 = vs.length * Z.maxbits ∧
      ∀ (j : Nat) (hj : j < vs.length) (s : Stream), s.mem = s2.mem → ∃ s' v', decodeIntBlock m T W Z (rseek W s (j * Z.maxbits)) = some (s', (Z.maxbits : Int), v') ∧
        rtell W s' = (j + 1) * Z.maxbits ∧ ∀ i < 4 ^ T.d, |v' i - vs[j] i| ≤ errB T.d (2 ^ κ - 1) := by
  have hT := hT.good
  obtain ⟨us, hus⟩ := forward_all hk hT vs hv
  have hwr := rewind_wr (s := openStream mem) hW hmem (fun _ => false)
  obtain ⟨s1, e1, h1⟩ := encodeIntBlocks_spec hT hW64 hZ hus (openStream mem) ⟨_, _, hwr⟩
  obtain ⟨s2, k, e2, hm2, hh, hw, _⟩ := flushed_holds hW64 hwr h1
  have hlen := hus.length_eq
  refine ⟨s1, _, s2, k, e1, e2, ?_, ?_, ?_⟩
  · intro n hn
    obtain ⟨u, _, rfl⟩ := List.mem_map.1 hn
    rw [codes_fixed hrate]
  · rw [hw, hlen, Nat.zero_add]
    clear * - hrate
    induction us with
    | nil => simp [intCodes]
    | cons u us ih =>
      have hc : intCodes T Z (u :: us) = intCode T Z u ++ intCodes T Z us := by simp [intCodes]
      rw [hc, List.length_append, codes_fixed hrate, ih, List.length_cons]; ring
  · intro j hj s hs
    have hju : j < us.length := by omega
    have hb := holds_block hrate us 0 hh j hju
    rw [Nat.zero_add] at hb
    have hu := (List.forall₂_iff_get.1 hus).2 j hj hju
    obtain ⟨s', v', e, g1, g2⟩ := decodeIntBlock_spec hT hW hW64 hZ hk (s := rseek W s (j * Z.maxbits)) 
      (by obtain ⟨a, b⟩ := rseek_rd hW (s := s) (by rw [hs]; exact hm2) (j * Z.maxbits); exact ⟨a, b.trans hs⟩) (hv _ (List.get_mem vs ⟨j, hj⟩)) hu hb
    rw [List.get_eq_getElem, codes_fixed hrate] at *
    exact ⟨s', v', e, by rw [rtell_eq g1.1]; ring, g2⟩

theorem invLift_wraps_some (B x y z w : Int) : (invLift .wraps B x y z w).isSome := by simp [invLift, ar]

theorem runLines_some {f : Int → Int → Int → Int → Option (Int × Int × Int × Int)} (hf : ∀ x y z w, (f x y z w).isSome) :
    ∀ (L : List (Nat × Nat)) (v : Nat → Int), (runLines f L v).isSome
  | [], v => rfl
  | l :: L, v => by
    obtain ⟨r, hr⟩ := Option.isSome_iff_exists.1 (hf (v l.1) (v (l.1 + l.2)) (v (l.1 + 2 * l.2)) (v (l.1 + 3 * l.2)))
    rw [runLines, liftAt, hr, Option.map_some, Option.bind_some]
    exact runLines_some hf L _

theorem invRun_some (B : Int) : ∀ (Ps : List (List (Nat × Nat))) (v : Nat → Int), (invRun .wraps B Ps v).isSome
  | [], v => rfl
  | P :: Ps, v => by
    obtain ⟨r, hr⟩ := Option.isSome_iff_exists.1 (invRun_some B Ps v)
    rw [invRun, hr, Option.bind_some]
    exact runLines_some (invLift_wraps_some B) P r

/-- C54, fixed rate with any budget, however small, and blocks whose values leave the transform its two bits: the encoder writes exactly the
budget for each block. -/
theorem fixed_rate_encode {T : Traits} (hT : T.Ok) {W : Nat} (hW64 : W ≤ 64) {Z : Params} (hZ : Z.ok) (hrate : Z.minbits = Z.maxbits) {s : Stream}
    {c : Nat → Bool} {P : Nat} (hs : Wr W s c P) {v : Nat → Int} (hv : ∀ i < 4 ^ T.d, |v i| < 2 ^ (T.w - 2)) :
    ∃ s' c', encodeIntBlock T W Z s v = some (s', (Z.maxbits : Int)) ∧ Wr W s' c' (P + Z.maxbits) ∧ ∀ i < P, c' i = c i := by
  have hw : (4:Int) ≤ 2 ^ (T.w - 2) ∧ (2:Int) ^ (T.w - 1) = 2 * 2 ^ (T.w - 2) := by cases hT <;> norm_num
  have hT := hT.good
  obtain ⟨u, e, _⟩ := xform_round_trip .wraps (A := 2 ^ (T.w - 2) - 1) (B := 2 ^ (T.w - 1)) (δ := 0) T.d hT.d (by omega) (le_refl _) (by
    have h3 : errB (T.d - 1) 0 ≤ errB 3 0 := errB_le_errB (le_refl _) (by have := hT.d.2; omega)
    have h4 := gain_mono (errB_nonneg (le_refl 0) (T.d - 1)) h3
    rw [show gain (errB 3 0) = 151 by decide] at h4
    have hbig : (2:Int) ^ 30 ≤ 2 ^ (T.w - 2) := by
      have hT' := ‹T.Ok›
      cases hT' <;> norm_num
    refine ⟨by omega, ?_⟩
    omega) v (fun i hi => by have := hv i hi; omega)
  obtain ⟨s', e1, h1⟩ := encodeIntBlock_spec hT hW64 hZ ⟨c, P, hs⟩ e
  rw [codes_fixed hrate] at e1
  have := (h1 c P hs).1
  rw [codes_fixed hrate] at this
  exact ⟨s', _, e1, this, fun i hi => by rw [splice, if_pos hi]⟩

/-- C54, fixed rate, decoder: on any memory, with arithmetic that wraps around, the decoder finishes and moves exactly by the budget. -/
theorem fixed_rate_decode {T : Traits} (hT : T.Ok) {W : Nat} (hW : 0 < W) (hW64 : W ≤ 64) {Z : Params} (hZ : Z.ok) (hrate : Z.minbits = Z.maxbits) {s : Stream}
    {P : Nat} (hs : Rd W s P) : ∃ s' v', decodeIntBlock .wraps T W Z s = some (s', (Z.maxbits : Int), v') ∧ Rd W s' (P + Z.maxbits) ∧ s'.mem = s.mem := by
  have hT := hT.good
  obtain ⟨h1, h2⟩ := hZ
  obtain ⟨s1, used, out, e1, g1, g2, g3, _⟩ := decodeBlk_spec (intprec := T.w) hW hW64 (4 ^ T.d) Z.maxbits Z.maxprec (Nat.pow_pos (by omega)) s.mem s P ⟨hs, rfl⟩
  obtain ⟨b, eb, -⟩ := invOrder_spec T.mask T.perm (out.map (BitVec.ofNat T.w)) (List.replicate (4 ^ T.d) 0) (by rw [List.length_map, hT.perm.len, g3]) hT.perm.nodup
    (fun p hp => by simpa using hT.perm.lt p hp)
  obtain ⟨v', ev⟩ := Option.isSome_iff_exists.1 (invRun_some (2 ^ (T.w - 1)) (passes T.d) fun i => (b.getD i 0).toInt)
  unfold decodeIntBlock decodeBlock
  rw [toInt32_small h1, toInt32_small h2, Int.emod_eq_of_lt (by omega) (by omega), Int.toNat_natCast, e1, Option.bind_some]
  dsimp only
  rw [bmod_small (by omega), eb, Option.bind_some, invXform, ev, Option.map_some]
  by_cases hlt : (used : Int) < Z.minbits
  · rw [if_pos hlt]
    obtain ⟨k1, k2⟩ := skip_tell hW g2.1 ((Z.minbits : Int) - used).toNat
    rw [show P + used + ((Z.minbits : Int) - used).toNat = P + Z.maxbits by omega] at k1
    exact ⟨_, v', by rw [hrate], k1, by rw [← g2.2]; exact k2⟩
  · rw [if_neg hlt]
    have : used = Z.maxbits := by omega
    subst this
    exact ⟨_, v', rfl, g2⟩

/-- The traits of blocks of four `int32` values. -/
def int1 : Traits := ⟨32, nbmask32, 1, perm1⟩

/-- The room asked for in `Keeps` is needed: four equal values `2^30 - 1`, in the documented range, kept with 16 planes, decode to a
coefficient `2^30` that the first shift of the inverse transform moves out of the range of an `int`. -/
theorem truncated_overflow : ((encodeIntBlock int1 64 ⟨1, 16651, 16, -1074⟩ (openStream fun _ => 0) fun _ => 2 ^ 30 - 1).bind fun (s, _) =>
    (flush 64 s).map fun (s, _) => (decodeIntBlock .undefined int1 64 ⟨1, 16651, 16, -1074⟩ (rewind s)).isNone) = some true := by decide +kernel

/-! ## Cases that meet the hypotheses -/

example : int1.Ok := .w32 1 perm1 (Or.inl ⟨rfl, rfl⟩)

example : (⟨1, 16651, 64, -1074⟩ : Params).ok := by constructor <;> decide

/-- Full precision and 16 of 32 planes, values up to 2^29. -/
example : Keeps .undefined int1 ⟨1, 16651, 64, -1074⟩ (2 ^ 29) 0 := ⟨by decide, by decide, by decide, by decide, by show _ ≤ _; decide +kernel⟩

example : Keeps .undefined int1 ⟨71, 71, 32, -1074⟩ (2 ^ 29) 16 := ⟨by decide, by decide, by decide, by decide, by show _ ≤ _; decide +kernel⟩

example : Keeps .wraps ⟨64, nbmask64, 4, perm4⟩ ⟨1, 16651, 16, -1074⟩ (2 ^ 62 - 1) 48 := ⟨by decide, by decide, by decide, by decide, by constructor <;> decide +kernel⟩

/-- A round trip that runs: 71 bits, error within the bound. -/
example : ((encodeIntBlock int1 64 ⟨71, 71, 32, -1074⟩ (openStream fun _ => 0) fun i => (i : Int) ^ 3 * 1000001).bind fun (s, n) =>
    (flush 64 s).bind fun (s, _) => (decodeIntBlock .undefined int1 64 ⟨71, 71, 32, -1074⟩ (rewind s)).map fun (_, n', v) => (n, n', v 0, v 1, v 2, v 3)) =
    some (71, 71, -256, 1000704, 7999232, 27000064) := by decide +kernel

example : ∀ i < 4 ^ int1.d, |(fun i : Nat => (i : Int) ^ 3 * 1000001) i| < 2 ^ (int1.w - 2) := by decide

end Verif.Zfp

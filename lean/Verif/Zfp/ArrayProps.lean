import Verif.Zfp.ArrayCode

/-! # Compressed arrays: round trip, memory and size (C57, C58) -/

namespace Verif.Zfp

variable {α : Type}

/-- The integer blocks of an array (encodei.c:5-14, decodei.c:5-9). -/
def intCodec (m : Overflow) (T : Traits) (W : Nat) (Z : Params) : Codec Int :=
  ⟨fun s v => (encodeIntBlock T W Z s v).map (·.1), fun s => (decodeIntBlock m T W Z s).map fun r => (r.1, r.2.2)⟩

/-- The floating-point blocks of an array (encodef.c:52-79, decodef.c:25-56). -/
def floatCodec (m : Overflow) (F : FTraits) (W : Nat) (Z : Params) (rnd : ℚ → ℚ) : Codec ℚ :=
  ⟨fun s x => (encodeFloatBlock F W Z s x).map (·.1), fun s => (decodeFloatBlock m F W Z rnd s).map fun r => (r.1, r.2.2)⟩

/-- The bits a block of integers may take. -/
def intBits (T : Traits) (Z : Params) : Nat := max Z.minbits (min Z.maxbits (enough (4 ^ T.d) (min Z.maxprec T.w)))

/-- The bits a block of floating-point numbers may take. -/
def floatBits (F : FTraits) (Z : Params) : Nat := max Z.minbits (min Z.maxbits (F.ebits + 1 + enough (4 ^ F.T.d) (min Z.maxprec F.T.w)))

theorem intCode_le {T : Traits} (hT : Good T) (Z : Params) (u : Nat → Int) : (intCode T Z u).length ≤ intBits T Z := by
  have := blockCode_length T.w (coeffs T u) Z.minbits Z.maxbits Z.maxprec
  have hl := coeffs_length hT u
  have h2 := blockCode_length_le T.w (coeffs T u) (List.length_pos_iff.1 (by rw [hl]; exact Nat.pow_pos (by omega))) Z.minbits Z.maxbits Z.maxprec
  rw [hl] at h2
  unfold intCode intBits
  omega

theorem intCodec_ok (m : Overflow) {T : Traits} (hT : Good T) {W : Nat} (hW : 0 < W) (hW64 : W ≤ 64) {Z : Params} (hZ : Z.ok) {A : Int} {κ : Nat} (hk : Keeps m T Z A κ) :
    CodecOk (intCodec m T W Z) W T.d (fun x => |x| ≤ A) (fun x y => |y - x| ≤ errB T.d (2 ^ κ - 1)) (intBits T Z) := by
  intro v hv
  obtain ⟨u, hu⟩ := hk.fwd hT hv
  refine ⟨_, intCode_le hT Z u, fun s hs => ?_, fun mem s P hs hh => ?_⟩
  · obtain ⟨s', e, h⟩ := encodeIntBlock_spec hT hW64 hZ hs hu
    exact ⟨s', by rw [intCodec]; dsimp only; rw [e]; rfl, h⟩
  · obtain ⟨s', v', e, h1, h2⟩ := decodeIntBlock_spec hT hW hW64 hZ hk hs hv hu hh
    exact ⟨s', v', by rw [intCodec]; dsimp only; rw [e]; rfl, h1, h2⟩

theorem intEnc_ok (m : Overflow) {F : FTraits} (hF : F.Ok) {W : Nat} (hW64 : W ≤ 64) {Z : Params} (hZ : Z.ok) :
    EncOk (intCodec m F.T W Z) W F.T.d (fun x => |x| ≤ 2 ^ (F.T.w - 2) - 1) (intBits F.T Z) := by
  intro v hv
  obtain ⟨u, hu⟩ := fwd_some hF hv
  refine ⟨_, intCode_le hF.1.good Z u, fun s hs => ?_⟩
  obtain ⟨s', e, h⟩ := encodeIntBlock_spec hF.1.good hW64 hZ hs hu
  exact ⟨s', by rw [intCodec]; dsimp only; rw [e]; rfl, h⟩

theorem floatEnc_ok (m : Overflow) {F : FTraits} (hF : F.Ok) {W : Nat} (hW64 : W ≤ 64) {Z : Params} (hZ : Z.ok) (hmax : F.ebits + 1 ≤ Z.maxbits) (rnd : ℚ → ℚ) :
    EncOk (floatCodec m F W Z rnd) W F.T.d (fun x => x = 0 ∨ (2:ℚ) ^ ((F.T.w : Int) - 2 - F.ebias - 1) ≤ |x| ∧ |x| < 2 ^ (F.ebias + 1)) (floatBits F Z) := by
  intro v hv
  obtain ⟨l, _, l2, l3, henc⟩ := float_written hF hW64 hZ hmax (x := v) (fun i hi => by
    rcases hv i hi with h | h
    · rw [h, abs_zero]; exact zpow_pos (by norm_num) _
    · exact h.2) (by
    by_cases h0 : ∀ i < 4 ^ F.T.d, v i = 0
    · exact Or.inl h0
    · push Not at h0
      obtain ⟨i, hi, h⟩ := h0
      exact Or.inr ⟨i, hi, ((hv i hi).resolve_left h).1⟩)
  refine ⟨l, by unfold floatBits; omega, fun s hs => ?_⟩
  obtain ⟨s', e, h⟩ := henc s hs
  exact ⟨s', by rw [floatCodec]; dsimp only; rw [e]; rfl, h⟩

theorem floatCodec_ok {F : FTraits} (hF : F.Ok) {W : Nat} (hW : 0 < W) (hW64 : W ≤ 64) {Z : Params} (hZ : Z.ok) (hprec : F.T.w ≤ Z.maxprec)
    (hbits : F.ebits + 1 + enough (4 ^ F.T.d) F.T.w ≤ Z.maxbits) (rnd : ℚ → ℚ) (hrnd : rnd 0 = 0) {K : Int} (hK : 1 - F.ebias ≤ K) (hK2 : K ≤ F.ebias + 1) :
    CodecOk (floatCodec .wraps F W Z rnd) W F.T.d
      (fun x => x = 0 ∨ (2:ℚ) ^ ((F.T.w : Int) - 2 - F.ebias - 1) ≤ |x| ∧ |x| < 2 ^ K ∧ ¬ ((2:ℚ) ^ (Z.minexp - 2) ≤ |x| ∧ |x| < 2 ^ (Z.minexp - 1)))
      (fun x z => ∃ y, z = rnd y ∧ |y - x| ≤ max (2 ^ Z.minexp) (2 ^ (K + (2 * F.T.d + 2) - F.T.w))) (floatBits F Z) := by
  intro v hv
  obtain ⟨hb, _, _, hw⟩ := hF.bias
  have hlt : ∀ i < 4 ^ F.T.d, |v i| < 2 ^ K := fun i hi => by
    rcases hv i hi with h | h
    · rw [h, abs_zero]; exact zpow_pos (by norm_num) _
    · exact h.2.1
  have hcode : FloatCoded .wraps F W Z rnd v fun z => ∃ y : Nat → ℚ, (z = fun i => rnd (y i)) ∧
      ∀ i < 4 ^ F.T.d, |y i - v i| ≤ max (2 ^ Z.minexp) (2 ^ (K + (2 * F.T.d + 2) - F.T.w)) := by
    by_cases h0 : ∀ i < 4 ^ F.T.d, v i = 0
    · refine (skipped_block .wraps (F := F) hW hW64 hZ (by omega) rnd (x := v) (Or.inr ?_)).mono ?_
      · unfold FTraits.emax FTraits.exponent
        rw [if_neg]
        rcases blockMax_mem (4 ^ F.T.d) v with h | ⟨i, hi, h⟩
        · rw [h]; exact lt_irrefl _
        · rw [h, h0 i hi, abs_zero]; exact lt_irrefl _
      · rintro _ rfl
        refine ⟨fun _ => 0, by funext; exact hrnd.symm, fun i hi => ?_⟩
        rw [h0 i hi, sub_zero, abs_zero]
        exact le_trans (zpow_pos (by norm_num) _).le (le_max_left _ _)
    · push Not at h0
      obtain ⟨i, hi, hne⟩ := h0
      have hbig := ((hv i hi).resolve_left hne).1
      have hlow := le_emax hF hi hbig
      refine (float_accuracy_block hF hW hW64 hZ hprec hbits rnd hrnd (x := v)
        (fun i hi => (hlt i hi).trans_le (zpow_le_zpow_right₀ (by norm_num) hK2)) (Or.inr ⟨i, hi, hbig⟩) ?_).mono ?_
      · intro hem
        obtain ⟨j, hj, h⟩ := (emax_spec hF v).2.2.2 (by omega)
        rcases hv j hj with h' | h'
        · rw [h', abs_zero] at h
          exact absurd h (not_le.2 (zpow_pos (by norm_num) _))
        · refine h'.2.2 ⟨?_, ?_⟩
          · rw [hem, show Z.minexp - 1 - 1 = Z.minexp - 2 by ring] at h
            exact h
          · have := (emax_spec hF v).1 j hj
            rwa [hem] at this
      · rintro _ ⟨y, rfl, h⟩
        refine ⟨y, rfl, fun i hi => (h i hi).trans (max_le_max (le_refl _) ?_)⟩
        exact zpow_le_zpow_right₀ (by norm_num) (by have := emax_le hF hK hlt; omega)
  obtain ⟨l, _, l2, l3, henc, hdec⟩ := hcode
  refine ⟨l, by unfold floatBits; omega, fun s hs => ?_, fun mem s P hs hh => ?_⟩
  · obtain ⟨s', e, h⟩ := henc s hs
    exact ⟨s', by rw [floatCodec]; dsimp only; rw [e]; rfl, h⟩
  · obtain ⟨s', _, e, h1, y, rfl, h2⟩ := hdec mem s P hs hh
    exact ⟨s', _, by rw [floatCodec]; dsimp only; rw [e]; rfl, h1, fun i hi => ⟨y i, rfl, h2 i hi⟩⟩

/-! ## Contiguous arrays -/

/-- Row-major order: the last index varies fastest. -/
def rowMajor : List Nat → List (Nat × Int)
  | [] => []
  | n :: ns => (n, ((ns.prod : Nat) : Int)) :: rowMajor ns

theorem rowMajor_range : ∀ {ns : List Nat} {c : List Nat}, InBox (rowMajor ns) c → ∃ k : Nat, address (rowMajor ns) c = k ∧ k < ns.prod
  | [], _, h => by cases h; exact ⟨0, rfl, by simp⟩
  | n :: ns, _, h => by
    cases h with
    | @cons x _ c _ hx hc =>
      obtain ⟨k, e, hk⟩ := rowMajor_range hc
      refine ⟨ns.prod * x + k, by rw [rowMajor, address, e]; push_cast; rfl, ?_⟩
      rw [List.prod_cons, Nat.mul_comm n]
      have := Nat.mul_le_mul_left ns.prod (show x + 1 ≤ n from hx)
      rw [Nat.mul_add] at this
      omega

theorem rowMajor_inj : ∀ {ns : List Nat} {c c' : List Nat}, InBox (rowMajor ns) c → InBox (rowMajor ns) c' → address (rowMajor ns) c = address (rowMajor ns) c' → c = c'
  | [], _, _, h, h', _ => by cases h; cases h'; rfl
  | n :: ns, _, _, h, h', e => by
    cases h with
    | @cons x _ c _ hx hc =>
      cases h' with
      | @cons x' _ c' _ hx' hc' =>
        obtain ⟨k, ek, hk⟩ := rowMajor_range hc
        obtain ⟨k', ek', hk'⟩ := rowMajor_range hc'
        have e0 := e
        rw [rowMajor, address, address, ek, ek'] at e
        have e : ns.prod * x + k = ns.prod * x' + k' := by exact_mod_cast e
        have hpos : 0 < ns.prod := by omega
        have h1 : (ns.prod * x + k) / ns.prod = x := by rw [Nat.add_comm, Nat.add_mul_div_left _ _ hpos, Nat.div_eq_of_lt hk, Nat.zero_add]
        have h2 : (ns.prod * x' + k') / ns.prod = x' := by rw [Nat.add_comm, Nat.add_mul_div_left _ _ hpos, Nat.div_eq_of_lt hk', Nat.zero_add]
        have hxx : x = x' := by rw [← h1, e, h2]
        subst hxx
        rw [rowMajor_inj hc hc' (by rw [ek, ek', show k = k' by omega])]

/-- The sizes of the dimensions in use, slowest first. -/
def Field.sizesList (f : Field) : List Nat := [f.nw, f.nz, f.ny, f.nx].drop (4 - f.dims)

theorem toInt_small {n : Nat} (h : n < 2 ^ 31) : toInt n = n := by
  unfold toInt
  apply Int.bmod_eq_of_le
  · have : ((2 ^ 32 : Nat) : Int) = 4294967296 := by norm_num
    omega
  · have : ((2 ^ 32 : Nat) : Int) = 4294967296 := by norm_num
    omega

theorem dims_cases (f : Field) : f.dims = 0 ∨ f.dims = 1 ∨ f.dims = 2 ∨ f.dims = 3 ∨ f.dims = 4 := by
  unfold Field.dims
  split_ifs <;> omega

theorem shape_default {f : Field} (hs : f.sx = 0 ∧ f.sy = 0 ∧ f.sz = 0 ∧ f.sw = 0) (h2d : 2 ≤ f.dims → f.nx < 2 ^ 31) (h3d : 3 ≤ f.dims → f.nx * f.ny < 2 ^ 31)
    (h4d : 4 ≤ f.dims → f.nx * f.ny * f.nz < 2 ^ 31) : f.shape = rowMajor f.sizesList := by
  obtain ⟨h1, h2, h3, h4⟩ := hs
  unfold Field.shape
  rw [h1, h2, h3, h4]
  rcases dims_cases f with h | h | h | h | h <;> simp only [Field.sizesList, h] at h2d h3d h4d ⊢
  · simp [rowMajor]
  · simp [rowMajor]
  · have g1 := toInt_small (h2d (by omega))
    simp [rowMajor, g1]
  · have g1 := toInt_small (h2d (by omega))
    have g2 := toInt_small (h3d (by omega))
    push_cast at g2
    simp [rowMajor, g1, g2, mul_comm (f.ny : Int)]
  · have g1 := toInt_small (h2d (by omega))
    have g2 := toInt_small (h3d (by omega))
    have g3 := toInt_small (h4d (by omega))
    push_cast at g2 g3
    simp [rowMajor, g1, g2, g3, mul_comm (f.ny : Int)]
    ring

/-! ## Property theorems -/

/-- C58, integers. An array in one to four dimensions with any strides, of values of magnitude at most `A`, all elements within its memory, is
compressed behind the first `P` bits of a stream and flushed. Then decompressing from there into any memory that contains the elements
of an array of the same shape, distinct ones at distinct addresses, ends at the same bit, gives every element within the error of the
kept planes and changes nothing else. Padding of partial blocks, and what the block buffer held before, make no difference. -/
theorem int_array_round_trip (m : Overflow) {T : Traits} (hT : T.Ok) {W : Nat} (hW : 0 < W) (hW64 : W ≤ 64) {Z : Params} (hZ : Z.ok) {A : Int} {κ : Nat}
    (hk : Keeps m T Z A κ) {f : Field} (hd : f.dims = T.d) (hn : ∀ d ∈ f.shape, d.1 ≤ 2 ^ 32 - 4) {a : Int → Option Int}
    (ha : ∀ c, InBox f.shape c → ∃ x, a (address f.shape c) = some x ∧ |x| ≤ A) (q : Nat → Int) {s : Stream} {c : Nat → Bool} {P : Nat} (hs : Wr W s c P) :
    ∃ s1 s2 k, zfpCompress (intCodec m T W Z) f a q s = some s1 ∧ flush W s1 = some (s2, k) ∧
      ((∀ c c', InBox f.shape c → InBox f.shape c' → address f.shape c = address f.shape c' → c = c') →
        ∀ b : Int → Option Int, (∀ c, InBox f.shape c → (b (address f.shape c)).isSome) → ∀ r : Stream, r.mem = s2.mem →
        ∃ s3 b', zfpDecompress (intCodec m T W Z) f (rseek W r P) b = some (s3, b') ∧ rtell W s3 = wtell W s1 ∧
          (∀ c, InBox f.shape c → ∃ x y, a (address f.shape c) = some x ∧ b' (address f.shape c) = some y ∧ |y - x| ≤ errB T.d (2 ^ κ - 1)) ∧
          ∀ p, (∀ c, InBox f.shape c → address f.shape c ≠ p) → b' p = b p) := by
  have hd0 : f.dims ≠ 0 := by have := hT.good.d; omega
  have hC := intCodec_ok m hT.good hW hW64 hZ hk
  rw [← hd, ← shape_length] at hC
  obtain ⟨s1, s2, k, e1, e2, _, _, _, _, _, h⟩ := array_coded hW hW64 hC ha q hs
  refine ⟨s1, s2, k, by rw [zfpCompress_eq _ hd0 hn, e1], e2, fun hinj b hb r hr => ?_⟩
  obtain ⟨s3, b', e3, g1, g2, g3⟩ := h hinj b hb r hr
  rw [shape_length, hd] at g2
  exact ⟨s3, b', by rw [zfpDecompress_eq _ hd0 hn, e3], g1, g2, g3⟩

/-- C58, floating point, fixed accuracy. The same for arrays of numbers that are zero or of magnitude from the smallest the scale factor
permits to below `2 ^ K`: every element is the rounding of a number within the tolerance `2 ^ minexp` of the original, or within the
resolution of the blocks. Missing, and false (`accuracy_violated`): elements between a quarter and half of the tolerance. -/
theorem float_array_round_trip_partial {F : FTraits} (hF : F.Ok) {W : Nat} (hW : 0 < W) (hW64 : W ≤ 64) {Z : Params} (hZ : Z.ok) (hprec : F.T.w ≤ Z.maxprec)
    (hbits : F.ebits + 1 + enough (4 ^ F.T.d) F.T.w ≤ Z.maxbits) (rnd : ℚ → ℚ) (hrnd : rnd 0 = 0) {K : Int} (hK : 1 - F.ebias ≤ K) (hK2 : K ≤ F.ebias + 1)
    {f : Field} (hd : f.dims = F.T.d) (hn : ∀ d ∈ f.shape, d.1 ≤ 2 ^ 32 - 4) {a : Int → Option ℚ}
    (ha : ∀ c, InBox f.shape c → ∃ x, a (address f.shape c) = some x ∧ (x = 0 ∨ (2:ℚ) ^ ((F.T.w : Int) - 2 - F.ebias - 1) ≤ |x| ∧ |x| < 2 ^ K ∧
      ¬ ((2:ℚ) ^ (Z.minexp - 2) ≤ |x| ∧ |x| < 2 ^ (Z.minexp - 1)))) (q : Nat → ℚ) {s : Stream} {c : Nat → Bool} {P : Nat} (hs : Wr W s c P) :
    ∃ s1 s2 k, zfpCompress (floatCodec .wraps F W Z rnd) f a q s = some s1 ∧ flush W s1 = some (s2, k) ∧
      ((∀ c c', InBox f.shape c → InBox f.shape c' → address f.shape c = address f.shape c' → c = c') →
        ∀ b : Int → Option ℚ, (∀ c, InBox f.shape c → (b (address f.shape c)).isSome) → ∀ r : Stream, r.mem = s2.mem →
        ∃ s3 b', zfpDecompress (floatCodec .wraps F W Z rnd) f (rseek W r P) b = some (s3, b') ∧ rtell W s3 = wtell W s1 ∧
          (∀ c, InBox f.shape c → ∃ x y, a (address f.shape c) = some x ∧ b' (address f.shape c) = some (rnd y) ∧
            |y - x| ≤ max (2 ^ Z.minexp) (2 ^ (K + (2 * F.T.d + 2) - F.T.w))) ∧
          ∀ p, (∀ c, InBox f.shape c → address f.shape c ≠ p) → b' p = b p) := by
  have hd0 : f.dims ≠ 0 := by have := hF.1.good.d; omega
  have hC := floatCodec_ok hF hW hW64 hZ hprec hbits rnd hrnd hK hK2
  rw [← hd, ← shape_length] at hC
  obtain ⟨s1, s2, k, e1, e2, _, _, _, _, _, h⟩ := array_coded hW hW64 hC ha q hs
  refine ⟨s1, s2, k, by rw [zfpCompress_eq _ hd0 hn, e1], e2, fun hinj b hb r hr => ?_⟩
  obtain ⟨s3, b', e3, g1, g2, g3⟩ := h hinj b hb r hr
  refine ⟨s3, b', by rw [zfpDecompress_eq _ hd0 hn, e3], g1, fun c hc => ?_, g3⟩
  obtain ⟨x, _, ex, ey, y, rfl, h⟩ := g2 c hc
  rw [shape_length, hd] at h
  exact ⟨x, y, ex, ey, h⟩

/-- C58, default strides. Without strides, the elements of an array are at the distinct addresses of row-major order: index `x` varies fastest, and
all addresses are from 0 to below the number of elements. -/
theorem default_strides {f : Field} (hs : f.sx = 0 ∧ f.sy = 0 ∧ f.sz = 0 ∧ f.sw = 0) (h2d : 2 ≤ f.dims → f.nx < 2 ^ 31) (h3d : 3 ≤ f.dims → f.nx * f.ny < 2 ^ 31)
    (h4d : 4 ≤ f.dims → f.nx * f.ny * f.nz < 2 ^ 31) :
    (∀ c c', InBox f.shape c → InBox f.shape c' → address f.shape c = address f.shape c' → c = c') ∧
    (∀ c, InBox f.shape c → 0 ≤ address f.shape c ∧ address f.shape c < f.sizesList.prod) ∧
    ∀ x y z w : Nat, address f.shape ([w, z, y, x].drop (4 - f.dims)) =
      (if 1 ≤ f.dims then (x : Int) else 0) + (if 2 ≤ f.dims then (f.nx * y : Int) else 0) + (if 3 ≤ f.dims then (f.nx * f.ny * z : Int) else 0) +
        (if 4 ≤ f.dims then (f.nx * f.ny * f.nz * w : Int) else 0) := by
  have e := shape_default hs h2d h3d h4d
  rw [e]
  refine ⟨fun c c' => rowMajor_inj, fun c hc => ?_, fun x y z w => ?_⟩
  · obtain ⟨k, h1, h2⟩ := rowMajor_range hc
    rw [h1]
    exact ⟨by omega, by exact_mod_cast h2⟩
  · rcases dims_cases f with h | h | h | h | h <;> simp [Field.sizesList, h, rowMajor, address] <;> ring

/-- C58, violated: with 2^16 by 2^16 by 2 elements and default strides all planes are read from, and written to, the same memory. -/
theorem default_strides_violated : address (Field.mk .float (2 ^ 16) (2 ^ 16) 2 0 0 0 0 0).shape [0, 0, 0] = address (Field.mk .float (2 ^ 16) (2 ^ 16) 2 0 0 0 0 0).shape [1, 0, 0] := by
  decide +kernel

theorem loop4_none {n : Nat} (hn : 2 ^ 32 - 4 < n) : ∀ fuel x : Nat, x % 4 = 0 → x < 2 ^ 32 → loop4 n fuel x = none
  | 0, _, _, _ => rfl
  | fuel + 1, x, h1, h2 => by
    rw [loop4, if_pos (by omega), loop4_none hn fuel _ (by omega) (by omega)]
    rfl

/-- C58, violated: for sizes above 2^32 - 4 the strided loops do not end. -/
theorem loop_never_ends {n : Nat} (hn : 2 ^ 32 - 4 < n) (fuel : Nat) : loop4 n fuel 0 = none := loop4_none hn fuel 0 (by omega) (by omega)

/-- C58, violated: a field without dimensions reads the function table at index -1. -/
theorem no_dimensions (C : Codec α) {f : Field} (hf : f.nx = 0) (a : Int → Option α) (q : Nat → α) (s : Stream) : zfpCompress C f a q s = none ∧ zfpDecompress C f s a = none := by
  have : f.dims = 0 := by simp [Field.dims, hf]
  simp [zfpCompress, zfpDecompress, this]

/-! ## The size of the buffer -/

theorem round_up {W X : Nat} (hW : 0 < W) {p : Nat} (h : W * p < X + W) : W * p ≤ (X + W - 1) / W * W := by
  have : p ≤ (X + W - 1) / W := by
    rw [Nat.le_div_iff_mul_le hW, Nat.mul_comm]
    omega
  calc W * p ≤ W * ((X + W - 1) / W) := Nat.mul_le_mul_left W this
    _ = _ := Nat.mul_comm _ _

theorem blockCount_eq {f : Field} (hf : (f.ny = 0 → f.nz = 0) ∧ (f.nz = 0 → f.nw = 0)) (h0 : f.dims ≠ 0) (hn : ∀ d ∈ f.shape, d.1 ≤ 2 ^ 32 - 4) :
    (max f.nx 1 + 3) % 2 ^ 32 / 4 * ((max f.ny 1 + 3) % 2 ^ 32 / 4) * ((max f.nz 1 + 3) % 2 ^ 32 / 4) * ((max f.nw 1 + 3) % 2 ^ 32 / 4) = blockCount f.shape := by
  have key : ∀ n : Nat, n ≤ 2 ^ 32 - 4 → n ≠ 0 → (max n 1 + 3) % 2 ^ 32 / 4 = (n + 3) / 4 := fun n h1 h2 => by
    rw [Nat.max_eq_left (by omega), Nat.mod_eq_of_lt (by omega)]
  have one : (max 0 1 + 3) % 2 ^ 32 / 4 = 1 := by decide
  by_cases hx : f.nx = 0
  · exact absurd (by simp [Field.dims, hx]) h0
  by_cases hy : f.ny = 0
  · have hz := hf.1 hy
    have hw := hf.2 hz
    have hd : f.dims = 1 := by simp [Field.dims, hx, hy]
    obtain ⟨sx, e⟩ : ∃ sx : Int, f.shape = [(f.nx, sx)] := ⟨_, by unfold Field.shape; rw [hd]; rfl⟩
    rw [e] at hn ⊢
    rw [hy, hz, hw, one, key _ (hn _ (by simp : (f.nx, sx) ∈ [(f.nx, sx)])) hx]
    simp [blockCount]
  by_cases hz : f.nz = 0
  · have hw := hf.2 hz
    have hd : f.dims = 2 := by simp [Field.dims, hx, hy, hz]
    obtain ⟨sy, sx, e⟩ : ∃ sy sx : Int, f.shape = [(f.ny, sy), (f.nx, sx)] := ⟨_, _, by unfold Field.shape; rw [hd]; rfl⟩
    rw [e] at hn ⊢
    rw [hz, hw, one, key _ (hn _ (by simp : (f.nx, sx) ∈ [(f.ny, sy), (f.nx, sx)])) hx, key _ (hn _ (by simp : (f.ny, sy) ∈ [(f.ny, sy), (f.nx, sx)])) hy]
    simp [blockCount, Nat.mul_comm]
  by_cases hw : f.nw = 0
  · have hd : f.dims = 3 := by simp [Field.dims, hx, hy, hz, hw]
    obtain ⟨sz, sy, sx, e⟩ : ∃ sz sy sx : Int, f.shape = [(f.nz, sz), (f.ny, sy), (f.nx, sx)] := ⟨_, _, _, by unfold Field.shape; rw [hd]; rfl⟩
    rw [e] at hn ⊢
    rw [hw, one, key _ (hn _ (by simp : (f.nx, sx) ∈ [(f.nz, sz), (f.ny, sy), (f.nx, sx)])) hx, key _ (hn _ (by simp : (f.ny, sy) ∈ [(f.nz, sz), (f.ny, sy), (f.nx, sx)])) hy, key _ (hn _ (by simp : (f.nz, sz) ∈ [(f.nz, sz), (f.ny, sy), (f.nx, sx)])) hz]
    simp [blockCount]
    ring
  · have hd : f.dims = 4 := by simp [Field.dims, hx, hy, hz, hw]
    obtain ⟨sw, sz, sy, sx, e⟩ : ∃ sw sz sy sx : Int, f.shape = [(f.nw, sw), (f.nz, sz), (f.ny, sy), (f.nx, sx)] := ⟨_, _, _, _, by unfold Field.shape; rw [hd]; rfl⟩
    rw [e] at hn ⊢
    rw [key _ (hn _ (by simp : (f.nx, sx) ∈ [(f.nw, sw), (f.nz, sz), (f.ny, sy), (f.nx, sx)])) hx, key _ (hn _ (by simp : (f.ny, sy) ∈ [(f.nw, sw), (f.nz, sz), (f.ny, sy), (f.nx, sx)])) hy, key _ (hn _ (by simp : (f.nz, sz) ∈ [(f.nw, sw), (f.nz, sz), (f.ny, sy), (f.nx, sx)])) hz, key _ (hn _ (by simp : (f.nw, sw) ∈ [(f.nw, sw), (f.nz, sz), (f.ny, sy), (f.nx, sx)])) hw]
    simp [blockCount]
    ring

theorem size_bound {W : Nat} (hW : 0 < W) (hW8 : 8 ∣ W) (hW64 : W ≤ 64) {Z : Params} {f : Field} (hf : (f.ny = 0 → f.nz = 0) ∧ (f.nz = 0 → f.nw = 0)) (h0 : f.dims ≠ 0)
    (ht : f.type ≠ .none) (hn : ∀ d ∈ f.shape, d.1 ≤ 2 ^ 32 - 4) (hbig : blockCount f.shape * max Z.minbits Z.maxbits + 148 + 64 ≤ 2 ^ 64) {B P p : Nat}
    (hB : B ≤ max (min ((if f.type = .float then 1 + 8 else if f.type = .double then 1 + 11 else 1) + (4 ^ f.dims - 1 + 4 ^ f.dims * min Z.maxprec f.type.precision)) Z.maxbits) Z.minbits)
    (hP : P ≤ 148) (h : W * p < P + blockCount f.shape * B + W) : W * p ≤ 8 * maximumSize W Z f := by
  unfold maximumSize
  dsimp only
  rw [if_neg h0, if_neg ht, blockCount_eq hf h0 hn]
  generalize (if f.type = .float then 1 + 8 else if f.type = .double then 1 + 11 else 1) + (4 ^ f.dims - 1 + 4 ^ f.dims * min Z.maxprec f.type.precision) = X at *
  have h1 : blockCount f.shape * B ≤ blockCount f.shape * max (min X Z.maxbits) Z.minbits := Nat.mul_le_mul_left _ hB
  have h2 : blockCount f.shape * max (min X Z.maxbits) Z.minbits ≤ blockCount f.shape * max Z.minbits Z.maxbits := Nat.mul_le_mul_left _ (by omega)
  by_cases hm : max (min X Z.maxbits) Z.minbits = 0
  · rw [hm] at h1 h2 ⊢
    have hlt : (148 + blockCount f.shape % 2 ^ 64 * 0 + W - 1) % 2 ^ 64 = 148 + W - 1 := by
      rw [Nat.mul_zero]
      exact Nat.mod_eq_of_lt (by omega)
    rw [hlt]
    have := round_up hW (X := 148) (p := p) (by omega)
    obtain ⟨w, rfl⟩ := hW8
    have hdvd : 8 ∣ (148 + 8 * w - 1) / (8 * w) * (8 * w) := Dvd.dvd.mul_left (Dvd.intro _ rfl) _
    rw [Nat.mul_div_cancel' hdvd]
    exact this
  · have hc : blockCount f.shape ≤ blockCount f.shape * max (min X Z.maxbits) Z.minbits := Nat.le_mul_of_pos_right _ (by omega)
    rw [Nat.mod_eq_of_lt (show blockCount f.shape < 2 ^ 64 by omega)]
    generalize blockCount f.shape * max (min X Z.maxbits) Z.minbits = N at *
    rw [Nat.mod_eq_of_lt (show 148 + N + W - 1 < 2 ^ 64 by omega)]
    have := round_up hW (X := 148 + N) (p := p) (by omega)
    obtain ⟨w, rfl⟩ := hW8
    have hdvd : 8 ∣ (148 + N + 8 * w - 1) / (8 * w) * (8 * w) := Dvd.dvd.mul_left (Dvd.intro _ rfl) _
    rw [Nat.mul_div_cancel' hdvd]
    exact this

/-- C57, integers. A buffer of the maximum size takes the header (up to 148 bits) and all blocks of the array, for all parameters: after
the flush the words written fit in it, and nothing behind them has changed. -/
theorem int_maximum_size_partial (m : Overflow) {F : FTraits} (hF : F.Ok) {W : Nat} (hW : 0 < W) (hW8 : 8 ∣ W) (hW64 : W ≤ 64) {Z : Params} (hZ : Z.ok)
    {f : Field} (hf : (f.ny = 0 → f.nz = 0) ∧ (f.nz = 0 → f.nw = 0)) (hd : f.dims = F.T.d) (ht : f.type ≠ .none ∧ f.type.precision = F.T.w)
    (hn : ∀ d ∈ f.shape, d.1 ≤ 2 ^ 32 - 4) (hbig : blockCount f.shape * max Z.minbits Z.maxbits + 148 + 64 ≤ 2 ^ 64) {a : Int → Option Int}
    (ha : ∀ c, InBox f.shape c → ∃ x, a (address f.shape c) = some x ∧ |x| ≤ 2 ^ (F.T.w - 2) - 1) (q : Nat → Int) {s : Stream} {c : Nat → Bool} {P : Nat}
    (hs : Wr W s c P) (hP : P ≤ 148) :
    ∃ s1 s2 k, zfpCompress (intCodec m F.T W Z) f a q s = some s1 ∧ flush W s1 = some (s2, k) ∧ W * s2.ptr ≤ 8 * maximumSize W Z f ∧ ∀ i, s2.ptr ≤ i → s2.mem i = s.mem i := by
  have hd0 : f.dims ≠ 0 := by have := hF.1.good.d; omega
  have hC := intEnc_ok m hF hW64 hZ
  rw [← hd, ← shape_length] at hC
  obtain ⟨s1, s2, k, e1, e2, h1, h2⟩ := array_written hW64 hC ha q hs
  refine ⟨s1, s2, k, by rw [zfpCompress_eq _ hd0 hn, e1], e2, size_bound hW hW8 hW64 hf hd0 ht.1 hn hbig ?_ hP h1, h2⟩
  rw [ht.2, hd]
  unfold intBits enough
  rw [Nat.mul_comm (min Z.maxprec F.T.w)]
  omega

/-- C57, floating point: the same for numbers that are zero or of the magnitudes the encoder takes, if the budget holds the exponent. -/
theorem float_maximum_size_partial (m : Overflow) {F : FTraits} (hF : F.Ok) {W : Nat} (hW : 0 < W) (hW8 : 8 ∣ W) (hW64 : W ≤ 64) {Z : Params} (hZ : Z.ok)
    (hmax : F.ebits + 1 ≤ Z.maxbits) (rnd : ℚ → ℚ)
    {f : Field} (hf : (f.ny = 0 → f.nz = 0) ∧ (f.nz = 0 → f.nw = 0)) (hd : f.dims = F.T.d)
    (ht : f.type = .float ∧ F.T.w = 32 ∨ f.type = .double ∧ F.T.w = 64) (hn : ∀ d ∈ f.shape, d.1 ≤ 2 ^ 32 - 4)
    (hbig : blockCount f.shape * max Z.minbits Z.maxbits + 148 + 64 ≤ 2 ^ 64) {a : Int → Option ℚ}
    (ha : ∀ c, InBox f.shape c → ∃ x, a (address f.shape c) = some x ∧ (x = 0 ∨ (2:ℚ) ^ ((F.T.w : Int) - 2 - F.ebias - 1) ≤ |x| ∧ |x| < 2 ^ (F.ebias + 1)))
    (q : Nat → ℚ) {s : Stream} {c : Nat → Bool} {P : Nat} (hs : Wr W s c P) (hP : P ≤ 148) :
    ∃ s1 s2 k, zfpCompress (floatCodec m F W Z rnd) f a q s = some s1 ∧ flush W s1 = some (s2, k) ∧ W * s2.ptr ≤ 8 * maximumSize W Z f ∧
      ∀ i, s2.ptr ≤ i → s2.mem i = s.mem i := by
  have hd0 : f.dims ≠ 0 := by have := hF.1.good.d; omega
  have hC := floatEnc_ok m hF hW64 hZ hmax rnd
  rw [← hd, ← shape_length] at hC
  obtain ⟨s1, s2, k, e1, e2, h1, h2⟩ := array_written hW64 hC ha q hs
  have htn : f.type ≠ .none := by rcases ht with h | h <;> rw [h.1] <;> decide
  refine ⟨s1, s2, k, by rw [zfpCompress_eq _ hd0 hn, e1], e2, size_bound hW hW8 hW64 hf hd0 htn hn hbig ?_ hP h1, h2⟩
  unfold floatBits enough
  rw [hd, Nat.mul_comm (min Z.maxprec F.T.w)]
  obtain ⟨_, hb⟩ := hF
  rcases ht with ⟨h1, h2⟩ | ⟨h1, h2⟩
  · have : F.ebits = 8 := by omega
    rw [h1, h2, this, if_pos rfl, show ZType.precision .float = 32 from rfl]
    omega
  · have : F.ebits = 11 := by omega
    rw [h1, h2, this, if_neg (by decide), if_pos rfl, show ZType.precision .double = 64 from rfl]
    omega

/-- C57, violated: for a contiguous array of 2^32 - 1 elements the number of blocks wraps to 0 and the size is 24 bytes, for 2^30 blocks
of at least one bit. -/
theorem maximum_size_wraps : maximumSize 64 ⟨1, 16651, 64, -1074⟩ ⟨.float, 2 ^ 32 - 1, 0, 0, 0, 0, 0, 0, 0⟩ = 24 ∧
    blockCount (Field.mk .float (2 ^ 32 - 1) 0 0 0 0 0 0 0).shape = 2 ^ 30 := by
  decide +kernel

/-- C57, violated: with a budget below the nine bits of the exponent, which zfp_stream_set_params accepts, four blocks take more than
the maximum size. -/
theorem maximum_size_violated : ((zfpCompress (floatCodec .wraps float1 64 ⟨1, 8, 64, -1074⟩ id) ⟨.float, 16, 0, 0, 0, 0, 0, 0, 0⟩
    (fun i => if 0 ≤ i ∧ i < 16 then some (i / 5 : ℚ) else none) (fun _ => 0) (openStream fun _ => 0)).map fun s =>
      Nat.blt (8 * maximumSize 64 ⟨1, 8, 64, -1074⟩ ⟨.float, 16, 0, 0, 0, 0, 0, 0, 0⟩) (wtell 64 s)) = some true := by decide +kernel

/-! ## Concrete cases -/

/-- A 3 by 5 array of 32 bit integers, stored backwards with gaps. -/
def someField : Field := ⟨.int32, 5, 3, 0, 0, -2, -20, 0, 0⟩

/-- Its memory. -/
def someArray (i : Int) : Option Int := if -60 ≤ i ∧ i ≤ 0 then some (i * i * 1000 - 7) else none

def int2 : Traits := ⟨32, nbmask32, 2, perm2⟩

example : int2.Ok := .w32 2 perm2 (Or.inr (Or.inl ⟨rfl, rfl⟩))

example : someField.shape = [(3, -20), (5, -2)] ∧ someField.dims = int2.d ∧ blockCount someField.shape = 2 := by decide

theorem inBox_two {n n' : Nat} {s s' : Int} {c : List Nat} (h : InBox [(n, s), (n', s')] c) : ∃ y x, c = [y, x] ∧ y < n ∧ x < n' := by
  cases h with
  | cons h1 h =>
    cases h with
    | cons h2 h =>
      cases h
      exact ⟨_, _, rfl, h1, h2⟩

/-- All elements are in the memory and within the magnitude of the kept planes. -/
example : ∀ c, InBox someField.shape c → ∃ x, someArray (address someField.shape c) = some x ∧ |x| ≤ 2 ^ 28 := by
  intro c hc
  obtain ⟨y, x, rfl, hy, hx⟩ := inBox_two (show InBox [(3, -20), (5, -2)] c from hc)
  interval_cases y <;> interval_cases x <;> exact ⟨_, rfl, by decide⟩

/-- Distinct elements have distinct addresses. -/
example : ∀ c c', InBox someField.shape c → InBox someField.shape c' → address someField.shape c = address someField.shape c' → c = c' := by
  intro c c' hc hc' e
  obtain ⟨y, x, rfl, hy, hx⟩ := inBox_two (show InBox [(3, -20), (5, -2)] c from hc)
  obtain ⟨y', x', rfl, hy', hx'⟩ := inBox_two (show InBox [(3, -20), (5, -2)] c' from hc')
  have e : (-20 : Int) * y + (-2 * x + 0) = -20 * y' + (-2 * x' + 0) := e
  rw [show y = y' by omega, show x = x' by omega]

example : Keeps .undefined int2 ⟨1, 16651, 64, -1074⟩ (2 ^ 28) 0 := ⟨by decide, by decide, by decide, by decide, by show _ ≤ _; decide +kernel⟩

/-- The round trip runs, with a partial block in each direction: addresses -48 and -28 are elements, -47 is not and keeps its value. -/
example : ((zfpCompress (intCodec .undefined int2 64 ⟨1, 16651, 64, -1074⟩) someField someArray (fun _ => 12345) (openStream fun _ => 0)).bind fun s1 =>
    (flush 64 s1).bind fun (s2, _) =>
    (zfpDecompress (intCodec .undefined int2 64 ⟨1, 16651, 64, -1074⟩) someField (rewind s2) fun i => if -60 ≤ i ∧ i ≤ 0 then some 0 else none).map fun (s3, b) =>
      (decide (|(b (-48)).getD 0 - 2303993| ≤ 4), decide (|(b (-28)).getD 0 - 783993| ≤ 4), b (-47), decide (rtell 64 s3 = wtell 64 s1))) =
    some (true, true, some 0, true) := by decide +kernel

example : maximumSize 64 ⟨1, 16651, 64, -1074⟩ someField = 152 := by decide +kernel

end Verif.Zfp

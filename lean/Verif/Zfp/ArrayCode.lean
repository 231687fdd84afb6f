import Verif.Zfp.ArrayBlocks

/-! # Compressing and decompressing whole arrays: lemmas -/

namespace Verif.Zfp

variable {α : Type}

/-- What is asked of a block encoder and decoder: blocks of values with `V` become a list of at most `B` bits that depends on the block only,
and these bits are decoded to values related by `E`. -/
def CodecOk (C : Codec α) (W d : Nat) (V : α → Prop) (E : α → α → Prop) (B : Nat) : Prop := ∀ v : Nat → α, (∀ i < 4 ^ d, V (v i)) →
  ∃ l : List Bool, l.length ≤ B ∧ (∀ s, Wok W s → ∃ s', C.enc s v = some s' ∧ Emits W s l s') ∧
    ∀ mem s P, At W mem s P → Holds W mem P l → ∃ s' v', C.dec s = some (s', v') ∧ At W mem s' (P + l.length) ∧ ∀ i < 4 ^ d, E (v i) (v' i)

/-- The part of it about the encoder. -/
def EncOk (C : Codec α) (W d : Nat) (V : α → Prop) (B : Nat) : Prop := ∀ v : Nat → α, (∀ i < 4 ^ d, V (v i)) →
  ∃ l : List Bool, l.length ≤ B ∧ ∀ s, Wok W s → ∃ s', C.enc s v = some s' ∧ Emits W s l s'

theorem blocks_written {C : Codec α} {W : Nat} {L : List (Nat × Int)} {V : α → Prop} {B : Nat} (hC : EncOk C W L.length V B) {a : Int → Option α}
    (ha : ∀ c, InBox L c → ∃ x, a (address L c) = some x ∧ V x) (q : Nat → α) : ∀ os : List (List Nat), (∀ o ∈ os, IsOrigin L o) →
    ∃ l : List Bool, l.length ≤ os.length * B ∧ ∀ s, Wok W s → ∃ s', compressBlocks C L a q os s = some s' ∧ Emits W s l s'
  | [], _ => ⟨[], by simp, fun s _ => ⟨s, rfl, Emits.refl W s⟩⟩
  | o :: os, ho => by
    obtain ⟨l2, b2, enc2⟩ := blocks_written hC ha q os fun o h => ho o (by simp [h])
    have ho := ho o (by simp)
    obtain ⟨v, ev, hv⟩ := readBlock_spec (a := a) (fun c hc => by obtain ⟨x, e, _⟩ := ha c hc; rw [e]; rfl) q ho
    obtain ⟨l1, b1, enc1⟩ := hC v fun i hi => by
      obtain ⟨c, hc, e⟩ := source_in_box ho i hi
      obtain ⟨x, hx, h⟩ := ha c hc
      have := hv i hi
      rw [e, hx] at this
      rwa [← Option.some.inj this]
    refine ⟨l1 ++ l2, ?_, ?_⟩
    · rw [List.length_append, List.length_cons, Nat.add_mul]
      omega
    · intro s hs
      obtain ⟨s1, e1, h1⟩ := enc1 s hs
      obtain ⟨s2, e2, h2⟩ := enc2 s1 (h1.ok hs)
      exact ⟨s2, by rw [compressBlocks, ev, Option.bind_some, e1, Option.bind_some, e2], h1.trans h2⟩

/-- The addresses written for a block. -/
def blockAddresses (L : List (Nat × Int)) (o : List Nat) : List Int := (boxCoords (blockShape L o)).map fun c => address L (List.zipWith (· + ·) o c)

theorem blocks_coded {C : Codec α} {W : Nat} {L : List (Nat × Int)} {V : α → Prop} {E : α → α → Prop} {B : Nat} (hC : CodecOk C W L.length V E B) {a : Int → Option α}
    (ha : ∀ c, InBox L c → ∃ x, a (address L c) = some x ∧ V x) (q : Nat → α) : ∀ os : List (List Nat), (∀ o ∈ os, IsOrigin L o) →
    ∃ l : List Bool, l.length ≤ os.length * B ∧ (∀ s, Wok W s → ∃ s', compressBlocks C L a q os s = some s' ∧ Emits W s l s') ∧
      ∀ mem s P, At W mem s P → Holds W mem P l → ∃ s' ws, At W mem s' (P + l.length) ∧ ws.map Prod.fst = os.flatMap (blockAddresses L) ∧
        (∀ w ∈ ws, ∃ x, a w.1 = some x ∧ E x w.2) ∧ ∀ m, decompressBlocks C L os (s, m) = (stores ws m).map (s', ·)
  | [], _ => by
    refine ⟨[], by simp, fun s _ => ⟨s, rfl, Emits.refl W s⟩, fun mem s P hs _ => ⟨s, [], hs, rfl, by simp, fun m => rfl⟩⟩
  | o :: os, ho => by
    obtain ⟨l2, b2, enc2, dec2⟩ := blocks_coded hC ha q os fun o h => ho o (by simp [h])
    have ho := ho o (by simp)
    obtain ⟨v, ev, hv⟩ := readBlock_spec (a := a) (fun c hc => by obtain ⟨x, e, _⟩ := ha c hc; rw [e]; rfl) q ho
    obtain ⟨l1, b1, enc1, dec1⟩ := hC v fun i hi => by
      obtain ⟨c, hc, e⟩ := source_in_box ho i hi
      obtain ⟨x, hx, h⟩ := ha c hc
      have := hv i hi
      rw [e, hx] at this
      rwa [← Option.some.inj this]
    refine ⟨l1 ++ l2, ?_, ?_, ?_⟩
    · rw [List.length_append, List.length_cons, Nat.add_mul]
      omega
    · intro s hs
      obtain ⟨s1, e1, h1⟩ := enc1 s hs
      obtain ⟨s2, e2, h2⟩ := enc2 s1 (h1.ok hs)
      exact ⟨s2, by rw [compressBlocks, ev, Option.bind_some, e1, Option.bind_some, e2], h1.trans h2⟩
    · intro mem s P hs hh
      rw [holds_append] at hh
      obtain ⟨s1, v', e1, h1, h2⟩ := dec1 mem s P hs hh.1
      obtain ⟨s2, ws, g1, g2, g3, g4⟩ := dec2 mem s1 _ h1 hh.2
      refine ⟨s2, (boxCoords (blockShape L o)).map (fun c => (address L (List.zipWith (· + ·) o c), v' (posOf c))) ++ ws, ?_, ?_, ?_, ?_⟩
      · rw [List.length_append, ← Nat.add_assoc]
        exact g1
      · rw [List.map_append, g2, List.map_map, List.flatMap_cons]
        rfl
      · intro w hw
        rcases List.mem_append.1 hw with hw | hw
        · obtain ⟨c, hc, rfl⟩ := List.mem_map.1 hw
          have hc := mem_boxCoords.1 hc
          have h4 : ∀ d ∈ blockShape L o, d.1 ≤ 4 := fun d hd => (blockShape_range ho d hd).2
          have hpos := posOf_lt h4 hc
          rw [blockShape_length ho] at hpos
          refine ⟨v (posOf c), ?_, h2 _ hpos⟩
          have := hv _ hpos
          rw [sourceOf_pos h4 hc, address_blockShape ho] at this
          dsimp only
          rw [address_add L o c (isOrigin_length ho) (by rw [hc.length_eq, blockShape_length ho]), this]
        · exact g3 w hw
      · intro m
        rw [decompressBlocks, e1, Option.bind_some]
        dsimp only
        rw [writeBlock_eq m ho, stores_append]
        cases stores _ m with
        | none => rfl
        | some m => rw [Option.bind_some, Option.bind_some, g4]

theorem flatMap_addresses (L : List (Nat × Int)) : (blockOrigins L).flatMap (blockAddresses L) = (elements L).map (address L) := by
  unfold elements
  rw [List.map_flatMap]
  congr 1
  funext o
  rw [List.map_map]
  rfl

/-- Number of blocks. -/
def blockCount : List (Nat × Int) → Nat
  | [] => 1
  | (n, _) :: L => (n + 3) / 4 * blockCount L

theorem blockOrigins_length : ∀ L : List (Nat × Int), (blockOrigins L).length = blockCount L
  | [] => rfl
  | (n, s) :: L => by
    have ih := blockOrigins_length L
    unfold blockOrigins at ih ⊢
    rw [List.map_cons, choices, blockCount, List.length_flatMap]
    simp only [List.length_map, ih]
    rw [List.map_const', List.sum_replicate, origins, List.length_map, List.length_range]
    simp

/-- Everything about an array: written behind the first `P` bits of a stream and flushed, then read. -/
theorem array_coded {C : Codec α} {W : Nat} (hW : 0 < W) (hW64 : W ≤ 64) {L : List (Nat × Int)} {V : α → Prop} {E : α → α → Prop} {B : Nat} (hC : CodecOk C W L.length V E B)
    {a : Int → Option α} (ha : ∀ c, InBox L c → ∃ x, a (address L c) = some x ∧ V x) (q : Nat → α) {s : Stream} {c : Nat → Bool} {P : Nat} (hs : Wr W s c P) :
    ∃ s1 s2 k, compress C L a q s = some s1 ∧ flush W s1 = some (s2, k) ∧ wtell W s1 ≤ P + blockCount L * B ∧ W * s2.ptr = wtell W s1 + k ∧ k < W ∧
      (∀ i < P, memBit W s2.mem i = c i) ∧ (∀ i, s2.ptr ≤ i → s2.mem i = s.mem i) ∧
      ((∀ c c', InBox L c → InBox L c' → address L c = address L c' → c = c') →
        ∀ b : Int → Option α, (∀ c, InBox L c → (b (address L c)).isSome) → ∀ r : Stream, r.mem = s2.mem →
        ∃ s3 b', decompress C L (rseek W r P) b = some (s3, b') ∧ rtell W s3 = wtell W s1 ∧
          (∀ c, InBox L c → ∃ x y, a (address L c) = some x ∧ b' (address L c) = some y ∧ E x y) ∧
          ∀ p, (∀ c, InBox L c → address L c ≠ p) → b' p = b p) := by
  obtain ⟨l, hl, henc, hdec⟩ := blocks_coded hC ha q (blockOrigins L) fun o h => mem_blockOrigins.1 h
  rw [blockOrigins_length] at hl
  obtain ⟨s1, e1, h1⟩ := henc s ⟨_, _, hs⟩
  obtain ⟨a1, a2, a3⟩ := h1 c P hs
  obtain ⟨s2, k, e2, hk, hal, _, hm2, hb2, hso, hp2⟩ := flush_wr hW64 a1
  have htell : wtell W s1 = P + l.length := a1.tell
  refine ⟨s1, s2, k, e1, e2, by omega, by omega, hk, fun i hi => ?_, fun i hi => ?_, fun hinj b hb r hr => ?_⟩
  · rw [hb2 _ (by omega), splice, if_pos hi]
  · exact (a2.trans hso a3 hp2) i (Or.inr hi)
  · have hh : Holds W s2.mem P l := fun j hj => by rw [hb2 _ (by omega), splice, if_neg (by omega), Nat.add_sub_cancel_left]
    obtain ⟨r1, r2⟩ := rseek_rd hW (s := r) (by rw [hr]; exact hm2) P
    obtain ⟨s3, ws, g1, g2, g3, g4⟩ := hdec s2.mem (rseek W r P) P ⟨r1, by rw [r2, hr]⟩ hh
    rw [flatMap_addresses] at g2
    have hnd : (ws.map Prod.fst).Nodup := by
      rw [g2]
      exact List.Nodup.map_on (fun c hc c' hc' h => hinj c c' (mem_elements.1 hc) (mem_elements.1 hc') h) (nodup_elements L)
    have hmem : ∀ p, p ∈ ws.map Prod.fst ↔ ∃ c, InBox L c ∧ address L c = p := fun p => by
      rw [g2, List.mem_map]
      exact exists_congr fun c => by rw [mem_elements]
    obtain ⟨b', eb, hb1, hb2⟩ := stores_spec ws b hnd fun x hx => by
      obtain ⟨c, hc, e⟩ := (hmem x.1).1 (List.mem_map.2 ⟨x, hx, rfl⟩)
      rw [← e]
      exact hb c hc
    refine ⟨s3, b', by rw [decompress, g4, eb]; rfl, by rw [rtell_eq g1.1, htell], fun c hc => ?_, fun p hp => ?_⟩
    · obtain ⟨w, hw, e⟩ := List.mem_map.1 ((hmem (address L c)).2 ⟨c, hc, rfl⟩)
      obtain ⟨x, hx, hE⟩ := g3 w hw
      exact ⟨x, w.2, by rw [← e, hx], by rw [← e, hb1 w hw], hE⟩
    · refine hb2 p fun h => ?_
      obtain ⟨c, hc, e⟩ := (hmem p).1 h
      exact hp c hc e

theorem array_written {C : Codec α} {W : Nat} (hW64 : W ≤ 64) {L : List (Nat × Int)} {V : α → Prop} {B : Nat} (hC : EncOk C W L.length V B)
    {a : Int → Option α} (ha : ∀ c, InBox L c → ∃ x, a (address L c) = some x ∧ V x) (q : Nat → α) {s : Stream} {c : Nat → Bool} {P : Nat} (hs : Wr W s c P) :
    ∃ s1 s2 k, compress C L a q s = some s1 ∧ flush W s1 = some (s2, k) ∧ W * s2.ptr < P + blockCount L * B + W ∧ ∀ i, s2.ptr ≤ i → s2.mem i = s.mem i := by
  obtain ⟨l, hl, henc⟩ := blocks_written hC ha q (blockOrigins L) fun o h => mem_blockOrigins.1 h
  rw [blockOrigins_length] at hl
  obtain ⟨s1, e1, h1⟩ := henc s ⟨_, _, hs⟩
  obtain ⟨a1, a2, a3⟩ := h1 c P hs
  obtain ⟨s2, k, e2, hk, hal, _, hm2, hb2, hso, hp2⟩ := flush_wr hW64 a1
  exact ⟨s1, s2, k, e1, e2, by omega, fun i hi => (a2.trans hso a3 hp2) i (Or.inr hi)⟩

/-! ## The loop for contiguous one-dimensional arrays -/

theorem compressBlocks_append (C : Codec α) (L : List (Nat × Int)) (a : Int → Option α) (q : Nat → α) : ∀ (os os' : List (List Nat)) (s : Stream),
    compressBlocks C L a q (os ++ os') s = (compressBlocks C L a q os s).bind (compressBlocks C L a q os')
  | [], _, _ => rfl
  | o :: os, os', s => by
    rw [List.cons_append, compressBlocks, compressBlocks]
    cases readBlock a L q o with
    | none => rfl
    | some v =>
      rw [Option.bind_some, Option.bind_some]
      cases C.enc s v with
      | none => rfl
      | some s => rw [Option.bind_some, Option.bind_some, compressBlocks_append]

theorem decompressBlocks_append (C : Codec α) (L : List (Nat × Int)) : ∀ (os os' : List (List Nat)) (st : Stream × (Int → Option α)),
    decompressBlocks C L (os ++ os') st = (decompressBlocks C L os st).bind (decompressBlocks C L os')
  | [], _, _ => rfl
  | o :: os, os', (s, m) => by
    rw [List.cons_append, decompressBlocks, decompressBlocks]
    cases C.dec s with
    | none => rfl
    | some r =>
      obtain ⟨s, v⟩ := r
      rw [Option.bind_some, Option.bind_some]
      dsimp only
      cases writeBlock L m o v with
      | none => rfl
      | some m => rw [Option.bind_some, Option.bind_some, decompressBlocks_append]

theorem origins_one (nx : Nat) : blockOrigins [(nx, 1)] = (List.range (nx / 4)).map (fun i => [4 * i]) ++ if nx / 4 * 4 < nx then [[nx / 4 * 4]] else [] := by
  have h : blockOrigins [(nx, 1)] = (List.range ((nx + 3) / 4)).map fun i => [4 * i] := by
    simp [blockOrigins, choices, origins, List.flatMap_map, List.flatMap_singleton']
    exact List.map_eq_flatMap.symm
  rw [h]
  split
  · rw [show (nx + 3) / 4 = nx / 4 + 1 by omega, List.range_succ, List.map_append, List.map_singleton, Nat.mul_comm]
  · rw [show (nx + 3) / 4 = nx / 4 by omega, List.append_nil]

theorem compress_loop (C : Codec α) (nx : Nat) (a : Int → Option α) (q : Nat → α) : ∀ (n i : Nat) (s : Stream), 4 * (i + n) ≤ nx →
    compressBlocks C [(nx, 1)] a q ((List.range' i n).map fun i => [4 * i]) s =
      forLoop (fun i s => ((gather a [1] (q, 0, (4 * i : Nat))).map (·.1)).bind (C.enc s)) n i s
  | 0, _, _, _ => rfl
  | n + 1, i, s, h => by
    have hr : readBlock a [(nx, 1)] q [4 * i] = (gather a [1] (q, 0, (4 * i : Nat))).map (·.1) := by
      rw [readBlock, if_neg (by simp [isPartial]; omega)]
      simp [address]
    rw [List.range'_succ, List.map_cons, compressBlocks, forLoop, hr]
    cases (gather a [1] (q, 0, (4 * i : Nat))).map (·.1) with
    | none => rfl
    | some v =>
      rw [Option.bind_some, Option.bind_some]
      cases C.enc s v with
      | none => rfl
      | some s => rw [Option.bind_some, Option.bind_some, compress_loop C nx a q n (i + 1) s (by omega)]

theorem compress1_eq (C : Codec α) (nx : Nat) (a : Int → Option α) (q : Nat → α) (s : Stream) : compress1 C nx a q s = compress C [(nx, 1)] a q s := by
  rw [compress, origins_one, compressBlocks_append, List.range_eq_range', compress_loop C nx a q _ _ _ (by omega), compress1]
  congr 1
  funext s
  split
  · rw [compressBlocks, readBlock, if_pos (by simp [isPartial]; omega)]
    have : min (nx - nx / 4 * 4) 4 = nx - nx / 4 * 4 := by omega
    simp only [blockShape, address, this, add_zero, one_mul]
    cases gatherPartial a [(nx - nx / 4 * 4, 1)] 0 (q, ((nx / 4 * 4 : Nat) : Int)) with
    | none => rfl
    | some r =>
      rw [Option.map_some, Option.bind_some, Option.bind_some]
      cases C.enc s r.1 <;> rfl
  · rfl

theorem decompress_loop (C : Codec α) (nx : Nat) : ∀ (n i : Nat) (st : Stream × (Int → Option α)), 4 * (i + n) ≤ nx →
    decompressBlocks C [(nx, 1)] ((List.range' i n).map fun i => [4 * i]) st =
      forLoop (fun i (s, m) => (C.dec s).bind fun (s, v) => (scatter v [1] (m, 0, (4 * i : Nat))).map fun r => (s, r.1)) n i st
  | 0, _, _, _ => rfl
  | n + 1, i, (s, m), h => by
    rw [List.range'_succ, List.map_cons, decompressBlocks, forLoop]
    dsimp only
    cases C.dec s with
    | none => rfl
    | some r =>
      obtain ⟨s, v⟩ := r
      have hr : writeBlock [(nx, 1)] m [4 * i] v = (scatter v [1] (m, 0, (4 * i : Nat))).map (·.1) := by
        rw [writeBlock, if_neg (by simp [isPartial]; omega)]
        simp [address]
      rw [Option.bind_some, Option.bind_some]
      dsimp only
      rw [hr]
      cases scatter v [1] (m, 0, (4 * i : Nat)) with
      | none => rfl
      | some r => rw [Option.map_some, Option.bind_some, Option.map_some, Option.bind_some, decompress_loop C nx n (i + 1) _ (by omega)]

theorem decompress1_eq (C : Codec α) (nx : Nat) (s : Stream) (m : Int → Option α) : decompress1 C nx s m = decompress C [(nx, 1)] s m := by
  rw [decompress, origins_one, decompressBlocks_append, List.range_eq_range', decompress_loop C nx _ _ _ (by omega), decompress1]
  congr 1
  funext st
  obtain ⟨s, m⟩ := st
  dsimp only
  split
  · rw [decompressBlocks]
    cases C.dec s with
    | none => rfl
    | some r =>
      obtain ⟨s, v⟩ := r
      rw [Option.bind_some, Option.bind_some]
      dsimp only
      rw [writeBlock, if_pos (by simp [isPartial]; omega)]
      have : min (nx - nx / 4 * 4) 4 = nx - nx / 4 * 4 := by omega
      simp only [blockShape, address, this, add_zero, one_mul]
      cases scatterPartial v [(nx - nx / 4 * 4, 1)] (m, 0, ((nx / 4 * 4 : Nat) : Int)) <;> rfl
  · rfl

theorem shape_contiguous {f : Field} (h : f.dims = 1 ∧ f.sx = 0 ∧ f.sy = 0 ∧ f.sz = 0 ∧ f.sw = 0) : f.shape = [(f.nx, 1)] := by
  unfold Field.shape
  simp [h.1, h.2.1]

theorem allOrigins_eq : ∀ {L : List (Nat × Int)}, (∀ d ∈ L, d.1 ≤ 2 ^ 32 - 4) → allOrigins L = some (L.map fun d => origins d.1)
  | [], _ => rfl
  | (n, s) :: L, h => by
    have hn : n ≤ 2 ^ 32 - 4 := h (n, s) (by simp)
    have := loop4_origins hn (2 ^ 32) 0 (by omega) (by omega)
    rw [Nat.mul_zero] at this
    rw [allOrigins, this, allOrigins_eq fun d hd => h d (by simp [hd])]
    simp [origins]

theorem zfpCompress_eq (C : Codec α) {f : Field} (hf : f.dims ≠ 0) (hs : ∀ d ∈ f.shape, d.1 ≤ 2 ^ 32 - 4) (a : Int → Option α) (q : Nat → α) (s : Stream) :
    zfpCompress C f a q s = compress C f.shape a q s := by
  unfold zfpCompress
  rw [if_neg hf]
  split
  · rename_i h
    rw [compress1_eq, shape_contiguous h]
  · rw [compressStrided, allOrigins_eq hs]
    rfl

theorem zfpDecompress_eq (C : Codec α) {f : Field} (hf : f.dims ≠ 0) (hs : ∀ d ∈ f.shape, d.1 ≤ 2 ^ 32 - 4) (s : Stream) (m : Int → Option α) :
    zfpDecompress C f s m = decompress C f.shape s m := by
  unfold zfpDecompress
  rw [if_neg hf]
  split
  · rename_i h
    rw [decompress1_eq, shape_contiguous h]
  · rw [decompressStrided, allOrigins_eq hs]
    rfl

theorem shape_length (f : Field) : f.shape.length = f.dims := by
  have h : f.dims = 0 ∨ f.dims = 1 ∨ f.dims = 2 ∨ f.dims = 3 ∨ f.dims = 4 := by
    unfold Field.dims
    split_ifs <;> omega
  unfold Field.shape
  rcases h with h | h | h | h | h <;> rw [h] <;> rfl

end Verif.Zfp

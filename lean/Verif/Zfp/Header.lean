import Verif.Zfp.FloatProps
import Mathlib.Tactic.IntervalCases

/-! # Fields, compression parameters and the header (zfp/src/zfp.c; C39) -/

namespace Verif.Zfp

/-- zfp_type (zfp.h:160-166). -/
inductive ZType
  | none | int32 | int64 | float | double
  deriving DecidableEq

def ZType.code : ZType → Nat
  | .none => 0 | .int32 => 1 | .int64 => 2 | .float => 3 | .double => 4

/-- The conversion of a number to zfp_type; only 1 to 4 are converted (zfp.c:362). -/
def ZType.ofCode : Nat → ZType
  | 1 => .int32 | 2 => .int64 | 3 => .float | 4 => .double | _ => .none

/-- zfp_field without the pointer (zfp.h:168-174). Sizes are 32 bit unsigned numbers. -/
structure Field where
  type : ZType
  nx : Nat
  ny : Nat
  nz : Nat
  nw : Nat
  sx : Int
  sy : Int
  sz : Int
  sw : Int
  deriving DecidableEq

/-- zfp_field_dimensionality (zfp.c:185-189). -/
def Field.dims (f : Field) : Nat := if f.nx ≠ 0 then if f.ny ≠ 0 then if f.nz ≠ 0 then if f.nw ≠ 0 then 4 else 3 else 2 else 1 else 0

/-- `m <<= k; m += v` on 64 bits. -/
def push (m k v : Nat) : Nat := ((m <<< k) % 2 ^ 64 + v) % 2 ^ 64

/-- `n - 1` on 32 bits. -/
def pred32 (n : Nat) : Nat := (n + (2 ^ 32 - 1)) % 2 ^ 32

/-- The sizes of a field in 48 bits (zfp.c:237-257). -/
def Field.sizes (f : Field) : Nat :=
  if f.dims = 1 then push 0 48 (pred32 f.nx)
  else if f.dims = 2 then push (push 0 24 (pred32 f.ny)) 24 (pred32 f.nx)
  else if f.dims = 3 then push (push (push 0 16 (pred32 f.nz)) 16 (pred32 f.ny)) 16 (pred32 f.nx)
  else if f.dims = 4 then push (push (push (push 0 12 (pred32 f.nw)) 12 (pred32 f.nz)) 12 (pred32 f.ny)) 12 (pred32 f.nx)
  else 0

/-- zfp_field_metadata (zfp.c:233-263). -/
def Field.metadata (f : Field) : Nat :=
  push (push f.sizes 2 (pred32 f.dims)) 2 (pred32 f.type.code)

/-- `(m & mask) + 1` stored in 32 bits, `mask = 2^k - 1`. -/
def succ32 (m k : Nat) : Nat := (m % 2 ^ k + 1) % 2 ^ 32

/-- zfp_field_set_metadata (zfp.c:358-392); it always returns 1. -/
def Field.setMetadata (word : Nat) : Field :=
  let type := ZType.ofCode (word % 4 + 1)
  let dims := word / 4 % 4 + 1
  let m := word / 16
  if dims = 1 then ⟨type, succ32 m 32, 0, 0, 0, 0, 0, 0, 0⟩
  else if dims = 2 then ⟨type, succ32 m 24, succ32 (m / 2 ^ 24) 24, 0, 0, 0, 0, 0, 0⟩
  else if dims = 3 then ⟨type, succ32 m 16, succ32 (m / 2 ^ 16) 16, succ32 (m / 2 ^ 32) 16, 0, 0, 0, 0, 0⟩
  else ⟨type, succ32 m 12, succ32 (m / 2 ^ 12) 12, succ32 (m / 2 ^ 24) 12, succ32 (m / 2 ^ 36) 12, 0, 0, 0, 0⟩

/-- ZFP_MIN_BITS, ZFP_MAX_BITS, ZFP_MAX_PREC and ZFP_MIN_EXP (zfp.h:96-99), set by zfp_stream_open (zfp.c:397-410). -/
def Params.default : Params := ⟨1, 16651, 64, -1074⟩

/-- zfp_mode (zfp.h:151-157). -/
inductive Mode
  | null | expert | fixedRate | fixedPrecision | fixedAccuracy
  deriving DecidableEq

deriving instance DecidableEq for Params

/-- zfp_stream_compression_mode (zfp.c:424-458). -/
def Params.compressionMode (Z : Params) : Mode :=
  if Z.minbits > Z.maxbits ∨ ¬ (0 < Z.maxprec ∧ Z.maxprec ≤ 64) then .null
  else if Z.minbits = 1 ∧ Z.maxbits = 16651 ∧ Z.maxprec = 64 ∧ Z.minexp = -1074 then .expert
  else if Z.minbits = Z.maxbits ∧ 1 ≤ Z.maxbits ∧ Z.maxbits ≤ 16651 ∧ Z.maxprec ≥ 64 ∧ Z.minexp ≤ -1074 then .fixedRate
  else if Z.minbits ≤ 1 ∧ Z.maxbits ≥ 16651 ∧ Z.maxprec ≥ 1 ∧ Z.minexp ≤ -1074 then .fixedPrecision
  else if Z.minbits ≤ 1 ∧ Z.maxbits ≥ 16651 ∧ Z.maxprec ≥ 64 ∧ -1074 ≤ Z.minexp then .fixedAccuracy
  else .expert

/-- The separate encoding of the parameters (zfp.c:498-509); the sum with the bias must not overflow. -/
def Params.longMode (Z : Params) : Option Nat :=
  (ck (2 ^ 31) (Z.minexp + 16495)).map fun e =>
    let minbits := max 1 (min Z.minbits 0x8000) - 1
    let maxbits := max 1 (min Z.maxbits 0x8000) - 1
    let maxprec := max 1 (min Z.maxprec 0x0080) - 1
    let minexp := (max 0 (min e 0x7fff)).toNat
    push (push (push (push (push 0 15 minexp) 7 maxprec) 15 maxbits) 15 minbits) 12 0xfff

/-- zfp_stream_mode (zfp.c:461-511). -/
def Params.mode (Z : Params) : Option Nat :=
  match Z.compressionMode with
  | .fixedRate => if Z.maxbits ≤ 2048 then some (Z.maxbits - 1) else Z.longMode
  | .fixedPrecision => if Z.maxprec ≤ 128 then some (Z.maxprec - 1 + 2048) else Z.longMode
  | .fixedAccuracy => if Z.minexp ≤ 843 then some ((Z.minexp + 1074).toNat + (2048 + 128 + 1)) else Z.longMode
  | _ => Z.longMode

/-- zfp_stream_set_params (zfp.c:667-677). -/
def setParams (Z Z' : Params) : Params × Bool :=
  if Z'.minbits > Z'.maxbits ∨ ¬ (0 < Z'.maxprec ∧ Z'.maxprec ≤ 64) then (Z, false) else (Z', true)

/-- The parameters encoded by a mode (zfp.c:630-659). -/
def paramsOf (mode : Nat) : Params :=
  if mode ≤ 4094 then
    if mode < 2048 then ⟨mode + 1, mode + 1, 64, -1074⟩
    else if mode < 2048 + 128 then ⟨1, 16651, mode + 1 - 2048, -1074⟩
    else ⟨1, 16651, 64, ((mode : Int) + -1074 - (2048 + 128 + 1)).bmod (2 ^ 32)⟩
  else ⟨mode / 2 ^ 12 % 2 ^ 15 + 1, mode / 2 ^ 27 % 2 ^ 15 + 1, mode / 2 ^ 42 % 2 ^ 7 + 1, ((mode / 2 ^ 49 % 2 ^ 15 : Nat) - (16495 : Int)).bmod (2 ^ 32)⟩

/-- zfp_stream_set_mode (zfp.c:624-665). -/
def setMode (Z : Params) (mode : Nat) : Params × Mode :=
  let r := setParams Z (paramsOf mode)
  (r.1, if r.2 then r.1.compressionMode else .null)

/-- The parts of a header: ZFP_HEADER_MAGIC, ZFP_HEADER_META, ZFP_HEADER_MODE (zfp.h:102-105). -/
structure Mask where
  magic : Bool
  fmeta : Bool
  mode : Bool

/-- The bytes of the magic word (zfp.c:973-976). -/
def magicBytes : List Nat := [122, 102, 112, 5]

def writeBytes (W : Nat) : Stream → List Nat → Option Stream
  | s, [] => some s
  | s, b :: l => (writeBits W s b 8).bind fun r => writeBytes W r.1 l

/-- zfp_write_header (zfp.c:967-993): the stream and the number of bits. -/
def writeHeader (W : Nat) (s : Stream) (f : Field) (Z : Params) (k : Mask) : Option (Stream × Nat) :=
  (if k.magic then (writeBytes W s magicBytes).map fun s => (s, 32) else some (s, 0)).bind fun (s, n) =>
  (if k.fmeta then (writeBits W s f.metadata 52).map fun r => (r.1, n + 52) else some (s, n)).bind fun (s, n) =>
  if k.mode then Z.mode.bind fun mode =>
    let size := if mode > 4094 then 64 else 12
    (writeBits W s mode size).map fun r => (r.1, n + size)
  else some (s, n)

/-- The comparison of the magic word, which stops at the first difference (zfp.c:1000-1003). -/
def checkBytes (W : Nat) : Stream → List Nat → Option (Stream × Bool)
  | s, [] => some (s, true)
  | s, b :: l => (readBits W s 8).bind fun (s, v) => if v ≠ b then some (s, false) else checkBytes W s l

/-- zfp_read_header from the compression parameters on (zfp.c:1013-1024). -/
def readMode (W : Nat) (s : Stream) (Z : Params) (n : Nat) : Option (Stream × Params × Nat) :=
  (readBits W s 12).bind fun (s, mode) =>
  (if mode > 4094 then (readBits W s 52).map fun (s, v) => (s, (mode + (v <<< 12) % 2 ^ 64) % 2 ^ 64, n + 12 + 52) else some (s, mode, n + 12)).map fun (s, mode, n) =>
    let r := setMode Z mode
    (s, r.1, if r.2 = .null then 0 else n)

/-- zfp_read_header (zfp.c:995-1026): the stream, the field, the parameters and the number of bits, 0 for a failure. -/
def readHeader (W : Nat) (s : Stream) (f : Field) (Z : Params) (k : Mask) : Option (Stream × Field × Params × Nat) :=
  (if k.magic then checkBytes W s magicBytes else some (s, true)).bind fun (s, ok) =>
  if ok then
    let n := if k.magic then 32 else 0
    (if k.fmeta then (readBits W s 52).map fun (s, m) => (s, Field.setMetadata m, n + 52) else some (s, f, n)).bind fun (s, f, n) =>
    if k.mode then (readMode W s Z n).map fun (s, Z, n) => (s, f, Z, n) else some (s, f, Z, n)
  else some (s, f, Z, 0)

/-- zfp_stream_set_rate (zfp.c:570-595): the parameters and the rate. The conversion of a negative or too large number of bits is undefined.
`W` is the word size of the bit stream. -/
def setRate (W : Nat) (rate : ℚ) (type : ZType) (dims : Nat) (wra : Bool) : Option (Params × ℚ) :=
  let n := 4 ^ dims
  let b := ⌊(n : ℚ) * rate + 1 / 2⌋
  if 0 ≤ b ∧ b < 2 ^ 32 then
    let bits := match type with
      | .float => max b.toNat (1 + 8)
      | .double => max b.toNat (1 + 11)
      | _ => b.toNat
    let bits := if wra then (bits + (W - 1)) % 2 ^ 32 / W * W else bits
    some (⟨bits, bits, 64, -1074⟩, (bits : ℚ) / n)
  else none

/-- zfp_stream_set_precision (zfp.c:597-605). -/
def setPrecision (precision : Nat) : Params × Nat :=
  let p := if precision ≠ 0 then min precision 64 else 64
  (⟨1, 16651, p, -1074⟩, p)

/-- zfp_stream_set_accuracy (zfp.c:607-622). -/
def setAccuracy (tolerance : ℚ) : Params × ℚ :=
  let emin := if tolerance > 0 then Int.log 2 tolerance + 1 - 1 else -1074
  (⟨1, 16651, 64, emin⟩, if tolerance > 0 then 2 ^ emin else 0)

/-! ## Specification -/

/-- The fields a header can describe: one to four dimensions whose sizes fit in 48, 24, 16 or 12 bits, of a known type. -/
def Field.Fits (f : Field) : Prop := f.type ≠ .none ∧
  ((1 ≤ f.nx ∧ f.nx < 2 ^ 32) ∧ f.ny = 0 ∧ f.nz = 0 ∧ f.nw = 0 ∨
   (1 ≤ f.nx ∧ f.nx ≤ 2 ^ 24) ∧ (1 ≤ f.ny ∧ f.ny ≤ 2 ^ 24) ∧ f.nz = 0 ∧ f.nw = 0 ∨
   (1 ≤ f.nx ∧ f.nx ≤ 2 ^ 16) ∧ (1 ≤ f.ny ∧ f.ny ≤ 2 ^ 16) ∧ (1 ≤ f.nz ∧ f.nz ≤ 2 ^ 16) ∧ f.nw = 0 ∨
   (1 ≤ f.nx ∧ f.nx ≤ 2 ^ 12) ∧ (1 ≤ f.ny ∧ f.ny ≤ 2 ^ 12) ∧ (1 ≤ f.nz ∧ f.nz ≤ 2 ^ 12) ∧ (1 ≤ f.nw ∧ f.nw ≤ 2 ^ 12))

/-- The strides are not part of a header. -/
def Field.unstrided (f : Field) : Field := { f with sx := 0, sy := 0, sz := 0, sw := 0 }

/-- The parameters a header can describe: in the ranges of the long format, and where the short format takes the default of a parameter
for granted, that parameter is not beyond it. -/
def Params.Fits (Z : Params) : Prop :=
  (1 ≤ Z.minbits ∧ Z.minbits ≤ Z.maxbits ∧ Z.maxbits ≤ 2 ^ 15) ∧ (1 ≤ Z.maxprec ∧ Z.maxprec ≤ 64) ∧ (-16495 ≤ Z.minexp ∧ Z.minexp ≤ 16272) ∧
  (Z.minbits = 1 ∧ 16651 ≤ Z.maxbits → Z.maxbits = 16651 ∧ -1074 ≤ Z.minexp) ∧ (Z.minbits = Z.maxbits → -1074 ≤ Z.minexp)

/-! ## Metadata -/

theorem push_eq {m k v : Nat} (h : m * 2 ^ k + v < 2 ^ 64) : push m k v = m * 2 ^ k + v := by
  rw [push, Nat.shiftLeft_eq, Nat.mod_eq_of_lt (show m * 2 ^ k < 2 ^ 64 by omega), Nat.mod_eq_of_lt h]

theorem pred32_eq {n : Nat} (h : 1 ≤ n) (h2 : n < 2 ^ 32 + 1) : pred32 n = n - 1 := by
  unfold pred32
  norm_num at *
  omega

theorem code_range {t : ZType} (h : t ≠ .none) : 1 ≤ t.code ∧ t.code ≤ 4 ∧ ZType.ofCode (t.code - 1 + 1) = t := by cases t <;> first | exact absurd rfl h | decide

theorem sizes1 {f : Field} (h : f.dims = 1) : f.sizes = push 0 48 (pred32 f.nx) := by simp only [Field.sizes, h, if_true]

theorem sizes2 {f : Field} (h : f.dims = 2) : f.sizes = push (push 0 24 (pred32 f.ny)) 24 (pred32 f.nx) := by simp only [Field.sizes, h, Nat.reduceEqDiff, if_true, if_false]

theorem sizes3 {f : Field} (h : f.dims = 3) : f.sizes = push (push (push 0 16 (pred32 f.nz)) 16 (pred32 f.ny)) 16 (pred32 f.nx) := by simp only [Field.sizes, h, Nat.reduceEqDiff, if_true, if_false]

theorem sizes4 {f : Field} (h : f.dims = 4) : f.sizes = push (push (push (push 0 12 (pred32 f.nw)) 12 (pred32 f.nz)) 12 (pred32 f.ny)) 12 (pred32 f.nx) := by
  simp only [Field.sizes, h, Nat.reduceEqDiff, if_true, if_false]

theorem dims_range (f : Field) : f.dims ≤ 4 := by unfold Field.dims; split_ifs <;> omega

/-- The sizes as a 48 bit number. -/
theorem metadata_eq {f : Field} (ht : f.type ≠ .none) {M d : Nat} (hd : f.dims = d) (hd1 : 1 ≤ d) (hM : M < 281474976710656)
    (h : f.sizes = M) : f.metadata = 16 * M + 4 * (d - 1) + (f.type.code - 1) := by
  obtain ⟨c1, c2, c3⟩ := code_range ht
  have hd4 := dims_range f
  unfold Field.metadata
  rw [hd, h, pred32_eq hd1 (by omega), pred32_eq c1 (by omega), push_eq (m := M) (k := 2) (v := d - 1) (by omega),
    push_eq (m := M * 2 ^ 2 + (d - 1)) (k := 2) (v := f.type.code - 1) (by omega)]
  omega

theorem setMetadata_eq {t : ZType} (ht : t ≠ .none) (M d : Nat) (hd : d < 4) : Field.setMetadata (16 * M + 4 * d + (t.code - 1)) =
    if d + 1 = 1 then ⟨t, succ32 M 32, 0, 0, 0, 0, 0, 0, 0⟩
    else if d + 1 = 2 then ⟨t, succ32 M 24, succ32 (M / 2 ^ 24) 24, 0, 0, 0, 0, 0, 0⟩
    else if d + 1 = 3 then ⟨t, succ32 M 16, succ32 (M / 2 ^ 16) 16, succ32 (M / 2 ^ 32) 16, 0, 0, 0, 0, 0⟩
    else ⟨t, succ32 M 12, succ32 (M / 2 ^ 12) 12, succ32 (M / 2 ^ 24) 12, succ32 (M / 2 ^ 36) 12, 0, 0, 0, 0⟩ := by
  obtain ⟨c1, c2, c3⟩ := code_range ht
  unfold Field.setMetadata
  dsimp only
  rw [show (16 * M + 4 * d + (t.code - 1)) % 4 + 1 = t.code - 1 + 1 by omega, c3, show (16 * M + 4 * d + (t.code - 1)) / 4 % 4 + 1 = d + 1 by omega,
    show (16 * M + 4 * d + (t.code - 1)) / 16 = M by omega]

theorem pack2 {nx ny : Nat} (h1 : 1 ≤ nx ∧ nx ≤ 16777216) (h2 : 1 ≤ ny ∧ ny ≤ 16777216) :
    push (push 0 24 (pred32 ny)) 24 (pred32 nx) = (ny - 1) * 16777216 + (nx - 1) := by
  rw [pred32_eq h1.1 (by omega), pred32_eq h2.1 (by omega), push_eq (m := 0) (k := 24) (v := ny - 1) (by omega),
    push_eq (m := 0 * 2 ^ 24 + (ny - 1)) (k := 24) (v := nx - 1) (by omega)]
  omega

theorem pack3 {nx ny nz : Nat} (h1 : 1 ≤ nx ∧ nx ≤ 65536) (h2 : 1 ≤ ny ∧ ny ≤ 65536) (h3 : 1 ≤ nz ∧ nz ≤ 65536) :
    push (push (push 0 16 (pred32 nz)) 16 (pred32 ny)) 16 (pred32 nx) = ((nz - 1) * 65536 + (ny - 1)) * 65536 + (nx - 1) := by
  rw [pred32_eq h1.1 (by omega), pred32_eq h2.1 (by omega), pred32_eq h3.1 (by omega), push_eq (m := 0) (k := 16) (v := nz - 1) (by omega),
    push_eq (m := 0 * 2 ^ 16 + (nz - 1)) (k := 16) (v := ny - 1) (by omega), push_eq (m := (0 * 2 ^ 16 + (nz - 1)) * 2 ^ 16 + (ny - 1)) (k := 16) (v := nx - 1) (by omega)]
  omega

theorem pack4 {nx ny nz nw : Nat} (h1 : 1 ≤ nx ∧ nx ≤ 4096) (h2 : 1 ≤ ny ∧ ny ≤ 4096) (h3 : 1 ≤ nz ∧ nz ≤ 4096) (h4 : 1 ≤ nw ∧ nw ≤ 4096) :
    push (push (push (push 0 12 (pred32 nw)) 12 (pred32 nz)) 12 (pred32 ny)) 12 (pred32 nx) = (((nw - 1) * 4096 + (nz - 1)) * 4096 + (ny - 1)) * 4096 + (nx - 1) := by
  rw [pred32_eq h1.1 (by omega), pred32_eq h2.1 (by omega), pred32_eq h3.1 (by omega), pred32_eq h4.1 (by omega), push_eq (m := 0) (k := 12) (v := nw - 1) (by omega),
    push_eq (m := 0 * 2 ^ 12 + (nw - 1)) (k := 12) (v := nz - 1) (by omega), push_eq (m := (0 * 2 ^ 12 + (nw - 1)) * 2 ^ 12 + (nz - 1)) (k := 12) (v := ny - 1) (by omega),
    push_eq (m := ((0 * 2 ^ 12 + (nw - 1)) * 2 ^ 12 + (nz - 1)) * 2 ^ 12 + (ny - 1)) (k := 12) (v := nx - 1) (by omega)]
  omega

theorem metadata_round_trip {f : Field} (hf : f.Fits) : f.metadata < 2 ^ 52 ∧ Field.setMetadata f.metadata = f.unstrided := by
  obtain ⟨ht, h⟩ := hf
  obtain ⟨c1, c2, c3⟩ := code_range ht
  norm_num at h
  obtain ⟨type, nx, ny, nz, nw, sx, sy, sz, sw⟩ := f
  dsimp only at *
  have fin : ∀ {M d : Nat}, M < 281474976710656 → d < 4 → 16 * M + 4 * d + (type.code - 1) < 2 ^ 52 := fun h1 h2 => by norm_num; omega
  rcases h with ⟨h1, rfl, rfl, rfl⟩ | ⟨h1, h2, rfl, rfl⟩ | ⟨h1, h2, h3, rfl⟩ | ⟨h1, h2, h3, h4⟩
  · have hd : (Field.mk type nx 0 0 0 sx sy sz sw).dims = 1 := by unfold Field.dims; dsimp only; rw [if_pos (by omega)]; rfl
    have hM : nx - 1 < 281474976710656 := by omega
    rw [metadata_eq ht hd (by omega) hM (by
      rw [sizes1 hd]
      dsimp only
      rw [pred32_eq h1.1 (by norm_num; omega), push_eq (m := 0) (k := 48) (v := nx - 1) (by omega)]
      omega)]
    refine ⟨fin hM (by omega), ?_⟩
    rw [setMetadata_eq ht _ _ (by omega)]
    unfold Field.unstrided succ32
    dsimp only
    norm_num
    omega
  · have hd : (Field.mk type nx ny 0 0 sx sy sz sw).dims = 2 := by unfold Field.dims; dsimp only; rw [if_pos (by omega), if_pos (by omega)]; rfl
    have hM : (ny - 1) * 16777216 + (nx - 1) < 281474976710656 := by omega
    rw [metadata_eq ht hd (by omega) hM ((sizes2 hd).trans (pack2 h1 h2))]
    refine ⟨fin hM (by omega), ?_⟩
    rw [setMetadata_eq ht _ _ (by omega)]
    unfold Field.unstrided succ32
    dsimp only
    norm_num
    omega
  · have hd : (Field.mk type nx ny nz 0 sx sy sz sw).dims = 3 := by
      unfold Field.dims; dsimp only; rw [if_pos (by omega), if_pos (by omega), if_pos (by omega)]; rfl
    have hM : ((nz - 1) * 65536 + (ny - 1)) * 65536 + (nx - 1) < 281474976710656 := by omega
    rw [metadata_eq ht hd (by omega) hM ((sizes3 hd).trans (pack3 h1 h2 h3))]
    refine ⟨fin hM (by omega), ?_⟩
    rw [setMetadata_eq ht _ _ (by omega)]
    unfold Field.unstrided succ32
    dsimp only
    norm_num
    omega
  · have hd : (Field.mk type nx ny nz nw sx sy sz sw).dims = 4 := by
      unfold Field.dims; dsimp only; rw [if_pos (by omega), if_pos (by omega), if_pos (by omega), if_pos (by omega)]
    have hM : (((nw - 1) * 4096 + (nz - 1)) * 4096 + (ny - 1)) * 4096 + (nx - 1) < 281474976710656 := by omega
    rw [metadata_eq ht hd (by omega) hM ((sizes4 hd).trans (pack4 h1 h2 h3 h4))]
    refine ⟨fin hM (by omega), ?_⟩
    rw [setMetadata_eq ht _ _ (by omega)]
    unfold Field.unstrided succ32
    dsimp only
    norm_num
    omega

/-! ## The mode word -/

theorem longMode_eq {Z : Params} (hZ : Z.Fits) : Z.longMode = some (((((Z.minexp + 16495).toNat * 2 ^ 7 + (Z.maxprec - 1)) * 2 ^ 15 + (Z.maxbits - 1)) * 2 ^ 15 + (Z.minbits - 1)) * 2 ^ 12 + 4095) := by
  obtain ⟨h1, h2, h3, -, -⟩ := hZ
  unfold Params.longMode ck
  rw [if_pos (by norm_num; omega), Option.map_some]
  norm_num at h1
  refine congrArg some ?_
  rw [show max 1 (min Z.minbits 0x8000) - 1 = Z.minbits - 1 by omega, show max 1 (min Z.maxbits 0x8000) - 1 = Z.maxbits - 1 by omega,
    show max 1 (min Z.maxprec 0x80) - 1 = Z.maxprec - 1 by omega, show (max 0 (min (Z.minexp + 16495) 0x7fff)).toNat = (Z.minexp + 16495).toNat by omega]
  dsimp only
  obtain ⟨e, he⟩ : ∃ e, e = (Z.minexp + 16495).toNat := ⟨_, rfl⟩
  rw [← he]
  have he2 : e < 32768 := by omega
  rw [push_eq (m := 0) (k := 15) (v := e) (by omega), push_eq (m := 0 * 2 ^ 15 + e) (k := 7) (v := Z.maxprec - 1) (by omega),
    push_eq (m := (0 * 2 ^ 15 + e) * 2 ^ 7 + (Z.maxprec - 1)) (k := 15) (v := Z.maxbits - 1) (by omega),
    push_eq (m := ((0 * 2 ^ 15 + e) * 2 ^ 7 + (Z.maxprec - 1)) * 2 ^ 15 + (Z.maxbits - 1)) (k := 15) (v := Z.minbits - 1) (by omega),
    push_eq (m := (((0 * 2 ^ 15 + e) * 2 ^ 7 + (Z.maxprec - 1)) * 2 ^ 15 + (Z.maxbits - 1)) * 2 ^ 15 + (Z.minbits - 1)) (k := 12) (v := 0xfff) (by omega)]
  omega

theorem bmod32 {v : Int} (h : -2147483648 ≤ v ∧ v < 2147483648) : v.bmod (2 ^ 32) = v := by
  apply Int.bmod_eq_of_le <;> norm_num <;> omega

theorem long_round_trip {Z : Params} (hZ : Z.Fits) {mode : Nat}
    (hm : mode = ((((Z.minexp + 16495).toNat * 2 ^ 7 + (Z.maxprec - 1)) * 2 ^ 15 + (Z.maxbits - 1)) * 2 ^ 15 + (Z.minbits - 1)) * 2 ^ 12 + 4095) :
    mode < 2 ^ 64 ∧ mode % 2 ^ 12 = 4095 ∧ paramsOf mode = Z := by
  obtain ⟨h1, h2, h3, -, -⟩ := hZ
  obtain ⟨e, he⟩ : ∃ e, e = (Z.minexp + 16495).toNat := ⟨_, rfl⟩
  rw [← he] at hm
  have he3 : (e : Int) - 16495 = Z.minexp := by omega
  have he2 : e < 32768 := by omega
  obtain ⟨minbits, maxbits, maxprec, minexp⟩ := Z
  dsimp only at *
  norm_num at h1 hm
  have hm' : mode = 4095 + 4096 * ((minbits - 1) + 32768 * ((maxbits - 1) + 32768 * ((maxprec - 1) + 128 * e))) := by rw [hm]; ring
  clear hm he
  refine ⟨by norm_num; omega, by norm_num; omega, ?_⟩
  unfold paramsOf
  rw [if_neg (by omega)]
  have a1 : mode / 2 ^ 12 % 2 ^ 15 + 1 = minbits := by norm_num; omega
  have a2 : mode / 2 ^ 27 % 2 ^ 15 + 1 = maxbits := by norm_num; omega
  have a3 : mode / 2 ^ 42 % 2 ^ 7 + 1 = maxprec := by norm_num; omega
  have a4 : mode / 2 ^ 49 % 2 ^ 15 = e := by norm_num; omega
  rw [a1, a2, a3, a4, he3, bmod32 (by omega)]

theorem mode_round_trip {Z : Params} (hZ : Z.Fits) : ∃ mode, Z.mode = some mode ∧ paramsOf mode = Z ∧ Z.compressionMode ≠ .null ∧ mode < 2 ^ 64 ∧
    (mode ≤ 4094 ∨ mode % 2 ^ 12 = 4095) := by
  have hl := long_round_trip hZ rfl
  have hle := longMode_eq hZ
  have hlong : ∃ mode, Z.longMode = some mode ∧ paramsOf mode = Z ∧ mode < 2 ^ 64 ∧ (mode ≤ 4094 ∨ mode % 2 ^ 12 = 4095) := ⟨_, hle, hl.2.2, hl.1, Or.inr hl.2.1⟩
  clear hl hle
  have hnull : Z.compressionMode ≠ .null := by
    obtain ⟨h1, h2, -⟩ := hZ
    unfold Params.compressionMode
    rw [if_neg (by omega)]
    split_ifs <;> simp
  obtain ⟨h1, h2, h3, h4, h5⟩ := hZ
  norm_num at h1
  suffices h : ∃ mode, Z.mode = some mode ∧ paramsOf mode = Z ∧ mode < 2 ^ 64 ∧ (mode ≤ 4094 ∨ mode % 2 ^ 12 = 4095) by
    obtain ⟨m, a, b, c⟩ := h
    exact ⟨m, a, b, hnull, c⟩
  unfold Params.mode Params.compressionMode
  obtain ⟨minbits, maxbits, maxprec, minexp⟩ := Z
  dsimp only at *
  rw [if_neg (by omega)]
  by_cases c1 : minbits = 1 ∧ maxbits = 16651 ∧ maxprec = 64 ∧ minexp = -1074
  · rw [if_pos c1]
    exact hlong
  rw [if_neg c1]
  by_cases c2 : minbits = maxbits ∧ 1 ≤ maxbits ∧ maxbits ≤ 16651 ∧ maxprec ≥ 64 ∧ minexp ≤ -1074
  · rw [if_pos c2]
    dsimp only
    split
    · refine ⟨_, rfl, ?_, by norm_num; omega, by omega⟩
      unfold paramsOf
      rw [if_pos (by omega), if_pos (by omega)]
      rw [Params.mk.injEq]
      omega
    · exact hlong
  rw [if_neg c2]
  by_cases c3 : minbits ≤ 1 ∧ maxbits ≥ 16651 ∧ maxprec ≥ 1 ∧ minexp ≤ -1074
  · rw [if_pos c3]
    dsimp only
    rw [if_pos (by omega)]
    refine ⟨_, rfl, ?_, by norm_num; omega, by omega⟩
    unfold paramsOf
    rw [if_pos (by omega), if_neg (by omega), if_pos (by omega)]
    rw [Params.mk.injEq]
    omega
  rw [if_neg c3]
  by_cases c4 : minbits ≤ 1 ∧ maxbits ≥ 16651 ∧ maxprec ≥ 64 ∧ -1074 ≤ minexp
  · rw [if_pos c4]
    dsimp only
    split
    · refine ⟨_, rfl, ?_, by norm_num; omega, by omega⟩
      unfold paramsOf
      rw [if_pos (by omega), if_neg (by omega), if_neg (by omega)]
      have : (((minexp + 1074).toNat + (2048 + 128 + 1) : Nat) : Int) + -1074 - (2048 + 128 + 1) = minexp := by omega
      rw [this, bmod32 (by omega)]
      rw [Params.mk.injEq]
      omega
    · exact hlong
  rw [if_neg c4]
  exact hlong

/-! ## The bits of a header -/

theorem bitsOf_add (v a b : Nat) : bitsOf v (a + b) = bitsOf v a ++ bitsOf (v / 2 ^ a) b := by
  unfold bitsOf
  rw [List.range_add, List.map_append, List.map_map]
  congr 1
  refine List.map_congr_left fun i _ => ?_
  rw [Function.comp_apply, ← Nat.shiftRight_eq_div_pow, Nat.testBit_shiftRight]

/-- Reading bits that are the bits of a number. -/
theorem readVal {W : Nat} (hW64 : W ≤ 64) {mem : Nat → Nat} {s : Stream} {p : Nat} (h : At W mem s p) {v n : Nat} (hn : n ≤ 64) (hh : Holds W mem p (bitsOf v n)) :
    ∃ s', readBits W s n = some (s', v % 2 ^ n) ∧ At W mem s' (p + n) := by
  obtain ⟨s1, val, k1, k2, k3, k4⟩ := readBits_at hW64 h n hn
  have : val = v % 2 ^ n := by
    refine Nat.eq_of_testBit_eq fun j => ?_
    rw [Nat.testBit_mod_two_pow]
    by_cases hj : j < n
    · rw [k4 j hj, hh j (by simpa using hj), List.getD_eq_getElem?_getD, List.getElem?_eq_getElem (by simpa using hj), Option.getD_some, bitsOf_getElem]
      simp [hj]
    · rw [Nat.testBit_lt_two_pow (lt_of_lt_of_le k3 (Nat.pow_le_pow_right (by omega) (by omega)))]
      simp [hj]
  exact ⟨s1, by rw [k1, this], k2⟩

def bytesCode (l : List Nat) : List Bool := l.flatMap fun b => bitsOf b 8

theorem writeBytes_spec {W : Nat} (hW64 : W ≤ 64) : ∀ (l : List Nat) {s : Stream}, Wok W s → (∀ b ∈ l, b < 256) → ∃ s', writeBytes W s l = some s' ∧ Emits W s (bytesCode l) s'
  | [], s, _, _ => ⟨s, rfl, Emits.refl W s⟩
  | b :: l, s, hs, hl => by
    obtain ⟨s1, e1, h1⟩ := emits_bits hW64 hs b 8 (by omega) (by have := hl b (by simp); norm_num; omega)
    obtain ⟨s2, e2, h2⟩ := writeBytes_spec hW64 l (h1.ok hs) fun c hc => hl c (by simp [hc])
    refine ⟨s2, by rw [writeBytes, e1, Option.bind_some, e2], ?_⟩
    rw [bytesCode, List.flatMap_cons]
    exact h1.trans h2

theorem checkBytes_spec {W : Nat} (hW64 : W ≤ 64) {mem : Nat → Nat} : ∀ (l : List Nat) {s : Stream} {p : Nat}, At W mem s p → (∀ b ∈ l, b < 256) →
    Holds W mem p (bytesCode l) → ∃ s', checkBytes W s l = some (s', true) ∧ At W mem s' (p + (bytesCode l).length)
  | [], s, p, hs, _, _ => ⟨s, rfl, hs⟩
  | b :: l, s, p, hs, hl, hh => by
    rw [bytesCode, List.flatMap_cons, holds_append] at hh
    obtain ⟨s1, e1, h1⟩ := readVal hW64 hs (by omega) hh.1
    rw [bitsOf_length] at hh
    obtain ⟨s2, e2, h2⟩ := checkBytes_spec hW64 l h1 (fun c hc => hl c (by simp [hc])) hh.2
    refine ⟨s2, ?_, ?_⟩
    · have := hl b (by simp)
      rw [checkBytes, e1, Option.bind_some, Nat.mod_eq_of_lt (by norm_num; omega)]
      dsimp only
      rw [if_neg (by simp), e2]
    · rw [bytesCode, List.flatMap_cons, List.length_append, bitsOf_length, ← Nat.add_assoc]
      exact h2

/-- The bits of a header. -/
def headerCode (f : Field) (mode : Nat) (k : Mask) : List Bool :=
  (if k.magic then bytesCode magicBytes else []) ++ (if k.fmeta then bitsOf f.metadata 52 else []) ++ (if k.mode then bitsOf mode (if mode > 4094 then 64 else 12) else [])

theorem magic_length : (bytesCode magicBytes).length = 32 := by decide

theorem writeHeader_spec {W : Nat} (hW64 : W ≤ 64) {s : Stream} (hs : Wok W s) {f : Field} (hf : f.metadata < 2 ^ 64) {Z : Params} {mode : Nat} (hm : Z.mode = some mode) (hm64 : mode < 2 ^ 64) (k : Mask) :
    ∃ s', writeHeader W s f Z k = some (s', (headerCode f mode k).length) ∧ Emits W s (headerCode f mode k) s' := by
  unfold headerCode
  have h1 : ∃ s1, (if k.magic then (writeBytes W s magicBytes).map fun s => (s, 32) else some (s, 0)) = some (s1, (if k.magic then bytesCode magicBytes else []).length) ∧
      Emits W s (if k.magic then bytesCode magicBytes else []) s1 := by
    by_cases h : k.magic
    · obtain ⟨s1, e1, g1⟩ := writeBytes_spec hW64 magicBytes hs (by decide)
      rw [if_pos h, if_pos h]
      exact ⟨s1, by rw [e1, magic_length, Option.map_some], g1⟩
    · rw [if_neg h, if_neg h]
      exact ⟨s, by rw [List.length_nil], Emits.refl W s⟩
  obtain ⟨s1, e1, g1⟩ := h1
  generalize (if k.magic then bytesCode magicBytes else []) = l1 at *
  have h2 : ∃ s2, (if k.fmeta then (writeBits W s1 f.metadata 52).map fun r => (r.1, l1.length + 52) else some (s1, l1.length)) =
        some (s2, l1.length + (if k.fmeta then bitsOf f.metadata 52 else []).length) ∧ Emits W s1 (if k.fmeta then bitsOf f.metadata 52 else []) s2 := by
    by_cases h : k.fmeta
    · obtain ⟨s2, e2, g2⟩ := emits_bits hW64 (g1.ok hs) f.metadata 52 (by omega) hf
      rw [if_pos h, if_pos h]
      exact ⟨s2, by rw [e2, bitsOf_length, Option.map_some], g2⟩
    · rw [if_neg h, if_neg h]
      exact ⟨s1, by rw [List.length_nil, Nat.add_zero], Emits.refl W s1⟩
  obtain ⟨s2, e2, g2⟩ := h2
  generalize (if k.fmeta then bitsOf f.metadata 52 else []) = l2 at *
  unfold writeHeader
  rw [e1, Option.bind_some]
  dsimp only
  rw [e2, Option.bind_some]
  dsimp only
  by_cases h : k.mode
  · obtain ⟨s3, e3, g3⟩ := emits_bits hW64 (g2.ok (g1.ok hs)) mode (if mode > 4094 then 64 else 12) (by split <;> omega) hm64
    refine ⟨s3, ?_, ?_⟩
    · rw [if_pos h, hm, Option.bind_some, e3, Option.map_some, List.length_append, List.length_append, if_pos h, bitsOf_length]
    · rw [if_pos h]
      exact (g1.trans g2).trans g3
  · refine ⟨s2, ?_, ?_⟩
    · rw [if_neg h, if_neg h, List.append_nil, List.length_append]
    · rw [if_neg h, List.append_nil]
      exact g1.trans g2

theorem readMode_spec {W : Nat} (hW64 : W ≤ 64) {mem : Nat → Nat} {s : Stream} {p : Nat} (hs : At W mem s p) {Z Z0 : Params} {mode : Nat} (hp : paramsOf mode = Z)
    (hnull : Z.compressionMode ≠ .null) (hm64 : mode < 2 ^ 64) (hshort : mode ≤ 4094 ∨ mode % 2 ^ 12 = 4095)
    (hh : Holds W mem p (bitsOf mode (if mode > 4094 then 64 else 12))) (n : Nat) :
    ∃ s', readMode W s Z0 n = some (s', Z, n + (if mode > 4094 then 64 else 12)) ∧ At W mem s' (p + (if mode > 4094 then 64 else 12)) := by
  have hset : setMode Z0 mode = (Z, Z.compressionMode) := by
    unfold setMode
    rw [hp, setParams, if_neg]
    · rfl
    · intro h
      apply hnull
      rw [Params.compressionMode, if_pos h]
  unfold readMode
  by_cases h : mode ≤ 4094
  · rw [if_neg (by omega)] at hh ⊢
    obtain ⟨s1, e1, g1⟩ := readVal hW64 hs (by omega) hh
    rw [Nat.mod_eq_of_lt (by norm_num; omega)] at e1
    refine ⟨s1, ?_, g1⟩
    rw [e1, Option.bind_some]
    dsimp only
    rw [if_neg (by omega), Option.map_some]
    dsimp only
    rw [hset]
    dsimp only
    rw [if_neg hnull]
  · have h4 := hshort.resolve_left h
    rw [if_pos (by omega)] at hh ⊢
    rw [show 64 = 12 + 52 by rfl, bitsOf_add, holds_append, bitsOf_length] at hh
    obtain ⟨s1, e1, g1⟩ := readVal hW64 hs (by omega) hh.1
    obtain ⟨s2, e2, g2⟩ := readVal hW64 g1 (by omega) hh.2
    refine ⟨s2, ?_, g2⟩
    rw [e1, Option.bind_some]
    dsimp only
    rw [if_pos (by omega), e2, Option.map_some, Option.map_some]
    dsimp only
    have hv : (mode % 2 ^ 12 + (mode / 2 ^ 12 % 2 ^ 52) <<< 12 % 2 ^ 64) % 2 ^ 64 = mode := by
      rw [Nat.shiftLeft_eq]
      norm_num at *
      omega
    rw [hv, hset]
    dsimp only
    rw [if_neg hnull]

theorem readHeader_spec {W : Nat} (hW64 : W ≤ 64) {mem : Nat → Nat} {s : Stream} {p : Nat} (hs : At W mem s p) {f f0 : Field} (hf : f.Fits) {Z Z0 : Params} {mode : Nat} (hp : paramsOf mode = Z)
    (hnull : Z.compressionMode ≠ .null) (hm64 : mode < 2 ^ 64) (hshort : mode ≤ 4094 ∨ mode % 2 ^ 12 = 4095) (k : Mask) (hh : Holds W mem p (headerCode f mode k)) :
    ∃ s', readHeader W s f0 Z0 k = some (s', if k.fmeta then f.unstrided else f0, if k.mode then Z else Z0, (headerCode f mode k).length) ∧
      At W mem s' (p + (headerCode f mode k).length) := by
  unfold headerCode at hh ⊢
  rw [List.append_assoc, holds_append, holds_append] at hh
  obtain ⟨q1, q2, q3⟩ := hh
  have hA : ∃ s1, (if k.magic then checkBytes W s magicBytes else some (s, true)) = some (s1, true) ∧ At W mem s1 (p + (if k.magic then bytesCode magicBytes else []).length) ∧
      (if k.magic then 32 else 0) = (if k.magic then bytesCode magicBytes else []).length := by
    by_cases h : k.magic
    · rw [if_pos h] at q1
      rw [if_pos h, if_pos h, if_pos h]
      obtain ⟨s1, e1, g1⟩ := checkBytes_spec hW64 magicBytes hs (by decide) q1
      exact ⟨s1, e1, g1, by rw [magic_length]⟩
    · rw [if_neg h, if_neg h, if_neg h]
      exact ⟨s, rfl, hs, by rw [List.length_nil]⟩
  obtain ⟨s1, e1, g1, l1⟩ := hA
  generalize (if k.magic then bytesCode magicBytes else []) = m1 at *
  have hB : ∃ s2, (if k.fmeta then (readBits W s1 52).map fun (s, m) => (s, Field.setMetadata m, m1.length + 52) else some (s1, f0, m1.length)) =
        some (s2, if k.fmeta then f.unstrided else f0, m1.length + (if k.fmeta then bitsOf f.metadata 52 else []).length) ∧
      At W mem s2 (p + m1.length + (if k.fmeta then bitsOf f.metadata 52 else []).length) := by
    by_cases h : k.fmeta
    · rw [if_pos h] at q2
      rw [if_pos h, if_pos h, if_pos h, bitsOf_length]
      obtain ⟨r1, r2⟩ := metadata_round_trip hf
      obtain ⟨s2, e2, g2⟩ := readVal hW64 g1 (by omega) q2
      rw [Nat.mod_eq_of_lt r1] at e2
      exact ⟨s2, by rw [e2, Option.map_some, ← r2], g2⟩
    · rw [if_neg h, if_neg h, if_neg h]
      exact ⟨s1, by rw [List.length_nil, Nat.add_zero], g1⟩
  obtain ⟨s2, e2, g2⟩ := hB
  generalize (if k.fmeta then bitsOf f.metadata 52 else []) = m2 at *
  unfold readHeader
  rw [e1, Option.bind_some]
  dsimp only
  rw [if_pos rfl, l1, e2, Option.bind_some]
  dsimp only
  by_cases h : k.mode
  · rw [if_pos h] at q3
    obtain ⟨s3, e3, g3⟩ := readMode_spec hW64 g2 (Z0 := Z0) hp hnull hm64 hshort q3 (m1.length + m2.length)
    refine ⟨s3, ?_, ?_⟩
    · rw [if_pos h, e3, Option.map_some, if_pos h, if_pos h, List.length_append, List.length_append, bitsOf_length]
    · rw [List.length_append, List.length_append, if_pos h, bitsOf_length, ← Nat.add_assoc, ← Nat.add_assoc]
      exact g3
  · refine ⟨s2, ?_, ?_⟩
    · rw [if_neg h, if_neg h, if_neg h, List.append_nil, List.length_append]
    · rw [if_neg h, List.append_nil, List.length_append, ← Nat.add_assoc]
      exact g2

end Verif.Zfp

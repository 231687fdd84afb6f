import Verif.Zfp.HeaderProps

/-! # Compressing and decompressing arrays (zfp/src/template/compress.c, decompress.c, encode1-4.c, decode1-4.c; C57, C58)

Sizes and strides are lists of pairs, the slowest dimension first. An array is a partial function from addresses, in units of the scalar type and
relative to the pointer of the field; reading or writing an undefined address is out of bounds and the outcome is `none`. Address
arithmetic does not wrap here. -/

namespace Verif.Zfp

variable {α : Type}

def put (q : Nat → α) (i : Nat) (v : α) : Nat → α := fun j => if j = i then v else q j

/-- A `for` loop from `i` with `n` iterations. -/
def forLoop {σ : Type} (f : Nat → σ → Option σ) : Nat → Nat → σ → Option σ
  | 0, _, s => some s
  | n + 1, i, s => (f i s).bind (forLoop f n (i + 1))

/-! ## Reading a block -/

/-- What the inner loops have added to the pointer when they end. -/
def advance : List Int → Int
  | [] => 0
  | s :: _ => 4 * s

/-- gather (encode1.c:4-10, encode2.c:4-11, encode3.c:4-12, encode4.c:4-13). The state is the block, the position in it and the pointer. -/
def gather (a : Int → Option α) : List Int → (Nat → α) × Nat × Int → Option ((Nat → α) × Nat × Int)
  | [], (q, k, p) => (a p).map fun v => (put q k v, k + 1, p)
  | s :: ss, st => forLoop (fun _ st => (gather a ss st).map fun (q, k, p) => (q, k, p + (s - advance ss))) 4 0 st

/-- pad_block (encode.c:7-27). The value 0 of case 0 is not reached here: sizes of partial blocks are 1 to 4. -/
def padBlock (q : Nat → α) (o n s : Nat) : Nat → α :=
  let q := if n ≤ 1 then put q (o + s) (q o) else q
  let q := if n ≤ 2 then put q (o + 2 * s) (q (o + s)) else q
  if n ≤ 3 then put q (o + 3 * s) (q o) else q

def advancePartial : List (Nat × Int) → Int
  | [] => 0
  | (n, s) :: _ => n * s

/-- gather_partial (encode1.c:13-20, encode2.c:14-25, encode3.c:15-31, encode4.c:16-37): read a partial block to offset `o` of the
block from pointer `p` on. -/
def gatherPartial (a : Int → Option α) : List (Nat × Int) → Nat → (Nat → α) × Int → Option ((Nat → α) × Int)
  | [], o, (q, p) => (a p).map fun v => (put q o v, p)
  | (n, s) :: L, o, st =>
    (forLoop (fun i st => (gatherPartial a L (o + 4 ^ L.length * i) st).map fun (q, p) => (q, p + (s - advancePartial L))) n 0 st).map fun (q, p) =>
      ((List.range (4 ^ L.length)).foldl (fun q j => padBlock q (o + j) n (4 ^ L.length)) q, p)

/-! ## Writing a block -/

def store (m : Int → Option α) (p : Int) (v : α) : Option (Int → Option α) := if (m p).isSome then some fun x => if x = p then some v else m x else none

/-- scatter (decode1.c:4-10, decode2.c:4-11, decode3.c:4-12, decode4.c:4-13). -/
def scatter (q : Nat → α) : List Int → (Int → Option α) × Nat × Int → Option ((Int → Option α) × Nat × Int)
  | [], (m, k, p) => (store m p (q k)).map fun m => (m, k + 1, p)
  | s :: ss, st => forLoop (fun _ st => (scatter q ss st).map fun (m, k, p) => (m, k, p + (s - advance ss))) 4 0 st

/-- What the outer loop adds to the position in the block. -/
def skipBlock : List (Nat × Int) → Nat
  | [] => 1
  | (n, _) :: L => 4 ^ L.length * (4 - n)

/-- scatter_partial (decode1.c:13-19, decode2.c:14-21, decode3.c:15-23, decode4.c:16-25). -/
def scatterPartial (q : Nat → α) : List (Nat × Int) → (Int → Option α) × Nat × Int → Option ((Int → Option α) × Nat × Int)
  | [], (m, k, p) => (store m p (q k)).map fun m => (m, k, p)
  | (n, s) :: L, st => forLoop (fun _ st => (scatterPartial q L st).map fun (m, k, p) => (m, k + skipBlock L, p + (s - advancePartial L))) n 0 st

/-! ## The loops over blocks -/

/-- All choices of one element of each list, the last one varying fastest. -/
def choices : List (List Nat) → List (List Nat)
  | [] => [[]]
  | l :: ls => l.flatMap fun x => (choices ls).map (x :: ·)

/-- The values of `x` in `for (x = 0; x < n; x += 4)` with 32 bit numbers, `none` if it does not end within the given number of
iterations. -/
def loop4 (n : Nat) : Nat → Nat → Option (List Nat)
  | 0, _ => none
  | fuel + 1, x => if x < n then (loop4 n fuel ((x + 4) % 2 ^ 32)).map (x :: ·) else some []

/-- The values of `x` when the loop ends (`loop4_origins`). -/
def origins (n : Nat) : List Nat := (List.range ((n + 3) / 4)).map (4 * ·)

/-- The block loops (compress.c:43-50, 67-75, 91-101, 118-129). -/
def blockOrigins (L : List (Nat × Int)) : List (List Nat) := choices (L.map fun d => origins d.1)

/-- `sx * x + sy * y + ...`. -/
def address : List (Nat × Int) → List Nat → Int
  | (_, s) :: L, x :: xs => s * x + address L xs
  | _, _ => 0

/-- The sizes `MIN(nx - x, 4u)` and the strides. -/
def blockShape : List (Nat × Int) → List Nat → List (Nat × Int)
  | (n, s) :: L, x :: xs => (min (n - x) 4, s) :: blockShape L xs
  | _, _ => []

/-- `nx - x < 4 || ny - y < 4 ...`. -/
def isPartial : List (Nat × Int) → List Nat → Bool
  | (n, _) :: L, x :: xs => decide (n - x < 4) || isPartial L xs
  | _, _ => false

/-- zfp_encode_block_strided and zfp_encode_partial_block_strided without the encoder (encode1.c:33-53 and the like); `q` is the
uninitialised block. -/
def readBlock (a : Int → Option α) (L : List (Nat × Int)) (q : Nat → α) (o : List Nat) : Option (Nat → α) :=
  if isPartial L o then (gatherPartial a (blockShape L o) 0 (q, address L o)).map (·.1)
  else (gather a (L.map (·.2)) (q, 0, address L o)).map (·.1)

/-- zfp_decode_block_strided and zfp_decode_partial_block_strided without the decoder (decode1.c:32-54 and the like). -/
def writeBlock (L : List (Nat × Int)) (m : Int → Option α) (o : List Nat) (q : Nat → α) : Option (Int → Option α) :=
  if isPartial L o then (scatterPartial q (blockShape L o) (m, 0, address L o)).map (·.1)
  else (scatter q (L.map (·.2)) (m, 0, address L o)).map (·.1)

/-- A block encoder and decoder. -/
structure Codec (α : Type) where
  enc : Stream → (Nat → α) → Option Stream
  dec : Stream → Option (Stream × (Nat → α))

def compressBlocks (C : Codec α) (L : List (Nat × Int)) (a : Int → Option α) (q : Nat → α) : List (List Nat) → Stream → Option Stream
  | [], s => some s
  | o :: os, s => (readBlock a L q o).bind fun v => (C.enc s v).bind (compressBlocks C L a q os)

/-- All blocks in the order of the loops. -/
def compress (C : Codec α) (L : List (Nat × Int)) (a : Int → Option α) (q : Nat → α) (s : Stream) : Option Stream := compressBlocks C L a q (blockOrigins L) s

def decompressBlocks (C : Codec α) (L : List (Nat × Int)) : List (List Nat) → Stream × (Int → Option α) → Option (Stream × (Int → Option α))
  | [], st => some st
  | o :: os, (s, m) => (C.dec s).bind fun (s, v) => (writeBlock L m o v).bind fun m => decompressBlocks C L os (s, m)

/-- All blocks in the order of the loops. -/
def decompress (C : Codec α) (L : List (Nat × Int)) (s : Stream) (m : Int → Option α) : Option (Stream × (Int → Option α)) :=
  decompressBlocks C L (blockOrigins L) (s, m)

/-- The values of all loop variables; `none` if a loop does not end. -/
def allOrigins : List (Nat × Int) → Option (List (List Nat))
  | [] => some []
  | (n, _) :: L => (loop4 n (2 ^ 32) 0).bind fun l => (allOrigins L).map (l :: ·)

/-- compress_strided (compress.c:34-130). -/
def compressStrided (C : Codec α) (L : List (Nat × Int)) (a : Int → Option α) (q : Nat → α) (s : Stream) : Option Stream :=
  (allOrigins L).bind fun os => compressBlocks C L a q (choices os) s

/-- decompress_strided (decompress.c:34-130). -/
def decompressStrided (C : Codec α) (L : List (Nat × Int)) (s : Stream) (m : Int → Option α) : Option (Stream × (Int → Option α)) :=
  (allOrigins L).bind fun os => decompressBlocks C L (choices os) (s, m)

/-- compress for contiguous 1-D arrays (compress.c:3-16). The block encoder reads the four values from the array. -/
def compress1 (C : Codec α) (nx : Nat) (a : Int → Option α) (q : Nat → α) (s : Stream) : Option Stream :=
  (forLoop (fun i s => ((gather a [1] (q, 0, (4 * i : Nat))).map (·.1)).bind (C.enc s)) (nx / 4) 0 s).bind fun s =>
    if nx / 4 * 4 < nx then ((gatherPartial a [(nx - nx / 4 * 4, 1)] 0 (q, (nx / 4 * 4 : Nat))).map (·.1)).bind (C.enc s) else some s

/-- decompress for contiguous 1-D arrays (decompress.c:3-16). -/
def decompress1 (C : Codec α) (nx : Nat) (s : Stream) (m : Int → Option α) : Option (Stream × (Int → Option α)) :=
  (forLoop (fun i (s, m) => (C.dec s).bind fun (s, v) => (scatter v [1] (m, 0, (4 * i : Nat))).map fun r => (s, r.1)) (nx / 4) 0 (s, m)).bind fun (s, m) =>
    if nx / 4 * 4 < nx then (C.dec s).bind fun (s, v) => (scatterPartial v [(nx - nx / 4 * 4, 1)] (m, 0, (nx / 4 * 4 : Nat))).map fun r => (s, r.1) else some (s, m)

/-- Conversion to `int`. -/
def toInt (n : Int) : Int := n.bmod (2 ^ 32)

/-- The sizes and strides of a field: a stride 0 stands for the contiguous one (compress.c:40, 61-62, 84-86, 110-113). In three
dimensions the product is a 32 bit unsigned number. -/
def Field.shape (f : Field) : List (Nat × Int) :=
  let sx := if f.sx ≠ 0 then f.sx else 1
  let sy := if f.sy ≠ 0 then f.sy else toInt f.nx
  let sz := if f.sz ≠ 0 then f.sz else toInt (f.nx * f.ny)
  let sw := if f.sw ≠ 0 then f.sw else toInt (f.nx * f.ny * f.nz)
  if f.dims = 1 then [(f.nx, sx)] else if f.dims = 2 then [(f.ny, sy), (f.nx, sx)] else if f.dims = 3 then [(f.nz, sz), (f.ny, sy), (f.nx, sx)]
  else if f.dims = 4 then [(f.nw, sw), (f.nz, sz), (f.ny, sy), (f.nx, sx)] else []

/-- zfp_compress without the final flush (zfp.c:838-905), serial execution: without dimensions the function table is read at index -1. -/
def zfpCompress (C : Codec α) (f : Field) (a : Int → Option α) (q : Nat → α) (s : Stream) : Option Stream :=
  if f.dims = 0 then none
  else if f.dims = 1 ∧ f.sx = 0 ∧ f.sy = 0 ∧ f.sz = 0 ∧ f.sw = 0 then compress1 C f.nx a q s
  else compressStrided C f.shape a q s

/-- zfp_decompress without the final alignment (zfp.c:907-966). -/
def zfpDecompress (C : Codec α) (f : Field) (s : Stream) (m : Int → Option α) : Option (Stream × (Int → Option α)) :=
  if f.dims = 0 then none
  else if f.dims = 1 ∧ f.sx = 0 ∧ f.sy = 0 ∧ f.sz = 0 ∧ f.sw = 0 then decompress1 C f.nx s m
  else decompressStrided C f.shape s m

/-- type_precision (zfp.c:20-35). -/
def ZType.precision : ZType → Nat
  | .none => 0 | .int32 => 32 | .int64 => 64 | .float => 32 | .double => 64

/-- zfp_stream_maximum_size (zfp.c:532-562), for a word size `W` that is a power of two: clearing the low bits is rounding down to a
multiple. -/
def maximumSize (W : Nat) (Z : Params) (f : Field) : Nat :=
  let m (n : Nat) : Nat := (max n 1 + 3) % 2 ^ 32 / 4
  let blocks := m f.nx * m f.ny * m f.nz * m f.nw % 2 ^ 64
  let values := 4 ^ f.dims
  if f.dims = 0 then 0 else
  if f.type = .none then 0 else
  let maxbits := (if f.type = .float then 1 + 8 else if f.type = .double then 1 + 11 else 1) + (values - 1 + values * min Z.maxprec f.type.precision)
  let maxbits := max (min maxbits Z.maxbits) Z.minbits
  (148 + blocks * maxbits + W - 1) % 2 ^ 64 / W * W / 8

end Verif.Zfp

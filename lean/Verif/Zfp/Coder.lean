import Verif.Zfp.BitstreamProps

/-! # zfp embedded coding of bit planes (zfp/src/template/encode.c:74-136, decode.c:52-118)

Bit budgets and counters are `uint`; they only decrease from `maxbits` and never underflow, so natural numbers are used.
Coefficients are natural numbers below `2 ^ intprec`. Loops carry a bound on their number of turns that gives `none` when it is exceeded; the
theorems show that this never happens. `none` also stands for a shift by 64 or more and for an access outside the data. -/

namespace Verif.Zfp

/-! ## Blocks of at most 64 values -/

/-- Extraction of bit plane `k` to `x` (encode.c:88-91), from index `i` on. -/
def gatherPlane (k : Nat) : List Nat → Nat → Nat → Option Nat
  | [], _, x => some x
  | d :: ds, i, x => (shl64 ((d >>> k) % 2) i).bind fun y => gatherPlane k ds (i + 1) ((x + y) % 2 ^ 64)

/-- The inner loop of encode_ints (encode.c:98-99): state `(s, bits, n, x)`. `size` is positive. -/
def encInner (W size : Nat) : Nat → Stream → Nat → Nat → Nat → Option (Stream × Nat × Nat × Nat)
  | 0, _, _, _, _ => none
  | f + 1, s, bits, n, x =>
    if n < size - 1 ∧ bits ≠ 0 then
      let s := writeBit W s (x.testBit 0)
      if x.testBit 0 then some (s, bits - 1, n, x) else encInner W size f s (bits - 1) (n + 1) (x >>> 1)
    else some (s, bits, n, x)

/-- The outer loop of encode_ints (encode.c:97). -/
def encOuter (W size : Nat) : Nat → Stream → Nat → Nat → Nat → Option (Stream × Nat × Nat)
  | 0, _, _, _, _ => none
  | f + 1, s, bits, n, x =>
    if n < size ∧ bits ≠ 0 then
      let s := writeBit W s (decide (x ≠ 0))
      if x ≠ 0 then
        (encInner W size (size + 1) s (bits - 1) n x).bind fun (s, bits, n, x) => encOuter W size f s bits (n + 1) (x >>> 1)
      else some (s, bits - 1, n)
    else some (s, bits, n)

/-- One bit plane of encode_ints (encode.c:88-99). -/
def encPlane (W : Nat) (data : List Nat) (k : Nat) (s : Stream) (bits n : Nat) : Option (Stream × Nat × Nat) :=
  (gatherPlane k data 0 0).bind fun x =>
  let m := min n bits
  (writeBits W s x m).bind fun (s, x) => encOuter W data.length (data.length + 1) s (bits - m) n x

/-- The loop over bit planes (encode.c:86-87) of a coder given by its treatment of one plane. The first argument is the C variable `k`
before the test. -/
def encPlanes (plane : Nat → Stream → Nat → Nat → Option (Stream × Nat × Nat)) (kmin : Nat) : Nat → Stream → Nat → Nat → Option (Stream × Nat)
  | 0, s, bits, _ => some (s, bits)
  | k + 1, s, bits, n =>
    if bits ≠ 0 ∧ k + 1 > kmin then (plane k s bits n).bind fun (s, bits, n) => encPlanes plane kmin k s bits n else some (s, bits)

/-- encode_ints (encode.c:74-104); returns the stream and the number of bits written. -/
def encodeInts (W intprec : Nat) (s : Stream) (maxbits maxprec : Nat) (data : List Nat) : Option (Stream × Nat) :=
  (encPlanes (encPlane W data) (intprec - maxprec) intprec s maxbits 0).map fun (s, bits) => (s, maxbits - bits)

/-- The inner loop of decode_ints (decode.c:76-77): state `(s, bits, n)`. -/
def decInner (W size : Nat) : Nat → Stream → Nat → Nat → Option (Stream × Nat × Nat)
  | 0, _, _, _ => none
  | f + 1, s, bits, n =>
    if n < size - 1 ∧ bits ≠ 0 then
      let r := readBit W s
      if r.2 then some (r.1, bits - 1, n) else decInner W size f r.1 (bits - 1) (n + 1)
    else some (s, bits, n)

/-- The outer loop of decode_ints (decode.c:75). -/
def decOuter (W size : Nat) : Nat → Stream → Nat → Nat → Nat → Option (Stream × Nat × Nat × Nat)
  | 0, _, _, _, _ => none
  | f + 1, s, bits, n, x =>
    if n < size ∧ bits ≠ 0 then
      let r := readBit W s
      if r.2 then
        (decInner W size (size + 1) r.1 (bits - 1) n).bind fun (s, bits, n) =>
        (shl64 1 n).bind fun y => decOuter W size f s bits (n + 1) ((x + y) % 2 ^ 64)
      else some (r.1, bits - 1, n, x)
    else some (s, bits, n, x)

/-- Deposit of a bit plane (decode.c:78-80); the loop stops as soon as `x` is zero. -/
def deposit (intprec k : Nat) : Nat → List Nat → Option (List Nat)
  | x, [] => if x = 0 then some [] else none
  | x, d :: ds => if x = 0 then some (d :: ds) else (deposit intprec k (x >>> 1) ds).map (((d + ((x % 2) <<< k)) % 2 ^ intprec) :: ·)

/-- One bit plane of decode_ints (decode.c:70-80). -/
def decPlane (W intprec : Nat) (k : Nat) (s : Stream) (bits n : Nat) (data : List Nat) : Option (Stream × Nat × Nat × List Nat) :=
  let m := min n bits
  (readBits W s m).bind fun (s, x) =>
  (decOuter W data.length (data.length + 1) s (bits - m) n x).bind fun (s, bits, n, x) =>
  (deposit intprec k x data).map fun data => (s, bits, n, data)

/-- The loop over bit planes (decode.c:68-69). -/
def decPlanes (plane : Nat → Stream → Nat → Nat → List Nat → Option (Stream × Nat × Nat × List Nat)) (kmin : Nat) :
    Nat → Stream → Nat → Nat → List Nat → Option (Stream × Nat × List Nat)
  | 0, s, bits, _, data => some (s, bits, data)
  | k + 1, s, bits, n, data =>
    if bits ≠ 0 ∧ k + 1 > kmin then (plane k s bits n data).bind fun (s, bits, n, data) => decPlanes plane kmin k s bits n data
    else some (s, bits, data)

/-- decode_ints (decode.c:52-85); returns the stream, the number of bits read and the data. -/
def decodeInts (W intprec : Nat) (s : Stream) (maxbits maxprec size : Nat) : Option (Stream × Nat × List Nat) :=
  (decPlanes (decPlane W intprec) (intprec - maxprec) intprec s maxbits 0 (List.replicate size 0)).map
    fun (s, bits, data) => (s, maxbits - bits, data)

/-! ## Larger blocks -/

/-- `stream_write_bit` of the bits of plane `k`, for the first `m` values (encode.c:122-123). -/
def writePlaneBits (W k : Nat) : Stream → List Nat → Nat → Option Stream
  | s, _, 0 => some s
  | _, [], _ + 1 => none
  | s, d :: ds, m + 1 => writePlaneBits W k (writeBit W s ((d >>> k).testBit 0)) ds m

/-- The inner loop of encode_many_ints (encode.c:130-131). -/
def encManyInner (W : Nat) (data : List Nat) (k : Nat) : Nat → Stream → Nat → Nat → Option (Stream × Nat × Nat)
  | 0, _, _, _ => none
  | f + 1, s, bits, n =>
    if n < data.length - 1 ∧ bits ≠ 0 then
      data[n]?.bind fun d =>
      let s := writeBit W s ((d >>> k).testBit 0)
      if (d >>> k).testBit 0 then some (s, bits - 1, n) else encManyInner W data k f s (bits - 1) (n + 1)
    else some (s, bits, n)

/-- The outer loop of encode_many_ints (encode.c:129). The counter `c` of one-bits is a `uint`; here it is an integer. -/
def encManyOuter (W : Nat) (data : List Nat) (k : Nat) : Nat → Stream → Nat → Nat → Int → Option (Stream × Nat × Nat)
  | 0, _, _, _, _ => none
  | f + 1, s, bits, n, c =>
    if n < data.length ∧ bits ≠ 0 then
      let s := writeBit W s (decide (c ≠ 0))
      if c ≠ 0 then
        (encManyInner W data k (data.length + 1) s (bits - 1) n).bind fun (s, bits, n) => encManyOuter W data k f s bits (n + 1) (c - 1)
      else some (s, bits - 1, n)
    else some (s, bits, n)

/-- Number of one-bits of plane `k` from index `m` on (encode.c:124-127). -/
def onesFrom (k : Nat) (data : List Nat) (m : Nat) : Int := ((data.drop m).map fun d => (((d >>> k) % 2 : Nat) : Int)).sum

/-- One bit plane of encode_many_ints (encode.c:118-131). -/
def encManyPlane (W : Nat) (data : List Nat) (k : Nat) (s : Stream) (bits n : Nat) : Option (Stream × Nat × Nat) :=
  let m := min n bits
  (writePlaneBits W k s data m).bind fun s => encManyOuter W data k (data.length + 1) s (bits - m) n (onesFrom k data m)

/-- encode_many_ints (encode.c:106-136). -/
def encodeManyInts (W intprec : Nat) (s : Stream) (maxbits maxprec : Nat) (data : List Nat) : Option (Stream × Nat) :=
  (encPlanes (encManyPlane W data) (intprec - maxprec) intprec s maxbits 0).map fun (s, bits) => (s, maxbits - bits)

/-- `data[i] += (UInt)1 << k`; `none` outside the array. -/
def addBit (intprec k i : Nat) (data : List Nat) : Option (List Nat) :=
  data[i]?.map fun d => data.set i ((d + 2 ^ k) % 2 ^ intprec)

/-- The first `m` bits of a plane (decode.c:107-109), from index `i` on. -/
def readPlaneBits (W intprec k : Nat) : Stream → List Nat → Nat → Nat → Option (Stream × List Nat)
  | s, data, _, 0 => some (s, data)
  | s, data, i, m + 1 =>
    let r := readBit W s
    (if r.2 then addBit intprec k i data else some data).bind fun data => readPlaneBits W intprec k r.1 data (i + 1) m

/-- The outer loop of decode_many_ints (decode.c:111-113); its inner loop is that of decode_ints. -/
def decManyOuter (W intprec k : Nat) : Nat → Stream → Nat → Nat → List Nat → Option (Stream × Nat × Nat × List Nat)
  | 0, _, _, _, _ => none
  | f + 1, s, bits, n, data =>
    if n < data.length ∧ bits ≠ 0 then
      let r := readBit W s
      if r.2 then
        (decInner W data.length (data.length + 1) r.1 (bits - 1) n).bind fun (s, bits, n) =>
        (addBit intprec k n data).bind fun data => decManyOuter W intprec k f s bits (n + 1) data
      else some (r.1, bits - 1, n, data)
    else some (s, bits, n, data)

/-- One bit plane of decode_many_ints (decode.c:104-113). -/
def decManyPlane (W intprec : Nat) (k : Nat) (s : Stream) (bits n : Nat) (data : List Nat) : Option (Stream × Nat × Nat × List Nat) :=
  let m := min n bits
  (readPlaneBits W intprec k s data 0 m).bind fun (s, data) => decManyOuter W intprec k (data.length + 1) s (bits - m) n data

/-- decode_many_ints (decode.c:87-118). -/
def decodeManyInts (W intprec : Nat) (s : Stream) (maxbits maxprec size : Nat) : Option (Stream × Nat × List Nat) :=
  (decPlanes (decManyPlane W intprec) (intprec - maxprec) intprec s maxbits 0 (List.replicate size 0)).map
    fun (s, bits, data) => (s, maxbits - bits, data)

end Verif.Zfp

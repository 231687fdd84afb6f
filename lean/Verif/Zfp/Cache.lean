import Verif.Base.Loop
import Mathlib.Tactic.Linarith
import Mathlib.Data.List.Nodup
import Mathlib.Logic.Function.Basic

/-!
# The write-back cache of compressed arrays (zfp/array/zfp/cache.h, zfparray1.h, zfparray2.h, zfparray3.h)

`L` is the type of a cache line (one block of decompressed values), `S` the compressed data.  `uint` is 32 bits.  The profiling counters
(ZFP_WITH_CACHE_PROFILE) are not modelled.
-/

namespace Verif.Zfp
open Verif

/-- Compile-time choice: direct mapped, two-way (ZFP_WITH_CACHE_TWOWAY), two-way with the fast hash (ZFP_WITH_CACHE_FAST_HASH). -/
inductive Assoc
  | direct
  | twoway
  | twowayFast

/-- `Cache` (cache.h:12-255): mask, tags (`Tag::x`) and lines. -/
structure Cache (L : Type) where
  mask : Nat
  tag : Nat → Nat
  line : Nat → L

/-- `Tag(x, d)` (cache.h:23): `2 * x + d` in a `uint`. -/
def mkTag (x : Nat) (d : Bool) : Nat := (2 * x + d.toNat) % 2 ^ 32
/-- `index()` (cache.h:26). -/
def tagIndex (t : Nat) : Nat := t >>> 1
/-- `dirty()` (cache.h:29). -/
def tagDirty (t : Nat) : Bool := t &&& 1 == 1
/-- `used()` (cache.h:32). -/
def tagUsed (t : Nat) : Bool := t != 0
/-- `mark()` (cache.h:35). -/
def tagMark (t : Nat) : Nat := t ||| 1

/-- `primary` (cache.h:226). -/
def primary (mask x : Nat) : Nat := x &&& mask

/-- `secondary` (cache.h:227-245). -/
def secondary (A : Assoc) (mask x : Nat) : Nat :=
  let x : BitVec 32 := BitVec.ofNat 32 x
  let x := match A with
    | .twowayFast =>
      let x := x - (x <<< 7)
      let x := x ^^^ (x >>> 16)
      x - (x <<< 3)
    | _ =>
      let x := x - (x <<< 6)
      let x := x ^^^ (x >>> 17)
      let x := x - (x <<< 9)
      let x := x ^^^ (x <<< 4)
      let x := x - (x <<< 3)
      let x := x ^^^ (x <<< 10)
      x ^^^ (x >>> 15)
  x.toNat &&& mask

variable {L S : Type}

/-- A hit in slot `i` (cache.h:156-164, 167-175). -/
def Cache.hit (c : Cache L) (i : Nat) (write : Bool) : Cache L × Nat × Nat :=
  let t := if write then tagMark (c.tag i) else c.tag i
  ({ c with tag := Function.update c.tag i t }, i, t)

/-- A miss that takes slot `i` (cache.h:179-187). -/
def Cache.miss (c : Cache L) (i x : Nat) (write : Bool) : Cache L × Nat × Nat :=
  ({ c with tag := Function.update c.tag i (mkTag x write) }, i, c.tag i)

/-- `access` (cache.h:153-188): the new cache, the slot and the returned tag. -/
def Cache.access (A : Assoc) (c : Cache L) (x : Nat) (write : Bool) : Cache L × Nat × Nat :=
  let i := primary c.mask x
  if tagIndex (c.tag i) = x then c.hit i write
  else match A with
    | .direct => c.miss i x write
    | A =>
      let j := secondary A c.mask x
      if tagIndex (c.tag j) = x then c.hit j write
      else c.miss (if tagUsed (c.tag j) && (!tagDirty (c.tag i) || tagDirty (c.tag j)) then i else j) x write

/-- `lookup` (cache.h:137-148). -/
def Cache.lookup (A : Assoc) (c : Cache L) (x : Nat) : Option L :=
  let i := primary c.mask x
  if tagIndex (c.tag i) = x then some (c.line i)
  else match A with
    | .direct => none
    | A =>
      let j := secondary A c.mask x
      if tagIndex (c.tag j) = x then some (c.line j) else none

/-- The loop of `resize` (cache.h:129) on a `uint`; `fuel` bounds the number of iterations. -/
def maskLoop : Nat → Nat → Nat
  | 0, m => m
  | fuel + 1, m => if m &&& ((m + 1) % 2 ^ 32) = 0 then m else maskLoop fuel (m ||| ((m + 1) % 2 ^ 32))

/-- `resize` (cache.h:127-133): the new mask. -/
def maskFor (minsize : Nat) : Nat := maskLoop (2 ^ 32) (if minsize ≠ 0 then minsize - 1 else 1)

/-- `encode(index, block)` and `decode(index, block)` (zfparray2.h:258-263, 274-278): every call seeks to the block first, so the position in the stream is no state. -/
structure Store (L S : Type) where
  enc : Nat → L → S → Option S
  dec : Nat → S → Option L

/-- A compressed array: cache and compressed data. -/
structure Arr (L S : Type) where
  cache : Cache L
  store : S

/-- `line` (zfparray1.h:222-236, zfparray2.h:241-255, zfparray3.h:253-267) for block `b`: the array and the slot of the line. -/
def Arr.getLine (A : Assoc) (C : Store L S) (a : Arr L S) (b : Nat) (write : Bool) : Option (Arr L S × Nat) :=
  let r := a.cache.access A ((b + 1) % 2 ^ 32) write
  let p := r.2.1
  let t := r.2.2
  let c := (tagIndex t + 2 ^ 32 - 1) % 2 ^ 32
  if c ≠ b then
    (if tagDirty t then C.enc c (r.1.line p) a.store else some a.store).bind fun s =>
    (C.dec b s).map fun l => (⟨{ r.1 with line := Function.update r.1.line p l }, s⟩, p)
  else some (⟨r.1, a.store⟩, p)

/-- One slot of the loop of `flush_cache` (zfparray2.h:119-128).  The iterator (cache.h:54-85, 205) goes through the used slots in increasing order; here the loop goes
through all slots and skips the unused ones. -/
def flushSlot (C : Store L S) (i : Nat) (a : Arr L S) : Option (Arr L S) :=
  if tagUsed (a.cache.tag i) then
    (if tagDirty (a.cache.tag i) then C.enc ((tagIndex (a.cache.tag i) + 2 ^ 32 - 1) % 2 ^ 32) (a.cache.line i) a.store else some a.store).map fun s =>
      ⟨{ a.cache with tag := Function.update a.cache.tag i 0 }, s⟩
  else some a

/-- `flush_cache` (zfparray1.h:115-124, zfparray2.h:119-128, zfparray3.h:123-132). -/
def Arr.flush (C : Store L S) (a : Arr L S) : Option (Arr L S) := forNM (a.cache.mask + 1) (flushSlot C) a

/-- `clear_cache` (zfparray2.h:116; cache.h:191-195). -/
def Arr.clear (a : Arr L S) : Arr L S := ⟨{ a.cache with tag := fun i => if i ≤ a.cache.mask then 0 else a.cache.tag i }, a.store⟩

/-- `set_cache_size` (zfparray2.h:109-113) for at least `n` lines; the memory of the new lines is not initialised (`fresh`). -/
def Arr.setCacheSize (C : Store L S) (a : Arr L S) (n : Nat) (fresh : Nat → L) : Option (Arr L S) :=
  (a.flush C).map fun a => ⟨⟨maskFor n, fun _ => 0, fresh⟩, a.store⟩

/-- Calls on an array. `get`, `upd` are the element accesses (`get`, `set`, `add`, `sub`, `mul`, `div`, zfparray2.h:221-238): they use one line, which `upd`
changes by `f`. `peek` is one block of the copy of the whole array (zfparray2.h:131-142). -/
inductive Op (L : Type)
  | get (b : Nat)
  | upd (b : Nat) (f : L → L)
  | peek (b : Nat)
  | flush
  | clear
  | size (n : Nat) (fresh : Nat → L)

/-- One call: the array afterwards and the line seen by the caller. -/
def Arr.step (A : Assoc) (C : Store L S) (a : Arr L S) : Op L → Option (Arr L S × Option L)
  | .get b => (a.getLine A C b false).map fun r => (r.1, some (r.1.cache.line r.2))
  | .upd b f => (a.getLine A C b true).map fun r =>
      (⟨{ r.1.cache with line := Function.update r.1.cache.line r.2 (f (r.1.cache.line r.2)) }, r.1.store⟩, none)
  | .peek b => match a.cache.lookup A ((b + 1) % 2 ^ 32) with
    | some l => some (a, some l)
    | none => (C.dec b a.store).map fun l => (a, some l)
  | .flush => (a.flush C).map fun a => (a, none)
  | .clear => some (a.clear, none)
  | .size n fresh => (a.setCacheSize C n fresh).map fun a => (a, none)

/-- A sequence of calls. -/
def Arr.run (A : Assoc) (C : Store L S) : Arr L S → List (Op L) → Option (Arr L S × List (Option L))
  | a, [] => some (a, [])
  | a, o :: os => (a.step A C o).bind fun r => (Arr.run A C r.1 os).map fun q => (q.1, r.2 :: q.2)

/-! ## Specification: an array of blocks without cache -/

/-- What the compressor promises for blocks `0 … n-1`: on valid data (`Ok`) every block decodes to a valid line (`V`); encoding a valid line leaves the other
blocks alone and makes the block decode to a line that is related (`R`) to the one encoded. -/
structure Store.Laws (C : Store L S) (n : Nat) (Ok : S → Prop) (V : L → Prop) (R : L → L → Prop) : Prop where
  dec : ∀ s b, Ok s → b < n → ∃ l, C.dec b s = some l ∧ V l
  enc : ∀ s b l, Ok s → b < n → V l → ∃ s' l', C.enc b l s = some s' ∧ Ok s' ∧ C.dec b s' = some l' ∧ R l l' ∧ ∀ b', b' < n → b' ≠ b → C.dec b' s' = C.dec b' s

/-- The contents seen by the user, the contents as last compressed, and which blocks have been changed since they were compressed. -/
structure Mem (L : Type) where
  cur : Nat → L
  old : Nat → L
  changed : Nat → Prop

/-- Compression of one changed block, which may happen at any time. -/
inductive Mem.Compress (n : Nat) (R : L → L → Prop) : Mem L → Mem L → Prop
  | mk {m : Mem L} {b : Nat} {l : L} : b < n → m.changed b → R (m.cur b) l →
      Compress n R m ⟨Function.update m.cur b l, Function.update m.old b l, fun b' => b' ≠ b ∧ m.changed b'⟩

/-- What a call does and returns. -/
inductive Mem.Call (n : Nat) : Mem L → Op L → Option L → Mem L → Prop
  | get {m : Mem L} {b : Nat} : b < n → Call n m (.get b) (some (m.cur b)) m
  | peek {m : Mem L} {b : Nat} : b < n → Call n m (.peek b) (some (m.cur b)) m
  | upd {m : Mem L} {b : Nat} {f : L → L} : b < n → Call n m (.upd b f) none ⟨Function.update m.cur b (f (m.cur b)), m.old, fun b' => b' = b ∨ m.changed b'⟩
  | flush {m : Mem L} : (∀ b < n, ¬ m.changed b) → Call n m .flush none m
  | size {m : Mem L} {k : Nat} {fresh : Nat → L} : (∀ b < n, ¬ m.changed b) → Call n m (.size k fresh) none m
  | clear {m : Mem L} : Call n m .clear none ⟨m.old, m.old, fun _ => False⟩

/-- A sequence of calls and what they return, with compression of changed blocks in between. -/
inductive Mem.Run (n : Nat) (R : L → L → Prop) : Mem L → List (Op L) → List (Option L) → Mem L → Prop
  | nil {m : Mem L} : Run n R m [] [] m
  | compress {m m' m'' : Mem L} {os : List (Op L)} {rs : List (Option L)} : Compress n R m m' → Run n R m' os rs m'' → Run n R m os rs m''
  | call {m m' m'' : Mem L} {o : Op L} {r : Option L} {os : List (Op L)} {rs : List (Option L)} :
      Call n m o r m' → Run n R m' os rs m'' → Run n R m (o :: os) (r :: rs) m''

end Verif.Zfp

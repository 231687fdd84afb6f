import Mathlib.Data.List.Basic
import Mathlib.Data.List.SplitBy
import Mathlib.Tactic.Ring

/-!
# Gathers in SU files: `utils/readData.c`, `utils/writeData.c`, `utils/getFileInfo.c`

A file is a list of bytes: for every trace a header of 240 bytes and then the samples, four bytes each.  The files in `marchenko/`
have the same text.  The bytes of a header that are used are read with functions that are left open (`Words`); the bytes of the samples
are copied and never looked at.

Not modelled: errors of the disk other than the end of the file; `int` overflow of `itrace*n1`.
-/

namespace Verif.Su

/-- `TRCBYTES`, include/segy.h: the number of bytes of a header. -/
def hb : ℕ := 240

/-- The words of a header that are used. -/
structure Words (β : Type*) where
  /-- number of samples, an `unsigned short` -/
  ns : List β → ℕ
  /-- source coordinate -/
  sx : List β → ℤ
  /-- field record number -/
  fldr : List β → ℤ
  /-- number of traces, as the header has it -/
  trwf : List β → ℤ

/-- What a call ends in. -/
inductive Res (β : Type*)
  /-- `return 0` -/
  | eof
  /-- The traces (header, samples) that are in `hdrs` and `data`, and what is still to be read from the file. -/
  | gather (g : List (List β × List β)) (rest : List β)
  /-- An `assert` fails. -/
  | abort
  /-- A write beyond `hdrs` or `data`. -/
  | ub
deriving Repr

/-- Puts a trace before the traces of a result. -/
def Res.cons {β : Type*} (t : List β × List β) : Res β → Res β
  | .gather g rest => .gather (t :: g) rest
  | r => r

/-- The loop of `readData`, readData.c:31-43, in trace number `itrace` with header `h`; `rest` is what is still to be read.  `caph`
headers and `capd` samples fit in the arrays.  `seek` says whether `fseek` works: on a pipe it fails, and the result is not looked at. -/
def readLoop {β : Type*} (W : Words β) (seek : Bool) (caph capd n1 : ℕ) (sx fldr : ℤ) (itrace : ℕ) (h : List β) (rest : List β) : Res β :=
  if capd < itrace * n1 + n1 then .ub
  else if rest.length < 4 * n1 then .abort
  else
    let d := rest.take (4 * n1)
    let r := rest.drop (4 * n1)
    if r.length = 0 then .gather [(h, d)] []
    else if hr : r.length < hb then .abort
    else
      let h' := r.take hb
      if sx ≠ W.sx h' ∨ fldr ≠ W.fldr h' then .gather [(h, d)] (if seek then r else r.drop hb)
      else if caph ≤ itrace + 1 then .ub
      else (readLoop W seek caph capd n1 sx fldr (itrace + 1) h' (r.drop hb)).cons (h, d)
termination_by rest.length
decreasing_by
  have : hb = 240 := rfl
  have hr' : ¬ (rest.drop (4 * n1)).length < hb := hr
  change ((rest.drop (4 * n1)).drop hb).length < rest.length
  simp only [List.length_drop] at hr' ⊢
  omega

/-- `readData`, readData.c:16-46.  `mem` is what is in the memory of `hdrs[0]` (the first 240 bytes of it): the number of bytes of the first header is not
checked, a shorter one leaves the end of it as it was. -/
def readData {β : Type*} (W : Words β) (seek : Bool) (caph capd n1 : ℕ) (mem : List β) (rest : List β) : Res β :=
  if rest.length = 0 then .eof
  else if caph = 0 then .ub
  else
    let h := rest.take hb ++ (mem.take hb).drop (rest.take hb).length
    let n1 := if n1 = 0 then W.ns h else n1
    readLoop W seek caph capd n1 (W.sx h) (W.fldr h) 0 h (rest.drop hb)

/-- `writeData`, writeData.c:14-27, with the samples of every trace given as bytes: what is appended to the file. -/
def writeData {β : Type*} : List (List β × List β) → List β
  | [] => []
  | t :: g => t.1 ++ (t.2 ++ writeData g)

/-- The loop that counts the traces of the first gather, getFileInfo.c:81-89, with the header `h` of the current trace.  The number of
samples is that of the current header; `trace` has room for `room` samples.  Result: the number of traces and the header that is in
`hdr` at the end; `none` is a failing `assert` or a write beyond `trace`.  Simplified: an incomplete last header counts as the end of
the file. -/
def countLoop {β : Type*} (W : Words β) (room : ℕ) (sx fldr : ℤ) (itrace : ℕ) (h : List β) (rest : List β) : Option (ℕ × List β) :=
  if room < W.ns h then none
  else if rest.length < 4 * W.ns h then none
  else
    let r := rest.drop (4 * W.ns h)
    if hr : r.length < hb then some (itrace + 1, h)
    else
      let h' := r.take hb
      if sx ≠ W.sx h' ∨ fldr ≠ W.fldr h' then some (itrace + 1, h')
      else countLoop W room sx fldr (itrace + 1) h' (r.drop hb)
termination_by rest.length
decreasing_by
  have : hb = 240 := rfl
  have hr' : ¬ (rest.drop (4 * W.ns h)).length < hb := hr
  change ((rest.drop (4 * W.ns h)).drop hb).length < rest.length
  simp only [List.length_drop] at hr' ⊢
  omega

/-- `*n1` and `*n2` of `getFileInfo` when `*ngath` is not zero, as in all programs in `utils`: getFileInfo.c:40-102. -/
def fileInfo {β : Type*} (W : Words β) (file : List β) : Option (ℕ × ℕ) :=
  if file.length < hb then none
  else
    let h := file.take hb
    (countLoop W (W.ns h) (W.sx h) (W.fldr h) 0 h (file.drop hb)).map fun p =>
      (W.ns h, if p.1 > 1 then p.1 else (max (W.trwf p.2) 1).toNat)

/-- What a program ends in. -/
inductive Out (β : Type*)
  | done (file : List β)
  | abort
  | ub
deriving Repr

/-- The loop over the gathers of `smooth.c:166-197` and `basop.c:257-497`: the gather `g` is in the arrays, the result of it is written,
and the next gather is read.  What is in `hdrs[0]` is the first header of the result.  The number of rounds is bounded by the first
argument, of which the program passes more than there are bytes in the file. -/
def loop {β : Type*} (W : Words β) (seek : Bool) (caph capd n1 : ℕ) (f : List (List β × List β) → List (List β × List β)) :
    ℕ → List (List β × List β) → List β → List β → Out β
  | 0, _, _, out => .done out
  | fuel + 1, g, rest, out =>
    let o := f g
    let out := out ++ writeData o
    match readData W seek caph capd n1 ((o.head?.map Prod.fst).getD []) rest with
    | .eof => .done out
    | .abort => .abort
    | .ub => .ub
    | .gather g' rest' => loop W seek caph capd n1 f fuel g' rest' out

/-- From the first call of `readData` on: smooth.c:128-197, basop.c:198-497, with arrays of `size.1` by `size.2`.  Simplified:
`verbose=0`. -/
def filterSized {β : Type*} (W : Words β) (seek : Bool) (size : ℕ × ℕ) (n1 : ℕ) (mem : List β)
    (f : List (List β × List β) → List (List β × List β)) (file : List β) : Out β :=
  match readData W seek size.2 (size.1 * size.2) n1 mem file with
  | .eof => .done []
  | .abort => .abort
  | .ub => .ub
  | .gather g rest =>
    let n1 := W.ns ((g.head?.map Prod.fst).getD [])
    loop W seek size.2 (n1 * size.2) n1 f (file.length + 1) g rest []

/-- The programs `smooth` and `basop` with an operation `f` on a gather: smooth.c:116-197, basop.c:175-497.  `given` are the parameters
`ntmax` and `nxmax`, when given; without them the arrays of a file (`seek`) have the size that `getFileInfo` gives, and those of a pipe
the default `dflt`.  Simplified: both parameters or none are given. -/
def filter {β : Type*} (W : Words β) (seek : Bool) (given : Option (ℕ × ℕ)) (dflt : ℕ × ℕ) (mem : List β)
    (f : List (List β × List β) → List (List β × List β)) (file : List β) : Out β :=
  if seek then
    match fileInfo W file with
    | none => .abort
    | some (n1, n2) => filterSized W seek (given.getD (n1, n2)) n1 mem f file
  else filterSized W seek (given.getD dflt) 0 mem f file

end Verif.Su

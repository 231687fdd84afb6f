import Verif.Getpar.Strto
import Mathlib.Data.List.SplitOn
import Mathlib.Data.List.Infix
import Mathlib.Tactic.Ring

/-!
# Model of fdelmodc/getpars.c (identical copies in utils, marchenko, …)

Texts are lists of characters.  The storage `argstr` consists of a zero byte, the contents of the parameter file, a zero
byte, and copies of the command-line words, each with its terminating zero (getpars.c:483-527); the model keeps the file part
as a list of characters (position 1 first, a zero byte being `NUL`) and the command-line words as separate texts.
A C string that starts at some position is the list of characters up to the next `NUL`.
Outcomes that are undefined behaviour (writing past `targv`, using the null file pointer or a null word) or that end the
program (`err`) are `none`.
-/

namespace Verif.Getpar

/-- The zero byte. -/
def NUL : Char := Char.ofNat 0

/-- `iswhite`, getpars.c:555. -/
def isWhite (c : Char) : Bool := c = ' ' || c = '\t' || c = '\n'

/-- First loop of `white2null` (getpars.c:568-578) over the characters `str[1..len-1]`: blanks outside quotes become zero
bytes; the second component is `count`.  `prev` is `str[i-1]`, already rewritten. -/
def zap (prev : Char) (inq : Bool) : List Char → List Char × Nat
  | [] => ([], 0)
  | c :: cs =>
    let inq := if c = '"' then !inq else inq
    if !inq then
      if isWhite c then
        let r := zap NUL inq cs
        (NUL :: r.1, r.2)
      else
        let r := zap c inq cs
        (c :: r.1, if prev = NUL then r.2 + 1 else r.2)
    else
      let r := zap c inq cs
      (c :: r.1, r.2)

/-- Second loop of `white2null` (getpars.c:579-590): `c = str[i]`, the list holds `str[i+1..len]`; the element at `len` is
looked at but not processed. -/
def unquote (inq : Bool) (c : Char) : List Char → List Char
  | [] => [c]
  | d :: rest =>
    let inq := if c = '"' then !inq else inq
    if inq then
      if d ≠ '"' then d :: unquote inq d rest
      else NUL :: unquote false NUL rest
    else c :: unquote inq d rest

/-- The loop that collects the words of the parameter file (getpars.c:513-517): a word starts at every non-zero byte that
follows a zero byte. -/
def words (prev : Char) : List Char → List (List Char)
  | [] => []
  | c :: cs =>
    if c ≠ NUL ∧ prev = NUL then (c :: cs).takeWhile (· ≠ NUL) :: words c cs else words c cs

/-- The bytes `argstr[1..pflen-1]` after `white2null(argstr, pflen)` (getpars.c:562-593); `argstr[pflen]` has become zero. -/
def whitened (file : List Char) : List Char × Nat :=
  match file.getLast? with
  | none => ([], 0)
  | some last =>
    let z := zap NUL false file.dropLast
    match z.1 ++ [last] with
    | [] => ([], z.2)
    | c :: cs => ((unquote false c cs).dropLast, z.2)

/-- The words found in a parameter file.  `targv` has room for `count` of them (getpars.c:505-517): with more the array
is overrun, with fewer a null pointer is passed to `strchr` in `tabulate`. -/
def parWords (file : List Char) : Option (List (List Char)) :=
  let w := whitened file
  let ws := words NUL w.1
  if ws.length = w.2 then some ws else none

/-- The test of `getpfname` (getpars.c:547-549): a word `par=name` with a non-empty name. -/
def parName (w : List Char) : Option (List Char) :=
  match w with
  | 'p' :: 'a' :: 'r' :: '=' :: c :: cs => some (c :: cs)
  | _ => none

/-- `getpfname`, getpars.c:540-553: the last such word of the command line. -/
def pfname (argv : List (List Char)) : Option (List Char) := argv.tail.reverse.findSome? parName

/-- One turn of `tabulate` (getpars.c:596-617): a word with an equals sign is cut at the first one. -/
def splitEq (w : List Char) : Option (List Char × List Char) :=
  if '=' ∈ w then some (w.takeWhile (· ≠ '='), (w.dropWhile (· ≠ '=')).tail) else none

/-- `getparinit` (getpars.c:439-536): the table of names and values.  `fs` gives the contents of the files; a missing file
is the null pointer given to `fseek`. -/
def table (fs : List Char → Option (List Char)) (argv : List (List Char)) : Option (List (List Char × List Char)) :=
  (match pfname argv with
   | none => some []
   | some f => (fs f).bind parWords).map fun ws => (ws ++ argv.tail).filterMap splitEq

/-- The backward search of `getparindex(0,name)` (getpars.c:423-426): the value at the largest index with that name. -/
def lookupLast (tbl : List (List Char × List Char)) (name : List Char) : Nat → Option (List Char)
  | 0 => none
  | i+1 => match tbl[i]? with
    | some (n, v) => if n = name then some v else lookupLast tbl name i
    | none => lookupLast tbl name i

/-- The forward search of `getparindex(n,name)` for `n ≠ 0` (getpars.c:427-435); `--n==0` never holds for negative `n`
(down to the overflow, which would need as many parameters as there are integers). -/
def lookupNth (name : List Char) : Int → List (List Char × List Char) → Option (List Char)
  | _, [] => none
  | n, (m, v) :: rest => if m = name then (if n - 1 = 0 then some v else lookupNth name (n - 1) rest) else lookupNth name n rest

/-- `getparindex`, getpars.c:420-436. -/
def lookup (n : Int) (name : List Char) (tbl : List (List Char × List Char)) : Option (List Char) :=
  if n = 0 then lookupLast tbl name tbl.length else lookupNth name n tbl

/-- `while (*aval++ != ',') { if (!*aval) break; }` (getpars.c:368-370): move behind the next comma, or to the end. -/
def skip : List Char → List Char
  | [] => []
  | c :: cs => if c = ',' then cs else if cs = [] then [] else skip cs

theorem skip_length (l : List Char) (h : l ≠ []) : (skip l).length < l.length := by
  induction l with
  | nil => exact absurd rfl h
  | cons c cs ih =>
    unfold skip
    split_ifs with h1 h2
    · simp
    · simp
    · have := ih h2; simp; omega

/-- The conversion loop of `getnpar` (getpars.c:320-372) for an element type with conversion `conv`. -/
def getLoop {α : Type} (conv : List Char → Option α) (aval : List Char) (nval : Nat) (ptr : Nat → α) :
    Option (Nat × (Nat → α)) :=
  if h : aval = [] then some (nval, ptr)
  else (conv aval).bind fun v => getLoop conv (skip aval) (nval + 1) (fun k => if k = nval then v else ptr k)
termination_by aval.length
decreasing_by exact skip_length _ h

/-- The static state of getpars.c:183-189: the last command line and the table, once it was built. -/
structure St where
  argv : List (List Char)
  tabled : Option (List (List Char × List Char))

/-- Before `initargs`: `xargc` is zero. -/
def St.boot : St := ⟨[], none⟩

/-- `initargs`, getpars.c:201-211. -/
def initargs (argv : List (List Char)) (_ : St) : St := ⟨argv, none⟩

/-- Common beginning of the query functions (getpars.c:306-309): the state with the table, and the value asked for.  With a
single word on the command line (the program name) the answer is "absent" without building the table. -/
def query (fs : List Char → Option (List Char)) (n : Int) (name : List Char) (s : St) : Option (Option (List Char) × St) :=
  if s.argv.length = 1 then some (none, s)
  else
    match s.tabled with
    | some t => some (lookup n name t, s)
    | none =>
      if s.argv.length = 0 then none                -- err: xargc not initiated
      else (table fs s.argv).map fun t => (lookup n name t, { s with tabled := some t })

/-- `getnparstring(n,name,ptr)` (getpars.c:315-318): return value and `*ptr`. -/
def getnparstring (fs : List Char → Option (List Char)) (n : Int) (name : List Char) (ptr : List Char) (s : St) :
    Option ((Int × List Char) × St) :=
  (query fs n name s).map fun (v, s) => (match v with | none => (0, ptr) | some v => (1, v), s)

/-- `getnpar` for the array types. -/
def getnpar {α : Type} (conv : List Char → Option α) (fs : List Char → Option (List Char)) (n : Int) (name : List Char)
    (ptr : Nat → α) (s : St) : Option ((Nat × (Nat → α)) × St) :=
  (query fs n name s).bind fun (v, s) =>
    match v with
    | none => some ((0, ptr), s)
    | some v => (getLoop conv v 0 ptr).map fun r => (r, s)

/-- `getnparint`: the conversion leaves `errno` alone when it does not end the program. -/
def getnparint (fs : List Char → Option (List Char)) (n : Int) (name : List Char) (ptr : Nat → Int) (s : St) :
    Option ((Nat × (Nat → Int)) × St) := getnpar (fun t => eatoi t false) fs n name ptr s

/-- `countnparval`, getpars.c:394-405. -/
def countnparval (fs : List Char → Option (List Char)) (n : Int) (name : List Char) (s : St) : Option (Nat × St) :=
  (query fs n name s).map fun (v, s) => (match v with | none => 0 | some v => v.count ',' + 1, s)

/-- `countparname`, getpars.c:382-391. -/
def countparname (fs : List Char → Option (List Char)) (name : List Char) (s : St) : Option (Nat × St) :=
  if s.argv.length = 1 then some (0, s)
  else
    match s.tabled with
    | some t => some ((t.filter fun e => e.1 = name).length, s)
    | none =>
      if s.argv.length = 0 then none
      else (table fs s.argv).map fun t => ((t.filter fun e => e.1 = name).length, { s with tabled := some t })

end Verif.Getpar

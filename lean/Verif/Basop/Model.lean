import Verif.Conv.Model
import Mathlib.Data.List.Infix

/-!
# Basic operations on gathers: `utils/basop.c`

The operations of `basop` that treat one trace at a time, the choice of the operation, the header times, and the padding that the
operations in the wavenumber domain start with.  Arithmetic is exact (real numbers), `PI` is `π`; an access beyond an array is `none`.
What `malloc` delivers is a parameter.  The state of the Fourier library is passed along.

Not modelled: reading and writing of the gathers (`basop.c:172-255, 476-497`), and what the operations in the wavenumber domain
(`spaceDiff`, `depthDiff`, `deghost`, `decompAcoustic`, `kxwfilter`) do after the padding.
-/

namespace Verif.Basop

open Complex Verif Verif.Fft Verif.Fft.Lib

/-! ### The operations in the frequency domain -/

/-- The operations that multiply the spectrum of every trace: `timeShift` by seconds, `phaseRot` in parts of π, `timeDiff`, `sqrtk` with
the velocity, `div_sjom`, `div_som`, `divk` with the velocity.  The flag is `opt > 0`. -/
inductive Filt
  | shift (sec : ℝ)
  | rot (r : ℝ)
  | jom (mul : Bool)
  | sk (c : ℝ) (mul : Bool)
  | sjom (mul : Bool)
  | som (mul : Bool)
  | divk (c : ℝ) (mul : Bool)

noncomputable section

/-- What the `malloc`s of one call deliver, and what is in the temporaries of the transforms. -/
structure Work where
  r : ℕ → ℝ
  c : ℕ → ℂ
  q : ℕ → ℂ
  j1 : ℕ → Junk
  j2 : ℕ → Junk

/-- `deltom`, basop.c:511 and 527: `2.*PI*df` with `df = 1.0/(optn*dt)`. -/
def deltom (optn : ℕ) (dt : ℝ) : ℝ := 2 * Real.pi * (1 / (optn * dt))

/-- `iomin`, basop.c:528-530 (`MAX(iomin, 1)` is left out in `timeShift`: `least` is 0) and 592-595 (`least` is 1).  Simplified: the
conversion to `int` is the floor, for frequencies that are not negative. -/
def iomin (least : ℕ) (optn : ℕ) (dt fmin : ℝ) : ℕ :=
  max ⌊min (2 * Real.pi * fmin / deltom optn dt) ((optn / 2 + 1 : ℕ) : ℝ)⌋₊ least

/-- `iomax`, basop.c:532. -/
def iomax (optn : ℕ) (dt fmax : ℝ) : ℕ := min ⌊2 * Real.pi * fmax / deltom optn dt⌋₊ (optn / 2 + 1)

/-- What is done with one complex number of the spectrum: basop.c:547-550 (`timeShift`), 610-615 (`phaseRot`), 807-818 (`timeDiff`),
1181-1194 (`sqrtk`), 1255-1272 (`div_sjom`), 1330-1347 (`div_som`), 1427-1440 (`divk`).  A division by zero is not modelled. -/
def Filt.at (dw : ℝ) (iom : ℕ) (c : ℂ) : Filt → ℂ
  | .shift sec =>
    let tom := dw * iom * sec
    ⟨c.re * Real.cos (-tom) - c.im * Real.sin (-tom), c.im * Real.cos (-tom) + c.re * Real.sin (-tom)⟩
  | .rot r =>
    let tom := r * Real.pi
    ⟨c.re * Real.cos tom - c.im * Real.sin tom, c.im * Real.cos tom + c.re * Real.sin tom⟩
  | .jom true => let om := dw * iom; ⟨-om * c.im, om * c.re⟩
  | .jom false => let om := 1 / (dw * iom); ⟨om * c.im, -om * c.re⟩
  | .sk v true => let k := dw * iom / v; ⟨Real.sqrt k * c.re, Real.sqrt k * c.im⟩
  | .sk v false => let k := dw * iom / v; ⟨c.re / Real.sqrt k, c.im / Real.sqrt k⟩
  | .sjom true =>
    let om := Real.sqrt (dw * iom)
    let rot := 1 / 4 * Real.pi
    ⟨om * (c.re * Real.cos rot - c.im * Real.sin rot), om * (c.im * Real.cos rot + c.re * Real.sin rot)⟩
  | .sjom false =>
    let om := 1 / Real.sqrt (dw * iom)
    let rot := 1 / 4 * Real.pi
    ⟨om * (c.re * Real.cos rot + c.im * Real.sin rot), om * (c.im * Real.cos rot - c.re * Real.sin rot)⟩
  | .som true => let om := Real.sqrt (dw * iom); ⟨om * c.re, om * c.im⟩
  | .som false => let om := 1 / Real.sqrt (dw * iom); ⟨om * c.re, om * c.im⟩
  | .divk v true => let k := dw * iom / v; ⟨k * c.re, k * c.im⟩
  | .divk v false => let k := dw * iom / v; ⟨c.re / k, c.im / k⟩

/-- The least `iomin`: 0 in `timeShift` (basop.c:531 is commented out), 1 elsewhere. -/
def Filt.least : Filt → ℕ
  | .shift _ => 0
  | _ => 1

/-- The three loops over the frequencies, basop.c:537-552: zero below `lo`, zero from `hi` on, and `F` between. -/
def bandLoop (nrec nfreq lo hi : ℕ) (F : ℕ → ℂ → ℂ) (cdata q : ℕ → ℂ) : ℕ → ℂ :=
  forN nrec (fun ix q =>
    let q := forN lo (fun iom q => aset q (ix * nfreq + iom) 0) q
    let q := forN (nfreq - hi) (fun d q => aset q (ix * nfreq + (hi + d)) 0) q
    forN (hi - lo) (fun d q => aset q (ix * nfreq + (lo + d)) (F (lo + d) (cdata (ix * nfreq + (lo + d))))) q) q

/-- `timeShift`, `phaseRot`, `timeDiff`, `sqrtk`, `div_sjom`, `div_som`, `divk`: basop.c:503-565 and the same text with another inner
loop in 567-629, 763-832, 1139-1210, 1212-1286, 1288-1361, 1385-1456.  `optn` is `optncr(nsam)`, except in `timeShift` where the
parameter `ntfft` replaces it.  `lend` numbers are in `data`.  `none` also when `iomin` leaves the arrays: `lo` is not above `nfreq`
when frequencies are present. -/
def timeFilter (f : Filt) (optn nsam nrec lend : ℕ) (dt fmin fmax : ℝ) (w : Work) (data : ℕ → ℝ) (s : St) : Option ((ℕ → ℝ) × St) :=
  let nfreq := optn / 2 + 1
  (Conv.padData nsam nrec optn lend (optn * nrec) data w.r).bind fun r =>
  (rcmFft optn nrec optn nfreq (optn * nrec) (nfreq * nrec) (-1) w.j1 r w.c s).bind fun (c, s) =>
  let q := bandLoop nrec nfreq (iomin f.least optn dt fmin) (iomax optn dt fmax) (fun iom c => f.at (deltom optn dt) iom c) c w.q
  (crmFft optn nrec nfreq optn (nfreq * nrec) (optn * nrec) 1 w.j2 q r s).bind fun (r, s) =>
  (Conv.sclData optn nrec (1 / optn) nsam (optn * nrec) lend r data).map fun d => (d, s)

/-- `conjugate`, basop.c:719-761. -/
def conjugate (nsam nrec lend : ℕ) (w : Work) (data : ℕ → ℝ) (s : St) : Option ((ℕ → ℝ) × St) :=
  let optn := optncr nsam
  let ntdiff := optn - nsam
  let nfreq := optn / 2 + 1
  (Conv.padData nsam nrec optn lend (optn * nrec) data w.r).bind fun r =>
  (rcmFft optn nrec optn nfreq (optn * nrec) (nfreq * nrec) (-1) w.j1 r w.c s).bind fun (c, s) =>
  let c := forN nrec (fun ix c => forN nfreq (fun j c => aset c (ix * nfreq + j) ⟨(c (ix * nfreq + j)).re, -(c (ix * nfreq + j)).im⟩) c) c
  (crmFft optn nrec nfreq optn (nfreq * nrec) (optn * nrec) 1 w.j2 c r s).bind fun (r, s) =>
  open Classical in
  if ∀ ix it, ix < nrec → it < nsam → ix * optn + it + ntdiff < optn * nrec ∧ ix * nsam + it < lend then
    some (forN nrec (fun ix d => forN nsam (fun it d => aset d (ix * nsam + it) (1 / optn * r (ix * optn + it + ntdiff))) d) data, s)
  else none

/-- basop.c:642-651 and 686-695: the traces as complex numbers, padded with zeroes. -/
def cpadLoop (nsam nrec optn : ℕ) (data : ℕ → ℝ) (c : ℕ → ℂ) : ℕ → ℂ :=
  forN nrec (fun ix c =>
    let c := forN nsam (fun j c => aset c (ix * optn + j) ⟨data (ix * nsam + j), 0⟩) c
    forN (optn - nsam) (fun d c => aset c (ix * optn + (nsam + d)) 0) c) c

/-- basop.c:655-660 and 699-704: the negative frequencies are set to zero. -/
def halfLoop (nrec nfreq optn : ℕ) (c : ℕ → ℂ) : ℕ → ℂ :=
  forN nrec (fun ix c => forN (optn - nfreq) (fun d c => aset c (ix * optn + (nfreq + d)) 0) c) c

/-- `rcabs`, basop.c:1636-1654. -/
def rcabs (z : ℂ) : ℝ :=
  open Classical in
  let x := |z.re|
  let y := |z.im|
  if x = 0 then y
  else if y = 0 then x
  else if x > y then let temp := y / x; x * Real.sqrt (1 + temp * temp)
  else let temp := x / y; y * Real.sqrt (1 + temp * temp)

/-- What `hilbertTrans` (basop.c:631-673, `out` is the imaginary part times `1.0/optn`) and `Envelope` (basop.c:675-717, `out` is the
absolute value times `2.0/optn`) have in common. -/
def analytic (out : ℂ → ℝ) (nsam nrec lend : ℕ) (w : Work) (data : ℕ → ℝ) (s : St) : Option ((ℕ → ℝ) × St) :=
  let optn := optncr nsam
  let nfreq := optn / 2 + 1
  open Classical in
  if ∀ ix j, ix < nrec → (j < nsam → ix * nsam + j < lend ∧ ix * optn + j < optn * nrec) ∧ (j < optn → ix * optn + j < optn * nrec) then
    let c := cpadLoop nsam nrec optn data w.c
    (ccmFft optn nrec optn (optn * nrec) (-1) w.j1 c s).bind fun (c, s) =>
    let c := halfLoop nrec nfreq optn c
    (ccmFft optn nrec optn (optn * nrec) 1 w.j2 c s).map fun (c, s) =>
    (forN nrec (fun ix d => forN nsam (fun j d => aset d (ix * nsam + j) (out (c (ix * optn + j)))) d) data, s)
  else none

/-- `hilbertTrans`, basop.c:631-673. -/
def hilbertTrans (nsam nrec lend : ℕ) (w : Work) (data : ℕ → ℝ) (s : St) : Option ((ℕ → ℝ) × St) :=
  analytic (fun z => z.im * (1 / (optncr nsam : ℝ))) nsam nrec lend w data s

/-- `Envelope`, basop.c:675-717. -/
def envelope (nsam nrec lend : ℕ) (w : Work) (data : ℕ → ℝ) (s : St) : Option ((ℕ → ℝ) × St) :=
  analytic (fun z => rcabs z * (2 / (optncr nsam : ℝ))) nsam nrec lend w data s

/-! ### The operations in the time domain -/

/-- `rma`, basop.c:1573-1586.  `avg` is a `double`; no division by zero with an empty gather is modelled. -/
def rma (nsam nrec : ℕ) (data : ℕ → ℝ) : ℕ → ℝ :=
  let avg := forN nrec (fun ix a => forN nsam (fun it a => a + data (ix * nsam + it)) a) 0
  let avg := avg / ((nrec * nsam : ℕ) : ℝ)
  forN nrec (fun ix d => forN nsam (fun it d => aset d (ix * nsam + it) (d (ix * nsam + it) - avg)) d) data

/-- `rmat`, basop.c:1588-1599. -/
def rmat (nsam nrec : ℕ) (data : ℕ → ℝ) : ℕ → ℝ :=
  forN nrec (fun ix d =>
    let avg := forN nsam (fun it a => a + d (ix * nsam + it)) 0
    let avg := avg / (nsam : ℝ)
    forN nsam (fun it d => aset d (ix * nsam + it) (d (ix * nsam + it) - avg)) d) data

/-- C's conversion of a real number to `int`: towards zero. -/
def toInt (x : ℝ) : ℤ := if 0 ≤ x then ⌊x⌋ else ⌈x⌉

/-- The number of samples that choice `nrot` rotates, basop.c:370-371: the conversion binds before the division, whose result is
converted again by the assignment.  The value that the parameter `nrot` gave the variable is overwritten. -/
def nrotOf (nrot : ℤ) (trot d1 : ℝ) : ℤ :=
  let _ := nrot
  open Classical in
  if trot > 0 then toInt ((toInt (trot + 1 / 2 * d1) : ℝ) / d1) else toInt ((toInt (trot - 1 / 2 * d1) : ℝ) / d1)

end

/-- One trace of `timeRotate`, basop.c:1371-1378, at `base` of an array of `lend` numbers; a copy of the trace is in `rdata`.  `none`
is an access outside the arrays (`rdata` has `nsam` numbers). -/
def rotateTrace {α : Type*} (nsam : ℕ) (nrot : ℤ) (base lend : ℕ) (data : ℕ → α) : Option (ℕ → α) :=
  if base + nsam ≤ lend then
    let rdata := fun it => data (base + it)
    (forNM ((nsam : ℤ) - nrot).toNat (fun it d =>
      if 0 ≤ (base : ℤ) + nrot + it ∧ (base : ℤ) + nrot + it < lend ∧ it < nsam then
        some (aset d ((base : ℤ) + nrot + it).toNat (rdata it)) else none) data).bind fun d =>
    forNM nrot.toNat (fun it d =>
      if base + it < lend ∧ 0 ≤ (nsam : ℤ) - nrot + it ∧ (nsam : ℤ) - nrot + it < nsam then
        some (aset d (base + it) (rdata ((nsam : ℤ) - nrot + it).toNat)) else none) d
  else none

/-- `timeRotate`, basop.c:1363-1383. -/
def timeRotate {α : Type*} (nsam nrec : ℕ) (nrot : ℤ) (lend : ℕ) (data : ℕ → α) : Option (ℕ → α) :=
  forNM nrec (fun ix d => rotateTrace nsam nrot (ix * nsam) lend d) data

/-- `pad2d_data`, basop.c:1612-1625. -/
def pad2d {α : Type*} (zero : α) (nsam nrec nsamout nrecout : ℕ) (data datout : ℕ → α) : ℕ → α :=
  let o := forN nrec (fun ix o =>
    let o := forN nsam (fun it o => aset o (ix * nsam + it) (data (ix * nsam + it))) o
    forN (nsamout - nsam) (fun d o => aset o (ix * nsam + (nsam + d)) zero) o) datout
  forN (nrecout - nrec) (fun d o => forN nsamout (fun it o => aset o ((nrec + d) * nsam + it) zero) o) o

/-! ### The choice of the operation -/

/-- What the chain of comparisons in `main` ends in. -/
inductive Op
  | shift | rot | hilb | env | conjg | jom | jomI | jkx | jkxI | jkz | jkzI | sk | skI | ghost | sjom | sjomI | rma | rmat | inv
  | nrot | kI | somI | som | deca1 | deca2 | kfilt | kill | scaletraces | killno | killfo
  /-- No comparison holds: the data is written as it was read. -/
  | none
deriving DecidableEq, Repr

/-- `strstr(choice, s)` (not `NULL`) and `!strcmp(choice, s)`. -/
def strstr (c : List Char) (s : String) : Bool := decide (s.toList <:+: c)
/-- `!strcmp(choice, s)`. -/
def streq (c : List Char) (s : String) : Bool := decide (c = s.toList)

/-- The chain of comparisons, basop.c:273-474. -/
def chain (c : List Char) : Op :=
  if strstr c "shift" || streq c "1" then .shift
  else if streq c "rot" || streq c "2" then .rot
  else if strstr c "hilb" || streq c "3" then .hilb
  else if strstr c "env" || streq c "4" then .env
  else if strstr c "conjg" || streq c "5" then .conjg
  else if streq c "jom" || streq c "6" then .jom
  else if streq c "jom_i" || streq c "10" then .jomI
  else if streq c "jkx" || streq c "7" then .jkx
  else if streq c "jkx_i" || streq c "11" then .jkxI
  else if streq c "jkz" || streq c "8" then .jkz
  else if streq c "jkz_i" || streq c "12" then .jkzI
  else if streq c "sk" || streq c "9" then .sk
  else if streq c "sk_i" || streq c "13" then .skI
  else if strstr c "ghost" || strstr c "14" then .ghost
  else if streq c "sjom" || strstr c "15" then .sjom
  else if streq c "sjom_i" || strstr c "16" then .sjomI
  else if streq c "rma" || strstr c "17" then .rma
  else if streq c "rmat" || strstr c "18" then .rmat
  else if streq c "inv" || strstr c "19" then .inv
  else if streq c "nrot" || strstr c "20" then .nrot
  else if streq c "k_i" || streq c "21" then .kI
  else if streq c "som_i" || strstr c "22" then .somI
  else if streq c "som" || strstr c "23" then .som
  else if streq c "deca1" || streq c "24" then .deca1
  else if streq c "deca2" || streq c "25" then .deca2
  else if streq c "kfilt" || streq c "26" then .kfilt
  else if streq c "kill" || streq c "27" then .kill
  else if streq c "scaletraces" || streq c "28" then .scaletraces
  else if streq c "killno" || streq c "29" then .killno
  else if streq c "killfo" || streq c "30" then .killfo
  else .none

/-- `choice[10]` and `strcpy(choice, choicepar)`, basop.c:141 and 271, followed by the chain.  `none`: the string and its
terminating zero do not fit. -/
def dispatch (choicepar : List Char) : Option Op :=
  if choicepar.length + 1 ≤ 10 then some (chain choicepar) else Option.none

/-! ### Killing traces -/

/-- basop.c:451-462 (`killno`, `far` is false) and 463-474 (`killfo`): samples of the chosen traces are multiplied by zero.  `fldr` is
that of the first header of the gather. -/
def killOffset (far : Bool) (fldr killno : ℤ) (nsam nrec : ℕ) (data : ℕ → ℝ) : ℕ → ℝ :=
  forN nrec (fun ix d =>
    if (if far then |fldr - ix| > killno else |fldr - ix| < killno) then
      forN nsam (fun it d => aset d (ix * nsam + it) (d (ix * nsam + it) * 0)) d
    else d) data

/-- `atoi` of decimal digits (`kill_traces` puts nothing else into `buffer`). -/
def atoi (b : List Char) : ℕ := b.foldl (fun n c => 10 * n + (c.toNat - 48)) 0

/-- The loop over the characters of the file, basop.c:1684-1698: `buffer` holds the digits since the last separator.  Simplified: the
buffer is taken as empty at the start (in C it is not initialised), its 32 places and the range of `int` are not checked here.  Result:
the places of `t2k` that are set to zero, in order. -/
def killScan : List Char → List Char → List ℕ
  | _, [] => []
  | buf, ch :: t => if ch.isDigit then killScan (buf ++ [ch]) t else atoi buf :: killScan [] t

/-- `t2k`, basop.c:1676-1703.  `none`: an index outside `t2k`. -/
def killList (nrec : ℕ) (file : List Char) : Option (ℕ → ℝ) :=
  (killScan [] file).foldlM (fun t i => if i < nrec then some (aset t i 0) else Option.none) (fun _ => 1)

/-- `kill_traces`, basop.c:1670-1718.  `none`: an index outside `t2k`. -/
def killTraces (nsam nrec : ℕ) (fldr dim : ℤ) (file : List Char) (data : ℕ → ℝ) : Option (ℕ → ℝ) :=
  (killList nrec file).bind fun t2k =>
  if dim = 0 then
    some (forN nrec (fun ix d => forN nsam (fun it d => aset d (ix * nsam + it) (d (ix * nsam + it) * t2k ix)) d) data)
  else if dim = 1 then
    if 0 < nrec ∧ 0 < nsam ∧ ¬ (0 ≤ fldr ∧ fldr < nrec) then Option.none
    else some (forN nrec (fun ix d => forN nsam (fun it d => aset d (ix * nsam + it) (d (ix * nsam + it) * t2k fldr.toNat)) d) data)
  else some data

/-! ### The time of the first sample -/

/-- `f1` in the headers of the gathers of a file, choice `shift`, basop.c:276-277: the variable `f1` is set from the first header of
the file (basop.c:211) and then only added to. -/
def shiftF1 (shift : ℝ) (f1 : ℝ) : ℕ → List ℝ
  | 0 => []
  | n + 1 => (f1 + shift) :: shiftF1 shift (f1 + shift) n

end Verif.Basop

import Verif.Conv.Model

/-!
# The gather loop of `fconv`: `utils/fconv.c`, `main`

Gathers are read one after the other from two files, brought to the same number of traces and samples, weighted with the Laplace factor
`exp(alpha*t)`, combined, weighted back and written.  When the second file ends its last gather is used again.

Simplifications: all gathers of a file have the same number of samples; headers are not modelled; what `getpar` and `getFileInfo` deliver
(`ntmax`, `nxmax`, the sizes of the read buffers) are parameters.  An access beyond an array is `none`.
-/

namespace Verif.Conv

open Verif Verif.Fft Verif.Fft.Lib

noncomputable section

/-- A gather as `readData` delivers it: `nx` traces, sample `j` of trace `i` at `i*nt+j`. -/
structure Gather where
  nx : Nat
  dat : Nat → ℝ

/-- The option `mode`, fconv.c:113, 296-330. -/
inductive Mode where
  | cor1 | cor2 | cor3 | pow | dec | conv | cohr
deriving DecidableEq

/-- The parameters of the run.  `len1`, `len2` floats fit into `tmpdata` and `tmpdata2` (fconv.c:145, 191). -/
structure Par where
  nt1 : Nat
  nt2 : Nat
  len1 : Nat
  len2 : Nat
  ntmax : Nat
  nxmax : Nat
  ntfft : Option Nat
  mode : Mode
  shift : Bool
  alpha : ℝ
  dt : ℝ
  eps : ℝ
  reps : ℝ
  epsmax : ℝ

/-- `nsam` before the loop, fconv.c:225-227: the size of the buffers. -/
def Par.nsam0 (P : Par) : Nat := P.ntfft.getD (max P.nt1 P.nt2)

/-- `etap`, fconv.c:234. -/
def Par.etap (P : Par) (j : Nat) : ℝ := Real.exp (P.alpha * j * P.dt)

/-- `shift` after fconv.c:120. -/
def Par.shft (P : Par) : Bool := if P.mode = .cor3 then false else P.shift

/-- `etapi`, fconv.c:273-281. -/
def Par.etapi (P : Par) (j : Nat) : ℝ :=
  if P.shft then
    if j < P.nsam0 / 2 then Real.exp (-P.alpha * (P.dt * (P.nsam0 / 2 : Nat) + j * P.dt))
    else Real.exp (-P.alpha * ((j - P.nsam0 / 2 : Nat) * P.dt))
  else Real.exp (-P.alpha * j * P.dt)

/-- The first gather goes into its buffer, fconv.c:236-243, 245-252. -/
def fill0 (nx nt nrec nsam : Nat) (etap tmp data : Nat → ℝ) : Nat → ℝ :=
  let data := forN nx (fun i d => forN nt (fun j d => aset d (i * nsam + j) (tmp (i * nt + j) * etap j)) d) data
  forN (nrec - nx) (fun i d => forN nsam (fun j d => aset d ((nx + i) * nsam + j) (d ((nx - 1) * nsam + j))) d) data

/-- The later gathers go into their buffer, fconv.c:385-394, 397-408. -/
def fill (nx nt nrec nsam : Nat) (etap tmp data : Nat → ℝ) : Nat → ℝ :=
  let data := forN nx (fun i d =>
    let d := forN nt (fun j d => aset d (i * nsam + j) (tmp (i * nt + j) * etap j)) d
    forN (nsam - nt) (fun j d => aset d (i * nsam + (nt + j)) 0) d) data
  forN (nrec - nx) (fun i d =>
    let d := forN nt (fun j d => aset d ((nx + i) * nsam + j) (tmp ((nx - 1) * nt + j) * etap j)) d
    forN (nsam - nt) (fun j d => aset d ((nx + i) * nsam + (nt + j)) 0) d) data

/-- The variables of the loop: `nx1`, `nx2`, `nrec`, `nsam`, `repeat`, `data1`, `data2`, `conv`, and the state of the Fourier library. -/
structure Vars where
  nx2 : Nat
  nrec : Nat
  nsam : Nat
  rep : Bool
  d1 : Nat → ℝ
  d2 : Nat → ℝ
  conv : Nat → ℝ
  st : St

/-- `ntout`, fconv.c:334-335. -/
def Par.ntout (P : Par) (nsam : Nat) : Nat := if P.mode = .cor3 then nsam / 2 else nsam

/-- The choice of the operation, fconv.c:296-328, with `lend` floats in each of `data1`, `data2`, `conv`. -/
def combine (P : Par) (nrec nsam lend : Nat) (w : Work) (d1 d2 conv : Nat → ℝ) (s : St) : Option ((Nat → ℝ) × St) :=
  match P.mode with
  | .cor1 => corr nrec nsam lend lend P.dt P.shft w d1 d2 conv s
  | .cor2 => corr nrec nsam lend lend P.dt P.shft w d2 d1 conv s
  | .cor3 => corr3 nrec nsam lend lend P.dt w d1 d2 conv s
  | .pow => power nrec nsam lend lend P.dt P.shft w d1 d2 conv s
  | .dec => deconv nrec nsam lend lend P.dt P.eps P.reps P.shft w d1 d2 conv s
  | .conv => convol nrec nsam lend lend P.dt P.shft w d1 d2 conv s
  | .cohr => cohr nrec nsam lend lend P.dt P.epsmax P.eps P.reps P.shft w d1 d2 conv s

/-- A gather written: number of traces, samples per trace, samples. -/
structure Out where
  nrec : Nat
  nt : Nat
  dat : Nat → ℝ

/-- The weighting of the result, fconv.c:342-345. -/
def weigh (nrec ntout : Nat) (etapi conv : Nat → ℝ) : Nat → ℝ :=
  forN nrec (fun i c => forN ntout (fun j c => aset c (i * ntout + j) (c (i * ntout + j) * etapi j)) c) conv

/-- The upper half of the loop, fconv.c:295-348: combine, weigh, write. -/
def one (P : Par) (lend : Nat) (w : Work) (v : Vars) : Option (Out × Vars) :=
  (combine P v.nrec v.nsam lend w v.d1 v.d2 v.conv v.st).bind fun (c, s) =>
  if P.ntout v.nsam ≤ P.ntmax then
    let c := weigh v.nrec (P.ntout v.nsam) P.etapi c
    some (⟨v.nrec, P.ntout v.nsam, c⟩, { v with conv := c, st := s })
  else none

/-- A file: its gathers, one after the other; there is at least one. -/
structure File where
  num : Nat
  g : Nat → Gather

/-- Reading gather `k` of file 2, fconv.c:367-376: at the end of the file `repeat` is set and `nx2` becomes the number of traces of the
first gather (`nx2r`).  The last component is the gather read, if any. -/
def read2 (P : Par) (F2 : File) (rep : Bool) (nx2 k : Nat) : Option (Nat × Bool × Option Gather) :=
  if rep then some (nx2, true, none)
  else if k < F2.num then
    if (F2.g k).nx * P.nt2 ≤ P.len2 then some ((F2.g k).nx, false, some (F2.g k)) else none
  else some ((F2.g 0).nx, true, none)

/-- `data2` is filled unless the gather is repeated, fconv.c:396-409. -/
def refill (P : Par) (nrec nsam : Nat) (h : Option Gather) (d2 : Nat → ℝ) : Nat → ℝ :=
  match h with
  | none => d2
  | some h => fill h.nx P.nt2 nrec nsam P.etap h.dat d2

/-- The loop over the gathers, fconv.c:294-425, without `auto`: gather `k` is in the buffers and `r` more follow.  The flag tells a normal
end from the error exits fconv.c:364-365. -/
def loop (P : Par) (F1 F2 : File) (w : Nat → Work) : Nat → Nat → Vars → Option (List Out × Bool)
  | 0, k, v => (one P (P.nsam0 * P.nxmax) (w k) v).map fun r => ([r.1], true)
  | r + 1, k, v =>
    (one P (P.nsam0 * P.nxmax) (w k) v).bind fun (out, v) =>
    let g := F1.g (k + 1)
    if g.nx * P.nt1 ≤ P.len1 then
      if P.nt1 ≤ P.ntmax ∧ g.nx ≤ P.nxmax then
        (read2 P F2 v.rep v.nx2 (k + 1)).bind fun (nx2, rep, h) =>
        let nrec := max g.nx nx2
        let nsam := max P.nt1 P.nt2
        if nrec ≤ P.nxmax ∧ nsam ≤ P.nsam0 then
          let d1 := fill g.nx P.nt1 nrec nsam P.etap g.dat v.d1
          let d2 := refill P nrec nsam h v.d2
          (loop P F1 F2 w r (k + 1) { v with nx2 := nx2, nrec := nrec, nsam := nsam, rep := rep, d1 := d1, d2 := d2 }).map fun r =>
            (out :: r.1, r.2)
        else none
      else some ([out], false)
    else none

/-- `main`, fconv.c:144-425, without `auto`: the first gathers of both files, then the loop. -/
def fconv (P : Par) (w : Nat → Work) (F1 F2 : File) (s : St) : Option (List Out × Bool) :=
  let g1 := F1.g 0
  let g2 := F2.g 0
  let nrec := max g1.nx g2.nx
  let nsam := P.nsam0
  if g1.nx * P.nt1 ≤ P.len1 ∧ g2.nx * P.nt2 ≤ P.len2 ∧ P.nt1 ≤ nsam ∧ P.nt2 ≤ nsam ∧ nrec ≤ P.nxmax ∧ (P.shft = true → nsam ≤ P.ntmax) then
    loop P F1 F2 w (F1.num - 1) 0
      { nx2 := g2.nx, nrec := nrec, nsam := nsam, rep := false, d1 := fill0 g1.nx P.nt1 nrec nsam P.etap g1.dat fun _ => 0,
        d2 := fill0 g2.nx P.nt2 nrec nsam P.etap g2.dat fun _ => 0, conv := fun _ => 0, st := s }
  else none

/-! ### `auto=1` -/

/-- Loop and lower half with `auto=1`, fconv.c:294-425: the data are in buffers of `lend` floats, `hdrs_out` has `nxh` headers; `nx2` keeps
the number of traces of the first gather, and `data2` is copied from `data1` without the traces that were added (fconv.c:411). -/
def autoLoop (P : Par) (F1 : File) (lend nxh : Nat) (w : Nat → Work) : Nat → Nat → Vars → Option (List Out × Bool)
  | 0, k, v => (one P lend (w k) v).map fun r => ([r.1], true)
  | r + 1, k, v =>
    (one P lend (w k) v).bind fun (out, v) =>
    let g := F1.g (k + 1)
    if g.nx * P.nt1 ≤ P.len1 then
      if P.nt1 ≤ P.ntmax ∧ g.nx ≤ P.nxmax then
        let nrec := max g.nx v.nx2
        if nrec * P.nt1 ≤ lend ∧ nrec ≤ nxh then
          let d1 := fill g.nx P.nt1 nrec P.nt1 P.etap g.dat v.d1
          let d2 := forN (P.nt1 * g.nx) (fun j d => aset d j (d1 j)) v.d2
          (autoLoop P F1 lend nxh w r (k + 1) { v with nrec := nrec, nsam := P.nt1, d1 := d1, d2 := d2 }).map fun r => (out :: r.1, r.2)
        else none
      else some ([out], false)
    else none

/-- `main` with `auto=1`, fconv.c:161-179 and the loop: the buffers are made for the first gather. -/
def fconvAuto (P : Par) (w : Nat → Work) (F1 : File) (junk1 junk2 : Nat → ℝ) (s : St) : Option (List Out × Bool) :=
  let g := F1.g 0
  if g.nx * P.nt1 ≤ P.len1 ∧ g.nx ≤ P.nxmax ∧ (P.shft = true → P.nt1 ≤ P.ntmax) then
    let d1 := forN g.nx (fun i d => forN P.nt1 (fun j d => aset d (i * P.nt1 + j) (g.dat (i * P.nt1 + j) * P.etap j)) d) junk1
    let d2 := forN (P.nt1 * g.nx) (fun j d => aset d j (d1 j)) junk2
    autoLoop P F1 (P.nt1 * g.nx) g.nx w (F1.num - 1) 0
      { nx2 := g.nx, nrec := g.nx, nsam := P.nt1, rep := false, d1 := d1, d2 := d2, conv := fun _ => 0, st := s }
  else none

end

end Verif.Conv

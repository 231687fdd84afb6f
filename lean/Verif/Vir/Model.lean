import Verif.Util.Correlate
import Verif.Fft.Lib
import Verif.Fft.OptN
import Mathlib.Data.Rat.Floor

/-!
# Model of corrvir/corrvir.c: virtual shot records

Arithmetic is exact.  Positions are the integers of the headers.  A memory error, an assertion that fails and the use of a variable that has no
value are `none`.
-/

namespace Verif.Vir

open Verif

/-! ## Common receiver gathers -/

/-- The header words of a trace that are used. -/
structure Hdr where
  gx : ℤ
  gy : ℤ
  sx : ℤ
  sy : ℤ
deriving DecidableEq, Repr

/-- `traceCoord`: the position of a source and the number of the trace in the file. -/
structure Src where
  x : ℤ
  y : ℤ
  fpos : ℕ
deriving DecidableEq, Repr

/-- `crgPos`: a receiver and its sources; `nsrc` is the length of the list. -/
structure Crg where
  gx : ℤ
  gy : ℤ
  src : List Src
deriving DecidableEq, Repr

/-- corrvir.c:284-297: add a source to a receiver that is known, unless it is there already.  The array has `nsources` elements. -/
def addSrc (nsources : ℕ) (h : Hdr) (j : ℕ) (l : List Src) : Option (List Src) :=
  if l.any fun s => decide (s.x = h.sx ∧ s.y = h.sy) then some l
  else if l.length < nsources then some (l ++ [⟨h.sx, h.sy, j⟩])
  else none

/-- corrvir.c:280-300: look for the receiver; `some none` when it is not known. -/
def look (nsources : ℕ) (h : Hdr) (j : ℕ) : List Crg → Option (Option (List Crg))
  | [] => some none
  | c :: t =>
    if c.gx = h.gx ∧ c.gy = h.gy then (addSrc nsources h j c.src).map fun s => some ({ c with src := s } :: t)
    else (look nsources h j t).map (Option.map (c :: ·))

/-- corrvir.c:271-313: one trace.  The array of receivers has `nreceivers` elements. -/
def place (nreceivers nsources : ℕ) (h : Hdr) (j : ℕ) (tab : List Crg) : Option (List Crg) :=
  (look nsources h j tab).bind fun r =>
    match r with
    | some t => some t
    | none => if tab.length < nreceivers ∧ 0 < nsources then some (tab ++ [⟨h.gx, h.gy, [⟨h.sx, h.sy, j⟩]⟩]) else none

/-- corrvir.c:251-314: the first trace is stored before the loop over all traces. -/
def gathers (nreceivers nsources : ℕ) (hs : List Hdr) : Option (List Crg) :=
  match hs with
  | [] => none
  | h :: _ =>
    if 0 < nreceivers ∧ 0 < nsources then
      hs.zipIdx.foldlM (fun tab p => place nreceivers nsources p.1 p.2 tab) [⟨h.gx, h.gy, [⟨h.sx, h.sy, 0⟩]⟩]
    else none

/-- `nsources` after corrvir.c:317-323: the largest number of sources of a receiver. -/
def maxSrc (tab : List Crg) : ℕ := tab.foldl (fun m c => max m c.src.length) 0

/-! ## Virtual sources -/

/-- corrvir.c:267-268. -/
def fscalco (scalco : ℤ) : ℚ := if scalco < 0 then 1 / (-1 * scalco) else scalco

/-- `dd` of corrvir.c:332-334, 337-339. -/
def dist2 (f x y : ℚ) (c : Crg) : ℚ := (x - c.gx * f) * (x - c.gx * f) + (y - c.gy * f) * (y - c.gy * f)

/-- corrvir.c:332-344: `vsrc[j]` and `ddmin`. -/
def nearest (f x y : ℚ) : List Crg → Option (ℕ × ℚ)
  | [] => none
  | c :: t => some ((t.zipIdx 1).foldl (fun s p => if dist2 f x y p.1 < s.2 then (p.2, dist2 f x y p.1) else s) (0, dist2 f x y c))

/-- corrvir.c:328-362: the receivers that become virtual sources, and whether the message is the one that says that the positions coincide. -/
def virtuals (scalco : ℤ) (dtolerr : ℚ) (want : List (ℚ × ℚ)) (tab : List Crg) : Option (List (ℕ × Bool)) :=
  if want = [] then some ((List.range tab.length).map fun i => (i, true))
  else want.mapM fun w => (nearest (fscalco scalco) w.1 w.2 tab).map fun r => (r.1, decide (r.2 ≤ dtolerr))

/-! ## Contributing sources -/

/-- The parameters of the selection. -/
structure Sel where
  sel : ℤ
  bmin : ℤ
  bmax : ℤ

/-- `read_trace`, corrvir.c:416-434, 455-518, for the positions `v` of the virtual source, `g` of the virtual receiver and `s` of the source. -/
def readTrace (q : Sel) (v g s : ℤ × ℤ) : Option Bool :=
  if q.sel = 0 then some true
  else if q.sel = 1 then
    some (decide (¬(s.1 > min g.1 v.1 ∧ s.1 < max g.1 v.1) ∧ ¬(s.2 > min g.2 v.2 ∧ s.2 < max g.2 v.2)))
  else if q.sel = 2 then
    let cx3 := ⌈(1 / 2 : ℚ) * (v.1 + g.1)⌉
    let cy3 := ⌈(1 / 2 : ℚ) * (v.2 + g.2)⌉
    let distmc2 := (v.1 - cx3) * (v.1 - cx3) + (v.2 - cy3) * (v.2 - cy3)
    let distsc2min := distmc2 + q.bmin * q.bmin * distmc2
    let distsc2max := distmc2 + q.bmax * q.bmax * distmc2
    let distsc2 := (v.1 - cx3) * (v.1 - cx3) + (v.2 - cy3) * (v.2 - cy3)
    some (decide (¬(distsc2 < distsc2min ∧ distsc2 > distsc2max)))
  else if q.sel = 3 then
    if v.1 < g.1 ∧ v.2 < g.2 then some (decide (s.1 < v.1 ∧ s.2 < v.2))
    else if v.1 < g.1 ∧ v.2 > g.2 then some (decide (s.1 < v.1 ∧ s.2 > v.2))
    else if v.1 > g.1 ∧ v.2 < g.2 then some (decide (s.1 > v.1 ∧ s.2 < v.2))
    else if v.1 > g.1 ∧ v.2 > g.2 then some (decide (s.1 > v.1 ∧ s.2 > v.2))
    else some false
  else if q.sel = 4 then
    if v.1 < g.1 ∧ v.2 < g.2 then some (decide (s.1 < g.1 ∧ s.2 < g.2))
    else if v.1 < g.1 ∧ v.2 > g.2 then some (decide (s.1 < g.1 ∧ s.2 > g.2))
    else if v.1 > g.1 ∧ v.2 < g.2 then some (decide (s.1 > g.1 ∧ s.2 < g.2))
    else if v.1 > g.1 ∧ v.2 > g.2 then some (decide (s.1 > g.1 ∧ s.2 > g.2))
    else some false
  else none

/-- corrvir.c:445-539: the numbers of the traces that are correlated, in the order in which they are copied to `cmaster` and `cslaves`, which have
room for `nsources` traces. -/
def pairs (q : Sel) (nsources : ℕ) (v g : Crg) : Option (List (ℕ × ℕ)) :=
  v.src.foldlM (fun l m => g.src.foldlM (fun l s =>
    if m.x = s.x ∧ m.y = s.y then
      (readTrace q (v.gx, v.gy) (g.gx, g.gy) (s.x, s.y)).bind fun b =>
        if b then if l.length < nsources then some (l ++ [(m.fpos, s.fpos)]) else none
        else some l
    else some l) l) []

/-! ## Virtual traces -/

/-- corrvir.c:189-192, with the length in seconds `T = ntfft*dt` of the transform. -/
def nfreqOf (fmax T : ℚ) (ntfft : ℕ) : ℕ := min (ntfft / 2 + 1) (⌊fmax * T⌋.toNat + 1)

noncomputable section

open Verif.Fft Verif.Fft.Lib

/-- corrvir.c:214-238: the spectra of all traces, `nt` samples each, in one array.  `junk` and `old` are the contents of memory that is not
initialised. -/
def buffer (ntfft nfreq nt ntrace : ℕ) (junk : ℕ → Junk) (dat : ℕ → ℕ → ℝ) (old : ℕ → ℂ) (s : St) : Option ((ℕ → ℂ) × St) :=
  (forNM ntrace (fun i (st : (ℕ → ℂ) × (ℕ → ℂ) × St) =>
    (rc1Fft ntfft ntfft (ntfft / 2 + 1) (-1) (junk i) (fun j => if j < nt then dat i j else 0) st.2.1 st.2.2).map fun r =>
      (fun x => if i * nfreq ≤ x ∧ x < i * nfreq + nfreq then r.1 (x - i * nfreq) else st.1 x, r.1, r.2)) (old, fun _ => 0, s)).map
    fun st => (st.1, st.2.2)

/-- corrvir.c:439-440, 525, 531: the spectra of the given traces one after the other, zero afterwards. -/
def copies (nfreq : ℕ) (buf : ℕ → ℂ) (l : List ℕ) : ℕ → ℂ :=
  l.zipIdx.foldl (fun a p => fun x => if p.2 * nfreq ≤ x ∧ x < p.2 * nfreq + nfreq then buf (p.1 * nfreq + (x - p.2 * nfreq)) else a x)
    (fun _ => 0)

/-- The parameters of the computation. -/
structure Par where
  nt : ℕ
  ntfft : ℕ
  nfreq : ℕ
  nsrcCtr : ℤ
  normsrc : Bool
  normalize : Bool
  cohr : Bool
  reps : ℝ
  epsmax : ℝ
  causal : ℤ

/-- corrvir.c:559-574: the sum over the sources. -/
def stack (P : Par) (nsrc : ℕ) (cs : ℕ → ℂ) : ℕ → ℂ :=
  forN nsrc (fun jsource c =>
    let rms2 : ℝ := forN P.nfreq (fun k r => r + ((cs (jsource * P.nfreq + k)).re * (cs (jsource * P.nfreq + k)).re +
      (cs (jsource * P.nfreq + k)).im * (cs (jsource * P.nfreq + k)).im)) 0
    let sclrms : ℝ := if P.normsrc then (open Classical in if rms2 > 0 then 1 / Real.sqrt rms2 else 1) else 1
    fun k => if k < P.nfreq then c k + cs (jsource * P.nfreq + k) * (sclrms : ℂ) else c k) (fun _ => 0)

/-- corrvir.c:586-610: the samples that are written; other values of `causal` write what is in memory. -/
def output (P : Par) (r : ℕ → ℝ) (scl : ℝ) : Option (List ℝ) :=
  if P.causal = 1 then some ((List.range P.nt).map fun j => r j * scl)
  else if P.causal = 2 then some ((List.range P.nt).map fun j => if j = 0 then r 0 * scl else r (P.ntfft - j) * scl)
  else if P.causal = 3 then
    some ((List.range P.nt).map fun j => if j < P.nt / 2 then r (P.ntfft - (P.nt / 2 - j)) * scl else r (j - P.nt / 2) * scl)
  else if P.causal = 4 then
    some ((List.range P.nt).map fun j => if j = 0 then r 0 * scl else 1 / 2 * (r (P.ntfft - j) + r j) * scl)
  else none

/-- corrvir.c:546-610: the trace of one virtual source and one virtual receiver.  With `cohr` and too few sources `coherence` allocates a
negative number of elements, which ends at its assertion (correlate.c:56-57). -/
def virtualTrace (P : Par) (buf : ℕ → ℂ) (ps : List (ℕ × ℕ)) (junk : Junk) (r : ℕ → ℝ) (s : St) : Option (List ℝ × St) :=
  let nsrc : ℤ := if (ps.length : ℤ) < P.nsrcCtr then -1 else ps.length
  let cm := copies P.nfreq buf (ps.map Prod.fst)
  let cs := copies P.nfreq buf (ps.map Prod.snd)
  (if P.cohr then if nsrc < 0 then none else (Util.coherence cm cs P.nfreq nsrc.toNat P.reps P.epsmax).map Prod.fst
    else some (Util.correlate cm P.nfreq nsrc.toNat cs)).bind fun cs =>
  (cr1Fft P.ntfft (P.ntfft / 2 + 1) P.ntfft 1 junk (stack P nsrc.toNat cs) r s).bind fun x =>
  (output P x.1 (if P.normalize ∧ nsrc > 0 then 1 / P.ntfft / nsrc else 1 / P.ntfft)).map fun v => (v, x.2)

end

end Verif.Vir

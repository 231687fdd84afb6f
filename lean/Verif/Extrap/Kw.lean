import Verif.Extrap.Model

/-!
# Model of kwExtr.c (extrap): extrapolation in depth by phase shifts

The loop over frequencies (kwExtr.c:81-151) after the data have been transformed and put on the model grid.  Arithmetic is exact; an
access outside an array, a division by zero and what follows from it are `none`.  `nx` is `nxm` there (kwExtr.c:55).
-/

namespace Verif.Extrap

open Verif Verif.Toep

noncomputable section

/-- `ez` and the product (kwExtr.c:105-111, 121-133): `a` is the phase. -/
def rot (a : ℝ) (z : ℂ) : ℂ :=
  let er := Real.cos a
  let ei := -Real.sin a
  ⟨er * z.re + ei * z.im, er * z.im - ei * z.re⟩

/-- The edge taper (kwExtr.c:74-79) of `lenx` samples. -/
def taper (lenx ntap : ℕ) : Option (ℕ → ℝ) :=
  forNM ntap (fun ix t =>
    let v := Real.exp (-1 * (4 / 10 * ((ntap : ℝ) - ix) / ntap) ^ 2)
    if ix < lenx then some (fun k => if k = lenx - 1 - ix then v else if k = ix then v else t k) else none)
    (fun _ => 1)

/-- The multiplications in the wavenumber domain (kwExtr.c:104-135). -/
def phases (nkx : ℕ) (k dkx dz : ℝ) (z : ℕ → ℂ) : Option (ℕ → ℂ) := do
  let z0 ← rd nkx z 0
  let z ← wr nkx z 0 (rot (k * dz) z0)
  let endkx := min (toInt (k / dkx)) ((nkx / 2 : ℕ) : ℤ)
  forIM 1 (endkx + 1) (fun ikx z => do
    let kx := ikx * dkx
    let kz2 := k * k - kx * kx
    let a ← rd nkx z ikx.toNat
    let z ← wr nkx z ikx.toNat (rot (Real.sqrt kz2 * dz) a)
    let b ← rd nkx z (nkx - ikx.toNat)
    wr nkx z (nkx - ikx.toNat) (rot (Real.sqrt kz2 * dz) b)) z

/-- The wavenumber of a layer (kwExtr.c:99-101). -/
def layerK (nxm : ℕ) (velmod : ℕ → ℝ) (d : ℕ) (om : ℝ) : Option ℝ :=
  let c := forN nxm (fun ix c => c + velmod (d * nxm + ix)) 0
  if c = 0 then none else some (nxm * om / c)

/-- What the buffers of the transforms contain, call by call. -/
abbrev Bufs := ℕ → Fft.Lib.Junk

/-- One depth step (kwExtr.c:97-142). -/
def depthStep (nkx : ℕ) (k dkx dz : ℝ) (tap : ℕ → ℝ) (j1 j2 : Fft.Lib.Junk) (z : ℕ → ℂ) (s : Fft.Lib.St) :
    Option ((ℕ → ℂ) × Fft.Lib.St) := do
  let (z, s) ← Fft.Lib.cc1Fft nkx nkx 1 j1 z s
  let z ← phases nkx k dkx dz z
  let (z, s) ← Fft.Lib.cc1Fft nkx nkx (-1) j2 z s
  some (forN nkx (fun j z => fun i => if i = j then z j * ((1 / nkx : ℝ) * tap j : ℝ) else z i) z, s)

/-- The state of the loop over frequencies: the wave field, the results, the statics of the transforms. -/
structure KwSt where
  tmp1 : ℕ → ℂ
  cextr : ℕ → ℕ → ℂ
  fft : Fft.Lib.St

/-- What does not change: sizes, sampling, model, receivers (`xi`, `zi`), taper and the buffers. -/
structure KwPar where
  nxm : ℕ
  nkx : ℕ
  ntap : ℕ
  ndepth : ℕ
  nrec : ℕ
  dom : ℝ
  dkx : ℝ
  dz : ℝ
  velmod : ℕ → ℝ
  xi : ℕ → ℕ
  zi : ℕ → ℕ
  tap : ℕ → ℝ
  buf : ℕ → ℕ → Fft.Lib.Junk × Fft.Lib.Junk

/-- Results of the receivers at depth `d` (kwExtr.c:89-90, 143-147); row `iom` of `cextr` is separate here. -/
def record (p : KwPar) (iom d : ℕ) (z : ℕ → ℂ) (c : ℕ → ℕ → ℂ) : Option (ℕ → ℕ → ℂ) :=
  forNM p.nrec (fun j c =>
    if p.zi j = d then (rd p.nkx z (p.ntap + p.xi j)).map fun v => fun a b => if a = iom ∧ b = j then v else c a b
    else some c) c

/-- One frequency (kwExtr.c:84-149). -/
def freqStep (p : KwPar) (cdata : ℕ → ℕ → ℂ) (iom : ℕ) (st : KwSt) : Option KwSt := do
  let om := iom * p.dom
  let z ← forNM p.nxm (fun j z => wr p.nkx z (p.ntap + j) (cdata iom j)) st.tmp1
  let c ← record p iom 0 z st.cextr
  forNM p.ndepth (fun d st => do
    let k ← layerK p.nxm p.velmod d om
    let (z, s) ← depthStep p.nkx k p.dkx p.dz p.tap (p.buf iom d).1 (p.buf iom d).2 st.tmp1 st.fft
    let c ← record p iom (d + 1) z st.cextr
    some ⟨z, c, s⟩) ⟨z, c, st.fft⟩

/-- All frequencies `iomin` to `iomin + cnt - 1`, from `calloc`ed arrays (kwExtr.c:73, 81-151). -/
def kwExtr (p : KwPar) (cdata : ℕ → ℕ → ℂ) (iomin cnt : ℕ) (s : Fft.Lib.St) : Option KwSt :=
  forNM cnt (fun i st => freqStep p cdata (iomin + i) st) ⟨fun _ => 0, fun _ _ => 0, s⟩

end

end Verif.Extrap

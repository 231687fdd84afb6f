import Verif.Fft.Pfa2
import Verif.Fft.KissState
import Verif.Fft.Mayer
import Mathlib.Analysis.SpecialFunctions.Log.Base

/-!
# The transforms of `FFTlib/lib_fft.c`: which algorithm does which length

`rc1_fft`, `cr1_fft`, `cc1_fft`, `rcm_fft`, `crm_fft`, `ccm_fft`, called by one thread.  The statics of all algorithms go through
all calls.  Arithmetic is exact; an access beyond an array is `none`.  A complex array and its real and imaginary parts are the
same numbers.
-/

namespace Verif.Fft.Lib

open Complex Verif Verif.Fft

noncomputable section

/-- The statics: plans of `cc1_fft`, tables of `fht`, of `rcdft` and of `crdft`. -/
structure St where
  kiss : Sys
  trig : Mayer.Trig
  rc : Tab
  cr : Tab

/-- At the start of the program. -/
def St.init : St := ⟨Sys.init, Mayer.Trig.start, Tab.init, Tab.init⟩

/-- The test `NINT(pow(2.0, (double)NINT(log((double)n)/log(2.0)))) == n`, lib_fft.c:69, 98, 142, 178, 240, 291, for `n ≥ 1`. -/
def isPow2 (n : Nat) : Prop := 2 ^ (⌊Real.logb 2 n + 1 / 2⌋).toNat = n

/-- What uninitialised memory contains: the table of `rcdft` or `crdft`, the buffer of `cr1_fft`, the buffer of kiss_fft. -/
structure Junk where
  tab : Nat → ℝ
  buf : Nat → ℝ
  kiss : Mem

open Classical in
/-- `cc1_fft`, lib_fft.c:224-284: `len` complex numbers are in `cdata`. -/
def cc1Fft (n len : Nat) (sign : Int) (junk : Junk) (z : Nat → ℂ) (s : St) : Option ((Nat → ℂ) × St) :=
  if n ≤ len then
    if ¬ isPow2 n then
      if npfa n = n then (Pfa.pfacc sign n len z).map fun z => (z, s)
      else
        let r := cc1 0 n sign junk.kiss z s.kiss
        some (r.1, { s with kiss := r.2 })
    else
      let r := cc1 0 n sign junk.kiss z s.kiss
      some (r.1, { s with kiss := r.2 })
  else none

open Classical in
/-- `ccm_fft`, lib_fft.c:286-327: `n2` traces, `ld1` elements apart. -/
def ccmFft (n1 n2 ld1 len : Nat) (sign : Int) (junk : Nat → Junk) (z : Nat → ℂ) (s : St) : Option ((Nat → ℂ) × St) :=
  if ¬ isPow2 n1 then
    if npfa n1 = n1 then (Pfa.pfamcc sign n1 n2 1 ld1 len z).map fun z => (z, s)
    else rowsM n2 ld1 (fun i z s => cc1Fft n1 (len - i * ld1) sign (junk i) z s) z s
  else rowsM n2 ld1 (fun i z s => cc1Fft n1 (len - i * ld1) sign (junk i) z s) z s

open Classical in
/-- `rc1_fft`, lib_fft.c:64-91: `lenr` reals are in `data`, `lenc` complex numbers fit into `cdata`, whose old content is `c`. -/
def rc1Fft (n lenr lenc : Nat) (sign : Int) (junk : Junk) (x : Nat → ℝ) (c : Nat → ℂ) (s : St) : Option ((Nat → ℂ) × St) :=
  if n ≤ lenr ∧ n / 2 < lenc then
    if ¬ isPow2 n then
      if npfar n = n then (Pfa.pfarc sign n lenc x (Pfa.unview c)).map fun z => (Pfa.view z, s)
      else
        let r := rcdft n sign junk.tab x s.rc
        some (fun i => if i < ncOf n then ⟨r.1 i, r.2.1 i⟩ else c i, { s with rc := r.2.2 })
    else (Mayer.rc1Pow2 n sign x (fun i => (c i).re) (fun i => (c i).im) s.trig).map fun (re, im, t) =>
      (fun i => ⟨re i, im i⟩, { s with trig := t })
  else none

open Classical in
/-- `cr1_fft`, lib_fft.c:137-170: `lenc` complex numbers are in `cdata`, `lenr` reals fit into `data`, whose old content is `x`. -/
def cr1Fft (n lenc lenr : Nat) (sign : Int) (junk : Junk) (c : Nat → ℂ) (x : Nat → ℝ) (s : St) : Option ((Nat → ℝ) × St) :=
  if n ≤ lenr ∧ n / 2 < lenc then
    if ¬ isPow2 n then
      if npfar n = n then (Pfa.pfacr sign n lenc lenr (Pfa.unview c) x).map fun z => (z, s)
      else
        let r := crdft n sign junk.tab (fun i => (c i).re) (fun i => (c i).im) s.cr
        some (fun i => if i < n then r.1 i else x i, { s with cr := r.2 })
    else (Mayer.cr1Pow2 n sign (fun i => (c i).re) (fun i => (c i).im) junk.buf x s.trig).map fun (y, t) => (y, { s with trig := t })
  else none

open Classical in
/-- `rcm_fft`, lib_fft.c:93-135: `n2` traces, `ldr` reals and `ldc` complex numbers apart.  The branches for one trace are those of
`rc1_fft`. -/
def rcmFft (n1 n2 ldr ldc lenr lenc : Nat) (sign : Int) (junk : Nat → Junk) (x : Nat → ℝ) (c : Nat → ℂ) (s : St) :
    Option ((Nat → ℂ) × St) :=
  if ¬ isPow2 n1 ∧ npfar n1 = n1 ∧ ldr = n1 ∧ ldc = n2 then
    if n2 * n1 ≤ lenr then (Pfa.pfa2rc sign n1 n2 lenc x (Pfa.unview c)).map fun z => (Pfa.view z, s) else none
  else rowsM n2 ldc (fun i c s => rc1Fft n1 (lenr - i * ldr) (lenc - i * ldc) sign (junk i) (row (i * ldr) x) c s) c s

open Classical in
/-- `crm_fft`, lib_fft.c:172-220.  The branches for one trace are those of `cr1_fft`; the buffer is allocated once, its content
before each trace is arbitrary here. -/
def crmFft (n1 n2 ldc ldr lenc lenr : Nat) (sign : Int) (junk : Nat → Junk) (c : Nat → ℂ) (x : Nat → ℝ) (s : St) :
    Option ((Nat → ℝ) × St) :=
  if ¬ isPow2 n1 ∧ npfar n1 = n1 ∧ ldr = n1 ∧ ldc = n2 then
    (Pfa.pfa2cr sign n1 n2 lenc lenr (Pfa.unview c) x).map fun z => (z, s)
  else rowsM n2 ldr (fun i x s => cr1Fft n1 (lenc - i * ldc) (lenr - i * ldr) sign (junk i) (row (i * ldc) c) x s) x s

end

/-- The statics after any calls, of any lengths, with any data. -/
inductive Hist : St → Prop
  /-- At the start of the program. -/
  | start : Hist St.init
  /-- After `cc1_fft`. -/
  | cc1 {s s' : St} (n len : Nat) (sign : Int) (junk : Junk) (z z' : Nat → ℂ) : Hist s → 0 < n → sign = 1 ∨ sign = -1 →
      cc1Fft n len sign junk z s = some (z', s') → Hist s'
  /-- After `rc1_fft`. -/
  | rc1 {s s' : St} (n lenr lenc : Nat) (sign : Int) (junk : Junk) (x : Nat → ℝ) (c c' : Nat → ℂ) : Hist s → 0 < n →
      rc1Fft n lenr lenc sign junk x c s = some (c', s') → Hist s'
  /-- After `cr1_fft`. -/
  | cr1 {s s' : St} (n lenc lenr : Nat) (sign : Int) (junk : Junk) (c : Nat → ℂ) (x x' : Nat → ℝ) : Hist s → 0 < n →
      cr1Fft n lenc lenr sign junk c x s = some (x', s') → Hist s'

end Verif.Fft.Lib

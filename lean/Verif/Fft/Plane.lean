import Verif.Fft.Lib
import Verif.Base.Writes

/-!
# Transforms of panels: `FFTlib/xt2wx.c`, `wx2xt.c`, `xt2wkx.c`, `wkx2xt.c`, `cc2dfft.c`

The branches without vendor libraries; `rcmfft`, `crmfft`, `ccmfft`, `cc1fft` then are `rcm_fft`, `crm_fft`, `ccm_fft`, `cc1_fft`.
Arithmetic is exact; an access beyond an array is `none`.  `cdum` is what `malloc` delivers.
-/

namespace Verif.Fft.Lib

open Complex Verif Verif.Fft

noncomputable section

/-- `for (i<nx) for (j<ldr) rdata[i*ldr+j] *= scl`, wx2xt.c:47-49, wkx2xt.c:57-59. -/
def scaleRows (nx ldr : Nat) (scl : ℝ) (x : Nat → ℝ) : Nat → ℝ :=
  forN nx (fun i x => forN ldr (fun j x => aset x (i * ldr + j) (x (i * ldr + j) * scl)) x) x

/-- `cdata[j*ldc+i] = cdum[i*ld1+j]`, xt2wx.c:39-43. -/
def toFreq (nx ld1 ldc : Nat) (d c : Nat → ℂ) : Nat → ℂ :=
  forN nx (fun i c => forN ld1 (fun j c => aset c (j * ldc + i) (d (i * ld1 + j))) c) c

/-- `cdum[i*ld1+j] = cdata[j*ldc+i]`, wx2xt.c:38-42. -/
def fromFreq (nx ld1 ldc : Nat) (c d : Nat → ℂ) : Nat → ℂ :=
  forN nx (fun i d => forN ld1 (fun j d => aset d (i * ld1 + j) (c (j * ldc + i))) d) d

/-- xt2wkx.c:41-48: the same, trace `xorig` first. -/
def toFreqRot (nx ld1 ldc xorig : Nat) (d c : Nat → ℂ) : Nat → ℂ :=
  forN ld1 (fun j c =>
    let c := forN (nx - xorig) (fun i c => aset c (j * ldc + i) (d ((i + xorig) * ld1 + j))) c
    forN xorig (fun i c => aset c (j * ldc + (nx - xorig + i)) (d (i * ld1 + j))) c) c

/-- wkx2xt.c:45-52. -/
def fromFreqRot (nx ld1 ldc xorig : Nat) (c d : Nat → ℂ) : Nat → ℂ :=
  let norig := nx - xorig
  forN ld1 (fun j d =>
    let d := forN norig (fun i d => aset d ((i + xorig) * ld1 + j) (c (j * ldc + i))) d
    forN xorig (fun i d => aset d (i * ld1 + j) (c (j * ldc + i + norig))) d) d

open Classical in
/-- `xt2wx`, xt2wx.c:27-48.  `lenr` reals are in `rdata`, `lenc` complex numbers fit into `cdata`. -/
def xt2wx (nt nx ldr ldc lenr lenc : Nat) (junk : Nat → Junk) (cdum : Nat → ℂ) (x : Nat → ℝ) (c : Nat → ℂ) (s : St) :
    Option ((Nat → ℂ) × St) :=
  let ld1 := (nt + 2) / 2
  (rcmFft nt nx ldr ld1 lenr (ld1 * nx) (-1) junk x cdum s).bind fun (cdum, s) =>
    if ∀ i j, i < nx → j < ld1 → j * ldc + i < lenc then
      some (toFreq nx ld1 ldc cdum c, s)
    else none

open Classical in
/-- `wx2xt`, wx2xt.c:27-53. -/
def wx2xt (nt nx ldc ldr lenc lenr : Nat) (junk : Nat → Junk) (cdum c : Nat → ℂ) (x : Nat → ℝ) (s : St) :
    Option ((Nat → ℝ) × St) :=
  let ld1 := (nt + 2) / 2
  if (∀ i j, i < nx → j < ld1 → j * ldc + i < lenc) ∧ nx * ldr ≤ lenr then
    let cdum := fromFreq nx ld1 ldc c cdum
    (crmFft nt nx ld1 ldr (ld1 * nx) lenr 1 junk cdum x s).map fun (x, s) => (scaleRows nx ldr (1 / nt) x, s)
  else none

open Classical in
/-- `xt2wkx`, xt2wkx.c:28-57; the `assert` is a hypothesis of the theorems. -/
def xt2wkx (nt nx ldr ldc xorig lenr lenc : Nat) (junk junk' : Nat → Junk) (cdum : Nat → ℂ) (x : Nat → ℝ) (c : Nat → ℂ) (s : St) :
    Option ((Nat → ℂ) × St) :=
  let ld1 := (nt + 2) / 2
  (rcmFft nt nx ldr ld1 lenr (ld1 * nx) (-1) junk x cdum s).bind fun (cdum, s) =>
    if ∀ i j, i < nx → j < ld1 → j * ldc + i < lenc then
      ccmFft nx ld1 ldc lenc 1 junk' (toFreqRot nx ld1 ldc xorig cdum c) s
    else none

open Classical in
/-- `wkx2xt`, wkx2xt.c:28-64: the panel, and what became of `cdata`. -/
def wkx2xt (nt nx ldc ldr xorig lenc lenr : Nat) (junk junk' : Nat → Junk) (cdum c : Nat → ℂ) (x : Nat → ℝ) (s : St) :
    Option ((Nat → ℝ) × (Nat → ℂ) × St) :=
  let ld1 := (nt + 2) / 2
  (ccmFft nx ld1 ldc lenc (-1) junk c s).bind fun (c, s) =>
    if (∀ i j, i < nx → j < ld1 → j * ldc + i < lenc) ∧ nx * ldr ≤ lenr then
      let cdum := fromFreqRot nx ld1 ldc xorig c cdum
      (crmFft nt nx ld1 ldr (ld1 * nx) lenr 1 junk' cdum x s).map fun (x, s) => (scaleRows nx ldr (1 / (nt * nx : Nat)) x, c, s)
    else none

open Classical in
/-- `cc2dfft`, cc2dfft.c:51-171 (the branch from 146). -/
def cc2dfft (nx ny ldx len : Nat) (sign : Int) (junk junk' : Nat → Junk) (tmp c : Nat → ℂ) (s : St) : Option ((Nat → ℂ) × St) :=
  if ny ≠ 1 then
    (ccmFft nx ny ldx len sign junk c s).bind fun (c, s) =>
      if ∀ i j, i < nx → j < ny → j * ldx + i < len then
        let tmp := forN nx (fun i t => forN ny (fun j t => aset t (j + i * ny) (c (j * ldx + i))) t) tmp
        (ccmFft ny nx ny (nx * ny) sign junk' tmp s).map fun (tmp, s) =>
          (forN nx (fun i c => forN ny (fun j c => aset c (j * ldx + i) (tmp (j + i * ny))) c) c, s)
      else none
  else cc1Fft nx len sign (junk 0) c s

/-- One frequency of `rc2dfft` and `cr2dfft`, rc2dfft.c:72-74, cr2dfft.c:75-77: transform over the traces. -/
def column (nc ldc i : Nat) (sign : Int) (junk : Junk) : (Nat → ℂ) × (Nat → ℂ) × St → Option ((Nat → ℂ) × (Nat → ℂ) × St) :=
  fun (c, tmp, s) =>
    let tmp := forN nc (fun j t => aset t j (c (j * ldc + i))) tmp
    (cc1Fft nc nc sign junk tmp s).map fun (tmp, s) => (forN nc (fun j c => aset c (j * ldc + i) (tmp j)) c, tmp, s)

open Classical in
/-- `rc2dfft`, rc2dfft.c:40-80. -/
def rc2dfft (nr nc ldr ldc lenr lenc : Nat) (sign : Int) (junk junk' : Nat → Junk) (tmp : Nat → ℂ) (x : Nat → ℝ) (c : Nat → ℂ) (s : St) :
    Option ((Nat → ℂ) × St) :=
  (rcmFft nr nc ldr ldc lenr lenc sign junk x c s).bind fun (c, s) =>
    if ∀ i j, i < (nr + 2) / 2 → j < nc → j * ldc + i < lenc then
      (forNM ((nr + 2) / 2) (fun i => column nc ldc i sign (junk' i)) (c, tmp, s)).map fun (c, _, s) => (c, s)
    else none

open Classical in
/-- `cr2dfft`, cr2dfft.c:40-84: the panel, and what became of `cdata`. -/
def cr2dfft (nr nc ldc ldr lenc lenr : Nat) (sign : Int) (junk junk' : Nat → Junk) (tmp c : Nat → ℂ) (x : Nat → ℝ) (s : St) :
    Option ((Nat → ℝ) × (Nat → ℂ) × St) :=
  if ∀ i j, i < (nr + 2) / 2 → j < nc → j * ldc + i < lenc then
    (forNM ((nr + 2) / 2) (fun i => column nc ldc i sign (junk i)) (c, tmp, s)).bind fun (c, _, s) =>
      (crmFft nr nc ldc ldr lenc lenr sign junk' c x s).map fun (x, s) => (x, c, s)
  else none

end

end Verif.Fft.Lib

import Verif.Fft.Plane

/-!
# Transforms of volumes: `FFTlib/yxt2wkykx.c`, `wkykx2yxt.c`

The branches without MKL.  Arithmetic is exact; an access beyond an array is `none`.  `cdum`, `cdum'` are what `malloc` delivers.
A leading dimension smaller than the number of samples is `none` too (the last slab then ends beyond the array).
-/

namespace Verif.Fft.Lib

open Complex Verif Verif.Fft

noncomputable section

/-- yxt2wkykx.c:122-138, `cdata[nky][nf][nkx] = cdum[ny][nx][nf]`, trace `(yorig, xorig)` first. -/
def toFreqRot3 (nx ny ld1 ldx xorig yorig : Nat) (d c : Nat → ℂ) : Nat → ℂ :=
  forN ld1 (fun j c =>
    let c := forN (ny - yorig) (fun k c =>
      let c := forN (nx - xorig) (fun i c =>
        aset c (k * ld1 * ldx + j * ldx + i) (d ((k + yorig) * nx * ld1 + (i + xorig) * ld1 + j))) c
      forN xorig (fun i c => aset c (k * ld1 * ldx + j * ldx + (nx - xorig + i)) (d ((k + yorig) * nx * ld1 + i * ld1 + j))) c) c
    forN yorig (fun k c =>
      let c := forN (nx - xorig) (fun i c =>
        aset c ((ny - yorig + k) * ld1 * ldx + j * ldx + i) (d (k * nx * ld1 + (i + xorig) * ld1 + j))) c
      forN xorig (fun i c => aset c ((ny - yorig + k) * ld1 * ldx + j * ldx + (nx - xorig + i)) (d (k * nx * ld1 + i * ld1 + j))) c) c) c

/-- wkykx2yxt.c:146-163, `cdum[ny][nx][nf]` from `cdata[nky][nf][nkx]`. -/
def fromFreqRot3 (nx ny ld1 ldx xorig yorig : Nat) (c d : Nat → ℂ) : Nat → ℂ :=
  let nxorig := nx - xorig
  let nyorig := ny - yorig
  forN ld1 (fun j d =>
    let d := forN nyorig (fun k d =>
      let d := forN nxorig (fun i d =>
        aset d ((k + yorig) * nx * ld1 + (i + xorig) * ld1 + j) (c (k * ld1 * ldx + j * ldx + i))) d
      forN xorig (fun i d => aset d ((k + yorig) * nx * ld1 + i * ld1 + j) (c (k * ld1 * ldx + j * ldx + i + nxorig))) d) d
    forN yorig (fun k d =>
      let d := forN nxorig (fun i d =>
        aset d (k * nx * ld1 + (i + xorig) * ld1 + j) (c ((k + nyorig) * ld1 * ldx + j * ldx + i))) d
      forN xorig (fun i d => aset d (k * nx * ld1 + i * ld1 + j) (c ((k + nyorig) * ld1 * ldx + j * ldx + i + nxorig))) d) d) d

/-- yxt2wkykx.c:146-153: `for (k<ldy) { ccmfft(&cdata[k*ld1*ldx], nx, ld1, ldx, sign); copy to cdum }`. -/
def passX (nx ld1 ldx ldy lenc : Nat) (junk : Nat → Nat → Junk) (c d : Nat → ℂ) (s : St) : Option ((Nat → ℂ) × (Nat → ℂ) × St) :=
  forNM ldy (fun k (c, d, s) =>
    (ccmFft nx ld1 ldx (lenc - k * ld1 * ldx) 1 (junk k) (row (k * ld1 * ldx) c) s).map fun (r, s) =>
      let c := onRow (k * ld1 * ldx) c r
      (c, forN ld1 (fun j d => forN ldx (fun i d => aset d (i * ld1 * ldy + j * ldy + k) (c (k * ld1 * ldx + j * ldx + i))) d) d, s))
    (c, d, s)

/-- yxt2wkykx.c:156-163: `for (i<ldx) { ccmfft(&cdum[i*ld1*ldy], ny, ld1, ldy, sign); copy to cdata }`. -/
def passY (ny ld1 ldx ldy : Nat) (junk : Nat → Nat → Junk) (d c : Nat → ℂ) (s : St) : Option ((Nat → ℂ) × (Nat → ℂ) × St) :=
  forNM ldx (fun i (d, c, s) =>
    (ccmFft ny ld1 ldy (ld1 * ldx * ldy - i * ld1 * ldy) 1 (junk i) (row (i * ld1 * ldy) d) s).map fun (r, s) =>
      let d := onRow (i * ld1 * ldy) d r
      (d, forN ld1 (fun j c => forN ldy (fun k c => aset c (j * ldy * ldx + k * ldx + i) (d (i * ld1 * ldy + j * ldy + k))) c) c, s))
    (d, c, s)

open Classical in
/-- `yxt2wkykx`, yxt2wkykx.c:33-168; the `assert`s are hypotheses of the theorems. -/
def yxt2wkykx (nt nx ny ldt ldx ldy xorig yorig lenr lenc : Nat) (junk : Nat → Junk) (junkX junkY : Nat → Nat → Junk)
    (cdum cdum' : Nat → ℂ) (x : Nat → ℝ) (c : Nat → ℂ) (s : St) : Option ((Nat → ℂ) × St) :=
  let ld1 := (nt + 2) / 2
  (rcmFft nt (nx * ny) ldt ld1 lenr (ld1 * nx * ny) (-1) junk x cdum s).bind fun (d, s) =>
    if nx ≤ ldx ∧ ny ≤ ldy ∧ ld1 * ldx * ldy ≤ lenc then
      (passX nx ld1 ldx ldy lenc junkX (toFreqRot3 nx ny ld1 ldx xorig yorig d c) cdum' s).bind fun (c, d, s) =>
        (passY ny ld1 ldx ldy junkY d c s).map fun (_, c, s) => (c, s)
    else none

/-- wkykx2yxt.c:122-129. -/
def backY (ny ld1 ldx ldy : Nat) (junk : Nat → Nat → Junk) (c d : Nat → ℂ) (s : St) : Option ((Nat → ℂ) × St) :=
  forNM ldx (fun i (d, s) =>
    let d := forN ld1 (fun j d => forN ldy (fun k d => aset d (i * ld1 * ldy + j * ldy + k) (c (j * ldy * ldx + k * ldx + i))) d) d
    (ccmFft ny ld1 ldy (ld1 * ldx * ldy - i * ld1 * ldy) (-1) (junk i) (row (i * ld1 * ldy) d) s).map fun (r, s) =>
      (onRow (i * ld1 * ldy) d r, s)) (d, s)

/-- wkykx2yxt.c:132-139. -/
def backX (nx ld1 ldx ldy lenc : Nat) (junk : Nat → Nat → Junk) (d c : Nat → ℂ) (s : St) : Option ((Nat → ℂ) × St) :=
  forNM ldy (fun k (c, s) =>
    let c := forN ld1 (fun j c => forN ldx (fun i c => aset c (k * ld1 * ldx + j * ldx + i) (d (i * ld1 * ldy + j * ldy + k))) c) c
    (ccmFft nx ld1 ldx (lenc - k * ld1 * ldx) (-1) (junk k) (row (k * ld1 * ldx) c) s).map fun (r, s) =>
      (onRow (k * ld1 * ldx) c r, s)) (c, s)

/-- wkykx2yxt.c:168. -/
def scaleAll (n : Nat) (scl : ℝ) (x : Nat → ℝ) : Nat → ℝ := forN n (fun i x => aset x i (x i * scl)) x

open Classical in
/-- `wkykx2yxt`, wkykx2yxt.c:33-173: the volume, and what became of `cdata`. -/
def wkykx2yxt (nt nx ny ldt ldx ldy xorig yorig lenc lenr : Nat) (junk : Nat → Junk) (junkX junkY : Nat → Nat → Junk)
    (cdum cdum' c : Nat → ℂ) (x : Nat → ℝ) (s : St) : Option ((Nat → ℝ) × (Nat → ℂ) × St) :=
  let ld1 := (nt + 2) / 2
  if nx ≤ ldx ∧ ny ≤ ldy ∧ ld1 * ldx * ldy ≤ lenc ∧ nx * ny * ldt ≤ lenr then
    (backY ny ld1 ldx ldy junkY c cdum s).bind fun (d, s) =>
      (backX nx ld1 ldx ldy lenc junkX d c s).bind fun (c, s) =>
        (crmFft nt (nx * ny) ld1 ldt (ld1 * nx * ny) lenr 1 junk (fromFreqRot3 nx ny ld1 ldx xorig yorig c cdum') x s).map
          fun (x, s) => (scaleAll (nx * ny * ldt) (1 / (nt * nx * ny : Nat)) x, c, s)
  else none

end

end Verif.Fft.Lib

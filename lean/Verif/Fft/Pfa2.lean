import Verif.Fft.PfaReal
import Verif.Base.Rows

/-!
# Real prime-factor transforms of several traces: `pfa2rc` and `pfa2cr` along dimension 1 (FFTlib/pfafft.c:2787-2990)

Only `idim == 1`, the branch `rcm_fft` and `crm_fft` use.  Arithmetic is exact; an access beyond the array is `none`.
-/

namespace Verif.Fft.Pfa

open Complex Verif Verif.Fft

noncomputable section

/-- The twiddle loop over `nt` transforms `itinc` reals apart, pfafft.c:2838-2865 and 2962-2989, with `itmul = 1`. -/
def twLoop2 (body : Nat → Nat → Tw → Nat → ℝ) (n nt itinc : Nat) (theta : ℝ) (z : Nat → ℝ) : Nat → ℝ :=
  let wtemp := Real.sin (1 / 2 * theta)
  let wpr := -2 * wtemp * wtemp
  let wpi := Real.sin theta
  (forN (n / 2 / 2) (fun i s =>
    Tw.next wpr wpi { s with z := rowsN nt itinc (fun _ z => body n i { s with z := z }) s.z }) ⟨z, 1 + wpr, wpi⟩).z

/-- pfafft.c:2914-2919: the traces move apart, the last one first and each from its end. -/
def shiftRows (n1 n2 : Nat) (z : Nat → ℝ) : Nat → ℝ :=
  forN (n2 - 1) (fun d z =>
    let i2 := n2 - 1 - d
    let jt := i2 * n1 + n1 - 1
    let kt := jt + i2 * 2
    forN n1 (fun e z => upd z (kt - e) (z (jt - e))) z) z

/-- `pfa2rc` with `idim == 1`, pfafft.c:2893-2990: `len` complex numbers fit into `cz`, whose old content is `z`. -/
def pfa2rc (isign : Int) (n1 n2 len : Nat) (x z : Nat → ℝ) : Option (Nat → ℝ) :=
  if n2 * (n1 + 2) ≤ 2 * len then
    let z := forN (n2 * n1) (fun j z => upd z j (1 / 2 * x j)) z
    (pfa2cc isign 1 (n1 / 2) n2 len (view z)).map fun c =>
      let z := shiftRows n1 n2 (unview c)
      let z := rowsN n2 (n1 + 2) (fun _ z => dcNyq n1 z) z
      twLoop2 twRC n1 n2 (n1 + 2) (thetaRC isign n1) z
  else none

/-- One trace of the copy in `pfa2cr`, pfafft.c:2800-2803. -/
def copyCR (n1 : Nat) (c z : Nat → ℝ) : Nat → ℝ :=
  let z := upd z 1 (c 0 - c n1)
  let z := upd z 0 (c 0 + c n1)
  forN (n1 - 2) (fun i z => upd z (i + 2) (c (i + 2))) z

/-- `pfa2cr` with `idim == 1`, pfafft.c:2787-2891: `len` complex numbers are in `cz`, `lenr` reals fit into `rz`, whose old content
is `z`. -/
def pfa2cr (isign : Int) (n1 n2 len lenr : Nat) (c z : Nat → ℝ) : Option (Nat → ℝ) :=
  if n2 * (n1 + 2) ≤ 2 * len ∧ n2 * n1 ≤ lenr then
    let z := rowsN n2 n1 (fun i2 z => copyCR n1 (row (i2 * (n1 + 2)) c) z) z
    let z := twLoop2 twCR n1 n2 n1 (thetaCR isign n1) z
    (pfa2cc isign 1 (n1 / 2) n2 (lenr / 2) (view z)).map unview
  else none

end

end Verif.Fft.Pfa

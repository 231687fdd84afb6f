import Verif.Fft.Pfa
import Verif.Fft.RealDft

/-!
# The real prime-factor transforms `pfarc` and `pfacr` (FFTlib/pfafft.c:1268-1361)

A pointer to complex numbers is used as a pointer to reals and the other way round: `view` and `unview`.  Arithmetic is exact;
an access beyond the array is `none`.
-/

namespace Verif.Fft.Pfa

open Complex Verif Verif.Fft

noncomputable section

/-- The reals `z` as complex numbers, pfafft.c:1310 `(complex*)z`. -/
def view (z : Nat → ℝ) (j : Nat) : ℂ := ⟨z (2 * j), z (2 * j + 1)⟩

/-- The complex numbers `c` as reals, pfafft.c:1323 `(REAL*)cz`. -/
def unview (c : Nat → ℂ) (i : Nat) : ℝ := if i % 2 = 0 then (c (i / 2)).re else (c (i / 2)).im

/-- `pfacc` on an array of reals that has room for `len` complex numbers. -/
def pfaccR (isign : Int) (n len : Nat) (z : Nat → ℝ) : Option (Nat → ℝ) := (pfacc isign n len (view z)).map unview

/-- Array and cosine-sine recurrence. -/
structure Tw where
  z : Nat → ℝ
  wr : ℝ
  wi : ℝ

/-- The recurrence, pfafft.c:1304-1306 and 1358-1360. -/
def Tw.next (wpr wpi : ℝ) (s : Tw) : Tw :=
  let wtemp := s.wr
  { s with wr := s.wr + (s.wr * wpr - s.wi * wpi), wi := s.wi + (s.wi * wpr + wtemp * wpi) }

/-- Body of the twiddle loop of `pfarc`, pfafft.c:1348-1357, with `ir = 2*(i+1)` and `jr = n-2*(i+1)`. -/
def twRC (n i : Nat) (s : Tw) : Nat → ℝ :=
  let ir := 2 * (i + 1)
  let ii := 2 * (i + 1) + 1
  let jr := n - 2 * (i + 1)
  let ji := n - 2 * (i + 1) + 1
  let z := s.z
  let sumr := z ir + z jr
  let sumi := z ii + z ji
  let difr := z ir - z jr
  let difi := z ii - z ji
  let tempr := s.wi * difr + s.wr * sumi
  let tempi := s.wi * sumi - s.wr * difr
  let z := upd z ir (sumr + tempr)
  let z := upd z ii (difi + tempi)
  let z := upd z jr (sumr - tempr)
  upd z ji (tempi - difi)

/-- Body of the twiddle loop of `pfacr`, pfafft.c:1294-1303. -/
def twCR (n i : Nat) (s : Tw) : Nat → ℝ :=
  let ir := 2 * (i + 1)
  let ii := 2 * (i + 1) + 1
  let jr := n - 2 * (i + 1)
  let ji := n - 2 * (i + 1) + 1
  let z := s.z
  let sumr := z ir + z jr
  let sumi := z ii + z ji
  let difr := z ir - z jr
  let difi := z ii - z ji
  let tempr := s.wi * difr - s.wr * sumi
  let tempi := s.wi * sumi + s.wr * difr
  let z := upd z ir (sumr + tempr)
  let z := upd z ii (difi + tempi)
  let z := upd z jr (sumr - tempr)
  upd z ji (tempi - difi)

/-- The loop, pfafft.c:1339-1361 and 1285-1307: `for (ir=2,...; ir<=no2; ir+=2,...)` makes `n/2/2` turns. -/
def twLoop (body : Nat → Nat → Tw → Nat → ℝ) (n : Nat) (theta : ℝ) (z : Nat → ℝ) : Nat → ℝ :=
  let wtemp := Real.sin (1 / 2 * theta)
  let wpr := -2 * wtemp * wtemp
  let wpi := Real.sin theta
  (forN (n / 2 / 2) (fun i s => Tw.next wpr wpi { s with z := body n i s }) ⟨z, 1 + wpr, wpi⟩).z

/-- The zero and the Nyquist frequency in `pfarc`, pfafft.c:1331-1334, and for each trace in `pfa2rc`, 2951-2956. -/
def dcNyq (n : Nat) (z : Nat → ℝ) : Nat → ℝ :=
  let z := upd z n (2 * (z 0 - z 1))
  let z := upd z 0 (2 * (z 0 + z 1))
  let z := upd z (n + 1) 0
  upd z 1 0

/-- The angle in `pfarc`, pfafft.c:1337-1338. -/
def thetaRC (isign : Int) (n : Nat) : ℝ :=
  let theta := 2 * Real.pi / n
  if isign < 0 then -theta else theta

/-- The angle in `pfacr`, pfafft.c:1283-1284. -/
def thetaCR (isign : Int) (n : Nat) : ℝ :=
  let theta := 2 * Real.pi / n
  if isign > 0 then -theta else theta

/-- `pfarc`, pfafft.c:1315-1362: `len` complex numbers fit into `cz`, whose old content is `z`. -/
def pfarc (isign : Int) (n len : Nat) (x z : Nat → ℝ) : Option (Nat → ℝ) :=
  if n + 1 < 2 * len then
    let z := forN n (fun i z => upd z i (1 / 2 * x i)) z
    (pfaccR isign (n / 2) len z).map fun z => twLoop twRC n (thetaRC isign n) (dcNyq n z)
  else none

/-- `pfacr`, pfafft.c:1268-1311: `len` complex numbers are in `cz`, `lenr` reals fit into `rz`, whose old content is `z`.  The two
arrays are different ones. -/
def pfacr (isign : Int) (n len lenr : Nat) (c z : Nat → ℝ) : Option (Nat → ℝ) :=
  if n < 2 * len ∧ n ≤ lenr ∧ 1 < lenr then
    let z := forN (n - 2) (fun i z => upd z (i + 2) (c (i + 2))) z
    let z := upd z 1 (c 0 - c n)
    let z := upd z 0 (c 0 + c n)
    pfaccR isign (n / 2) (lenr / 2) (twLoop twCR n (thetaCR isign n) z)
  else none

end

end Verif.Fft.Pfa

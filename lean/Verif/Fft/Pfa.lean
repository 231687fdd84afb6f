import Verif.Fft.PfaKern
import Verif.Fft.PfaTable

/-!
# The complex prime-factor transforms `pfacc` and `pfamcc` (FFTlib/pfafft.c:49-1266, 1363-2763)

The array of complex numbers is a function of the index and a number of elements; a butterfly that would touch an element
beyond it gives `none`.  Indices count complex numbers, the C variables `j0`, `j1`, ... count reals and are twice as large.
Simplifications: exact arithmetic instead of `float`; `int` does not overflow; a butterfly reads its elements before it
writes them (in C the reads and writes of one butterfly alternate; the elements of one butterfly are different ones).
-/

namespace Verif.Fft.Pfa

open Complex

noncomputable section

/-- The factors in the order in which they are tried, pfafft.c:52 and 1366: `kfax[]`. -/
def kfax : List Nat := [16, 13, 11, 9, 8, 7, 5, 4, 3, 2]

/-- The butterfly of one factor, pfafft.c:96-1264 and 1418-2760. -/
def kern (p mu : Nat) : (Nat → ℂ) → List ℂ :=
  match p with
  | 2 => kern2 mu
  | 3 => kern3 mu
  | 4 => kern4 mu
  | 5 => kern5 mu
  | 7 => kern7 mu
  | 8 => kern8 mu
  | 9 => kern9 mu
  | 11 => kern11 mu
  | 13 => kern13 mu
  | 16 => kern16 mu
  | _ => fun _ => []

/-- pfafft.c:85-90 and 1404-1408: the first `jfac` with `jfac*m % ifac == 1`, the last one when there is none. -/
def rotFactor (m p : Nat) : Nat :=
  (((List.range p).map (· + 1)).find? fun j => (j * m) % p == 1).getD p

/-- pfafft.c:93 and 1411: `if (isign<0) mu = ifac-mu`. -/
def signedMu (isign : Int) (p mu : Nat) : Nat := if isign < 0 then p - mu else mu

/-- pfafft.c:115-116 and the like: `j2 = j1+jinc; if (j2>=jmax) j2 = j2-jmax;`, `c` times. -/
def nexts (n mm : Nat) : Nat → Nat → List Nat
  | 0, _ => []
  | c+1, j =>
    let j1 := j + mm
    let j2 := if j1 ≥ n then j1 - n else j1
    j2 :: nexts n mm c j2

/-- The first elements of the first butterfly, pfafft.c:98-99, 115-116, ...; `j1 = j0+jinc` is not reduced. -/
def starts (n mm p : Nat) : List Nat := 0 :: mm :: nexts n mm (p - 2) mm

/-- pfafft.c:108-110 and the like: `jt = j1+2; j1 = j0+2; j0 = jt;`. -/
def rot (js : List Nat) : List Nat := (js.getLastD 0 + 1) :: js.dropLast.map (· + 1)

/-- Stores `v` at the addresses `a`, in this order. -/
def writes (z : Nat → ℂ) : List Nat → List ℂ → Nat → ℂ
  | a :: as, v :: vs => writes (fun i => if i = a then v else z i) as vs
  | _, _ => z

/-- One butterfly of transform number `t`: element `j` is at `j*k + t*kt` (pfafft.c:1374-1375, 1425-1435); in `pfacc` `t = 0`
and `k = 1` (pfafft.c:104-107). -/
def bfly (p mu k kt len t : Nat) (js : List Nat) (z : Nat → ℂ) : Option (Nat → ℂ) :=
  let a := js.map fun j => j * k + t * kt
  if a.all (· < len) then some (writes z a (kern p mu fun q => z (a.getD q 0))) else none

/-- pfafft.c:1425: `for (jt=0; jt<nt; jt++)`. -/
def many (p mu k kt len : Nat) (js : List Nat) : Nat → (Nat → ℂ) → Option (Nat → ℂ)
  | 0, z => some z
  | t+1, z => (many p mu k kt len js t z).bind (bfly p mu k kt len t js)

/-- pfafft.c:103 and 1422: `for (l=0; l<m; l++)`. -/
def pass (p mu k kt len nt : Nat) (js : List Nat) (z : Nat → ℂ) : Nat → Option (List Nat × (Nat → ℂ))
  | 0 => some (js, z)
  | l+1 => (pass p mu k kt len nt js z l).bind fun s =>
      (many p mu k kt len s.1 nt s.2).map fun z' => (rot s.1, z')

/-- One turn of the loop over the factors, pfafft.c:74-1264 and 1392-2760. -/
def factorStep (isign : Int) (n nt k kt len : Nat) (s : Nat × (Nat → ℂ)) (p : Nat) : Option (Nat × (Nat → ℂ)) :=
  let ndiv := s.1 / p
  if ndiv * p ≠ s.1 then some s
  else
    let m := n / p
    let mu := rotFactor m p
    (pass p (signedMu isign p mu) k kt len nt (starts n (mu * m) p) s.2 m).map fun r => (ndiv, r.2)

/-- The loop over the factors. -/
def factors (isign : Int) (n nt k kt len : Nat) : List Nat → Nat × (Nat → ℂ) → Option (Nat × (Nat → ℂ))
  | [], s => some s
  | p :: ps, s => (factorStep isign n nt k kt len s p).bind (factors isign n nt k kt len ps)

/-- `pfamcc`, pfafft.c:1363-2763: `nt` transforms of length `n`, stride `k` within and `kt` between the transforms, in place in
an array of `len` complex numbers. -/
def pfamcc (isign : Int) (n nt k kt len : Nat) (z : Nat → ℂ) : Option (Nat → ℂ) :=
  (factors isign n nt k kt len kfax (n, z)).map Prod.snd

/-- `pfacc`, pfafft.c:49-1266: one transform.  The text is that of `pfamcc` without the loop over the transforms. -/
def pfacc (isign : Int) (n len : Nat) (z : Nat → ℂ) : Option (Nat → ℂ) := pfamcc isign n 1 1 0 len z

/-- `pfa2cc`, pfafft.c:2764-2783: transforms of an `n1` by `n2` array along dimension `idim`. -/
def pfa2cc (isign idim : Int) (n1 n2 len : Nat) (z : Nat → ℂ) : Option (Nat → ℂ) :=
  if idim = 1 then pfamcc isign n1 n2 1 n1 len z else pfamcc isign n2 n1 n1 1 len z

end

end Verif.Fft.Pfa

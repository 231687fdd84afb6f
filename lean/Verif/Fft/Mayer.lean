import Verif.Fft.RealDft
import Mathlib.Data.Nat.Bitwise

/-!
# Model of FFTlib/fft_mayer.c and trigtbl.h: the Hartley transform behind the real transforms of power-of-two length

Arithmetic is exact: the literals of trigtbl.h and `SQRT2` are replaced by the numbers they approximate (an entry that the
initialiser leaves out is zero, as in C).  The array of `n` reals is a function from index to value; every group of accesses is
preceded by a test that its largest index lies inside, and fails (`none`) otherwise.  A loop that never ends, a shift of `int`
by 31 or more and an index outside a table are `none` too.
-/

noncomputable section
namespace Verif.Fft.Mayer
open Verif Verif.Fft

/-- An array of reals. -/
abbrev Mem := Nat → ℝ

/-! ### The generator of sines and cosines -/

/-- `costab[20]` (trigtbl.h:90-108): sixteen values, then zeros. -/
def costab (i : Nat) : ℝ := if i ≤ 15 then Real.cos (Real.pi / 2 ^ (i + 1)) else 0
/-- `sintab[20]` (trigtbl.h:109-127). -/
def sintab (i : Nat) : ℝ := if i ≤ 15 then Real.sin (Real.pi / 2 ^ (i + 1)) else 0
/-- `halsec[20]` (trigtbl.h:71-89). -/
def halsec (i : Nat) : ℝ := if 2 ≤ i ∧ i ≤ 15 then 1 / (2 * Real.cos (Real.pi / 2 ^ (i + 1))) else 0

/-- The statics `coswrk`, `sinwrk` of one thread (trigtbl.h:128-166) and the variable `t_lam`. -/
structure Trig where
  /-- `coswrk` -/
  cw : Nat → ℝ
  /-- `sinwrk` -/
  sw : Nat → ℝ
  /-- `t_lam` -/
  lam : Nat

/-- The statics at the start of the program (trigtbl.h:128-165). -/
def Trig.start : Trig := ⟨costab, sintab, 0⟩

/-- `TRIG_INIT(k,c,s)` (trigtbl.h:24-32); the tables have 20 entries. -/
def trigInit (k : Nat) (t : Trig) : Option Trig :=
  (forNM (k + 1 - 2) (fun d (t : Trig) =>
    if d + 2 < 20 then some { t with cw := upd t.cw (d + 2) (costab (d + 2)), sw := upd t.sw (d + 2) (sintab (d + 2)) } else none) t).map
    fun t => { t with lam := 0 }

/-- `for (; !((1<<i)&lam); i++)` (trigtbl.h:37), with at most `f` turns. -/
def scanSet (lam i : Nat) : Nat → Option Nat
  | 0 => none
  | f + 1 => if lam.testBit i then some i else scanSet lam (i + 1) f

/-- `for (; (1<<j)&lam; j++)` (trigtbl.h:43), with at most `f` turns. -/
def scanClear (lam j : Nat) : Nat → Option Nat
  | 0 => none
  | f + 1 => if lam.testBit j then scanClear lam (j + 1) f else some j

/-- `TRIG_NEXT(k,c,s)` (trigtbl.h:33-48): the next cosine and sine, and the new statics. -/
def trigNext (k : Nat) (t : Trig) : Option (ℝ × ℝ × Trig) :=
  let lam := t.lam + 1
  (scanSet lam 0 31).bind fun e =>
    if k < e ∨ 20 ≤ k - e then none else
    let i := k - e
    let c := t.cw i
    let s := t.sw i
    if i > 1 then
      (scanClear lam (k - i + 2) (31 - (k - i + 2))).bind fun j =>
        if k < j then none else
        some (c, s, ⟨upd t.cw i (halsec i * (t.cw (i - 1) + t.cw (k - j))), upd t.sw i (halsec i * (t.sw (i - 1) + t.sw (k - j))), lam⟩)
    else some (c, s, { t with lam := lam })

/-! ### The transform -/

/-- `for (k=n>>1; (!((k2^=k)&k)); k>>=1);` (fft_mayer.c:64): the new `k2`.  With `k=0` the loop never ends. -/
def revNext (k k2 : Nat) : Option Nat :=
  if _h : k = 0 then none
  else if (k2 ^^^ k) &&& k ≠ 0 then some (k2 ^^^ k) else revNext (k / 2) (k2 ^^^ k)
termination_by k
decreasing_by omega

/-- The first loop (fft_mayer.c:61-69): exchange of elements.  Turn `d` has `k1 = d+1`. -/
def reorder (n : Nat) (z : Mem) : Option Mem :=
  (forNM (n - 1) (fun d (st : Nat × Mem) =>
    (revNext (n / 2) st.1).map fun k2 =>
      (k2, if d + 1 > k2 then upd (upd st.2 (d + 1) (st.2 k2)) k2 (st.2 (d + 1)) else st.2)) (0, z)).map (·.2)

/-- `for (k=0; (1<<k)<n; k++);` (fft_mayer.c:70), with at most `f` turns. -/
def logLoop (n k : Nat) : Nat → Option Nat
  | 0 => none
  | f + 1 => if 2 ^ k < n then logLoop n (k + 1) f else some k

/-- Four points (fft_mayer.c:76-84, and 133-140 with `k1`, `k2`, `k3` for 1, 2, 3). -/
def quad (z : Mem) (a0 a1 a2 a3 : Nat) : Mem :=
  let f1 := z a0 - z a1
  let f0 := z a0 + z a1
  let f3 := z a2 - z a3
  let f2 := z a2 + z a3
  upd (upd (upd (upd z a2 (f0 - f2)) a0 (f0 + f2)) a3 (f1 - f3)) a1 (f1 + f3)

/-- Four points in the middle of their blocks (fft_mayer.c:141-148). -/
def quadMid (z : Mem) (a0 a1 a2 a3 : Nat) : Mem :=
  let g1 := z a0 - z a1
  let g0 := z a0 + z a1
  let g3 := Real.sqrt 2 * z a3
  let g2 := Real.sqrt 2 * z a2
  upd (upd (upd (upd z a2 (g0 - g2)) a0 (g0 + g2)) a3 (g1 - g3)) a1 (g1 + g3)

/-- The pass over groups of four (fft_mayer.c:74-85). -/
def pass4 (n : Nat) (z : Mem) : Option Mem :=
  forNM ((n + 3) / 4) (fun p z => if 4 * p + 3 < n then some (quad z (4 * p) (4 * p + 1) (4 * p + 2) (4 * p + 3)) else none) z

/-- Eight points (fft_mayer.c:91-115), `gi = fi+1`. -/
def octet (z : Mem) (fi : Nat) : Mem :=
  let gi := fi + 1
  let c1 := z fi - z gi
  let s1 := z fi + z gi
  let c2 := z (fi + 2) - z (gi + 2)
  let s2 := z (fi + 2) + z (gi + 2)
  let c3 := z (fi + 4) - z (gi + 4)
  let s3 := z (fi + 4) + z (gi + 4)
  let c4 := z (fi + 6) - z (gi + 6)
  let s4 := z (fi + 6) + z (gi + 6)
  let f1 := s1 - s2
  let f0 := s1 + s2
  let g1 := c1 - c2
  let g0 := c1 + c2
  let f3 := s3 - s4
  let f2 := s3 + s4
  let g3 := Real.sqrt 2 * c4
  let g2 := Real.sqrt 2 * c3
  upd (upd (upd (upd (upd (upd (upd (upd z (fi + 4) (f0 - f2)) fi (f0 + f2)) (fi + 6) (f1 - f3)) (fi + 2) (f1 + f3))
    (gi + 4) (g0 - g2)) gi (g0 + g2)) (gi + 6) (g1 - g3)) (gi + 2) (g1 + g3)

/-- The pass over groups of eight (fft_mayer.c:89-116). -/
def pass8 (n : Nat) (z : Mem) : Option Mem :=
  forNM ((n + 7) / 8) (fun p z => if 8 * p + 7 < n then some (octet z (8 * p)) else none) z

/-- `do { body; fi += k4; } while (fi<fn)` (fft_mayer.c:131-153, 164-193); `p` is the start of the block, `fi = p+i`. -/
def blocks (n k4 i : Nat) (body : Nat → Mem → Option Mem) : Nat → Nat → Mem → Option Mem
  | 0, _, _ => none
  | f + 1, p, z => (body p z).bind fun z => if p + k4 + i < n then blocks n k4 i body f (p + k4) z else some z

/-- The first part of a stage (fft_mayer.c:131-150): points 0 and `kx` of the blocks. -/
def ends (n k1 : Nat) (p : Nat) (z : Mem) : Option Mem :=
  if p + k1 / 2 + 3 * k1 < n then
    some (quadMid (quad z p (p + k1) (p + 2 * k1) (p + 3 * k1))
      (p + k1 / 2) (p + k1 / 2 + k1) (p + k1 / 2 + 2 * k1) (p + k1 / 2 + 3 * k1))
  else none

/-- The second part of a stage (fft_mayer.c:166-190): points `i` and `k1-i` of the blocks. -/
def bfly (n k1 i : Nat) (c1 s1 : ℝ) (p : Nat) (z : Mem) : Option Mem :=
  let c2 := c1 * c1 - s1 * s1
  let s2 := 2 * (c1 * s1)
  let fi := p + i
  let gi := p + k1 - i
  if fi + 3 * k1 < n ∧ gi + 3 * k1 < n then
    let b := s2 * z (fi + k1) - c2 * z (gi + k1)
    let a := c2 * z (fi + k1) + s2 * z (gi + k1)
    let f1 := z fi - a
    let f0 := z fi + a
    let g1 := z gi - b
    let g0 := z gi + b
    let b := s2 * z (fi + 3 * k1) - c2 * z (gi + 3 * k1)
    let a := c2 * z (fi + 3 * k1) + s2 * z (gi + 3 * k1)
    let f3 := z (fi + 2 * k1) - a
    let f2 := z (fi + 2 * k1) + a
    let g3 := z (gi + 2 * k1) - b
    let g2 := z (gi + 2 * k1) + b
    let b := s1 * f2 - c1 * g3
    let a := c1 * f2 + s1 * g3
    let z := upd (upd (upd (upd z (fi + 2 * k1) (f0 - a)) fi (f0 + a)) (gi + 3 * k1) (g1 - b)) (gi + k1) (g1 + b)
    let b := c1 * g2 - s1 * f3
    let a := s1 * g2 + c1 * f3
    some (upd (upd (upd (upd z (gi + 2 * k1) (g0 - a)) gi (g0 + a)) (fi + 3 * k1) (f1 - b)) (fi + k1) (f1 + b))
  else none

/-- One stage (fft_mayer.c:123-195) with `k` already increased. -/
def stage (n k : Nat) (z : Mem) (t : Trig) : Option (Mem × Trig) :=
  let k1 := 2 ^ k
  (blocks n (4 * k1) 0 (ends n k1) n 0 z).bind fun z =>
  (trigInit k t).bind fun t =>
  forNM (k1 / 2 - 1) (fun d (st : Mem × Trig) =>
    (trigNext k st.2).bind fun (c1, s1, t) =>
    (blocks n (4 * k1) (d + 1) (bfly n k1 (d + 1) c1 s1) n 0 st.1).map fun z => (z, t)) (z, t)

/-- `do { k += 2; … } while (k4<n)` (fft_mayer.c:120-196), with at most `f` turns. -/
def stages (n : Nat) : Nat → Nat → Mem → Trig → Option (Mem × Trig)
  | 0, _, _, _ => none
  | f + 1, k, z, t =>
    (stage n (k + 2) z t).bind fun (z, t) => if 4 * 2 ^ (k + 2) < n then stages n f (k + 2) z t else some (z, t)

/-- `fht` (fft_mayer.c:55-197). -/
def fht (n : Nat) (z : Mem) (t : Trig) : Option (Mem × Trig) :=
  (reorder n z).bind fun z =>
  (logLoop n 0 31).bind fun k =>
  let k := k % 2
  (if k = 0 then pass4 n z else pass8 n z).bind fun z =>
  if n < 16 then some (z, t) else stages n n k z t

/-- `realfft` (fft_mayer.c:215-226); turn `d` has `i = d+1`, `j = n-1-d`. -/
def realfft (n : Nat) (z : Mem) (t : Trig) : Option (Mem × Trig) :=
  (fht n z t).map fun (z, t) =>
    (forN (n / 2 - 1) (fun d z =>
      upd (upd z (n - 1 - d) ((z (d + 1) - z (n - 1 - d)) * (1 / 2))) (d + 1) ((z (d + 1) + z (n - 1 - d)) * (1 / 2))) z, t)

/-- `realifft` (fft_mayer.c:243-254). -/
def realifft (n : Nat) (z : Mem) (t : Trig) : Option (Mem × Trig) :=
  fht n (forN (n / 2 - 1) (fun d z =>
    upd (upd z (n - 1 - d) (z (d + 1) - z (n - 1 - d))) (d + 1) (z (d + 1) + z (n - 1 - d))) z) t

/-! ### The transforms of lib_fft.c for powers of two -/

/-- `rc1_fft` for a power of two (lib_fft.c:72-86): real and imaginary parts of `cdata`, from their old contents. -/
def rc1Pow2 (n : Nat) (sign : Int) (x : Mem) (re im : Mem) (t : Trig) : Option (Mem × Mem × Trig) :=
  (realfft n x t).map fun (d, t) =>
    let im := upd im 0 0
    let (re, im) := forN (n / 2) (fun j (s : Mem × Mem) => (upd s.1 j (d j), upd s.2 (j + 1) (sign * d (n - j - 1)))) (re, im)
    (upd re (n / 2) (d (n / 2)), upd im (n / 2) 0, t)

/-- `cr1_fft` for a power of two (lib_fft.c:146-166); `buf` is the content of the allocated array, `x` the old content of the
result, which stays if `sign` is neither 1 nor -1. -/
def cr1Pow2 (n : Nat) (sign : Int) (re im : Mem) (buf x : Mem) (t : Trig) : Option (Mem × Trig) :=
  let d := forN (n / 2) (fun j d => upd (upd d j (re j)) (n - 1 - j) (im (j + 1))) buf
  let d := upd d (n / 2) (re (n / 2))
  (realifft n d t).map fun (d, t) =>
    if sign = -1 then (forN n (fun j x => upd x j (d j)) x, t)
    else if sign = 1 then (upd (forN (n - 1) (fun j x => upd x (j + 1) (d (n - (j + 1)))) x) 0 (d 0), t)
    else (x, t)

end Verif.Fft.Mayer

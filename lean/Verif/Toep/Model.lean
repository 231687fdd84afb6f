import Verif.Base.Loop
import Mathlib.Algebra.Star.BigOperators
import Mathlib.Algebra.Field.Defs
import Mathlib.Algebra.BigOperators.Group.Finset.Basic
import Mathlib.Algebra.BigOperators.Intervals
import Mathlib.Data.Complex.Basic

/-!
# Model of toeplitz.c (extrap): Levinson recursion for Hermitian Toeplitz systems

`ztoeplitz` (toeplitz.c:48-172) and `ctoeplitz` (toeplitz.c:211-336) with `K` the complex numbers, `stoeplitz`
(toeplitz.c:375-460) with `K` the reals (there `star` is the identity).  Arithmetic is exact; real and imaginary parts are put
together.  The sums that one loop of the C code collects side by side are separate loops here.  An access outside an array and a
division by zero (not a number in C) are the outcome `none`.
-/

namespace Verif.Toep

section
variable {K : Type} [Field K] [StarRing K]

/-- Read an element of an array of size `n`. -/
def rd (n : ℕ) (a : ℕ → K) (i : ℕ) : Option K := if i < n then some (a i) else none
/-- Write an element. -/
def wr (n : ℕ) (a : ℕ → K) (i : ℕ) (v : K) : Option (ℕ → K) :=
  if i < n then some (fun k => if k = i then v else a k) else none

open Classical in
/-- Quotient. -/
noncomputable def dv (a b : K) : Option K := if b = 0 then none else some (a / b)

/-- `s = 0; for (j = 0; j <= m-1; j++) s += f(j)`. -/
def acc (m : ℕ) (f : ℕ → Option K) : Option K := forNM m (fun j s => (f j).map (s + ·)) 0

/-- Product of two reads. -/
def mul2 (a b : Option K) : Option K := a.bind fun x => b.map fun y => x * y

/-- The solution and the two work arrays, each of two halves; `old` and `new` say which half is which. -/
structure Ws (K : Type) where
  x : ℕ → K
  g : ℕ → K
  h : ℕ → K
  old : ℕ
  new : ℕ

/-- The new element of `x` and the update of the others (toeplitz.c:78-105, 241-268, 402-421). -/
noncomputable def xStep (n : ℕ) (r y : ℕ → K) (m : ℕ) (w : Ws K) : Option (ℕ → K) := do
  let sxn ← acc m fun j => mul2 (rd n w.x j) (rd n r (m - j))
  let sxd ← acc m fun j => mul2 (rd (2 * n) w.g (w.old * n + m - j - 1)) (rd n r (m - j))
  let ym ← rd n y m
  let r0 ← rd n r 0
  let v ← dv (sxn - ym) (sxd - r0)
  let x ← wr n w.x m v
  forNM m (fun j x => do
    let a ← rd n x (m - j - 1)
    let b ← mul2 (rd n x m) (rd (2 * n) w.g (w.old * n + j))
    wr n x (m - j - 1) (a - b)) x

/-- The new work arrays (toeplitz.c:107-165, 270-328, 423-453); `star` is the complex conjugate. -/
noncomputable def ghStep (n : ℕ) (r : ℕ → K) (m : ℕ) (w : Ws K) : Option (Ws K) := do
  let sgn ← acc m fun j => mul2 (rd (2 * n) w.g (w.old * n + j)) ((rd n r (m - j)).map star)
  let sgd ← acc m fun j => mul2 (rd (2 * n) w.h (w.old * n + m - j - 1)) ((rd n r (m - j)).map star)
  let shn ← acc m fun j => mul2 (rd (2 * n) w.h (w.old * n + j)) (rd n r (m - j))
  let shd ← acc m fun j => mul2 (rd (2 * n) w.g (w.old * n + m - j - 1)) (rd n r (m - j))
  let rm ← rd n r (m + 1)
  let r0 ← rd n r 0
  let gm ← dv (sgn - star rm) (sgd - r0)
  let g ← wr (2 * n) w.g (w.new * n + m) gm
  let hm ← dv (shn - rm) (shd - r0)
  let h ← wr (2 * n) w.h (w.new * n + m) hm
  let s ← forNM m (fun j (s : (ℕ → K) × (ℕ → K)) => do
    let a ← rd (2 * n) s.1 (w.old * n + j)
    let b ← mul2 (rd (2 * n) s.1 (w.new * n + m)) (rd (2 * n) s.2 (w.old * n + m - j - 1))
    let g ← wr (2 * n) s.1 (w.new * n + j) (a - b)
    let c ← rd (2 * n) s.2 (w.old * n + m - j - 1)
    let d ← mul2 (rd (2 * n) s.2 (w.new * n + m)) (rd (2 * n) g (w.old * n + j))
    let h ← wr (2 * n) s.2 (w.new * n + m - j - 1) (c - d)
    some (g, h)) (g, h)
  some { w with g := s.1, h := s.2, old := w.new, new := w.old }

/-- Body of the loop over `m` (toeplitz.c:77-167). -/
noncomputable def step (n : ℕ) (r y : ℕ → K) (m : ℕ) (w : Ws K) : Option (Ws K) := do
  let x ← xStep n r y m w
  let w := { w with x := x }
  if m + 1 ≠ n then ghStep n r m w else some w

/-- How a call ends: with a message and `exit(1)`, in undefined or not-a-number territory, or with a result. -/
inductive Out (K : Type)
  | stop
  | bad
  | done (x : ℕ → K)

open Classical in
/-- The first elements (toeplitz.c:62-75, 226-238, 390-400); `x0`, `u` are the contents of the arrays before. -/
noncomputable def start (n : ℕ) (r y x0 u : ℕ → K) : Option (Ws K) := do
  let r0 ← rd n r 0
  let y0 ← rd n y 0
  let v ← dv y0 r0
  let x ← wr n x0 0 v
  let r1 ← rd n r 1
  let g0 ← dv (star r1) r0
  let g ← wr (2 * n) u (0 * n + 0) g0
  let h0 ← dv r1 r0
  let h ← wr (2 * n) u (0 * n + 0) h0
  some ⟨x, g, h, 0, 1⟩

open Classical in
/-- `ztoeplitz`, `ctoeplitz`, `stoeplitz`. -/
noncomputable def toeplitz (n : ℕ) (r y x0 u : ℕ → K) : Out K :=
  match rd n r 0 with
  | none => .bad
  | some r0 =>
    if r0 = 0 then .stop
    else
      match (start n r y x0 u).bind fun w => forNM (n - 1) (fun k => step n r y (k + 1)) w with
      | none => .bad
      | some w => .done w.x

end

end Verif.Toep

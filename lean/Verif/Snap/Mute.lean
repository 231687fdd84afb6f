import Mathlib.Tactic.Ring
import Mathlib.Tactic.Linarith
import Mathlib.Data.Rat.Defs
import Mathlib.Algebra.Order.Field.Rat
import Mathlib.Algebra.Order.Group.Abs

/-!
# mutesnap: muting of snapshots

One point of the volume at a time: `x it` is its sample in snapshot `it` (`homdata[it*nyh*nxh*nzh+iy*nxh*nzh+ix*nzh+iz]`: different
points use different elements).  Exact arithmetic over `K`.  An access outside the `nth` snapshots or outside the `smooth` values of
the taper ends the program (`none`).  Not modelled: the cosine in the taper (any values `tap`), raytimes (any `indrcv`).
-/

namespace Verif.Snap.Mute

universe u
variable {K : Type u}

/-- `x[i] *= c` or `x[i] = 0`: an update of one sample of a trace of `nth` samples. -/
def set (nth : Int) (x : Int → K) (i : Int) (v : K) : Option (Int → K) :=
  if 0 ≤ i ∧ i < nth then some (fun j => if j = i then v else x j) else none

/-- `costaper[k]` (an array of `smooth` values). -/
def taper (smooth : Int) (tap : Int → K) (k : Int) : Option K := if 0 ≤ k ∧ k < smooth then some (tap k) else none

/-- One iteration of the muting around the centre (utils/mutesnap.c:192-199); `a` is `ht-rmt+1`. -/
def centreStep [Mul K] [Zero K] (nth smooth : Int) (tap : Int → K) (a : Int) (x : Int → K) (it : Int) : Option (Int → K) :=
  if it - a < smooth then do
    let c ← taper smooth tap (it - a)
    let y ← set nth x it (x it * c)
    set nth y (nth - it) (y (nth - it) * c)
  else do
    let y ← set nth x it 0
    set nth y (nth - it) 0

/-- `rmt` (utils/mutesnap.c:190). -/
def rmt (nth indrcv shift smooth : Int) : Int := max (min (nth - indrcv) indrcv - shift - smooth) 0

/-- Muting around the centre (utils/mutesnap.c:190-200): `it` runs from `ht-rmt+1` to `ht`, with `ht = nth/2` (line 139: the division
is one of integers, `ceil` has no effect). -/
def centre [Mul K] [Zero K] (nth indrcv shift smooth : Int) (tap : Int → K) (x : Int → K) : Option (Int → K) :=
  let r := rmt nth indrcv shift smooth
  let a := nth / 2 - r + 1
  (List.range r.toNat).foldlM (fun y (j : Nat) => centreStep nth smooth tap a y (a + j)) x

/-- Muting at the start (utils/mutesnap.c:225-230). -/
def start [Mul K] [Zero K] (nth indrcv shift smooth : Int) (tap : Int → K) (x : Int → K) : Option (Int → K) := do
  let b := max (indrcv - shift - smooth) 0
  let e := max (indrcv - shift) 0
  let y ← (List.range (e - b).toNat).foldlM (fun y (j : Nat) => do
    let c ← taper smooth tap (b + j - (indrcv - shift) - 1)
    set nth y (b + j) (y (b + j) * c)) x
  (List.range b.toNat).foldlM (fun (y : Int → K) (j : Nat) => set nth y j 0) y

/-- The loop of `topdet` after `n` iterations: the pair `ind`, `max` (utils/mutesnap.c:269-276). -/
def topLoop [LinearOrder K] [AddGroup K] (x : Nat → K) (n : Nat) : Nat × K :=
  (List.range n).foldl (fun (s : Nat × K) j => if |x (j + 1)| > s.2 then (j + 1, |x (j + 1)|) else s) (0, |x 0|)

/-- `topdet` (utils/mutesnap.c:263-278). -/
def topdet [LinearOrder K] [AddGroup K] (x : Nat → K) (nt : Nat) : Nat := (topLoop x (nt / 2 - 1)).1

/-- `farrdet` (utils/mutesnap.c:280-293). -/
def farrdet [LinearOrder K] [AddGroup K] (x : Nat → K) (nt : Nat) (tol : K) : Nat :=
  ((List.range (nt / 2)).find? fun it => decide (|x it| > tol)).getD 0

/-- The numbers of samples of a file in the order in which `getFileInfo3D` hands them out: depth, columns (x), lines (y). -/
structure Dims where
  nz : Nat
  nx : Nat
  ny : Nat
deriving DecidableEq

/-- The comparison of the sizes of the two files (utils/mutesnap.c:108-114).  The call for the file to be muted passes `&nyh` where
the number of columns goes and `&nxh` where the number of lines goes. -/
def accepts (hom snap : Dims) : Bool :=
  let nzh := hom.nz
  let nyh := hom.nx
  let nxh := hom.ny
  decide (snap.nz = nzh) && decide (snap.nx = nxh) && decide (snap.ny = nyh)

end Verif.Snap.Mute

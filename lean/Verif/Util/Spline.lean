import Verif.Util.Polint
import Mathlib.Algebra.Polynomial.Derivative
import Mathlib.Tactic.LinearCombination
import Mathlib.Tactic.Positivity
import Mathlib.Tactic.Linarith
import Mathlib.Tactic.ComputeDegree

/-!
# C43: cubic splines (utils/spline.c)

Arrays are 1-based.  Floating-point numbers are modelled by rationals without rounding.  An access outside an array and a division by zero
(which gives an infinity or NaN in C) are the outcome `none`.
-/

namespace Verif.Util
open Verif

/-- A division whose result is a number. -/
def quot (a b : ℚ) : Option ℚ := if b = 0 then none else some (a / b)

/-- Boundary condition at the first point (spline.c:21-26); `0.99e30` marks a natural spline. -/
def splineFirst (x y : Buf ℚ) (yp1 : ℚ) (y2 u : Buf ℚ) : Option (Buf ℚ × Buf ℚ) :=
  if yp1 > 99 * 10 ^ 28 then do
    let u ← u.wr 1 0
    let y2 ← y2.wr 1 0
    pure (y2, u)
  else do
    let y2 ← y2.wr 1 (-1 / 2)
    let x1 ← x.rd 1
    let x2 ← x.rd 2
    let v1 ← y.rd 1
    let v2 ← y.rd 2
    let a ← quot 3 (x2 - x1)
    let b ← quot (v2 - v1) (x2 - x1)
    let u ← u.wr 1 (a * (b - yp1))
    pure (y2, u)

/-- The forward sweep, `i` from 2 to `n-1` (spline.c:27-33). -/
def splineForward (x y : Buf ℚ) (n : Nat) (s : Buf ℚ × Buf ℚ) : Option (Buf ℚ × Buf ℚ) :=
  forNM (n - 2) (fun k (s : Buf ℚ × Buf ℚ) => do
    let xa ← x.rd (k + 1 : Nat)
    let xb ← x.rd (k + 2 : Nat)
    let xc ← x.rd (k + 3 : Nat)
    let ya ← y.rd (k + 1 : Nat)
    let yb ← y.rd (k + 2 : Nat)
    let yc ← y.rd (k + 3 : Nat)
    let sig ← quot (xb - xa) (xc - xa)
    let z ← s.1.rd (k + 1 : Nat)
    let p := sig * z + 2
    let y2i ← quot (sig - 1) p
    let y2 ← s.1.wr (k + 2 : Nat) y2i
    let e ← quot (yc - yb) (xc - xb)
    let f ← quot (yb - ya) (xb - xa)
    let g ← quot (6 * (e - f)) (xc - xa)
    let v ← s.2.rd (k + 1 : Nat)
    let ui ← quot (g - sig * v) p
    let u ← s.2.wr (k + 2 : Nat) ui
    pure (y2, u)) s

/-- Boundary condition at the last point (spline.c:34-40). -/
def splineLast (x y : Buf ℚ) (n : Nat) (ypn : ℚ) (s : Buf ℚ × Buf ℚ) : Option (Buf ℚ × Buf ℚ) := do
  let (qn, un) ← if ypn > 99 * 10 ^ 28 then pure ((0 : ℚ), (0 : ℚ)) else do
    let x1 ← x.rd ((n : Int) - 1)
    let x2 ← x.rd n
    let v1 ← y.rd ((n : Int) - 1)
    let v2 ← y.rd n
    let a ← quot 3 (x2 - x1)
    let b ← quot (v2 - v1) (x2 - x1)
    pure (1 / 2, a * (ypn - b))
  let v ← s.2.rd ((n : Int) - 1)
  let z ← s.1.rd ((n : Int) - 1)
  let r ← quot (un - qn * v) (qn * z + 1)
  let y2 ← s.1.wr n r
  pure (y2, s.2)

/-- The back substitution, `k` from `n-1` down to 1 (spline.c:41-42). -/
def splineBack (n : Nat) (u y2 : Buf ℚ) : Option (Buf ℚ) :=
  forNM (n - 1) (fun j (y2 : Buf ℚ) => do
    let a ← y2.rd (n - 1 - j : Nat)
    let b ← y2.rd (n - j : Nat)
    let c ← u.rd (n - 1 - j : Nat)
    y2.wr (n - 1 - j : Nat) (a * b + c)) y2

/-- spline (utils/spline.c:14-45).  `u` has `n` elements (line 19). -/
def spline (x y : Buf ℚ) (n : Nat) (yp1 ypn : ℚ) (y2 : Buf ℚ) : Option (Buf ℚ) := do
  let s ← splineFirst x y yp1 y2 ⟨n, fun _ => 0⟩
  let s ← splineForward x y n s
  let s ← splineLast x y n ypn s
  splineBack n s.2 s.1

/-- The bisection loop (spline.c:52-58); `fuel` bounds the number of iterations. -/
def splintSearch (xa : Buf ℚ) (x : ℚ) : Nat → Int → Int → Option (Int × Int)
  | 0, _, _ => none
  | fuel + 1, klo, khi =>
    if khi - klo > 1 then do
      let k := (khi + klo) / 2
      let v ← xa.rd k
      if v > x then splintSearch xa x fuel klo k else splintSearch xa x fuel k khi
    else some (klo, khi)

/-- splint (utils/spline.c:47-64). -/
def splint (xa ya y2a : Buf ℚ) (n : Nat) (x : ℚ) : Option ℚ := do
  let (klo, khi) ← splintSearch xa x (n + 1) 1 n
  let x1 ← xa.rd khi
  let x0 ← xa.rd klo
  let h := x1 - x0
  let a ← quot (x1 - x) h
  let b ← quot (x - x0) h
  let y0 ← ya.rd klo
  let y1 ← ya.rd khi
  let m0 ← y2a.rd klo
  let m1 ← y2a.rd khi
  pure (a * y0 + b * y1 + ((a * a * a - a) * m0 + (b * b * b - b) * m1) * (h * h) / 6)

private theorem do_some {α β : Type} (a : α) (f : α → Option β) : (some a >>= f) = f a := rfl

theorem quot_some {a b : ℚ} (h : b ≠ 0) : quot a b = some (a / b) := if_neg h

private theorem rd_one {b : Buf ℚ} (h : 1 < b.size) : b.rd 1 = some (b.val 1) := rd_some (i := 1) h
private theorem rd_two {b : Buf ℚ} (h : 2 < b.size) : b.rd 2 = some (b.val 2) := rd_some (i := 2) h
private theorem rd_pred {b : Buf ℚ} {n : Nat} (hn : 1 ≤ n) (h : n - 1 < b.size) : b.rd ((n : Int) - 1) = some (b.val (n - 1 : Nat)) := by
  rw [show (n : Int) - 1 = (n - 1 : Nat) from by omega]; exact rd_some h
private theorem wr_one {b : Buf ℚ} (h : 1 < b.size) (v : ℚ) : b.wr 1 v = some { b with val := fun k => if k = 1 then v else b.val k } := wr_some (i := 1) h v

/-- Boundary condition at the first point in terms of the coefficients of the sweep. -/
private def First (X Y : Nat → ℚ) (yp1 a u : ℚ) : Prop :=
  (yp1 > 99 * 10 ^ 28 → a = 0 ∧ u = 0) ∧ (¬ yp1 > 99 * 10 ^ 28 → a = -1 / 2 ∧ u = 3 / (X 2 - X 1) * ((Y 2 - Y 1) / (X 2 - X 1) - yp1))

/-- One row of the sweep. -/
private def Row (X Y : Nat → ℚ) (A U : Nat → ℚ) (i : Nat) : Prop :=
  ((X i - X (i - 1)) / (X (i + 1) - X (i - 1)) * A (i - 1) + 2) * A i = (X i - X (i - 1)) / (X (i + 1) - X (i - 1)) - 1 ∧
  ((X i - X (i - 1)) / (X (i + 1) - X (i - 1)) * A (i - 1) + 2) * U i =
    6 * ((Y (i + 1) - Y i) / (X (i + 1) - X i) - (Y i - Y (i - 1)) / (X i - X (i - 1))) / (X (i + 1) - X (i - 1)) - (X i - X (i - 1)) / (X (i + 1) - X (i - 1)) * U (i - 1)

private theorem first_spec {x y y2 : Buf ℚ} {n : Nat} (hn : 2 ≤ n) (hx : n < x.size) (hy : n < y.size) (h2 : n < y2.size) (h12 : x.val (1 : Nat) < x.val (2 : Nat)) (yp1 : ℚ) :
    ∃ y2' u' : Buf ℚ, splineFirst x y yp1 y2 ⟨n, fun _ => 0⟩ = some (y2', u') ∧ y2'.size = y2.size ∧ u'.size = n ∧ -1 < y2'.val (1 : Nat) ∧ y2'.val (1 : Nat) ≤ 0 ∧
      First (fun i => x.val i) (fun i => y.val i) yp1 (y2'.val (1 : Nat)) (u'.val (1 : Nat)) := by
  unfold splineFirst
  have hne : x.val 2 - x.val 1 ≠ 0 := ne_of_gt (sub_pos.2 h12)
  by_cases h : yp1 > 99 * 10 ^ 28
  · rw [if_pos h, wr_one (by dsimp only; omega), wr_one (by omega)]
    exact ⟨_, _, rfl, rfl, rfl, by simp, by simp, fun _ => by simp, fun h' => absurd h h'⟩
  · rw [if_neg h, wr_one (by omega), rd_one (by omega), rd_two (by omega), rd_one (by omega), rd_two (by omega)]
    simp only [Option.bind_eq_bind, Option.bind_some]
    rw [quot_some hne, quot_some hne]
    simp only [Option.bind_some]
    rw [wr_one (by dsimp only; omega)]
    exact ⟨_, _, rfl, rfl, rfl, by norm_num, by norm_num, fun h' => absurd h' h, fun _ => by norm_num⟩

private theorem forward_spec {x y : Buf ℚ} {n : Nat} (hn : 2 ≤ n) (hx : n < x.size) (hy : n < y.size) (hinc : ∀ i : Nat, 1 ≤ i → i < n → x.val i < x.val (i + 1 : Nat))
    {y2 u : Buf ℚ} (h2 : n < y2.size) (hu : u.size = n) (h1 : -1 < y2.val (1 : Nat)) (h1' : y2.val (1 : Nat) ≤ 0) :
    ∃ y2' u' : Buf ℚ, splineForward x y n (y2, u) = some (y2', u') ∧ y2'.size = y2.size ∧ u'.size = n ∧ y2'.val (1 : Nat) = y2.val (1 : Nat) ∧ u'.val (1 : Nat) = u.val (1 : Nat) ∧
      (∀ i : Nat, 1 ≤ i → i < n → -1 < y2'.val i) ∧ ∀ i : Nat, 2 ≤ i → i < n → Row (fun i => x.val i) (fun i => y.val i) (fun i => y2'.val i) (fun i => u'.val i) i := by
  have key := forNM_inv (n := n - 2) (body := fun k (s : Buf ℚ × Buf ℚ) => (do
    let xa ← x.rd (k + 1 : Nat)
    let xb ← x.rd (k + 2 : Nat)
    let xc ← x.rd (k + 3 : Nat)
    let ya ← y.rd (k + 1 : Nat)
    let yb ← y.rd (k + 2 : Nat)
    let yc ← y.rd (k + 3 : Nat)
    let sig ← quot (xb - xa) (xc - xa)
    let z ← s.1.rd (k + 1 : Nat)
    let p := sig * z + 2
    let y2i ← quot (sig - 1) p
    let y2 ← s.1.wr (k + 2 : Nat) y2i
    let e ← quot (yc - yb) (xc - xb)
    let f ← quot (yb - ya) (xb - xa)
    let g ← quot (6 * (e - f)) (xc - xa)
    let v ← s.2.rd (k + 1 : Nat)
    let ui ← quot (g - sig * v) p
    let u ← s.2.wr (k + 2 : Nat) ui
    pure (y2, u))) (s := (y2, u))
    (fun k s => s.1.size = y2.size ∧ s.2.size = n ∧ s.1.val (1 : Nat) = y2.val (1 : Nat) ∧ s.2.val (1 : Nat) = u.val (1 : Nat) ∧
      (∀ i : Nat, 1 ≤ i → i ≤ k + 1 → -1 < s.1.val i ∧ s.1.val i ≤ 0) ∧
      ∀ i : Nat, 2 ≤ i → i ≤ k + 1 → Row (fun i => x.val i) (fun i => y.val i) (fun i => s.1.val i) (fun i => s.2.val i) i)
    ⟨rfl, hu, rfl, rfl, fun i a b => by rw [show i = 1 from by omega]; exact ⟨h1, h1'⟩, fun i a b => by omega⟩ ?_
  · obtain ⟨⟨y2', u'⟩, e, g1, g2, g3, g4, g5, g6⟩ := key
    exact ⟨y2', u', e, g1, g2, g3, g4, fun i a b => (g5 i a (by omega)).1, fun i a b => g6 i a (by omega)⟩
  · rintro k hk ⟨z, v⟩ ⟨g1, g2, g3, g4, g5, g6⟩
    dsimp only at g1 g2 g3 g4 g5 g6
    have i1 := hinc (k + 1) (by omega) (by omega)
    have i2 := hinc (k + 2) (by omega) (by omega)
    have n1 : x.val (k + 3 : Nat) - x.val (k + 1 : Nat) ≠ 0 := ne_of_gt (by linarith)
    have n2 : x.val (k + 3 : Nat) - x.val (k + 2 : Nat) ≠ 0 := ne_of_gt (by linarith)
    have n3 : x.val (k + 2 : Nat) - x.val (k + 1 : Nat) ≠ 0 := ne_of_gt (by linarith)
    have s1 : 0 < (x.val (k + 2 : Nat) - x.val (k + 1 : Nat)) / (x.val (k + 3 : Nat) - x.val (k + 1 : Nat)) := div_pos (by linarith) (by linarith)
    have s2 : (x.val (k + 2 : Nat) - x.val (k + 1 : Nat)) / (x.val (k + 3 : Nat) - x.val (k + 1 : Nat)) < 1 := (div_lt_one (by linarith)).2 (by linarith)
    have hz := g5 (k + 1) (by omega) (by omega)
    have hp : 1 < (x.val (k + 2 : Nat) - x.val (k + 1 : Nat)) / (x.val (k + 3 : Nat) - x.val (k + 1 : Nat)) * z.val (k + 1 : Nat) + 2 := by nlinarith
    have hpn := ne_of_gt (lt_trans one_pos hp)
    dsimp only
    rw [rd_some (by omega), do_some, rd_some (by omega), do_some, rd_some (by omega), do_some, rd_some (by omega), do_some, rd_some (by omega), do_some, rd_some (by omega), do_some, quot_some n1, do_some, rd_some (by omega), do_some]
    rw [quot_some hpn, do_some, wr_some (by omega), do_some, quot_some n2, do_some, quot_some n3, do_some, quot_some n1, do_some, rd_some (by omega), do_some, quot_some hpn, do_some, wr_some (by omega), do_some]
    generalize hsig : (x.val (k + 2 : Nat) - x.val (k + 1 : Nat)) / (x.val (k + 3 : Nat) - x.val (k + 1 : Nat)) = sig at *
    refine ⟨_, rfl, g1, g2, ?_, ?_, fun i a b => ?_, fun i a b => ?_⟩
    · dsimp only; rw [if_neg (by omega)]; exact g3
    · dsimp only; rw [if_neg (by omega)]; exact g4
    · dsimp only
      by_cases e : i = k + 2
      · subst e
        rw [if_pos rfl]
        constructor
        · rw [lt_div_iff₀ (by linarith)]; nlinarith
        · exact div_nonpos_of_nonpos_of_nonneg (by linarith) (by linarith)
      · rw [if_neg (by omega)]; exact g5 i a (by omega)
    · dsimp only
      by_cases e : i = k + 2
      · subst e
        unfold Row
        beta_reduce
        rw [show k + 2 - 1 = k + 1 from rfl, show k + 2 + 1 = k + 3 from rfl, if_pos rfl, if_pos rfl, if_neg (by omega), if_neg (by omega), hsig]
        exact ⟨mul_div_cancel₀ _ hpn, mul_div_cancel₀ _ hpn⟩
      · have := g6 i a (by omega)
        unfold Row at this ⊢
        beta_reduce
        rw [if_neg (by omega), if_neg (by omega), if_neg (by omega), if_neg (by omega)]
        exact this

/-- What `spline` leaves in `y2`: the equations that make the first derivative continuous, and the end conditions. -/
private theorem spline_spec {x y y2 : Buf ℚ} {n : Nat} (hn : 2 ≤ n) (hx : n < x.size) (hy : n < y.size) (h2 : n < y2.size)
    (hinc : ∀ i : Nat, 1 ≤ i → i < n → x.val i < x.val (i + 1 : Nat)) (yp1 ypn : ℚ) :
    ∃ z : Buf ℚ, spline x y n yp1 ypn y2 = some z ∧ z.size = y2.size ∧
      (∀ i : Nat, 2 ≤ i → i < n → (x.val i - x.val (i - 1 : Nat)) / (x.val (i + 1 : Nat) - x.val (i - 1 : Nat)) * z.val (i - 1 : Nat) + 2 * z.val i +
          (1 - (x.val i - x.val (i - 1 : Nat)) / (x.val (i + 1 : Nat) - x.val (i - 1 : Nat))) * z.val (i + 1 : Nat) =
        6 * ((y.val (i + 1 : Nat) - y.val i) / (x.val (i + 1 : Nat) - x.val i) - (y.val i - y.val (i - 1 : Nat)) / (x.val i - x.val (i - 1 : Nat))) /
          (x.val (i + 1 : Nat) - x.val (i - 1 : Nat))) ∧
      (yp1 > 99 * 10 ^ 28 → z.val (1 : Nat) = 0) ∧
      (¬ yp1 > 99 * 10 ^ 28 → 2 * z.val (1 : Nat) + z.val (2 : Nat) =
        6 / (x.val (2 : Nat) - x.val (1 : Nat)) * ((y.val (2 : Nat) - y.val (1 : Nat)) / (x.val (2 : Nat) - x.val (1 : Nat)) - yp1)) ∧
      (ypn > 99 * 10 ^ 28 → z.val n = 0) ∧
      (¬ ypn > 99 * 10 ^ 28 → z.val (n - 1 : Nat) + 2 * z.val n =
        6 / (x.val n - x.val (n - 1 : Nat)) * (ypn - (y.val n - y.val (n - 1 : Nat)) / (x.val n - x.val (n - 1 : Nat)))) := by
  obtain ⟨a1, u1, e1, p1, p2, p3, p4, p5⟩ := first_spec hn hx hy h2 (hinc 1 (by omega) (by omega)) yp1
  obtain ⟨a2, u2, e2, q1, q2, q3, q4, q5, q6⟩ := forward_spec hn hx hy hinc (y2 := a1) (u := u1) (by omega) p2 p3 p4
  -- last point
  have hlast : ∃ a3 : Buf ℚ, splineLast x y n ypn (a2, u2) = some (a3, u2) ∧ a3.size = y2.size ∧ (∀ i : Nat, i < n → a3.val i = a2.val i) ∧
      (ypn > 99 * 10 ^ 28 → a3.val n = 0) ∧
      (¬ ypn > 99 * 10 ^ 28 → (a2.val (n - 1 : Nat) / 2 + 1) * a3.val n + u2.val (n - 1 : Nat) / 2 =
        3 / (x.val n - x.val (n - 1 : Nat)) * (ypn - (y.val n - y.val (n - 1 : Nat)) / (x.val n - x.val (n - 1 : Nat)))) := by
    have i1 := hinc (n - 1) (by omega) (by omega)
    rw [show n - 1 + 1 = n from by omega] at i1
    have n1 : x.val n - x.val (n - 1 : Nat) ≠ 0 := ne_of_gt (by linarith)
    have g := q5 (n - 1) (by omega) (by omega)
    unfold splineLast
    by_cases h : ypn > 99 * 10 ^ 28
    · rw [if_pos h]
      simp only [Option.bind_eq_bind, Option.pure_def, Option.bind_some]
      rw [rd_pred (by omega) (by omega), rd_pred (by omega) (by omega)]
      simp only [Option.bind_some]
      rw [quot_some (by norm_num), Option.bind_some, wr_some (by omega)]
      refine ⟨_, rfl, by dsimp only; omega, fun i hi => ?_, fun _ => ?_, fun h' => absurd h h'⟩
      · dsimp only; rw [if_neg (by omega)]
      · simp
    · rw [if_neg h]
      simp only [Option.bind_eq_bind, Option.pure_def, Option.bind_some]
      rw [rd_pred (by omega) (by omega), rd_some (by omega), rd_pred (by omega) (by omega), rd_some (by omega)]
      simp only [Option.bind_some]
      rw [quot_some n1, quot_some n1, rd_pred (by omega) (by omega), rd_pred (by omega) (by omega)]
      simp only [Option.bind_some]
      have n2 : 1 / 2 * a2.val (n - 1 : Nat) + 1 ≠ 0 := by intro h'; linarith
      rw [quot_some n2, Option.bind_some, wr_some (by omega)]
      refine ⟨_, rfl, by dsimp only; omega, fun i hi => ?_, fun h' => absurd h' h, fun _ => ?_⟩
      · dsimp only; rw [if_neg (by omega)]
      · simp only [if_true]
        rw [show a2.val (n - 1 : Nat) / 2 + 1 = 1 / 2 * a2.val (n - 1 : Nat) + 1 from by ring, mul_div_cancel₀ _ n2]
        ring
  obtain ⟨a3, e3, r1, r2, r3, r4⟩ := hlast
  have key := forNM_inv (n := n - 1) (body := fun j (y2 : Buf ℚ) => (do
    let a ← y2.rd (n - 1 - j : Nat)
    let b ← y2.rd (n - j : Nat)
    let c ← u2.rd (n - 1 - j : Nat)
    y2.wr (n - 1 - j : Nat) (a * b + c))) (s := a3)
    (fun j z => z.size = y2.size ∧ z.val n = a3.val n ∧ (∀ i : Nat, i + j < n → z.val i = a2.val i) ∧
      ∀ i : Nat, i < n → n ≤ i + j → z.val i = a2.val i * z.val (i + 1 : Nat) + u2.val i)
    ⟨r1, rfl, fun i hi => r2 i (by omega), fun i a b => by omega⟩ ?_
  · obtain ⟨z, e, s1, s2, _, s3⟩ := key
    have s3 : ∀ i : Nat, 1 ≤ i → i < n → z.val i = a2.val i * z.val (i + 1 : Nat) + u2.val i := fun i a b => s3 i b (by omega)
    refine ⟨z, ?_, s1, fun i ha hb => ?_, fun h => ?_, fun h => ?_, fun h => by rw [s2]; exact r3 h, fun h => ?_⟩
    · unfold spline
      rw [e1]
      simp only [Option.bind_eq_bind, Option.bind_some]
      rw [e2, Option.bind_some, e3, Option.bind_some]
      exact e
    · have k1 := s3 i (by omega) hb
      have k2 := s3 (i - 1) (by omega) (by omega)
      rw [show i - 1 + 1 = i from by omega] at k2
      have k3 := q6 i ha hb
      unfold Row at k3
      dsimp only at k3
      generalize (x.val i - x.val (i - 1 : Nat)) / (x.val (i + 1 : Nat) - x.val (i - 1 : Nat)) = sig at *
      obtain ⟨k3, k4⟩ := k3
      linear_combination sig * k2 + (sig * a2.val (i - 1 : Nat) + 2) * k1 + z.val (i + 1 : Nat) * k3 + k4
    · have k1 := s3 1 (by omega) (by omega)
      rw [k1, q3, q4, (p5.1 h).1, (p5.1 h).2]; ring
    · have k1 := s3 1 (by omega) (by omega)
      rw [q3, q4, (p5.2 h).1, (p5.2 h).2] at k1
      linear_combination 2 * k1
    · have k1 := s3 (n - 1) (by omega) (by omega)
      rw [show n - 1 + 1 = n from by omega] at k1
      have := r4 h
      rw [← s2] at this
      linear_combination k1 + 2 * this
  · rintro j hj z ⟨g1, g2, g3, g4⟩
    simp only [Option.bind_eq_bind]
    rw [rd_some (by omega), rd_some (by omega), rd_some (by omega)]
    simp only [Option.bind_some]
    rw [wr_some (by omega)]
    refine ⟨_, rfl, g1, ?_, fun i hi => ?_, fun i ha hb => ?_⟩
    · dsimp only; rw [if_neg (by omega)]; exact g2
    · dsimp only; rw [if_neg (by omega)]; exact g3 i (by omega)
    · dsimp only
      by_cases e : i = n - 1 - j
      · subst e
        rw [if_pos rfl, if_neg (by omega), g3 _ (by omega), show n - 1 - j + 1 = n - j from by omega]
      · rw [if_neg (by omega), if_neg (by omega)]; exact g4 i ha (by omega)

/-- The bisection ends with two neighbouring points around `x` (or with the first or last pair). -/
private theorem search_spec {xa : Buf ℚ} {n : Nat} (hx : n < xa.size) (x : ℚ) : ∀ (fuel : Nat) (lo hi : Nat), 1 ≤ lo → lo < hi → hi ≤ n → hi - lo < fuel + 1 →
    (lo = 1 ∨ xa.val lo ≤ x) → (hi = n ∨ x < xa.val hi) →
    ∃ k : Nat, splintSearch xa x (fuel + 1) lo hi = some ((k : Int), ((k + 1 : Nat) : Int)) ∧ 1 ≤ k ∧ k < n ∧ (k = 1 ∨ xa.val k ≤ x) ∧ (k + 1 = n ∨ x < xa.val (k + 1 : Nat)) := by
  intro fuel
  induction fuel with
  | zero => intro lo hi _ _ _ h; omega
  | succ fuel ih =>
    intro lo hi h1 h2 h3 h4 h5 h6
    rw [splintSearch]
    by_cases h : (hi : Int) - lo > 1
    · rw [if_pos h]
      have e : ((hi : Int) + lo) / 2 = ((hi + lo) / 2 : Nat) := by omega
      simp only [Option.bind_eq_bind]
      rw [e, rd_some (by omega), Option.bind_some]
      by_cases hv : xa.val ((hi + lo) / 2 : Nat) > x
      · rw [if_pos hv]
        exact ih lo _ h1 (by omega) (by omega) (by omega) h5 (Or.inr hv)
      · rw [if_neg hv]
        exact ih _ hi (by omega) (by omega) h3 (by omega) (Or.inr (not_lt.1 hv)) h6
    · rw [if_neg h]
      have e : hi = lo + 1 := by omega
      subst e
      exact ⟨lo, rfl, h1, by omega, h5, h6⟩

open Polynomial in
/-- The cubic on one interval. -/
private noncomputable def piece (x0 x1 y0 y1 m0 m1 : ℚ) : ℚ[X] :=
  C ((x1 - x0)⁻¹) * (C x1 - X) * C y0 + C ((x1 - x0)⁻¹) * (X - C x0) * C y1 +
    (((C ((x1 - x0)⁻¹) * (C x1 - X)) ^ 3 - C ((x1 - x0)⁻¹) * (C x1 - X)) * C m0 + ((C ((x1 - x0)⁻¹) * (X - C x0)) ^ 3 - C ((x1 - x0)⁻¹) * (X - C x0)) * C m1) *
      C ((x1 - x0) ^ 2 / 6)

open Polynomial in
private theorem piece_eval (x0 x1 y0 y1 m0 m1 t : ℚ) : (piece x0 x1 y0 y1 m0 m1).eval t = (x1 - t) / (x1 - x0) * y0 + (t - x0) / (x1 - x0) * y1 +
    (((x1 - t) / (x1 - x0) * ((x1 - t) / (x1 - x0)) * ((x1 - t) / (x1 - x0)) - (x1 - t) / (x1 - x0)) * m0 +
      ((t - x0) / (x1 - x0) * ((t - x0) / (x1 - x0)) * ((t - x0) / (x1 - x0)) - (t - x0) / (x1 - x0)) * m1) * ((x1 - x0) * (x1 - x0)) / 6 := by
  simp only [piece, eval_add, eval_mul, eval_C, eval_sub, eval_X, eval_pow]
  ring

open Polynomial in
private theorem piece_deriv {x0 x1 : ℚ} (h : x1 - x0 ≠ 0) (y0 y1 m0 m1 t : ℚ) : (derivative (piece x0 x1 y0 y1 m0 m1)).eval t = (y1 - y0) / (x1 - x0) +
    ((1 - 3 * ((x1 - t) / (x1 - x0)) ^ 2) * m0 + (3 * ((t - x0) / (x1 - x0)) ^ 2 - 1) * m1) * (x1 - x0) / 6 := by
  simp only [piece, derivative_add, derivative_mul, derivative_C, derivative_sub, derivative_X, derivative_pow, eval_add, eval_mul, eval_C, eval_sub, eval_X, eval_pow, eval_zero, eval_one]
  simp
  field_simp
  ring

open Polynomial in
private theorem piece_deriv2 {x0 x1 : ℚ} (h : x1 - x0 ≠ 0) (y0 y1 m0 m1 t : ℚ) : (derivative (derivative (piece x0 x1 y0 y1 m0 m1))).eval t =
    (x1 - t) / (x1 - x0) * m0 + (t - x0) / (x1 - x0) * m1 := by
  simp only [piece, derivative_add, derivative_mul, derivative_C, derivative_sub, derivative_X, derivative_pow, derivative_zero, derivative_one, eval_add, eval_mul, eval_C, eval_sub, eval_X, eval_pow, eval_zero, eval_one]
  simp
  field_simp
  ring

open Polynomial in
private theorem piece_degree (x0 x1 y0 y1 m0 m1 : ℚ) : (piece x0 x1 y0 y1 m0 m1).natDegree ≤ 3 := by
  unfold piece
  compute_degree

private theorem slopes_meet {x0 x1 x2 y0 y1 y2 m0 m1 m2 : ℚ} (n1 : x1 - x0 ≠ 0) (n2 : x2 - x1 ≠ 0) (n3 : x2 - x0 ≠ 0)
    (g : (x1 - x0) / (x2 - x0) * m0 + 2 * m1 + (1 - (x1 - x0) / (x2 - x0)) * m2 = 6 * ((y2 - y1) / (x2 - x1) - (y1 - y0) / (x1 - x0)) / (x2 - x0)) :
    (y1 - y0) / (x1 - x0) + ((1 - 3 * ((x1 - x1) / (x1 - x0)) ^ 2) * m0 + (3 * ((x1 - x0) / (x1 - x0)) ^ 2 - 1) * m1) * (x1 - x0) / 6 =
      (y2 - y1) / (x2 - x1) + ((1 - 3 * ((x2 - x1) / (x2 - x1)) ^ 2) * m1 + (3 * ((x1 - x1) / (x2 - x1)) ^ 2 - 1) * m2) * (x2 - x1) / 6 := by
  rw [div_self n1, div_self n2, sub_self, zero_div, zero_div]
  have e : (x1 - x0) * m0 + 2 * (x2 - x0) * m1 + (x2 - x1) * m2 = 6 * ((y2 - y1) / (x2 - x1) - (y1 - y0) / (x1 - x0)) := by
    generalize (y2 - y1) / (x2 - x1) = a at *
    generalize (y1 - y0) / (x1 - x0) = b at *
    field_simp at g
    linear_combination g
  linear_combination e / 6

open Polynomial in
/-- **C43.** For at least two points with increasing abscissae, `spline` followed by `splint` evaluates a cubic spline through the points: on every
interval between neighbouring points (with the first and last interval extended outwards) a polynomial of degree at most three that takes the given
depths at both ends, whose first and second derivative continue across the points.  A slope argument above `0.99e30` gives a vanishing second
derivative at that end, any other argument is the slope there. -/
theorem spline_interpolates {x y y2 : Buf ℚ} {n : Nat} (hn : 2 ≤ n) (hx : n < x.size) (hy : n < y.size) (h2 : n < y2.size)
    (hinc : ∀ i : Nat, 1 ≤ i → i < n → x.val i < x.val (i + 1 : Nat)) (yp1 ypn : ℚ) :
    ∃ (z : Buf ℚ) (P : Nat → ℚ[X]), spline x y n yp1 ypn y2 = some z ∧
      (∀ (k : Nat) (t : ℚ), 1 ≤ k → k < n → (k = 1 ∨ x.val k ≤ t) → (k + 1 = n ∨ t < x.val (k + 1 : Nat)) → splint x y z n t = some ((P k).eval t)) ∧
      (∀ k : Nat, 1 ≤ k → k < n → (P k).natDegree ≤ 3 ∧ (P k).eval (x.val k) = y.val k ∧ (P k).eval (x.val (k + 1 : Nat)) = y.val (k + 1 : Nat)) ∧
      (∀ k : Nat, 1 ≤ k → k + 1 < n → (derivative (P k)).eval (x.val (k + 1 : Nat)) = (derivative (P (k + 1))).eval (x.val (k + 1 : Nat)) ∧
        (derivative (derivative (P k))).eval (x.val (k + 1 : Nat)) = (derivative (derivative (P (k + 1)))).eval (x.val (k + 1 : Nat))) ∧
      (if yp1 > 99 * 10 ^ 28 then (derivative (derivative (P 1))).eval (x.val (1 : Nat)) = 0 else (derivative (P 1)).eval (x.val (1 : Nat)) = yp1) ∧
      (if ypn > 99 * 10 ^ 28 then (derivative (derivative (P (n - 1)))).eval (x.val n) = 0 else (derivative (P (n - 1))).eval (x.val n) = ypn) := by
  obtain ⟨z, e, hz, h3, h4, h5, h6, h7⟩ := spline_spec hn hx hy h2 hinc yp1 ypn
  have hne : ∀ k : Nat, 1 ≤ k → k < n → x.val (k + 1 : Nat) - x.val k ≠ 0 := fun k a b => ne_of_gt (sub_pos.2 (hinc k a b))
  have hlt : ∀ j : Nat, ∀ i : Nat, 1 ≤ i → i < j → j ≤ n → x.val i < x.val j := by
    intro j
    induction j with
    | zero => intro i _ h; omega
    | succ j ih =>
      intro i a b c
      by_cases g : i = j
      · subst g; exact hinc _ a (by omega)
      · exact lt_trans (ih i a (by omega) (by omega)) (hinc j (by omega) (by omega))
  refine ⟨z, fun k => piece (x.val k) (x.val (k + 1 : Nat)) (y.val k) (y.val (k + 1 : Nat)) (z.val k) (z.val (k + 1 : Nat)), e, ?_, ?_, ?_, ?_, ?_⟩
  · intro k t a b c d
    obtain ⟨k', e', a', b', c', d'⟩ := search_spec hx t n 1 n (le_refl _) (by omega) (le_refl _) (by omega) (Or.inl rfl) (Or.inl rfl)
    have hk : k' = k := by
      rcases Nat.lt_trichotomy k' k with g | g | g
      · have g1 : t < x.val (k' + 1 : Nat) := d'.resolve_left (by omega)
        have g2 : x.val k ≤ t := c.resolve_left (by omega)
        have g3 : x.val (k' + 1 : Nat) ≤ x.val k := by
          by_cases g4 : k' + 1 = k
          · rw [g4]
          · exact le_of_lt (hlt k _ (by omega) (by omega) (by omega))
        linarith
      · exact g
      · have g1 : t < x.val (k + 1 : Nat) := d.resolve_left (by omega)
        have g2 : x.val k' ≤ t := c'.resolve_left (by omega)
        have g3 : x.val (k + 1 : Nat) ≤ x.val k' := by
          by_cases g4 : k + 1 = k'
          · rw [g4]
          · exact le_of_lt (hlt k' _ (by omega) (by omega) (by omega))
        linarith
    subst hk
    unfold splint
    rw [show ((1 : Nat) : Int) = 1 from rfl] at e'
    rw [e', do_some]
    dsimp only
    rw [rd_some (by omega), do_some, rd_some (by omega), do_some]
    rw [quot_some (hne _ a b), do_some, quot_some (hne _ a b), do_some, rd_some (by omega), do_some, rd_some (by omega), do_some, rd_some (by omega), do_some, rd_some (by omega), do_some, piece_eval]
    rfl
  · intro k a b
    have := hne k a b
    refine ⟨piece_degree _ _ _ _ _ _, ?_, ?_⟩
    · rw [piece_eval]; field_simp; ring
    · rw [piece_eval]; field_simp; ring
  · intro k a b
    have n1 := hne k a (by omega)
    have n2 := hne (k + 1) (by omega) (by omega)
    constructor
    · dsimp only
      rw [piece_deriv n1, piece_deriv n2]
      have g := h3 (k + 1) (by omega) (by omega)
      rw [show k + 1 - 1 = k from rfl] at g
      exact slopes_meet n1 n2 (by have := hinc k a (by omega); have := hinc (k + 1) (by omega) (by omega); exact ne_of_gt (by linarith)) g
    · dsimp only
      rw [piece_deriv2 n1, piece_deriv2 n2, div_self n1, div_self n2]; ring
  · have n1 := hne 1 (le_refl _) (by omega)
    split
    · next h =>
      dsimp only
      rw [piece_deriv2 n1, h4 h]; ring
    · next h =>
      dsimp only
      rw [piece_deriv n1, div_self n1]
      have g := h5 h
      rw [show 1 + 1 = 2 from rfl] at *
      generalize x.val (2 : Nat) - x.val (1 : Nat) = d at *
      field_simp at g ⊢
      linear_combination -g
  · have n1 := hne (n - 1) (by omega) (by omega)
    rw [show n - 1 + 1 = n from by omega] at n1
    split
    · next h =>
      dsimp only
      rw [show n - 1 + 1 = n from by omega, piece_deriv2 n1, h6 h]; ring
    · next h =>
      dsimp only
      rw [show n - 1 + 1 = n from by omega, piece_deriv n1, div_self n1]
      have g := h7 h
      generalize x.val n - x.val (n - 1 : Nat) = d at *
      field_simp at g ⊢
      linear_combination g

/-- **C43.** At an interface point the spline returns the depth of the point. -/
theorem spline_passes_through {x y y2 : Buf ℚ} {n : Nat} (hn : 2 ≤ n) (hx : n < x.size) (hy : n < y.size) (h2 : n < y2.size)
    (hinc : ∀ i : Nat, 1 ≤ i → i < n → x.val i < x.val (i + 1 : Nat)) (yp1 ypn : ℚ) {i : Nat} (h1 : 1 ≤ i) (hi : i ≤ n) :
    (spline x y n yp1 ypn y2).bind (fun z => splint x y z n (x.val i)) = some (y.val i) := by
  obtain ⟨z, P, e, h, hP, _⟩ := spline_interpolates hn hx hy h2 hinc yp1 ypn
  rw [e, Option.bind_some]
  by_cases g : i = n
  · subst g
    have q := hP (i - 1) (by omega) (by omega)
    rw [show i - 1 + 1 = i from by omega] at q
    have := hinc (i - 1) (by omega) (by omega)
    rw [show i - 1 + 1 = i from by omega] at this
    rw [h (i - 1) _ (by omega) (by omega) (Or.inr (le_of_lt this)) (Or.inl (by omega)), q.2.2]
  · rw [h i _ h1 (by omega) (Or.inr (le_refl _)) (Or.inr (hinc i h1 (by omega))), (hP i h1 (by omega)).2.1]

/-- A single point: the scratch array has one element but element 1 is written (spline.c:19, 22 and 25). -/
theorem spline_one_point (x y y2 : Buf ℚ) (yp1 ypn : ℚ) : spline x y 1 yp1 ypn y2 = none := by
  have hw : ∀ v, (⟨1, fun _ => 0⟩ : Buf ℚ).wr 1 v = none := fun v => by unfold Buf.wr; rw [if_neg (by unfold Buf.ok; dsimp only; omega)]
  have : splineFirst x y yp1 y2 ⟨1, fun _ => 0⟩ = none := by
    unfold splineFirst
    split
    · rw [hw]; rfl
    · cases y2.wr 1 (-1 / 2) with
      | none => rfl
      | some a =>
        cases x.rd 1 with
        | none => rfl
        | some b =>
          cases x.rd 2 with
          | none => rfl
          | some c =>
            cases y.rd 1 with
            | none => rfl
            | some d =>
              cases y.rd 2 with
              | none => rfl
              | some e =>
                rw [do_some, do_some, do_some, do_some, do_some]
                cases quot 3 (c - b) with
                | none => rfl
                | some f =>
                  cases quot (e - d) (c - b) with
                  | none => rfl
                  | some g => rw [do_some, do_some, hw]; rfl
  unfold spline
  rw [this]; rfl

/-- Non-vacuity: the natural spline through (0,0), (1,1), (2,0) at 1/2. -/
example : (spline ⟨4, fun i => i - 1⟩ ⟨4, fun i => if i = 2 then 1 else 0⟩ 3 (10 ^ 30) (10 ^ 30) ⟨4, fun _ => 0⟩).bind
    (fun z => splint ⟨4, fun i => i - 1⟩ ⟨4, fun i => if i = 2 then 1 else 0⟩ z 3 (1 / 2)) = some (11 / 16) := by decide +kernel

example : ∀ i : Nat, 1 ≤ i → i < 3 → (fun i : Int => (i : ℚ) - 1) i < (fun i : Int => (i : ℚ) - 1) (i + 1 : Nat) := by
  intro i _ _; push_cast; linarith

end Verif.Util

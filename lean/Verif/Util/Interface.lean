import Verif.Util.Spline
import Verif.Base.Num
import Mathlib.Tactic.GCongr

/-!
# C59: interfaces of makemod on the grid (utils/interpolation.c)

The `nxp` points of an interface are `x i`, `z i`; coordinates and depths are rationals.  The array `interface` has `nx` elements (makemod.c:331);
an access outside it is the outcome `none`.  `pminx`, `pmaxx` keep the caller's value if no point sets them.
-/

namespace Verif.Util
open Verif

/-- Variables of the loop over the points (interpolation.c:36-39, 42-45). -/
structure LinState where
  np : Int
  xprev : ℚ
  zprev : ℚ
  minx : ℚ
  maxx : ℚ
  pmin : Int
  pmax : Int
  out : Buf ℚ

/-- Update of the range of columns by a point (interpolation.c:47-56; the same lines are at 77-86 and 104-113). -/
def trackRange (x : ℚ) (nx : Nat) (dx : ℚ) (s : LinState) : LinState :=
  let s := if x < s.minx then { s with xprev := x, minx := x, pmin := NINT (x / dx), np := NINT (x / dx) } else s
  if x > s.maxx then { s with maxx := x, pmax := min (NINT ((x + dx) / dx)) nx } else s

/-- The loop writing the line between two points (interpolation.c:61-63). -/
def drawLine (nx : Nat) (dx zprev deltx deltz : ℚ) (ndeltx : Int) (s : Int × Buf ℚ) : Option (Int × Buf ℚ) :=
  forNM ndeltx.toNat (fun j (s : Int × Buf ℚ) =>
    if s.1 < nx then (quot (j * dx * deltz) deltx).bind fun q => (s.2.wr s.1 (zprev + q)).map fun b => (s.1 + 1, b) else some s) s

/-- One point of a piecewise linear interface (interpolation.c:46-66). -/
def linearPoint (x z : Nat → ℚ) (nx : Nat) (dx : ℚ) (i : Nat) (s : LinState) : Option LinState :=
  let s := trackRange (x i) nx dx s
  let deltx := x i - s.xprev
  let deltz := z i - s.zprev
  let ndeltx := if i = 0 then -1 else NINT |deltx / dx|
  (drawLine nx dx s.zprev deltx deltz ndeltx (s.np, s.out)).map fun r => { s with np := r.1, out := r.2, xprev := x i, zprev := z i }

/-- `poly=0` (interpolation.c:41-68); returns `*pminx`, `*pmaxx` and the interface. -/
def linearInterface (x z : Nat → ℚ) (nxp nx : Nat) (dx : ℚ) (pmin pmax : Int) (out : Buf ℚ) : Option (Int × Int × Buf ℚ) := do
  let s ← forNM nxp (linearPoint x z nx dx) ⟨0, 0, 0, nx * dx, 0, pmin, pmax, out⟩
  let out ← forIM s.np s.pmax (fun j (b : Buf ℚ) => b.wr j (z (nxp - 1))) s.out
  pure (s.pmin, s.pmax, out)

/-- The copies `xa[1..nxp]`, `za[1..nxp]` of the points (interpolation.c:70-73, 97-100). -/
def oneBased (nxp : Nat) (x : Nat → ℚ) : Buf ℚ := ⟨nxp + 1, fun i => x (i - 1).toNat⟩

/-- The range of columns when nothing is written while it is determined (interpolation.c:75-87, 102-114). -/
def columnRange (x : Nat → ℚ) (nxp nx : Nat) (dx : ℚ) (pmin pmax : Int) : Int × Int :=
  let s := forN nxp (fun i => trackRange (x i) nx dx) ⟨0, 0, 0, nx * dx, 0, pmin, pmax, ⟨0, fun _ => 0⟩⟩
  (s.pmin, s.pmax)

/-- `poly=1` (interpolation.c:69-94). -/
def polyInterface (x z : Nat → ℚ) (nxp nx : Nat) (dx : ℚ) (pmin pmax : Int) (out : Buf ℚ) : Option (Int × Int × Buf ℚ) := do
  let r := columnRange x nxp nx dx pmin pmax
  let out ← forIM r.1 r.2 (fun j (b : Buf ℚ) => (polint (oneBased nxp x) (oneBased nxp z) nxp (j * dx)).bind (b.wr j)) out
  pure (r.1, r.2, out)

/-- `poly=2` (interpolation.c:95-126): a spline with free ends (`yp1 = ypn = 1e30`). -/
def splineInterface (x z : Nat → ℚ) (nxp nx : Nat) (dx : ℚ) (pmin pmax : Int) (out : Buf ℚ) : Option (Int × Int × Buf ℚ) := do
  let r := columnRange x nxp nx dx pmin pmax
  let y2 ← spline (oneBased nxp x) (oneBased nxp z) nxp (10 ^ 30) (10 ^ 30) ⟨nxp + 1, fun _ => 0⟩
  let out ← forIM r.1 r.2 (fun j (b : Buf ℚ) => (splint (oneBased nxp x) (oneBased nxp z) y2 nxp (j * dx)).bind (b.wr j)) out
  pure (r.1, r.2, out)

/-! ## Linear interfaces -/

private theorem drawLine_spec {nx : Nat} {dx zprev deltx deltz : ℚ} (hd : deltx ≠ 0) (p : Nat) (out : Buf ℚ) (ho : out.size = nx) (nd : Nat) :
    ∃ b : Buf ℚ, drawLine nx dx zprev deltx deltz nd (((min p nx : Nat) : Int), out) = some (((min (p + nd) nx : Nat) : Int), b) ∧ b.size = nx ∧
      (∀ j : Nat, j < nd → p + j < nx → b.val (p + j : Nat) = zprev + j * dx * deltz / deltx) ∧
      ∀ i : Int, (∀ j : Nat, j < nd → p + j < nx → i ≠ (p + j : Nat)) → b.val i = out.val i := by
  unfold drawLine
  rw [Int.toNat_natCast]
  obtain ⟨⟨q, b⟩, e, h1, h2, h3, h4⟩ := forNM_inv (n := nd) (body := fun j (s : Int × Buf ℚ) =>
    if s.1 < nx then (quot (j * dx * deltz) deltx).bind fun q => (s.2.wr s.1 (zprev + q)).map fun b => (s.1 + 1, b) else some s) (s := (((min p nx : Nat) : Int), out))
    (fun k s => s.1 = ((min (p + k) nx : Nat) : Int) ∧ s.2.size = nx ∧ (∀ j : Nat, j < k → p + j < nx → s.2.val (p + j : Nat) = zprev + j * dx * deltz / deltx) ∧
      ∀ i : Int, (∀ j : Nat, j < k → p + j < nx → i ≠ (p + j : Nat)) → s.2.val i = out.val i)
    ⟨rfl, ho, fun j hj => by omega, fun i _ => rfl⟩ (by
      rintro k hk ⟨q, b⟩ ⟨h1, h2, h3, h4⟩
      dsimp only at h1 h2 h3 h4 ⊢
      subst h1
      by_cases hlt : p + k < nx
      · rw [if_pos (by omega), quot_some hd, Option.bind_some, wr_some (by omega)]
        refine ⟨_, rfl, by dsimp only; omega, h2, fun j hj hj2 => ?_, fun i hi => ?_⟩
        · dsimp only
          by_cases e : j = k
          · subst e; rw [if_pos (by omega)]
          · rw [if_neg (by omega)]; exact h3 j (by omega) hj2
        · dsimp only
          rw [if_neg (by have := hi k (by omega) hlt; omega)]
          exact h4 i fun j hj hj2 => hi j (by omega) hj2
      · rw [if_neg (by omega)]
        exact ⟨_, rfl, by dsimp only; omega, h2, fun j hj hj2 => h3 j (by omega) hj2, fun i hi => h4 i fun j hj hj2 => hi j (by omega) hj2⟩)
  dsimp only at h1 h2 h3 h4
  subst h1
  exact ⟨b, e, h2, h3, h4⟩

private theorem grid_mono {g : Nat → Nat} {n : Nat} (hg : ∀ i, i + 1 < n → g i < g (i + 1)) : ∀ j i, i < j → j < n → g i < g j := by
  intro j
  induction j with
  | zero => intro i h; omega
  | succ j ih =>
    intro i h hj
    by_cases e : i = j
    · subst e; exact hg _ hj
    · exact lt_trans (ih i (by omega) (by omega)) (hg j hj)

/-- Value at column `j` of the line between column `a` (depth `za`) and column `b` (depth `zb`). -/
def lineAt (a b : Nat) (za zb : ℚ) (j : Nat) : ℚ := za + (zb - za) * (j - a) / (b - a)

private theorem nint_mul {dx : ℚ} (hd : 0 < dx) (k : Nat) : NINT (k * dx / dx) = k := by
  rw [mul_div_assoc, div_self (ne_of_gt hd), mul_one]; exact_mod_cast NINT_int (k : Int)

private theorem nint_mul_succ {dx : ℚ} (hd : 0 < dx) (k : Nat) : NINT ((k * dx + dx) / dx) = (k + 1 : Nat) := by
  rw [show (k : ℚ) * dx + dx = ((k + 1 : Nat) : ℚ) * dx from by push_cast; ring]; exact nint_mul hd _

/-- **C59.** A piecewise linear interface given by at least two points on grid columns, in increasing order, of which the first lies inside the model,
is written inside the array; every column between the first and the last point (as far as the model reaches) gets the depth of the straight line between
the two neighbouring points, the reported range is exactly these columns, and no other column changes. -/
theorem linear_interface_partial {g : Nat → Nat} {z : Nat → ℚ} {nxp nx : Nat} {dx : ℚ} (hd : 0 < dx) (hn : 2 ≤ nxp) (hg : ∀ i, i + 1 < nxp → g i < g (i + 1))
    (h0 : g 0 < nx) (pmin pmax : Int) {out : Buf ℚ} (ho : out.size = nx) :
    ∃ b : Buf ℚ, linearInterface (fun i => g i * dx) z nxp nx dx pmin pmax out = some ((g 0 : Int), ((min (g (nxp - 1) + 1) nx : Nat) : Int), b) ∧ b.size = nx ∧
      (∀ i j : Nat, i + 1 < nxp → g i ≤ j → j ≤ g (i + 1) → j < nx → b.val j = lineAt (g i) (g (i + 1)) (z i) (z (i + 1)) j) ∧
      ∀ j : Nat, j < g 0 ∨ g (nxp - 1) < j → b.val j = out.val j := by
  have hmono := grid_mono hg
  have hloop : ∀ k, k < nxp → ∃ s, forNM (k + 1) (linearPoint (fun i => g i * dx) z nx dx) ⟨0, 0, 0, nx * dx, 0, pmin, pmax, out⟩ = some s ∧
      s.np = ((min (g k) nx : Nat) : Int) ∧ s.xprev = g k * dx ∧ s.zprev = z k ∧ s.minx = g 0 * dx ∧ s.maxx = g k * dx ∧ s.pmin = g 0 ∧
      (0 < g k → s.pmax = ((min (g k + 1) nx : Nat) : Int)) ∧ s.out.size = nx ∧
      (∀ i j : Nat, i + 1 ≤ k → g i ≤ j → j < g (i + 1) → j < nx → s.out.val j = lineAt (g i) (g (i + 1)) (z i) (z (i + 1)) j) ∧
      ∀ j : Nat, j < g 0 ∨ g k ≤ j → s.out.val j = out.val j := by
    intro k
    induction k with
    | zero =>
      intro _
      have hlt : (g 0 : ℚ) * dx < nx * dx := by
        have : (g 0 : ℚ) < nx := by exact_mod_cast h0
        exact mul_lt_mul_of_pos_right this hd
      rw [forNM_succ, forNM_zero, Option.bind_some]
      unfold linearPoint trackRange
      dsimp only
      rw [if_pos hlt, nint_mul hd, if_pos rfl]
      unfold drawLine
      rw [show ((-1 : Int)).toNat = 0 from rfl, forNM_zero]
      by_cases hp : (g 0 : ℚ) * dx > 0
      · dsimp only
        rw [if_pos hp]
        refine ⟨_, rfl, ?_, rfl, rfl, rfl, rfl, rfl, fun _ => ?_, ho, fun i j hi => by omega, fun j _ => rfl⟩
        · dsimp only; omega
        · dsimp only; rw [nint_mul_succ hd]; omega
      · dsimp only
        rw [if_neg hp]
        have hz : g 0 = 0 := by
          by_contra h
          exact hp (mul_pos (by exact_mod_cast Nat.pos_of_ne_zero h) hd)
        refine ⟨_, rfl, ?_, rfl, rfl, rfl, ?_, rfl, fun h => by omega, ho, fun i j hi => by omega, fun j _ => rfl⟩
        · dsimp only; omega
        · dsimp only; rw [hz]; simp
    | succ k ih =>
      intro hk
      obtain ⟨s, e, s1, s2, s3, s4, s5, s6, s7, s8, s9, s10⟩ := ih (by omega)
      have hlt : g k < g (k + 1) := hg k hk
      have hltq : (g k : ℚ) < g (k + 1) := by exact_mod_cast hlt
      have h0k : g 0 < g (k + 1) := hmono _ _ (by omega) hk
      have hn1 : ¬ (g (k + 1) : ℚ) * dx < s.minx := by
        rw [s4]
        have : (g 0 : ℚ) < g (k + 1) := by exact_mod_cast h0k
        nlinarith
      have hp1 : (g (k + 1) : ℚ) * dx > s.maxx := by rw [s5]; exact mul_lt_mul_of_pos_right hltq hd
      rw [forNM_succ, e, Option.bind_some]
      unfold linearPoint trackRange
      dsimp only
      rw [if_neg hn1, if_pos hp1, if_neg (by omega)]
      dsimp only
      rw [s1, s2, s3]
      have hdx : (g (k + 1) : ℚ) * dx - g k * dx ≠ 0 := ne_of_gt (by nlinarith)
      have hnd : NINT |((g (k + 1) : ℚ) * dx - g k * dx) / dx| = ((g (k + 1) - g k : Nat) : Int) := by
        rw [← sub_mul, mul_div_assoc, div_self (ne_of_gt hd), mul_one, abs_of_pos (by linarith), ← Nat.cast_sub (le_of_lt hlt)]
        exact_mod_cast NINT_int ((g (k + 1) - g k : Nat) : Int)
      rw [hnd]
      obtain ⟨b, eb, b1, b2, b3⟩ := drawLine_spec (dx := dx) (zprev := z k) (deltz := z (k + 1) - z k) hdx (g k) s.out s8 (g (k + 1) - g k)
      rw [eb, nint_mul_succ hd, show g k + (g (k + 1) - g k) = g (k + 1) from by omega]
      refine ⟨_, rfl, rfl, rfl, rfl, s4, rfl, s6, fun _ => ?_, b1, fun i j hi h1 h2 h3 => ?_, fun j hj => ?_⟩
      · dsimp only; omega
      · dsimp only
        by_cases e2 : i = k
        · subst e2
          have := b2 (j - g i) (by omega) (by omega)
          rw [show g i + (j - g i) = j from by omega] at this
          rw [this, lineAt, Nat.cast_sub h1]
          have : (g (i + 1) : ℚ) - g i ≠ 0 := ne_of_gt (by linarith)
          rw [← sub_mul]
          field_simp
        · have hle : g (i + 1) ≤ g k := by
            by_cases e3 : i + 1 = k
            · rw [e3]
            · exact le_of_lt (hmono _ _ (by omega) (by omega))
          rw [b3 j fun m _ _ => by omega]
          exact s9 i j (by omega) h1 h2 h3
      · dsimp only
        have : g 0 ≤ g k := by
          by_cases e3 : k = 0
          · rw [e3]
          · exact le_of_lt (hmono _ _ (by omega) (by omega))
        rw [b3 j fun m hm _ => by omega]
        exact s10 j (by omega)
  obtain ⟨s, e, s1, s2, s3, s4, s5, s6, s7, s8, s9, s10⟩ := hloop (nxp - 1) (by omega)
  rw [show nxp - 1 + 1 = nxp from by omega] at e
  have hlast : g 0 < g (nxp - 1) := hmono _ _ (by omega) (by omega)
  have hpm := s7 (by omega)
  unfold linearInterface
  rw [e]
  simp only [Option.bind_eq_bind, Option.bind_some]
  unfold forIM
  rw [s1, hpm, s6]
  by_cases hin : g (nxp - 1) < nx
  · rw [show (((min (g (nxp - 1) + 1) nx : Nat) : Int) - ((min (g (nxp - 1)) nx : Nat) : Int)).toNat = 1 from by omega, forNM_succ, forNM_zero, Option.bind_some]
    rw [show ((min (g (nxp - 1)) nx : Nat) : Int) + ((0 : Nat) : Int) = (g (nxp - 1) : Nat) from by omega]
    beta_reduce
    rw [wr_some (by omega)]
    refine ⟨_, rfl, s8, fun i j hi h1 h2 h3 => ?_, fun j hj => ?_⟩
    · dsimp only
      by_cases e2 : j = g (nxp - 1)
      · subst e2
        have hi2 : i + 1 = nxp - 1 := by
          by_contra h
          have := hmono (nxp - 1) (i + 1) (by omega) (by omega)
          omega
        rw [if_pos rfl, hi2, lineAt]
        have hltq : (g i : ℚ) < g (nxp - 1) := by exact_mod_cast hmono _ _ (by omega) (by omega)
        have : (g (nxp - 1) : ℚ) - g i ≠ 0 := ne_of_gt (by linarith)
        field_simp
        ring
      · rw [if_neg (by omega)]
        by_cases e3 : j = g (i + 1)
        · have hi2 : i + 2 < nxp := by
            by_contra h
            exact e2 (by rw [e3]; congr 1; omega)
          have hlt := hg i hi
          have hlt2 := hg (i + 1) hi2
          have := s9 (i + 1) j (by omega) (by omega) (by omega) h3
          rw [this, lineAt, lineAt, e3]
          have : (g (i + 1) : ℚ) - g i ≠ 0 := by
            have : (g i : ℚ) < g (i + 1) := by exact_mod_cast hlt
            exact ne_of_gt (by linarith)
          field_simp
          ring
        · exact s9 i j (by omega) h1 (by omega) h3
    · dsimp only
      rw [if_neg (by omega)]
      exact s10 j (by omega)
  · rw [show (((min (g (nxp - 1) + 1) nx : Nat) : Int) - ((min (g (nxp - 1)) nx : Nat) : Int)).toNat = 0 from by omega, forNM_zero]
    refine ⟨_, rfl, s8, fun i j hi h1 h2 h3 => ?_, fun j hj => s10 j (by omega)⟩
    by_cases e3 : j = g (i + 1)
    · have hi2 : i + 2 < nxp := by
        by_contra h
        have : i + 1 = nxp - 1 := by omega
        rw [this] at e3
        omega
      have hlt := hg i hi
      have hlt2 := hg (i + 1) hi2
      have := s9 (i + 1) j (by omega) (by omega) (by omega) h3
      rw [this, lineAt, lineAt, e3]
      have : (g (i + 1) : ℚ) - g i ≠ 0 := by
        have : (g i : ℚ) < g (i + 1) := by exact_mod_cast hlt
        exact ne_of_gt (by linarith)
      field_simp
      ring
    · exact s9 i j (by omega) h1 (by omega) h3

/-- Non-vacuity: the points (dx, 10), (3dx, 30), (4dx, 0) in a model of six columns. -/
example : ((linearInterface (fun i => ([1, 3, 4].getD i 0 : ℕ) * (5:ℚ)) (fun i => [10, 30, 0].getD i 0) 3 6 5 0 6 ⟨6, fun _ => 0⟩).map
    fun r => (r.1, r.2.1, (List.range 6).map fun j => r.2.2.val j)) = some (1, 5, [0, 10, 20, 30, 0, 0]) := by decide +kernel

/-- **C59 violated.** Points between grid columns: the distances are rounded one by one, so the points of the straight line z = 10 x with distance
1.4 dx drift to the left and the interface is neither straight nor at the right depth in columns 1 and 2 (14 and 28 instead of 10 and 20). -/
theorem linear_interface_drifts : ((linearInterface (fun i => (i : ℚ) * (7 / 5)) (fun i => i * 14) 3 6 1 0 6 ⟨6, fun _ => 0⟩).map
    fun r => (r.1, r.2.1, (List.range 6).map fun j => r.2.2.val j)) = some (0, 4, [0, 14, 28, 28, 0, 0]) := by decide +kernel

/-- **C59 violated.** A point left of the model (accepted by makemod.c:534-537, which only tests the right and lower edge) makes the program write in
front of the array. -/
theorem linear_interface_outside : (linearInterface (fun i => (i : ℚ) - 1) (fun _ => 5) 3 6 1 0 6 ⟨6, fun _ => 0⟩).isNone := by decide +kernel

/-- **C59 violated.** A single point at the left edge leaves the right end of the range at the value of the previous interface. -/
theorem linear_interface_one_point : ((linearInterface (fun _ => 0) (fun _ => 5) 1 6 1 0 4 ⟨6, fun _ => 0⟩).map
    fun r => (r.1, r.2.1, (List.range 6).map fun j => r.2.2.val j)) = some (0, 4, [5, 5, 5, 5, 0, 0]) := by decide +kernel

/-! ## Polynomial and spline interfaces -/

private theorem range_spec {x : Nat → ℚ} {nxp nx : Nat} {dx : ℚ} (hn : 1 ≤ nxp) (hinc : ∀ i, i + 1 < nxp → x i < x (i + 1)) (h0 : 0 ≤ x 0) (hlast : 0 < x (nxp - 1))
    (hx : x 0 < nx * dx) (pmin pmax : Int) : columnRange x nxp nx dx pmin pmax = (NINT (x 0 / dx), min (NINT ((x (nxp - 1) + dx) / dx)) nx) := by
  have key : ∀ k, k < nxp → ∃ s, forN (k + 1) (fun i => trackRange (x i) nx dx) ⟨0, 0, 0, nx * dx, 0, pmin, pmax, ⟨0, fun _ => 0⟩⟩ = s ∧
      s.minx = x 0 ∧ s.maxx = x k ∧ x 0 ≤ x k ∧ s.pmin = NINT (x 0 / dx) ∧ (0 < x k → s.pmax = min (NINT ((x k + dx) / dx)) nx) := by
    intro k
    induction k with
    | zero =>
      intro _
      rw [forN_succ, forN_zero]
      refine ⟨_, rfl, ?_⟩
      unfold trackRange
      dsimp only
      rw [if_pos hx]
      by_cases hp : x 0 > 0
      · dsimp only
        rw [if_pos hp]
        exact ⟨rfl, rfl, le_refl _, rfl, fun _ => rfl⟩
      · dsimp only
        rw [if_neg hp]
        exact ⟨rfl, le_antisymm h0 (not_lt.1 hp), le_refl _, rfl, fun h => absurd h hp⟩
    | succ k ih =>
      intro hk
      obtain ⟨s, e, s1, s2, s3, s4, s5⟩ := ih (by omega)
      have := hinc k hk
      rw [forN_succ, e]
      refine ⟨_, rfl, ?_⟩
      unfold trackRange
      have hn1 : ¬ x (k + 1) < s.minx := by rw [s1]; exact not_lt.2 (by linarith)
      have hp1 : x (k + 1) > s.maxx := by rw [s2]; exact this
      dsimp only
      rw [if_neg hn1, if_pos hp1]
      exact ⟨s1, rfl, by linarith, s4, fun _ => rfl⟩
  obtain ⟨s, e, s1, s2, s3, s4, s5⟩ := key (nxp - 1) (by omega)
  rw [show nxp - 1 + 1 = nxp from by omega] at e
  unfold columnRange
  rw [e]
  dsimp only
  rw [s4, s5 hlast]

private theorem nint_nonneg {q : ℚ} (h : 0 ≤ q) : 0 ≤ NINT q := by
  unfold NINT
  split
  · exact Int.floor_nonneg.2 (by linarith)
  · next h' =>
    have : q = 0 := le_antisymm (not_lt.1 h') h
    subst this
    decide +kernel

private theorem fill_spec {f : Int → Option ℚ} {v : Nat → ℚ} {lo hi : Int} {nx : Nat} (h0 : 0 ≤ lo) (hhi : hi ≤ nx) (hf : ∀ j : Nat, lo ≤ j → j < hi → f j = some (v j)) {out : Buf ℚ}
    (ho : out.size = nx) : ∃ b : Buf ℚ, forIM lo hi (fun j (b : Buf ℚ) => (f j).bind (b.wr j)) out = some b ∧ b.size = nx ∧
      (∀ j : Nat, lo ≤ j → j < hi → b.val j = v j) ∧ ∀ j : Int, j < lo ∨ hi ≤ j → b.val j = out.val j := by
  unfold forIM
  obtain ⟨b, e, h1, h2, h3⟩ := forNM_inv (n := (hi - lo).toNat) (body := fun k (b : Buf ℚ) => (fun (j : Int) (b : Buf ℚ) => (f j).bind (b.wr j)) (lo + k) b) (s := out)
    (fun k b => b.size = nx ∧ (∀ j : Nat, lo ≤ j → j < lo + k → b.val j = v j) ∧ ∀ j : Int, j < lo ∨ lo + k ≤ j → b.val j = out.val j)
    ⟨ho, fun j a b => by omega, fun j _ => rfl⟩ (by
      rintro k hk b ⟨h1, h2, h3⟩
      beta_reduce
      obtain ⟨m, hm⟩ := Int.eq_ofNat_of_zero_le (show 0 ≤ lo + k by omega)
      rw [hm, hf m (by omega) (by omega), Option.bind_some, wr_some (by omega)]
      refine ⟨_, rfl, h1, fun j a c => ?_, fun j a => ?_⟩
      · dsimp only
        by_cases e : j = m
        · subst e; rw [if_pos rfl]
        · rw [if_neg (by omega)]; exact h2 j a (by omega)
      · dsimp only
        rw [if_neg (by omega)]; exact h3 j (by omega))
  exact ⟨b, e, h1, fun j a c => h2 j a (by omega), fun j a => h3 j (by omega)⟩

private theorem oneBased_val (nxp : Nat) (x : Nat → ℚ) (i : Nat) : (oneBased nxp x).val (i + 1 : Nat) = x i := by
  simp [oneBased]

private theorem increasing {x : Nat → ℚ} {n : Nat} (h : ∀ i, i + 1 < n → x i < x (i + 1)) : ∀ j i, i < j → j < n → x i < x j := by
  intro j
  induction j with
  | zero => intro i h; omega
  | succ j ih =>
    intro i a b
    by_cases e : i = j
    · subst e; exact h _ b
    · exact lt_trans (ih i (by omega) (by omega)) (h j b)

/-- **C59.** With `poly=1` and points in increasing order of which none lies left of the model, the first inside it and the last not at its left edge,
every column from the one nearest to the first point up to the one nearest to the last point gets the value there of the polynomial through the points. -/
theorem poly_interface_partial {x z : Nat → ℚ} {nxp nx : Nat} {dx : ℚ} (hd : 0 < dx) (hn : 1 ≤ nxp) (hinc : ∀ i, i + 1 < nxp → x i < x (i + 1)) (h0 : 0 ≤ x 0)
    (hlast : 0 < x (nxp - 1)) (hx : x 0 < nx * dx) (pmin pmax : Int) {out : Buf ℚ} (ho : out.size = nx) :
    ∃ (b : Buf ℚ) (p : Polynomial ℚ), polyInterface x z nxp nx dx pmin pmax out = some (NINT (x 0 / dx), min (NINT ((x (nxp - 1) + dx) / dx)) nx, b) ∧ b.size = nx ∧
      p.degree < nxp ∧ (∀ i < nxp, p.eval (x i) = z i) ∧
      (∀ j : Nat, NINT (x 0 / dx) ≤ j → (j : Int) < min (NINT ((x (nxp - 1) + dx) / dx)) nx → b.val j = p.eval (j * dx)) ∧
      ∀ j : Int, j < NINT (x 0 / dx) ∨ min (NINT ((x (nxp - 1) + dx) / dx)) nx ≤ j → b.val j = out.val j := by
  have hinj : ∀ i j : Nat, 1 ≤ i → i < j → j ≤ nxp → (oneBased nxp x).val i ≠ (oneBased nxp x).val j := by
    intro i j a b c
    obtain ⟨i, rfl⟩ : ∃ i', i = i' + 1 := ⟨i - 1, by omega⟩
    obtain ⟨j, rfl⟩ : ∃ j', j = j' + 1 := ⟨j - 1, by omega⟩
    rw [oneBased_val, oneBased_val]
    exact ne_of_lt (increasing hinc j i (by omega) (by omega))
  have hP := fun t => polint_interpolates (xa := oneBased nxp x) (ya := oneBased nxp z) hn (Nat.lt_succ_self nxp) (Nat.lt_succ_self nxp) hinj t
  obtain ⟨p, _, p2, p3, p4⟩ := hP 0
  have hp : ∀ t, polint (oneBased nxp x) (oneBased nxp z) nxp t = some (p.eval t) := by
    intro t
    obtain ⟨q, q1, q2, q3, _⟩ := hP t
    rw [q1, p4 q q2 q3]
  obtain ⟨b, e, h1, h2, h3⟩ := fill_spec (f := fun j => polint (oneBased nxp x) (oneBased nxp z) nxp (j * dx)) (v := fun j => p.eval (j * dx)) (lo := NINT (x 0 / dx))
    (hi := min (NINT ((x (nxp - 1) + dx) / dx)) nx) (nx := nx) (nint_nonneg (div_nonneg h0 (le_of_lt hd))) (by omega) (fun j _ _ => by
      rw [hp, Int.cast_natCast]) ho
  refine ⟨b, p, ?_, h1, p2, fun i hi => ?_, h2, h3⟩
  · unfold polyInterface
    rw [range_spec hn hinc h0 hlast hx]
    simp only [Option.bind_eq_bind]
    rw [e]; rfl
  · have := p3 (i + 1) (by omega) (by omega)
    rwa [oneBased_val, oneBased_val] at this

open Polynomial in
/-- **C59.** With `poly=2`, under the same conditions and with at least two points, the columns get the values of the natural cubic spline through the points:
piecewise cubic, with continuous first and second derivative and without curvature at the ends. -/
theorem spline_interface_partial {x z : Nat → ℚ} {nxp nx : Nat} {dx : ℚ} (hd : 0 < dx) (hn : 2 ≤ nxp) (hinc : ∀ i, i + 1 < nxp → x i < x (i + 1)) (h0 : 0 ≤ x 0)
    (hx : x 0 < nx * dx) (pmin pmax : Int) {out : Buf ℚ} (ho : out.size = nx) :
    ∃ (b : Buf ℚ) (P : Nat → ℚ[X]), splineInterface x z nxp nx dx pmin pmax out = some (NINT (x 0 / dx), min (NINT ((x (nxp - 1) + dx) / dx)) nx, b) ∧ b.size = nx ∧
      (∀ k, k + 1 < nxp → (P k).natDegree ≤ 3 ∧ (P k).eval (x k) = z k ∧ (P k).eval (x (k + 1)) = z (k + 1)) ∧
      (∀ k, k + 2 < nxp → (derivative (P k)).eval (x (k + 1)) = (derivative (P (k + 1))).eval (x (k + 1)) ∧
        (derivative (derivative (P k))).eval (x (k + 1)) = (derivative (derivative (P (k + 1)))).eval (x (k + 1))) ∧
      (derivative (derivative (P 0))).eval (x 0) = 0 ∧ (derivative (derivative (P (nxp - 2)))).eval (x (nxp - 1)) = 0 ∧
      (∀ j k : Nat, NINT (x 0 / dx) ≤ j → (j : Int) < min (NINT ((x (nxp - 1) + dx) / dx)) nx → k + 1 < nxp → (k = 0 ∨ x k ≤ j * dx) → (k + 2 = nxp ∨ j * dx < x (k + 1)) →
        b.val j = (P k).eval (j * dx)) ∧
      ∀ j : Int, j < NINT (x 0 / dx) ∨ min (NINT ((x (nxp - 1) + dx) / dx)) nx ≤ j → b.val j = out.val j := by
  have hlast : 0 < x (nxp - 1) := lt_of_le_of_lt h0 (increasing hinc (nxp - 1) 0 (by omega) (by omega))
  obtain ⟨y2, P, e, h1, h2, h3, h4, h5⟩ := spline_interpolates (x := oneBased nxp x) (y := oneBased nxp z) (y2 := ⟨nxp + 1, fun _ => 0⟩) hn (Nat.lt_succ_self nxp)
    (Nat.lt_succ_self nxp) (Nat.lt_succ_self nxp) (fun i a b => by
      obtain ⟨i, rfl⟩ : ∃ i', i = i' + 1 := ⟨i - 1, by omega⟩
      rw [oneBased_val, oneBased_val]
      exact hinc i (by omega)) (10 ^ 30) (10 ^ 30)
  rw [if_pos (by norm_num)] at h4 h5
  -- the interval of a column
  have hk : ∀ t : ℚ, ∃ k, k + 1 < nxp ∧ (k = 0 ∨ x k ≤ t) ∧ (k + 2 = nxp ∨ t < x (k + 1)) := by
    intro t
    by_cases hall : ∀ k, k + 1 < nxp → x k ≤ t
    · exact ⟨nxp - 2, by omega, Or.inr (hall _ (by omega)), Or.inl (by omega)⟩
    · push Not at hall
      classical
      have hex : ∃ k, k + 1 < nxp ∧ t < x k := hall
      have hs := Nat.find_spec hex
      have hmin := fun m hm => Nat.find_min hex (m := m) hm
      generalize Nat.find hex = m at hs hmin
      by_cases hm : m = 0
      · subst hm
        exact ⟨0, hs.1, Or.inl rfl, Or.inr (lt_of_lt_of_le hs.2 (le_of_lt (hinc 0 hs.1)))⟩
      · refine ⟨m - 1, by omega, ?_, Or.inr (by rw [show m - 1 + 1 = m from by omega]; exact hs.2)⟩
        by_cases hm2 : m - 1 = 0
        · exact Or.inl hm2
        · right
          by_contra h
          exact hmin (m - 1) (by omega) ⟨by omega, not_le.1 h⟩
  have hval : ∀ (t : ℚ) (k : Nat), k + 1 < nxp → (k = 0 ∨ x k ≤ t) → (k + 2 = nxp ∨ t < x (k + 1)) → splint (oneBased nxp x) (oneBased nxp z) y2 nxp t = some ((P (k + 1)).eval t) := by
    intro t k a b c
    refine h1 (k + 1) t (by omega) (by omega) ?_ ?_
    · rw [oneBased_val]; exact b.imp (fun h => by omega) id
    · rw [oneBased_val]; exact c.imp (fun h => by omega) id
  obtain ⟨b, e', g1, g2, g3⟩ := fill_spec (f := fun j => splint (oneBased nxp x) (oneBased nxp z) y2 nxp (j * dx))
    (v := fun j => (P ((hk (j * dx)).choose + 1)).eval (j * dx)) (lo := NINT (x 0 / dx))
    (hi := min (NINT ((x (nxp - 1) + dx) / dx)) nx) (nx := nx) (nint_nonneg (div_nonneg h0 (le_of_lt hd))) (by omega) (fun j _ _ => by
      rw [Int.cast_natCast]
      obtain ⟨c1, c2, c3⟩ := (hk (j * dx)).choose_spec
      exact hval _ _ c1 c2 c3) ho
  refine ⟨b, fun k => P (k + 1), ?_, g1, fun k hk => ?_, fun k hk => ?_, ?_, ?_, fun j k a c d e f => ?_, g3⟩
  · unfold splineInterface
    rw [range_spec (by omega) hinc h0 hlast hx, e]
    simp only [Option.bind_eq_bind, Option.bind_some]
    rw [e']; rfl
  · have := h2 (k + 1) (by omega) (by omega)
    rwa [oneBased_val, oneBased_val, oneBased_val, oneBased_val] at this
  · have := h3 (k + 1) (by omega) (by omega)
    rwa [oneBased_val] at this
  · have : (oneBased nxp x).val (1 : Nat) = x 0 := oneBased_val nxp x 0
    rwa [this] at h4
  · have : (oneBased nxp x).val nxp = x (nxp - 1) := by
      have := oneBased_val nxp x (nxp - 1)
      rwa [show nxp - 1 + 1 = nxp from by omega] at this
    rw [this] at h5
    dsimp only
    rw [show nxp - 2 + 1 = nxp - 1 from by omega]
    exact h5
  · rw [g2 j a c]
    obtain ⟨c1, c2, c3⟩ := (hk (j * dx)).choose_spec
    have a1 := hval _ _ c1 c2 c3
    rw [hval _ k d e f] at a1
    exact (Option.some.inj a1).symm

/-- Non-vacuity: a parabola and a spline on off-grid points. -/
example : ((polyInterface (fun i => (i : ℚ) * (3 / 2)) (fun i => (i * (3 / 2)) ^ 2) 3 6 1 0 6 ⟨6, fun _ => 0⟩).map
    fun r => (r.1, r.2.1, (List.range 6).map fun j => r.2.2.val j)) = some (0, 4, [0, 1, 4, 9, 0, 0]) := by decide +kernel

example : ((splineInterface (fun i => (i : ℚ)) (fun i => if i = 1 then 4 else 0) 3 12 (1 / 2) 0 6 ⟨12, fun _ => 0⟩).map
    fun r => (r.1, r.2.1, (List.range 6).map fun j => r.2.2.val j)) = some (0, 5, [0, 11 / 4, 4, 11 / 4, 0, 0]) := by decide +kernel

end Verif.Util

import Verif.Util.Makemod

/-!
# C62: velocities that change along an interface (utils/interpolation.c:129-212)

`cp` is one block of three rows of `nx` elements (alloc2float(nx,3), makemod.c:346): row 0 are the velocities above the interface, row 1 those below it in every
column, row 2 the velocities given with the points.  The arrays `cs` and `ro` are treated by the same statements and are not modelled.
-/

namespace Verif.Util
open Verif

/-- `cp[0][j] = cp[1][j]` for all columns (interpolation.c:131-135, 180-184; also part of 204-211). -/
def keepAbove (nx : Nat) (cp : Buf ℚ) : Option (Buf ℚ) :=
  forNM nx (fun j (cp : Buf ℚ) => (cp.rd (nx + j : Nat)).bind (cp.wr j)) cp

/-- The loop writing velocities between two points (interpolation.c:162-167 and 201-206): `j = 0 … ndeltx`. -/
def drawVel (nx : Nat) (dx prev deltx delt : ℚ) (ndeltx : Int) (s : Int × Buf ℚ) : Option (Int × Buf ℚ) :=
  forNM (ndeltx + 1).toNat (fun j (s : Int × Buf ℚ) =>
    (quot (j * dx * delt) deltx).bind fun q => (s.2.wr (nx + s.1) (prev + q)).map fun b => (s.1 + 1, b)) s

/-- `nvel=1`: one velocity in all columns (interpolation.c:203-212). -/
def lateral1 (nx : Nat) (cp : Buf ℚ) : Option (Buf ℚ) := do
  forNM nx (fun j (cp : Buf ℚ) => do
    let a ← cp.rd (nx + j : Nat)
    let cp ← cp.wr j a
    let v ← cp.rd (2 * nx : Nat)
    cp.wr (nx + j : Nat) v) cp

/-- `nvel=2`: from the first to the last point (interpolation.c:178-206). -/
def lateral2 (x : Nat → ℚ) (nxp nx : Nat) (dx : ℚ) (cp : Buf ℚ) : Option (Buf ℚ) := do
  let cp ← keepAbove nx cp
  let a ← cp.rd (2 * nx : Nat)
  let b ← cp.rd (2 * nx + 1 : Nat)
  let deltx := x (nxp - 1) - x 0
  let r ← drawVel nx dx a deltx (b - a) (NINT |deltx / dx|) (NINT (x 0 / dx), cp)
  pure r.2

/-- One point for more than two velocities (interpolation.c:142-172); the state is the range variables with `out` = `cp` and `zprev` = `cpprev`. -/
def lateralPoint (x : Nat → ℚ) (nx : Nat) (dx : ℚ) (i : Nat) (s : LinState) : Option LinState := do
  let s := trackRange (x i) nx dx s
  let deltx := x i - s.xprev
  let c ← s.out.rd (2 * nx + i : Nat)
  let n := if i = 0 then -1 else NINT |deltx / dx| - 1
  let n := if n = 0 then 1 else n
  let r ← drawVel nx dx s.zprev deltx (c - s.zprev) n (s.np, s.out)
  let c ← r.2.rd (2 * nx + i : Nat)
  pure { s with np := r.1, out := r.2, xprev := x i, zprev := c }

/-- More than two velocities (interpolation.c:130-176). -/
def lateralN (x : Nat → ℚ) (nxp nx : Nat) (dx : ℚ) (pmin pmax : Int) (cp : Buf ℚ) : Option (Buf ℚ) := do
  let cp ← keepAbove nx cp
  let s ← forNM nxp (lateralPoint x nx dx) ⟨0, 0, 0, nx * dx, 0, pmin, pmax, cp⟩
  s.out.wr (nx + s.np) s.zprev

private theorem keepAbove_spec {nx : Nat} {cp : Buf ℚ} (h : cp.size = 3 * nx) : ∃ c, keepAbove nx cp = some c ∧ c.size = 3 * nx ∧
    (∀ j : Nat, j < nx → c.val j = cp.val (nx + j : Nat)) ∧ ∀ j : Nat, nx ≤ j → c.val j = cp.val j := by
  obtain ⟨c, e, h1, h2, h3⟩ := forNM_inv (n := nx) (body := fun j (cp : Buf ℚ) => (cp.rd (nx + j : Nat)).bind (cp.wr j)) (s := cp)
    (fun k c => c.size = 3 * nx ∧ (∀ j : Nat, j < k → c.val j = cp.val (nx + j : Nat)) ∧ ∀ j : Nat, k ≤ j → c.val j = cp.val j)
    ⟨h, fun j hj => by omega, fun j _ => rfl⟩ (by
      rintro k hk c ⟨h1, h2, h3⟩
      rw [rd_some (by omega), Option.bind_some, wr_some (by omega)]
      refine ⟨_, rfl, h1, fun j hj => ?_, fun j hj => ?_⟩
      · dsimp only
        by_cases e : j = k
        · subst e; rw [if_pos rfl]; exact h3 _ (by omega)
        · rw [if_neg (by omega)]; exact h2 j (by omega)
      · dsimp only
        rw [if_neg (by omega)]; exact h3 j (by omega))
  exact ⟨c, e, h1, h2, h3⟩

private theorem drawVel_spec {nx : Nat} {dx prev deltx delt : ℚ} (hd : deltx ≠ 0) {p n : Nat} (hp : p + n < nx) {cp : Buf ℚ} (hc : cp.size = 3 * nx) :
    ∃ c, drawVel nx dx prev deltx delt n ((p : Int), cp) = some (((p + n + 1 : Nat) : Int), c) ∧ c.size = 3 * nx ∧
      (∀ j : Nat, j ≤ n → c.val (nx + p + j : Nat) = prev + j * dx * delt / deltx) ∧
      ∀ i : Nat, i < nx + p ∨ nx + p + n < i → c.val i = cp.val i := by
  unfold drawVel
  rw [show ((n : Int) + 1).toNat = n + 1 from by omega]
  obtain ⟨⟨q, c⟩, e, h1, h2, h3, h4⟩ := forNM_inv (n := n + 1) (body := fun j (s : Int × Buf ℚ) =>
    (quot (j * dx * delt) deltx).bind fun q => (s.2.wr (nx + s.1) (prev + q)).map fun b => (s.1 + 1, b)) (s := ((p : Int), cp))
    (fun k s => s.1 = ((p + k : Nat) : Int) ∧ s.2.size = 3 * nx ∧ (∀ j : Nat, j < k → s.2.val (nx + p + j : Nat) = prev + j * dx * delt / deltx) ∧
      ∀ i : Nat, i < nx + p ∨ nx + p + k ≤ i → s.2.val i = cp.val i)
    ⟨rfl, hc, fun j hj => by omega, fun i _ => rfl⟩ (by
      rintro k hk ⟨q, c⟩ ⟨h1, h2, h3, h4⟩
      dsimp only at h1 h2 h3 h4 ⊢
      subst h1
      rw [quot_some hd, Option.bind_some, show (nx : Int) + ((p + k : Nat) : Int) = ((nx + p + k : Nat) : Int) from by omega, wr_some (by omega)]
      refine ⟨_, rfl, by dsimp only; omega, h2, fun j hj => ?_, fun i hi => ?_⟩
      · dsimp only
        by_cases e : j = k
        · subst e; rw [if_pos rfl]
        · rw [if_neg (by omega)]; exact h3 j (by omega)
      · dsimp only
        rw [if_neg (by omega)]
        exact h4 i (by omega))
  dsimp only at h1 h2 h3 h4
  subst h1
  exact ⟨c, e, h2, fun j hj => h3 j (by omega), fun i hi => h4 i (by omega)⟩

private theorem nint_mul {dx : ℚ} (hd : 0 < dx) (k : Nat) : NINT (k * dx / dx) = k := by
  rw [mul_div_assoc, div_self (ne_of_gt hd), mul_one]; exact_mod_cast NINT_int (k : Int)

private theorem nint_gap {dx : ℚ} (hd : 0 < dx) {a b : Nat} (h : a < b) : NINT |((b : ℚ) * dx - a * dx) / dx| = ((b - a : Nat) : Int) := by
  have hq : (a : ℚ) < b := by exact_mod_cast h
  rw [← sub_mul, mul_div_assoc, div_self (ne_of_gt hd), mul_one, abs_of_pos (by linarith), ← Nat.cast_sub (le_of_lt h)]
  exact_mod_cast NINT_int ((b - a : Nat) : Int)

private theorem line_value {dx prev v : ℚ} (hd : 0 < dx) {a b j : Nat} (h : a < b) : prev + j * dx * (v - prev) / ((b : ℚ) * dx - a * dx) = lineAt a b prev v (a + j) := by
  have hq : (a : ℚ) < b := by exact_mod_cast h
  have : (b : ℚ) - a ≠ 0 := ne_of_gt (by linarith)
  rw [lineAt, ← sub_mul]
  push_cast
  field_simp
  ring

/-- **C62.** One velocity: it holds in all columns, the velocities above the interface are the previous ones. -/
theorem lateral_one {nx : Nat} {cp : Buf ℚ} (h : cp.size = 3 * nx) : ∃ c, lateral1 nx cp = some c ∧
    (∀ j : Nat, j < nx → c.val j = cp.val (nx + j : Nat) ∧ c.val (nx + j : Nat) = cp.val (2 * nx : Nat)) ∧ ∀ j : Nat, j < nx → c.val (2 * nx + j : Nat) = cp.val (2 * nx + j : Nat) := by
  obtain ⟨c, e, h1, h2, h3⟩ := forNM_inv (n := nx) (body := fun j (cp : Buf ℚ) => (do
    let a ← cp.rd (nx + j : Nat)
    let cp ← cp.wr j a
    let v ← cp.rd (2 * nx : Nat)
    cp.wr (nx + j : Nat) v)) (s := cp)
    (fun k c => c.size = 3 * nx ∧ (∀ j : Nat, j < k → c.val j = cp.val (nx + j : Nat) ∧ c.val (nx + j : Nat) = cp.val (2 * nx : Nat)) ∧
      ∀ j : Nat, nx + k ≤ j → c.val j = cp.val j)
    ⟨h, fun j hj => by omega, fun j _ => rfl⟩ (by
      rintro k hk c ⟨h1, h2, h3⟩
      simp only [Option.bind_eq_bind]
      rw [rd_some (by omega), Option.bind_some, wr_some (by omega), Option.bind_some, rd_some (by dsimp only; omega), Option.bind_some, wr_some (by dsimp only; omega)]
      refine ⟨_, rfl, h1, fun j hj => ?_, fun j hj => ?_⟩
      · dsimp only
        by_cases e : j = k
        · subst e
          rw [if_neg (by omega), if_pos rfl, if_pos rfl, if_neg (by omega)]
          exact ⟨h3 _ (by omega), h3 _ (by omega)⟩
        · rw [if_neg (by omega), if_neg (by omega), if_neg (by omega), if_neg (by omega)]
          exact h2 j (by omega)
      · dsimp only
        rw [if_neg (by omega), if_neg (by omega)]; exact h3 j (by omega))
  exact ⟨c, e, h2, fun j hj => h3 _ (by omega)⟩

/-- **C62.** Two velocities and two points on grid columns inside the model: the velocity changes linearly from the first to the second point, the columns outside keep
their velocity. -/
theorem lateral_two_partial {g : Nat → Nat} {nx : Nat} {dx : ℚ} (hd : 0 < dx) (h01 : g 0 < g 1) (h1 : g 1 < nx) {cp : Buf ℚ} (hc : cp.size = 3 * nx) :
    ∃ c, lateral2 (fun i => g i * dx) 2 nx dx cp = some c ∧
      (∀ j : Nat, j < nx → c.val j = cp.val (nx + j : Nat)) ∧
      (∀ j : Nat, g 0 ≤ j → j ≤ g 1 → c.val (nx + j : Nat) = lineAt (g 0) (g 1) (cp.val (2 * nx : Nat)) (cp.val (2 * nx + 1 : Nat)) j) ∧
      ∀ j : Nat, j < nx → j < g 0 ∨ g 1 < j → c.val (nx + j : Nat) = cp.val (nx + j : Nat) := by
  obtain ⟨c1, e1, s1, k1, k2⟩ := keepAbove_spec hc
  have hq : (g 0 : ℚ) < g 1 := by exact_mod_cast h01
  have hne : (g 1 : ℚ) * dx - g 0 * dx ≠ 0 := ne_of_gt (by nlinarith)
  obtain ⟨c2, e2, s2, v1, v2⟩ := drawVel_spec (nx := nx) (dx := dx) (prev := c1.val (2 * nx : Nat)) (delt := c1.val (2 * nx + 1 : Nat) - c1.val (2 * nx : Nat)) hne
    (p := g 0) (n := g 1 - g 0) (by omega) s1
  refine ⟨c2, ?_, fun j hj => ?_, fun j ha hb => ?_, fun j hj ho => ?_⟩
  · unfold lateral2
    rw [e1]
    simp only [Option.bind_eq_bind, Option.bind_some]
    rw [rd_some (by omega), Option.bind_some, rd_some (by omega), Option.bind_some, nint_gap hd h01, nint_mul hd, e2]; rfl
  · rw [v2 j (by omega), k1 j hj]
  · have := v1 (j - g 0) (by omega)
    rw [show nx + g 0 + (j - g 0) = nx + j from by omega, line_value hd h01, show g 0 + (j - g 0) = j from by omega, k2 _ (by omega), k2 _ (by omega)] at this
    exact this
  · rw [v2 _ (by omega), k2 _ (by omega)]

/-- **C62.** Any number of velocities at points on grid columns inside the model, at least two columns apart: the velocity is piecewise linear between the points. -/
theorem lateral_many_partial {g : Nat → Nat} {nxp nx : Nat} {dx : ℚ} (hd : 0 < dx) (hn : 2 ≤ nxp) (hg : ∀ i, i + 1 < nxp → g i + 2 ≤ g (i + 1)) (hl : g (nxp - 1) < nx)
    (pmin pmax : Int) {cp : Buf ℚ} (hc : cp.size = 3 * nx) :
    ∃ c, lateralN (fun i => g i * dx) nxp nx dx pmin pmax cp = some c ∧
      (∀ j : Nat, j < nx → c.val j = cp.val (nx + j : Nat)) ∧
      (∀ i j : Nat, i + 1 < nxp → g i ≤ j → j ≤ g (i + 1) → c.val (nx + j : Nat) = lineAt (g i) (g (i + 1)) (cp.val (2 * nx + i : Nat)) (cp.val (2 * nx + (i + 1) : Nat)) j) ∧
      ∀ j : Nat, j < nx → j < g 0 ∨ g (nxp - 1) < j → c.val (nx + j : Nat) = cp.val (nx + j : Nat) := by
  have hmono : ∀ j i, i < j → j < nxp → g i + 2 ≤ g j := by
    intro j
    induction j with
    | zero => intro i h; omega
    | succ j ih =>
      intro i h hj
      have := hg j hj
      by_cases e : i = j
      · subst e; exact this
      · have := ih i (by omega) (by omega); omega
  have hcnt : ∀ j, j < nxp → 2 * j ≤ g j := by
    intro j
    induction j with
    | zero => intro _; omega
    | succ j ih => intro hj; have := ih (by omega); have := hg j hj; omega
  have hnxp : nxp ≤ nx := by have := hcnt (nxp - 1) (by omega); omega
  obtain ⟨c1, e1, s1, k1, k2⟩ := keepAbove_spec hc
  have hloop : ∀ k, k < nxp → ∃ s, forNM (k + 1) (lateralPoint (fun i => g i * dx) nx dx) ⟨0, 0, 0, nx * dx, 0, pmin, pmax, c1⟩ = some s ∧
      s.np = g k ∧ s.xprev = g k * dx ∧ s.zprev = cp.val (2 * nx + k : Nat) ∧ s.minx = g 0 * dx ∧ s.out.size = 3 * nx ∧
      (∀ i j : Nat, i + 1 ≤ k → g i ≤ j → j < g (i + 1) → s.out.val (nx + j : Nat) = lineAt (g i) (g (i + 1)) (cp.val (2 * nx + i : Nat)) (cp.val (2 * nx + (i + 1) : Nat)) j) ∧
      ∀ j : Nat, j < nx + g 0 ∨ nx + g k ≤ j → s.out.val j = c1.val j := by
    intro k
    induction k with
    | zero =>
      intro _
      have hlt : (g 0 : ℚ) * dx < nx * dx := by
        have := hmono (nxp - 1) 0 (by omega) (by omega)
        have : (g 0 : ℚ) < nx := by exact_mod_cast (show g 0 < nx by omega)
        exact mul_lt_mul_of_pos_right this hd
      have hz : ∀ prev deltx delt : ℚ, ∀ s : Int × Buf ℚ, drawVel nx dx prev deltx delt (-1) s = some s := fun _ _ _ _ => rfl
      have hbase : ∀ s' : LinState, s'.np = (g 0 : Int) → s'.xprev = g 0 * dx → s'.out = c1 → s'.minx = g 0 * dx →
          ∃ s'' : LinState, (do
            let deltx := (g 0 : ℚ) * dx - s'.xprev
            let c ← s'.out.rd (2 * nx + 0 : Nat)
            let n : Int := if (0 : Nat) = 0 then -1 else NINT |deltx / dx| - 1
            let n : Int := if n = 0 then 1 else n
            let r ← drawVel nx dx s'.zprev deltx (c - s'.zprev) n (s'.np, s'.out)
            let c ← r.2.rd (2 * nx + 0 : Nat)
            pure { s' with np := r.1, out := r.2, xprev := (g 0 : ℚ) * dx, zprev := c }) = some s'' ∧
            s''.np = (g 0 : Int) ∧ s''.xprev = g 0 * dx ∧ s''.zprev = cp.val (2 * nx + 0 : Nat) ∧ s''.minx = g 0 * dx ∧ s''.out = c1 := by
        intro s' a1 a2 a4 a5
        simp only [Option.bind_eq_bind]
        rw [a4, rd_some (by omega), Option.bind_some, show (if (if True then (-1 : Int) else NINT |((g 0 : ℚ) * dx - s'.xprev) / dx| - 1) = 0 then (1 : Int)
          else if True then -1 else NINT |((g 0 : ℚ) * dx - s'.xprev) / dx| - 1) = -1 from rfl, hz, Option.bind_some]
        dsimp only
        rw [rd_some (by omega), Option.bind_some]
        exact ⟨_, rfl, a1, rfl, k2 _ (by omega), a5, rfl⟩
      have hbase' : ∃ s'' : LinState, lateralPoint (fun i => g i * dx) nx dx 0 ⟨0, 0, 0, nx * dx, 0, pmin, pmax, c1⟩ = some s'' ∧
            s''.np = (g 0 : Int) ∧ s''.xprev = g 0 * dx ∧ s''.zprev = cp.val (2 * nx + 0 : Nat) ∧ s''.minx = g 0 * dx ∧ s''.out = c1 := by
        unfold lateralPoint trackRange
        dsimp only
        rw [if_pos hlt]
        by_cases hp : (g 0 : ℚ) * dx > 0
        · rw [if_pos hp]; exact hbase _ (nint_mul hd _) rfl rfl rfl
        · rw [if_neg hp]; exact hbase _ (nint_mul hd _) rfl rfl rfl
      obtain ⟨s'', e3, w1, w2, w3, w4, w5⟩ := hbase'
      rw [forNM_succ, forNM_zero, Option.bind_some]
      exact ⟨s'', e3, w1, w2, w3, w4, by rw [w5]; exact s1, fun i j hi => by omega, fun j _ => by rw [w5]⟩
    | succ k ih =>
      intro hk
      obtain ⟨s, e, t1, t2, t3, t4, t5, t6, t7⟩ := ih (by omega)
      have hlt : g k + 2 ≤ g (k + 1) := hg k hk
      have hltq : (g k : ℚ) < g (k + 1) := by exact_mod_cast (show g k < g (k + 1) by omega)
      have hn1 : ¬ (g (k + 1) : ℚ) * dx < s.minx := by
        rw [t4]
        have : g 0 + 2 ≤ g (k + 1) := hmono _ _ (by omega) hk
        have : (g 0 : ℚ) < g (k + 1) := by exact_mod_cast (show g 0 < g (k + 1) by omega)
        nlinarith
      have hle : g (k + 1) < nx := by
        by_cases e : k + 1 = nxp - 1
        · rw [e]; exact hl
        · have := hmono (nxp - 1) (k + 1) (by omega) (by omega); omega
      have hdx : (g (k + 1) : ℚ) * dx - g k * dx ≠ 0 := ne_of_gt (by nlinarith)
      have h0k : g 0 ≤ g k := by
        rcases Nat.eq_zero_or_pos k with h | h
        · rw [h]
        · have := hmono _ _ h (show k < nxp by omega); omega
      obtain ⟨c2, e2, u1, u2, u3⟩ := drawVel_spec (nx := nx) (dx := dx) (prev := cp.val (2 * nx + k : Nat)) (delt := s.out.val (2 * nx + (k + 1) : Nat) - cp.val (2 * nx + k : Nat)) hdx
        (p := g k) (n := g (k + 1) - g k - 1) (by omega) t5
      have hstep : ∀ s' : LinState, s'.np = s.np → s'.xprev = s.xprev → s'.zprev = s.zprev → s'.out = s.out → s'.minx = s.minx →
          ∃ s'' : LinState, (do
            let deltx := (g (k + 1) : ℚ) * dx - s'.xprev
            let c ← s'.out.rd (2 * nx + (k + 1) : Nat)
            let n : Int := if k + 1 = 0 then -1 else NINT |deltx / dx| - 1
            let n : Int := if n = 0 then 1 else n
            let r ← drawVel nx dx s'.zprev deltx (c - s'.zprev) n (s'.np, s'.out)
            let c ← r.2.rd (2 * nx + (k + 1) : Nat)
            pure { s' with np := r.1, out := r.2, xprev := (g (k + 1) : ℚ) * dx, zprev := c }) = some s'' ∧
            s''.np = (g (k + 1) : Int) ∧ s''.xprev = g (k + 1) * dx ∧ s''.zprev = cp.val (2 * nx + (k + 1) : Nat) ∧ s''.minx = g 0 * dx ∧ s''.out = c2 := by
        intro s' a1 a2 a3 a4 a5
        simp only [Option.bind_eq_bind]
        rw [a1, a2, a3, a4, t1, t2, t3, rd_some (by omega), Option.bind_some, if_neg (Nat.succ_ne_zero k), nint_gap hd (show g k < g (k + 1) by omega), if_neg (by omega),
          show ((g (k + 1) - g k : Nat) : Int) - 1 = ((g (k + 1) - g k - 1 : Nat) : Int) from by omega, e2, Option.bind_some]
        dsimp only
        rw [rd_some (by omega), Option.bind_some]
        refine ⟨_, rfl, by dsimp only; omega, rfl, ?_, a5.trans t4, rfl⟩
        dsimp only
        rw [u3 _ (by omega), t7 _ (by omega), k2 _ (by omega)]
      have hstep' : ∃ s'' : LinState, lateralPoint (fun i => g i * dx) nx dx (k + 1) s = some s'' ∧
            s''.np = (g (k + 1) : Int) ∧ s''.xprev = g (k + 1) * dx ∧ s''.zprev = cp.val (2 * nx + (k + 1) : Nat) ∧ s''.minx = g 0 * dx ∧ s''.out = c2 := by
        unfold lateralPoint trackRange
        dsimp only
        rw [if_neg hn1]
        by_cases hp1 : (g (k + 1) : ℚ) * dx > s.maxx
        · rw [if_pos hp1]; exact hstep _ rfl rfl rfl rfl rfl
        · rw [if_neg hp1]; exact hstep _ rfl rfl rfl rfl rfl
      obtain ⟨s'', e3, w1, w2, w3, w4, w5⟩ := hstep'
      refine ⟨s'', by rw [forNM_succ, e, Option.bind_some, e3], w1, w2, w3, w4, by rw [w5]; exact u1, fun i j hi h1 h2 => ?_, fun j hj => ?_⟩
      · rw [w5]
        by_cases e4 : i = k
        · subst e4
          have := u2 (j - g i) (by omega)
          rw [show nx + g i + (j - g i) = nx + j from by omega, line_value hd (show g i < g (i + 1) by omega), show g i + (j - g i) = j from by omega, t7 _ (by omega), k2 _ (by omega)] at this
          exact this
        · have hle2 : g (i + 1) ≤ g k := by
            by_cases e5 : i + 1 = k
            · rw [e5]
            · have := hmono k (i + 1) (by omega) (by omega); omega
          rw [u3 _ (by omega)]
          exact t6 i j (by omega) h1 h2
      · rw [w5, u3 _ (by omega), t7 _ (by omega)]
  obtain ⟨s, e, t1, t2, t3, t4, t5, t6, t7⟩ := hloop (nxp - 1) (by omega)
  rw [show nxp - 1 + 1 = nxp from by omega] at e
  have h0l : g 0 + 2 ≤ g (nxp - 1) := hmono _ _ (by omega) (by omega)
  unfold lateralN
  rw [e1]
  simp only [Option.bind_eq_bind, Option.bind_some]
  rw [e, Option.bind_some, t1, show (nx : Int) + (g (nxp - 1) : Int) = ((nx + g (nxp - 1) : Nat) : Int) from by omega, wr_some (by omega)]
  refine ⟨_, rfl, fun j hj => ?_, fun i j hi ha hb => ?_, fun j hj ho => ?_⟩
  · dsimp only
    rw [if_neg (by omega), t7 j (by omega), k1 j hj]
  · dsimp only
    by_cases e2 : j = g (nxp - 1)
    · rw [if_pos (by omega), t3]
      have hi2 : i + 1 = nxp - 1 := by
        by_contra h
        have := hmono (nxp - 1) (i + 1) (by omega) (by omega)
        omega
      have hq : (g i : ℚ) < g (i + 1) := by
        have := hg i hi
        exact_mod_cast (show g i < g (i + 1) by omega)
      have : (g (i + 1) : ℚ) - g i ≠ 0 := ne_of_gt (by linarith)
      rw [e2, ← hi2, lineAt]
      field_simp
      ring
    · rw [if_neg (by omega)]
      by_cases e3 : j = g (i + 1)
      · have hi2 : i + 2 < nxp := by
          by_contra h
          exact e2 (by rw [e3]; congr 1; omega)
        have := hg (i + 1) hi2
        have hq : (g i : ℚ) < g (i + 1) := by
          have := hg i hi
          exact_mod_cast (show g i < g (i + 1) by omega)
        have hne : (g (i + 1) : ℚ) - g i ≠ 0 := ne_of_gt (by linarith)
        rw [t6 (i + 1) j (by omega) (by omega) (by omega), lineAt, lineAt, e3]
        field_simp
        ring
      · exact t6 i j (by omega) ha (by omega)
  · dsimp only
    rw [if_neg (by omega), t7 _ (by omega), k2 _ (by omega)]

private def row1 (nx : Nat) (c : Option (Buf ℚ)) : Option (List ℚ) := c.map fun c => (List.range nx).map fun k => c.val (nx + k : Nat)

/-- Non-vacuity: three velocities at columns 0, 2, 5. -/
example : row1 7 (lateralN (fun i => ([0, 2, 5].getD i 0 : ℕ) * (10:ℚ)) 3 7 10 0 7 ⟨21, fun i => if i = 14 then 10 else if i = 15 then 30 else if i = 16 then 0 else 7⟩) =
    some [10, 20, 30, 20, 10, 0, 7] := by decide +kernel
example : row1 7 (lateral2 (fun i => ([1, 5].getD i 0 : ℕ) * (10:ℚ)) 2 7 10 ⟨21, fun i => if i = 14 then 10 else if i = 15 then 30 else 7⟩) =
    some [7, 10, 15, 20, 25, 30, 7] := by decide +kernel
example : row1 3 (lateral1 3 ⟨9, fun i => if i = 6 then 10 else 7⟩) = some [10, 10, 10] := by decide +kernel

/-- **C62 violated.** Points in neighbouring columns: `if (ndeltx==0) ndeltx = 1` writes two columns for a distance of one, so everything to the right is shifted
(the velocity 30 given at column 1 is found in column 2, and column 4 instead of 3 has the last value). -/
theorem lateral_shifts : row1 6 (lateralN (fun i => ([0, 1, 3].getD i 0 : ℕ) * (10:ℚ)) 3 6 10 0 6 ⟨18, fun i => if i = 12 then 10 else if i = 13 then 30 else if i = 14 then 50 else 7⟩) =
    some [10, 30, 30, 40, 50, 7] := by decide +kernel

/-- **C62 violated.** Points between columns: the last write is past the last column, into the row of given velocities. -/
theorem lateral_two_outside : (lateral2 (fun i => if i = 0 then 1 / 2 else 3) 2 4 1 ⟨12, fun i => if i = 8 then 10 else if i = 9 then 30 else 7⟩).map (fun c => c.val 8) = some 34 := by decide +kernel

end Verif.Util

import Verif.Base.Loop
import Mathlib.LinearAlgebra.Lagrange
import Mathlib.Tactic.Ring
import Mathlib.Tactic.FieldSimp
import Mathlib.Tactic.NormNum
import Mathlib.Data.Rat.Defs
import Mathlib.Algebra.Order.Ring.Rat

/-!
# C42: polynomial interpolation (utils/polint.c)

Neville's scheme with 1-based arrays.  Floating-point numbers are modelled by rationals without rounding.  Accesses outside an array, and
`exit` after the message "Error in routine polint", are the outcome `none`.
-/

namespace Verif.Util
open Verif

/-- Search for the point nearest to `x`, and the initial columns `c`, `d` (polint.c:19-29). -/
def polintInit (xa ya : Buf ℚ) (n : Nat) (x : ℚ) : Option (Int × Buf ℚ × Buf ℚ) := do
  let x1 ← xa.rd 1
  let r ← forNM n (fun k (s : Int × ℚ × Buf ℚ × Buf ℚ) => do
    let xi ← xa.rd (k + 1 : Nat)
    let yi ← ya.rd (k + 1 : Nat)
    let p := if |x - xi| < s.2.1 then (((k + 1 : Nat) : Int), |x - xi|) else (s.1, s.2.1)
    let c ← s.2.2.1.wr (k + 1 : Nat) yi
    let d ← s.2.2.2.wr (k + 1 : Nat) yi
    pure (p.1, p.2, c, d)) (1, |x - x1|, ⟨n + 1, fun _ => 0⟩, ⟨n + 1, fun _ => 0⟩)
  pure (r.1, r.2.2)

/-- The column update for one `m` (polint.c:32-43): `i` runs from 1 to `n-m`. -/
def polintColumn (xa : Buf ℚ) (n m : Nat) (x : ℚ) (cd : Buf ℚ × Buf ℚ) : Option (Buf ℚ × Buf ℚ) :=
  forNM (n - m) (fun k (cd : Buf ℚ × Buf ℚ) => do
    let xi ← xa.rd (k + 1 : Nat)
    let xj ← xa.rd (k + 1 + m : Nat)
    let ho := xi - x
    let hp := xj - x
    let c1 ← cd.1.rd (k + 2 : Nat)
    let d0 ← cd.2.rd (k + 1 : Nat)
    let w := c1 - d0
    let den := ho - hp
    if den = 0 then none else
    let d ← cd.2.wr (k + 1 : Nat) (hp * (w / den))
    let c ← cd.1.wr (k + 1 : Nat) (ho * (w / den))
    pure (c, d)) cd

/-- polint (utils/polint.c:13-48); only the value stored in `*y` is returned. -/
def polint (xa ya : Buf ℚ) (n : Nat) (x : ℚ) : Option ℚ := do
  let (ns, c, d) ← polintInit xa ya n x
  let y ← ya.rd ns
  let r ← forNM (n - 1) (fun k (s : (Buf ℚ × Buf ℚ) × Int × ℚ) => do
    let cd ← polintColumn xa n (k + 1) x s.1
    if 2 * s.2.1 < (n : Int) - (k + 1 : Nat) then
      let dy ← cd.1.rd (s.2.1 + 1)
      pure (cd, s.2.1, s.2.2 + dy)
    else
      let dy ← cd.2.rd s.2.1
      pure (cd, s.2.1 - 1, s.2.2 + dy)) ((c, d), ns - 1, y)
  pure r.2.2

/-- Value at `x` of the polynomial through the points `i, …, i+m`. -/
private noncomputable def part (X Y : Nat → ℚ) (x : ℚ) (i m : Nat) : ℚ :=
  (Lagrange.interpolate (Finset.Icc i (i + m)) X Y).eval x

private theorem part_zero (X Y : Nat → ℚ) (x : ℚ) (i : Nat) : part X Y x i 0 = Y i := by
  simp [part]

private theorem part_succ {X Y : Nat → ℚ} (x : ℚ) {i m : Nat} (h : Set.InjOn X (Finset.Icc i (i + (m + 1)) : Finset Nat)) :
    part X Y x i (m + 1) = part X Y x i m * ((X i - X (i + (m + 1)))⁻¹ * (x - X (i + (m + 1)))) + part X Y x (i + 1) m * ((X (i + (m + 1)) - X i)⁻¹ * (x - X i)) := by
  have e := Lagrange.interpolate_eq_add_interpolate_erase Y h (i := i) (j := i + (m + 1)) (by simp) (by simp) (by omega)
  have e1 : (Finset.Icc i (i + (m + 1))).erase (i + (m + 1)) = Finset.Icc i (i + m) := by ext k; simp; omega
  have e2 : (Finset.Icc i (i + (m + 1))).erase i = Finset.Icc (i + 1) (i + 1 + m) := by ext k; simp; omega
  rw [e1, e2] at e
  unfold part
  rw [e]
  simp [Lagrange.basisDivisor]

theorem rd_some {b : Buf ℚ} {i : Nat} (h : i < b.size) : b.rd (i : Nat) = some (b.val i) := by
  unfold Buf.rd; rw [if_pos ⟨by omega, by omega⟩]

theorem wr_some {b : Buf ℚ} {i : Nat} (h : i < b.size) (v : ℚ) : b.wr (i : Nat) v = some { b with val := fun k => if k = (i : Int) then v else b.val k } := by
  unfold Buf.wr; rw [if_pos ⟨by omega, by omega⟩]

private theorem init_spec {xa ya : Buf ℚ} {n : Nat} (hn : 1 ≤ n) (hx : n < xa.size) (hy : n < ya.size) (x : ℚ) :
    ∃ (ns : Nat) (c d : Buf ℚ), polintInit xa ya n x = some ((ns : Int), c, d) ∧ 1 ≤ ns ∧ ns ≤ n ∧ c.size = n + 1 ∧ d.size = n + 1 ∧
      ∀ i : Nat, 1 ≤ i → i ≤ n → c.val i = ya.val i ∧ d.val i = ya.val i := by
  have key := forNM_inv (n := n) (body := fun k (s : Int × ℚ × Buf ℚ × Buf ℚ) => (do
    let xi ← xa.rd (k + 1 : Nat)
    let yi ← ya.rd (k + 1 : Nat)
    let p := if |x - xi| < s.2.1 then (((k + 1 : Nat) : Int), |x - xi|) else (s.1, s.2.1)
    let c ← s.2.2.1.wr (k + 1 : Nat) yi
    let d ← s.2.2.2.wr (k + 1 : Nat) yi
    pure (p.1, p.2, c, d))) (s := ((1 : Int), |x - xa.val 1|, ⟨n + 1, fun _ => 0⟩, ⟨n + 1, fun _ => 0⟩))
    (fun k s => (1 ≤ s.1 ∧ s.1 ≤ n) ∧ s.2.2.1.size = n + 1 ∧ s.2.2.2.size = n + 1 ∧
      ∀ i : Nat, 1 ≤ i → i ≤ k → s.2.2.1.val i = ya.val i ∧ s.2.2.2.val i = ya.val i)
    ⟨by dsimp only; omega, rfl, rfl, fun i h1 h2 => by omega⟩ ?_
  · obtain ⟨⟨ns, q, c, d⟩, e, h1, h3, h4, h5⟩ := key
    dsimp only at h1 h3 h4 h5
    refine ⟨ns.toNat, c, d, ?_, by omega, by omega, h3, h4, h5⟩
    rw [Int.toNat_of_nonneg (by omega)]
    unfold polintInit
    rw [show xa.rd 1 = some (xa.val 1) from rd_some (i := 1) (by omega)]
    simp only [Option.bind_eq_bind, Option.bind_some]
    simp only [Option.bind_eq_bind] at e
    rw [e]; rfl
  · rintro k hk ⟨ns, q, c, d⟩ ⟨h1, h3, h4, h5⟩
    dsimp only at h1 h3 h4 h5
    simp only [Option.bind_eq_bind]
    rw [rd_some (by omega), rd_some (by omega)]
    simp only [Option.bind_some]
    rw [wr_some (by omega), wr_some (by omega)]
    refine ⟨_, rfl, ?_, h3, h4, ?_⟩
    · dsimp only
      split <;> dsimp only <;> omega
    · intro i hi1 hi2
      dsimp only
      by_cases e : i = k + 1
      · subst e; simp
      · rw [if_neg (by omega), if_neg (by omega)]
        exact h5 i hi1 (by omega)

private theorem column_spec {X Y : Nat → ℚ} {xa : Buf ℚ} {n m : Nat} (hX : ∀ i : Nat, 1 ≤ i → i ≤ n → xa.val i = X i)
    (hinj : ∀ i j, 1 ≤ i → i < j → j ≤ n → X i ≠ X j) (hx : n < xa.size) (hm : m + 1 < n) (x : ℚ) {c d : Buf ℚ} (hc : c.size = n + 1) (hd : d.size = n + 1)
    (h : ∀ i : Nat, 1 ≤ i → i + 1 + m ≤ n → c.val (i + 1 : Nat) - d.val i = part X Y x (i + 1) m - part X Y x i m) :
    ∃ c' d' : Buf ℚ, polintColumn xa n (m + 1) x (c, d) = some (c', d') ∧ c'.size = n + 1 ∧ d'.size = n + 1 ∧
      ∀ i : Nat, 1 ≤ i → i + (m + 1) ≤ n → c'.val i = part X Y x i (m + 1) - part X Y x i m ∧ d'.val i = part X Y x i (m + 1) - part X Y x (i + 1) m := by
  have key := forNM_inv (n := n - (m + 1)) (body := fun k (cd : Buf ℚ × Buf ℚ) => (do
    let xi ← xa.rd (k + 1 : Nat)
    let xj ← xa.rd (k + 1 + (m + 1) : Nat)
    let ho := xi - x
    let hp := xj - x
    let c1 ← cd.1.rd (k + 2 : Nat)
    let d0 ← cd.2.rd (k + 1 : Nat)
    let w := c1 - d0
    let den := ho - hp
    if den = 0 then none else
    let d ← cd.2.wr (k + 1 : Nat) (hp * (w / den))
    let c ← cd.1.wr (k + 1 : Nat) (ho * (w / den))
    pure (c, d))) (s := (c, d))
    (fun k s => s.1.size = n + 1 ∧ s.2.size = n + 1 ∧ (∀ i : Nat, k < i → s.1.val i = c.val i ∧ s.2.val i = d.val i) ∧
      ∀ i : Nat, 1 ≤ i → i ≤ k → s.1.val i = part X Y x i (m + 1) - part X Y x i m ∧ s.2.val i = part X Y x i (m + 1) - part X Y x (i + 1) m)
    ⟨hc, hd, fun i _ => ⟨rfl, rfl⟩, fun i h1 h2 => by omega⟩ ?_
  · obtain ⟨⟨c', d'⟩, e, h1, h2, _, h4⟩ := key
    exact ⟨c', d', e, h1, h2, fun i hi1 hi2 => h4 i hi1 (by omega)⟩
  · rintro k hk ⟨c1, d1⟩ ⟨h1, h2, h3, h4⟩
    dsimp only at h1 h2 h3 h4
    have hne : X (k + 1) - X (k + 1 + (m + 1)) ≠ 0 := sub_ne_zero.2 (hinj _ _ (by omega) (by omega) (by omega))
    simp only [Option.bind_eq_bind]
    rw [rd_some (by omega), rd_some (by omega)]
    simp only [Option.bind_some]
    rw [rd_some (by omega), rd_some (by omega)]
    simp only [Option.bind_some]
    rw [hX _ (by omega) (by omega), hX _ (by omega) (by omega), if_neg (by rw [sub_sub_sub_cancel_right]; exact hne), wr_some (by omega), wr_some (by omega)]
    simp only [Option.bind_some]
    refine ⟨_, rfl, h1, h2, fun i hi => ?_, fun i hi1 hi2 => ?_⟩
    · dsimp only
      rw [if_neg (by omega), if_neg (by omega)]
      exact h3 i (by omega)
    · dsimp only
      by_cases e : i = k + 1
      · subst e
        rw [if_pos rfl, if_pos rfl, (h3 _ (by omega)).1, (h3 _ (by omega)).2, sub_sub_sub_cancel_right]
        have hw := h (k + 1) (by omega) (by omega)
        rw [show k + 2 = k + 1 + 1 from rfl, hw, part_succ x (fun a ha b hb hab => by
          simp only [Finset.coe_Icc, Set.mem_Icc] at ha hb
          rcases Nat.lt_trichotomy a b with g | g | g
          · exact absurd hab (hinj a b (by omega) g (by omega))
          · exact g
          · exact absurd hab.symm (hinj b a (by omega) g (by omega)))]
        rw [show X (k + 1 + (m + 1)) - X (k + 1) = -(X (k + 1) - X (k + 1 + (m + 1))) from by ring, inv_neg]
        have e2 : X (k + 1) = (X (k + 1) - X (k + 1 + (m + 1))) + X (k + 1 + (m + 1)) := by ring
        generalize X (k + 1) - X (k + 1 + (m + 1)) = D at *
        rw [e2]
        constructor <;> field_simp <;> ring
      · rw [if_neg (by omega), if_neg (by omega)]
        exact h4 i hi1 (by omega)

/-- **C42.** For every set of `n ≥ 1` points with distinct abscissae and every `x`, `polint` reads and writes inside its arrays and returns the value
at `x` of the only polynomial of degree less than `n` through the points. -/
theorem polint_interpolates {xa ya : Buf ℚ} {n : Nat} (hn : 1 ≤ n) (hx : n < xa.size) (hy : n < ya.size)
    (hinj : ∀ i j : Nat, 1 ≤ i → i < j → j ≤ n → xa.val i ≠ xa.val j) (x : ℚ) :
    ∃ p : Polynomial ℚ, polint xa ya n x = some (p.eval x) ∧ p.degree < n ∧ (∀ i : Nat, 1 ≤ i → i ≤ n → p.eval (xa.val i) = ya.val i) ∧
      ∀ q : Polynomial ℚ, q.degree < n → (∀ i : Nat, 1 ≤ i → i ≤ n → q.eval (xa.val i) = ya.val i) → q = p := by
  set X : Nat → ℚ := fun i => xa.val i with hX
  set Y : Nat → ℚ := fun i => ya.val i with hY
  have hI : Set.InjOn X (Finset.Icc 1 (1 + (n - 1)) : Finset Nat) := fun a ha b hb hab => by
    simp only [Finset.coe_Icc, Set.mem_Icc] at ha hb
    rcases Nat.lt_trichotomy a b with g | g | g
    · exact absurd hab (hinj a b (by omega) g (by omega))
    · exact g
    · exact absurd hab.symm (hinj b a (by omega) g (by omega))
  have hcard : (Finset.Icc 1 (1 + (n - 1))).card = n := by rw [Nat.card_Icc]; omega
  refine ⟨Lagrange.interpolate (Finset.Icc 1 (1 + (n - 1))) X Y, ?_, ?_, ?_, ?_⟩
  · change polint xa ya n x = some (part X Y x 1 (n - 1))
    obtain ⟨ns, c, d, e, h1, h2, h3, h4, h5⟩ := init_spec hn hx hy x
    have key := forNM_inv (n := n - 1) (body := fun k (s : (Buf ℚ × Buf ℚ) × Int × ℚ) => (do
      let cd ← polintColumn xa n (k + 1) x s.1
      if 2 * s.2.1 < (n : Int) - (k + 1 : Nat) then
        let dy ← cd.1.rd (s.2.1 + 1)
        pure (cd, s.2.1, s.2.2 + dy)
      else
        let dy ← cd.2.rd s.2.1
        pure (cd, s.2.1 - 1, s.2.2 + dy))) (s := ((c, d), (ns : Int) - 1, ya.val ns))
      (fun m s => s.1.1.size = n + 1 ∧ s.1.2.size = n + 1 ∧ (∃ t : Nat, s.2.1 = t ∧ t + 1 + m ≤ n ∧ s.2.2 = part X Y x (t + 1) m) ∧
        ∀ i : Nat, 1 ≤ i → i + 1 + m ≤ n → s.1.1.val (i + 1 : Nat) - s.1.2.val i = part X Y x (i + 1) m - part X Y x i m)
      ⟨h3, h4, ⟨ns - 1, by dsimp only; omega, by omega, by rw [part_zero, hY]; dsimp only; rw [show ns - 1 + 1 = ns from by omega]⟩, fun i hi1 hi2 => by
        rw [(h5 (i + 1) (by omega) (by omega)).1, (h5 i (by omega) (by omega)).2, part_zero, part_zero]⟩ ?_
    · obtain ⟨⟨cd, ns', y⟩, e', _, _, ⟨t, g1, g2, g3⟩, _⟩ := key
      unfold polint
      rw [e]
      simp only [Option.bind_eq_bind, Option.bind_some]
      rw [rd_some (by omega)]
      simp only [Option.bind_some]
      simp only [Option.bind_eq_bind] at e'
      rw [e']
      dsimp only at g3
      rw [show t = 0 from by omega] at g3
      simp [g3]
    · rintro k hk ⟨⟨c, d⟩, y2⟩ ⟨g1, g2, ⟨t, g3, g4, g5⟩, g6⟩
      obtain ⟨c', d', e', k1, k2, k3⟩ := column_spec (Y := Y) (fun i _ _ => rfl) (fun i j a b c => hinj i j a b c) hx (m := k) (by omega) x g1 g2 g6
      dsimp only at g3 g5
      rw [Option.bind_eq_bind, e', Option.bind_some]
      dsimp only
      rw [g3]
      split
      · next hlt =>
        simp only [Option.bind_eq_bind]
        rw [show (t : Int) + 1 = (t + 1 : Nat) from rfl, rd_some (by omega)]
        refine ⟨_, rfl, k1, k2, ⟨t, rfl, by omega, ?_⟩, fun i hi1 hi2 => ?_⟩
        · dsimp only
          rw [(k3 (t + 1) (by omega) (by omega)).1, g5]; ring
        · dsimp only
          rw [(k3 (i + 1) (by omega) (by omega)).1, (k3 i (by omega) (by omega)).2]; ring
      · next hge =>
        simp only [Option.bind_eq_bind]
        rw [rd_some (by omega)]
        refine ⟨_, rfl, k1, k2, ⟨t - 1, by dsimp only; omega, by omega, ?_⟩, fun i hi1 hi2 => ?_⟩
        · dsimp only
          rw [(k3 t (by omega) (by omega)).2, g5, show t - 1 + 1 = t from by omega]; ring
        · dsimp only
          rw [(k3 (i + 1) (by omega) (by omega)).1, (k3 i (by omega) (by omega)).2]; ring
  · have := Lagrange.degree_interpolate_lt Y hI
    rwa [hcard] at this
  · intro i h1 h2
    exact Lagrange.eval_interpolate_at_node Y hI (by simp; omega)
  · intro q hq hqe
    exact Lagrange.eq_interpolate_of_eval_eq Y hI (by rwa [hcard]) (fun i hi => by
      simp only [Finset.mem_Icc] at hi
      exact hqe i (by omega) (by omega))

/-- **C42.** At an interface point `polint` returns the depth of the point. -/
theorem polint_passes_through {xa ya : Buf ℚ} {n : Nat} (hx : n < xa.size) (hy : n < ya.size)
    (hinj : ∀ i j : Nat, 1 ≤ i → i < j → j ≤ n → xa.val i ≠ xa.val j) {i : Nat} (h1 : 1 ≤ i) (h2 : i ≤ n) :
    polint xa ya n (xa.val i) = some (ya.val i) := by
  obtain ⟨p, e, _, h, _⟩ := polint_interpolates (by omega) hx hy hinj (xa.val i)
  rw [e, h i h1 h2]

private theorem forNM_none {σ : Type} {n : Nat} {body : Nat → σ → Option σ} {k : Nat} (hk : k < n) (h : ∀ s, body k s = none) (s : σ) : forNM n body s = none := by
  induction n with
  | zero => omega
  | succ n ih =>
    rw [forNM_succ]
    by_cases e : k = n
    · subst e
      cases forNM k body s with
      | none => rfl
      | some s => exact h s
    · rw [ih (by omega)]; rfl

/-- **C42.** If two points have the same abscissa, the routine stops with its error message (it never divides by zero). -/
theorem polint_stops {xa ya : Buf ℚ} {n i j : Nat} (h1 : 1 ≤ i) (h2 : i < j) (h3 : j ≤ n) (h : xa.val i = xa.val j) (x : ℚ) : polint xa ya n x = none := by
  have hcol : ∀ cd, polintColumn xa n (j - i) x cd = none := by
    intro cd
    refine forNM_none (k := i - 1) (by omega) (fun s => ?_) cd
    rw [show i - 1 + 1 = i from by omega, show i + (j - i) = j from by omega]
    unfold Buf.rd
    split
    · split
      · simp only [Option.bind_eq_bind, Option.bind_some]
        rw [h, sub_self]
        simp
      · rfl
    · rfl
  unfold polint
  cases hI : polintInit xa ya n x with
  | none => rfl
  | some r =>
    obtain ⟨ns, c, d⟩ := r
    simp only [Option.bind_eq_bind, Option.bind_some]
    cases hY : ya.rd ns with
    | none => rfl
    | some y =>
      simp only [Option.bind_some]
      rw [forNM_none (k := j - i - 1) (by omega) (fun s => by rw [show j - i - 1 + 1 = j - i from by omega, hcol]; rfl)]
      rfl

/-- Non-vacuity: the parabola through (0,1), (1,3), (3,19), which is 2x²+1, evaluated at 2. -/
example : polint ⟨4, fun i => if i = 2 then 1 else if i = 3 then 3 else 0⟩ ⟨4, fun i => if i = 1 then 1 else if i = 2 then 3 else 19⟩ 3 2 = some 9 := by decide +kernel

example : (∀ i j : Nat, 1 ≤ i → i < j → j ≤ 3 → (fun i : Int => if i = 2 then (1:ℚ) else if i = 3 then 3 else 0) i ≠ (fun i : Int => if i = 2 then (1:ℚ) else if i = 3 then 3 else 0) j) := by
  intro i j h1 h2 h3
  have : (i = 1 ∧ j = 2) ∨ (i = 1 ∧ j = 3) ∨ (i = 2 ∧ j = 3) := by omega
  rcases this with ⟨rfl, rfl⟩ | ⟨rfl, rfl⟩ | ⟨rfl, rfl⟩ <;> norm_num

end Verif.Util

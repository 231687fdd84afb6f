import Mathlib.Topology.Algebra.InfiniteSum.Order
import Mathlib.Topology.Algebra.InfiniteSum.Ring
import Mathlib.Topology.Instances.Real.Lemmas
import Mathlib.Tactic.Linarith
import Mathlib.Tactic.Ring
import Mathlib.Tactic.Positivity
import Mathlib.Tactic.LinearCombination
import Mathlib.Tactic.FieldSimp

/-! # Sums over the grid, shifts, and summation by parts for staggered differences -/

namespace Verif.Stab

/-- A grid point: column and row. -/
abbrev X := ℤ × ℤ

/-- The two directions. -/
inductive Dir
  | x | z
  deriving DecidableEq

/-- The point `k` further. -/
def mv : Dir → ℤ → X → X
  | .x, k, a => (a.1 + k, a.2)
  | .z, k, a => (a.1, a.2 + k)

theorem mv_mv (d : Dir) (j k : ℤ) (a : X) : mv d j (mv d k a) = mv d (j + k) a := by
  cases d <;> simp [mv] <;> ring

theorem mv_zero (d : Dir) (a : X) : mv d 0 a = a := by cases d <;> simp [mv]

/-- Shifting is a bijection. -/
def mvEquiv (d : Dir) (k : ℤ) : X ≃ X where
  toFun := mv d k
  invFun := mv d (-k)
  left_inv a := by rw [mv_mv]; simp [mv_zero]
  right_inv a := by rw [mv_mv]; simp [mv_zero]

/-- Non-zero at finitely many points only. -/
def Fin' (f : X → ℝ) : Prop := (Function.support f).Finite

/-- Sum over all points. -/
noncomputable def S (f : X → ℝ) : ℝ := ∑' a, f a

variable {f g h : X → ℝ} {d : Dir}

theorem Fin'.summable (hf : Fin' f) : Summable f := summable_of_hasFiniteSupport hf
theorem Fin'.zero : Fin' fun _ => 0 := by simp [Fin', Function.support]
theorem Fin'.mono (hf : Fin' f) (h : ∀ a, f a = 0 → g a = 0) : Fin' g :=
  Set.Finite.subset hf fun a ha hc => ha (h a hc)
theorem Fin'.add (hf : Fin' f) (hg : Fin' g) : Fin' fun a => f a + g a := by
  refine Set.Finite.subset (hf.union hg) fun a ha => ?_
  by_contra hc
  simp only [Set.mem_union, Function.mem_support, not_or, not_not] at hc
  exact ha (by simp [hc.1, hc.2])
theorem Fin'.neg (hf : Fin' f) : Fin' fun a => - f a := hf.mono fun a h => by simp [h]
theorem Fin'.sub (hf : Fin' f) (hg : Fin' g) : Fin' fun a => f a - g a := by
  simpa [sub_eq_add_neg] using hf.add hg.neg
theorem Fin'.mul_left (hf : Fin' f) (g : X → ℝ) : Fin' fun a => g a * f a := hf.mono fun a h => by simp [h]
theorem Fin'.mul_right (hf : Fin' f) (g : X → ℝ) : Fin' fun a => f a * g a := hf.mono fun a h => by simp [h]
theorem Fin'.shift (hf : Fin' f) (d : Dir) (k : ℤ) : Fin' fun a => f (mv d k a) := by
  have : Function.support (fun a => f (mv d k a)) = (mvEquiv d k) ⁻¹' Function.support f := rfl
  unfold Fin'
  rw [this]
  exact Set.Finite.preimage (mvEquiv d k).injective.injOn hf

theorem S_add (hf : Fin' f) (hg : Fin' g) : S (fun a => f a + g a) = S f + S g := hf.summable.tsum_add hg.summable
theorem S_sub (hf : Fin' f) (hg : Fin' g) : S (fun a => f a - g a) = S f - S g := hf.summable.tsum_sub hg.summable
theorem S_neg : S (fun a => - f a) = - S f := tsum_neg
theorem S_mul (c : ℝ) : S (fun a => c * f a) = c * S f := tsum_mul_left
theorem S_zero : S (fun _ => 0) = 0 := tsum_zero
theorem S_shift (d : Dir) (k : ℤ) : S (fun a => f (mv d k a)) = S f := (mvEquiv d k).tsum_eq f
theorem S_congr (h : ∀ a, f a = g a) : S f = S g := tsum_congr h
theorem S_nonneg (h : ∀ a, 0 ≤ f a) : 0 ≤ S f := tsum_nonneg h
theorem S_le (hf : Fin' f) (hg : Fin' g) (h : ∀ a, f a ≤ g a) : S f ≤ S g := hf.summable.tsum_le_tsum h hg.summable

/-! ## Staggered differences -/

/-- `Σ_k c_k (p[+k] - p[-1-k])`, the difference at a face; `k` counts from the given number. -/
def gradF (d : Dir) : ℕ → List ℝ → (X → ℝ) → X → ℝ
  | _, [], _, _ => 0
  | k, c :: cs, p, a => c * (p (mv d k a) - p (mv d (-1 - k) a)) + gradF d (k + 1) cs p a

/-- `Σ_k c_k (v[1+k] - v[-k])`, the difference at a cell. -/
def divF (d : Dir) : ℕ → List ℝ → (X → ℝ) → X → ℝ
  | _, [], _, _ => 0
  | k, c :: cs, v, a => c * (v (mv d (1 + k) a) - v (mv d (-k) a)) + divF d (k + 1) cs v a

theorem Fin'.gradF (hf : Fin' f) (d : Dir) (k : ℕ) (cs : List ℝ) : Fin' (gradF d k cs f) := by
  induction cs generalizing k with
  | nil => exact Fin'.zero
  | cons c cs ih => exact (((hf.shift d k).sub (hf.shift d (-1 - k))).mul_left _).add (ih (k + 1))

theorem Fin'.divF (hf : Fin' f) (d : Dir) (k : ℕ) (cs : List ℝ) : Fin' (divF d k cs f) := by
  induction cs generalizing k with
  | nil => exact Fin'.zero
  | cons c cs ih => exact (((hf.shift d (1 + k)).sub (hf.shift d (-k))).mul_left _).add (ih (k + 1))

theorem gradF_add (d : Dir) (k : ℕ) (cs : List ℝ) (p q : X → ℝ) (a : X) :
    gradF d k cs (fun a => p a + q a) a = gradF d k cs p a + gradF d k cs q a := by
  induction cs generalizing k with
  | nil => simp [gradF]
  | cons c cs ih => simp only [gradF]; rw [ih]; ring

/-- Product shifted to the other factor. -/
theorem S_move (d : Dir) (k : ℤ) (v p : X → ℝ) :
    S (fun a => v a * p (mv d k a)) = S (fun a => v (mv d (-k) a) * p a) := by
  rw [← S_shift d (-k)]
  apply S_congr
  intro a
  rw [mv_mv]; simp [mv_zero]

/-- **Summation by parts**: the two differences are each other's negative transpose. -/
theorem parts (d : Dir) (k : ℕ) (cs : List ℝ) {v p : X → ℝ} (hv : Fin' v) (hp : Fin' p) :
    S (fun a => v a * gradF d k cs p a) = - S (fun a => p a * divF d k cs v a) := by
  induction cs generalizing k with
  | nil => simp [gradF, divF, S_zero]
  | cons c cs ih =>
    have e1 : S (fun a => v a * gradF d k (c :: cs) p a) =
        c * (S (fun a => v a * p (mv d k a)) - S (fun a => v a * p (mv d (-1 - k) a))) +
          S (fun a => v a * gradF d (k + 1) cs p a) := by
      rw [← S_sub (hv.mul_right _) (hv.mul_right _), ← S_mul, ← S_add]
      · apply S_congr; intro a; simp only [gradF]; ring
      · exact ((hv.mul_right _).sub (hv.mul_right _)).mul_left _
      · exact hv.mul_right _
    have e2 : S (fun a => p a * divF d k (c :: cs) v a) =
        c * (S (fun a => p a * v (mv d (1 + k) a)) - S (fun a => p a * v (mv d (-k) a))) +
          S (fun a => p a * divF d (k + 1) cs v a) := by
      rw [← S_sub (hp.mul_right _) (hp.mul_right _), ← S_mul, ← S_add]
      · apply S_congr; intro a; simp only [divF]; ring
      · exact ((hp.mul_right _).sub (hp.mul_right _)).mul_left _
      · exact hp.mul_right _
    rw [e1, e2, ih, S_move, S_move]
    have e3 : S (fun a => v (mv d (-(k : ℤ)) a) * p a) = S (fun a => p a * v (mv d (-k) a)) :=
      S_congr fun a => mul_comm _ _
    have e4 : S (fun a => v (mv d (-(-1 - (k : ℤ))) a) * p a) = S (fun a => p a * v (mv d (1 + k) a)) := by
      apply S_congr; intro a
      have : -(-1 - (k : ℤ)) = 1 + k := by ring
      rw [this, mul_comm]
    rw [e3, e4]; ring

/-- Sum of the absolute values of the coefficients. -/
def absSum (cs : List ℝ) : ℝ := (cs.map abs).sum

theorem absSum_nonneg (cs : List ℝ) : 0 ≤ absSum cs := by
  unfold absSum
  apply List.sum_nonneg
  intro x hx
  obtain ⟨y, _, rfl⟩ := List.mem_map.1 hx
  exact abs_nonneg y

/-- The squares that bound the square of the difference. -/
def sqF (d : Dir) : ℕ → List ℝ → (X → ℝ) → X → ℝ
  | _, [], _, _ => 0
  | k, c :: cs, p, a => |c| * (p (mv d k a) ^ 2 + p (mv d (-1 - k) a) ^ 2) + sqF d (k + 1) cs p a

theorem sqF_nonneg (d : Dir) (k : ℕ) (cs : List ℝ) (p : X → ℝ) (a : X) : 0 ≤ sqF d k cs p a := by
  induction cs generalizing k with
  | nil => simp [sqF]
  | cons c cs ih => simp only [sqF]; have := ih (k + 1); positivity

/-- Cauchy–Schwarz at a face. -/
theorem gradF_sq (d : Dir) (k : ℕ) (cs : List ℝ) (p : X → ℝ) (a : X) :
    gradF d k cs p a ^ 2 ≤ 2 * absSum cs * sqF d k cs p a := by
  induction cs generalizing k with
  | nil => simp [gradF, absSum, sqF]
  | cons c cs ih =>
    have hA := absSum_nonneg cs
    have hQ := sqF_nonneg d (k + 1) cs p a
    have hi := ih (k + 1)
    simp only [gradF, sqF, absSum, List.map_cons, List.sum_cons]
    set u := p (mv d k a) with hu
    set w := p (mv d (-1 - k) a) with hw
    set G := gradF d (k + 1) cs p a with hG
    set Q := sqF d (k + 1) cs p a with hQ'
    change _ ≤ 2 * (|c| + absSum cs) * _
    set A := absSum cs with hA'
    have hc := abs_nonneg c
    have hcc : c ^ 2 = |c| ^ 2 := (sq_abs c).symm
    have h1 : (u - w) ^ 2 ≤ 2 * (u ^ 2 + w ^ 2) := by nlinarith [sq_nonneg (u + w)]
    have hq : 0 ≤ u ^ 2 + w ^ 2 := by positivity
    -- the cross term
    have hcross : 2 * (c * (u - w)) * G ≤ 2 * |c| * Q + 2 * A * (|c| * (u ^ 2 + w ^ 2)) := by
      have hb : |2 * (c * (u - w)) * G| = 2 * |c| * (|u - w| * |G|) := by
        rw [abs_mul, abs_mul, abs_mul]; simp; ring
      have hle : 2 * (c * (u - w)) * G ≤ 2 * |c| * (|u - w| * |G|) := by
        rw [← hb]; exact le_abs_self _
      have h2 : |u - w| ^ 2 ≤ 2 * (u ^ 2 + w ^ 2) := by rw [sq_abs]; exact h1
      have h3 : |G| ^ 2 ≤ 2 * A * Q := by rw [sq_abs]; exact hi
      have h4 : |u - w| * |G| ≤ Q + A * (u ^ 2 + w ^ 2) := by
        have h5 : (|u - w| * |G|) ^ 2 ≤ (Q + A * (u ^ 2 + w ^ 2)) ^ 2 := by
          have h6 : (|u - w| * |G|) ^ 2 ≤ 2 * (u ^ 2 + w ^ 2) * (2 * A * Q) := by
            rw [mul_pow]
            exact mul_le_mul h2 h3 (sq_nonneg _) (by positivity)
          nlinarith [sq_nonneg (Q - A * (u ^ 2 + w ^ 2))]
        exact le_of_sq_le_sq h5 (by positivity)
      calc _ ≤ 2 * |c| * (|u - w| * |G|) := hle
        _ ≤ 2 * |c| * (Q + A * (u ^ 2 + w ^ 2)) := by gcongr
        _ = _ := by ring
    have hsq : (c * (u - w)) ^ 2 ≤ 2 * |c| * (|c| * (u ^ 2 + w ^ 2)) := by
      rw [mul_pow, hcc]
      have := mul_le_mul_of_nonneg_left h1 (sq_nonneg |c|)
      nlinarith
    nlinarith

theorem Fin'.sq (hf : Fin' f) : Fin' fun a => f a ^ 2 := hf.mono fun a h => by simp [h]

theorem Fin'.sqF (hf : Fin' f) (d : Dir) (k : ℕ) (cs : List ℝ) : Fin' (sqF d k cs f) := by
  induction cs generalizing k with
  | nil => exact Fin'.zero
  | cons c cs ih => exact (((hf.sq.shift d k).add (hf.sq.shift d (-1 - k))).mul_left _).add (ih (k + 1))

theorem S_sqF (d : Dir) (k : ℕ) (cs : List ℝ) (hf : Fin' f) :
    S (sqF d k cs f) = 2 * absSum cs * S (fun a => f a ^ 2) := by
  induction cs generalizing k with
  | nil => simp [sqF, absSum, S_zero]
  | cons c cs ih =>
    have e : S (sqF d k (c :: cs) f) = |c| * (S (fun a => f (mv d k a) ^ 2) + S (fun a => f (mv d (-1 - k) a) ^ 2)) +
        S (sqF d (k + 1) cs f) := by
      rw [← S_add (hf.sq.shift d k) (hf.sq.shift d _), ← S_mul, ← S_add]
      · rfl
      · exact ((hf.sq.shift d k).add (hf.sq.shift d _)).mul_left _
      · exact hf.sqF d _ _
    rw [e, ih, S_shift (f := fun a => f a ^ 2), S_shift (f := fun a => f a ^ 2)]
    simp only [absSum, List.map_cons, List.sum_cons]
    ring

/-- **The difference is bounded**: the sum of its squares is at most `(2 Σ|c|)²` times the sum of the squares. -/
theorem S_gradF (d : Dir) (cs : List ℝ) (hf : Fin' f) :
    S (fun a => gradF d 0 cs f a ^ 2) ≤ (2 * absSum cs) ^ 2 * S (fun a => f a ^ 2) := by
  have h1 : S (fun a => gradF d 0 cs f a ^ 2) ≤ S (fun a => 2 * absSum cs * sqF d 0 cs f a) :=
    S_le (hf.gradF d 0 cs).sq ((hf.sqF d 0 cs).mul_left _) (gradF_sq d 0 cs f)
  rw [S_mul, S_sqF d 0 cs hf] at h1
  calc _ ≤ _ := h1
    _ = _ := by ring

end Verif.Stab

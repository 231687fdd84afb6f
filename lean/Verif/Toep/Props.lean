import Verif.Toep.Model
import Verif.Toep.Spec
import Mathlib.Tactic.Ring
import Mathlib.Tactic.FieldSimp
import Mathlib.Tactic.LinearCombination
import Mathlib.Tactic.Linarith
import Mathlib.Tactic.Positivity
import Mathlib.Data.Real.Star

/-! # The Levinson recursion solves Hermitian Toeplitz systems -/

set_option linter.unusedSectionVars false

namespace Verif.Toep

section
variable {K : Type} [Field K] [StarRing K]

open Finset

/-! ## Loops -/

theorem acc_eq {m : ℕ} {f : ℕ → Option K} {v : ℕ → K} (h : ∀ j < m, f j = some (v j)) : acc m f = some (∑ j ∈ range m, v j) := by
  unfold acc
  induction m with
  | zero => rfl
  | succ m ih =>
    rw [forNM_succ, ih fun j hj => h j (by omega), sum_range_succ]
    simp [h m (by omega)]

theorem rd_some {n : ℕ} {a : ℕ → K} {i : ℕ} (h : i < n) : rd n a i = some (a i) := if_pos h
theorem wr_some {n : ℕ} {a : ℕ → K} {i : ℕ} {v : K} (h : i < n) : wr n a i v = some (fun k => if k = i then v else a k) := if_pos h
theorem mul2_some (a b : K) : mul2 (some a) (some b) = some (a * b) := rfl
theorem dv_some {a b : K} (h : b ≠ 0) : dv a b = some (a / b) := if_neg h
theorem dv_none {a : K} : dv a 0 = none := if_pos rfl

/-- Index of the half that is not `b`. -/
def Halves (w : Ws K) : Prop := (w.old = 0 ∧ w.new = 1) ∨ (w.old = 1 ∧ w.new = 0)

theorem Halves.lt {w : Ws K} (h : Halves w) {n j : ℕ} (hj : j < n) : w.old * n + j < 2 * n ∧ w.new * n + j < 2 * n := by
  rcases h with ⟨h1, h2⟩ | ⟨h1, h2⟩ <;> rw [h1, h2] <;> constructor <;> omega

theorem Halves.ne {w : Ws K} (h : Halves w) {n i j : ℕ} (hi : i < n) (hj : j < n) : w.old * n + i ≠ w.new * n + j := by
  rcases h with ⟨h1, h2⟩ | ⟨h1, h2⟩ <;> rw [h1, h2] <;> omega

/-- The update of `x`. -/
theorem xLoop {n m : ℕ} (hm : m < n) {w : Ws K} (hh : Halves w) (x : ℕ → K) :
    ∃ x', forNM m (fun j x => do
        let a ← rd n x (m - j - 1)
        let b ← mul2 (rd n x m) (rd (2 * n) w.g (w.old * n + j))
        wr n x (m - j - 1) (a - b)) x = some x' ∧
      ∀ k, x' k = if k < m then x k - x m * w.g (w.old * n + (m - 1 - k)) else x k := by
  refine Exists.elim (forNM_inv (n := m) (s := x) (body := fun j x => do
        let a ← rd n x (m - j - 1)
        let b ← mul2 (rd n x m) (rd (2 * n) w.g (w.old * n + j))
        wr n x (m - j - 1) (a - b))
    (P := fun j (z : ℕ → K) => ∀ k, z k = if m - j ≤ k ∧ k < m then x k - x m * w.g (w.old * n + (m - 1 - k)) else x k)
    (by intro k; rw [if_neg (by omega)]) ?_) ?_
  rotate_left
  · intro x' ⟨h1, h2⟩
    refine ⟨x', h1, fun k => ?_⟩
    rw [h2 k]; simp
  · intro j hj z hz
    have e1 : z m = x m := by rw [hz m, if_neg (by omega)]
    have e2 : z (m - j - 1) = x (m - j - 1) := by rw [hz, if_neg (by omega)]
    refine ⟨fun k => if k = m - j - 1 then z (m - j - 1) - z m * w.g (w.old * n + j) else z k, ?_, ?_⟩
    · simp only [rd_some (show m - j - 1 < n by omega), rd_some hm, rd_some (hh.lt (show j < n by omega)).1, mul2_some,
        wr_some (show m - j - 1 < n by omega), Option.bind_eq_bind, Option.bind_some]
    · intro k
      dsimp only
      by_cases hk : k = m - j - 1
      · rw [if_pos hk, if_pos (by omega), e1, e2, hk, show m - 1 - (m - j - 1) = j by omega]
      · rw [if_neg hk, hz k]
        by_cases hc : m - j ≤ k ∧ k < m
        · rw [if_pos hc, if_pos (by omega)]
        · rw [if_neg hc, if_neg (by omega)]

/-- The update of the work arrays. -/
theorem ghLoop {n m : ℕ} (hm : m < n) {w : Ws K} (hh : Halves w) (g h : ℕ → K) :
    ∃ s, forNM m (fun j (s : (ℕ → K) × (ℕ → K)) => do
        let a ← rd (2 * n) s.1 (w.old * n + j)
        let b ← mul2 (rd (2 * n) s.1 (w.new * n + m)) (rd (2 * n) s.2 (w.old * n + m - j - 1))
        let g ← wr (2 * n) s.1 (w.new * n + j) (a - b)
        let c ← rd (2 * n) s.2 (w.old * n + m - j - 1)
        let d ← mul2 (rd (2 * n) s.2 (w.new * n + m)) (rd (2 * n) g (w.old * n + j))
        let h ← wr (2 * n) s.2 (w.new * n + m - j - 1) (c - d)
        some (g, h)) (g, h) = some s ∧
      (s.1 (w.new * n + m) = g (w.new * n + m) ∧ s.2 (w.new * n + m) = h (w.new * n + m)) ∧
      (∀ j < m, s.1 (w.new * n + j) = g (w.old * n + j) - g (w.new * n + m) * h (w.old * n + (m - 1 - j))) ∧
      ∀ j < m, s.2 (w.new * n + j) = h (w.old * n + j) - h (w.new * n + m) * g (w.old * n + (m - 1 - j)) := by
  refine Exists.elim (forNM_inv (n := m) (s := (g, h)) (body := fun j (s : (ℕ → K) × (ℕ → K)) => do
        let a ← rd (2 * n) s.1 (w.old * n + j)
        let b ← mul2 (rd (2 * n) s.1 (w.new * n + m)) (rd (2 * n) s.2 (w.old * n + m - j - 1))
        let g ← wr (2 * n) s.1 (w.new * n + j) (a - b)
        let c ← rd (2 * n) s.2 (w.old * n + m - j - 1)
        let d ← mul2 (rd (2 * n) s.2 (w.new * n + m)) (rd (2 * n) g (w.old * n + j))
        let h ← wr (2 * n) s.2 (w.new * n + m - j - 1) (c - d)
        some (g, h))
    (P := fun i (s : (ℕ → K) × (ℕ → K)) =>
      (∀ j < n, s.1 (w.old * n + j) = g (w.old * n + j) ∧ s.2 (w.old * n + j) = h (w.old * n + j)) ∧
      (s.1 (w.new * n + m) = g (w.new * n + m) ∧ s.2 (w.new * n + m) = h (w.new * n + m)) ∧
      (∀ j < i, s.1 (w.new * n + j) = g (w.old * n + j) - g (w.new * n + m) * h (w.old * n + (m - 1 - j))) ∧
      ∀ j < m, m - i ≤ j → s.2 (w.new * n + j) = h (w.old * n + j) - h (w.new * n + m) * g (w.old * n + (m - 1 - j)))
    ⟨fun _ _ => ⟨rfl, rfl⟩, ⟨rfl, rfl⟩, fun j hj => by omega, fun j hj hj' => by omega⟩ ?_) ?_
  rotate_left
  · intro s ⟨h1, h2, h3, h4, h5⟩
    exact ⟨s, h1, h3, fun j hj => h4 j hj, fun j hj => h5 j hj (by omega)⟩
  · intro i hi s ⟨p1, p2, p3, p4⟩
    have i1 := (hh.lt (n := n) (j := i) (by omega))
    have i2 := (hh.lt (n := n) (j := m) hm)
    have i3 := (hh.lt (n := n) (j := m - i - 1) (by omega))
    have e1 : w.old * n + m - i - 1 = w.old * n + (m - i - 1) := by omega
    have e2 : w.new * n + m - i - 1 = w.new * n + (m - i - 1) := by omega
    have ne1 : w.old * n + i ≠ w.new * n + i := hh.ne (by omega) (by omega)
    refine ⟨(fun k => if k = w.new * n + i then s.1 (w.old * n + i) - s.1 (w.new * n + m) * s.2 (w.old * n + (m - i - 1)) else s.1 k,
      fun k => if k = w.new * n + (m - i - 1) then s.2 (w.old * n + (m - i - 1)) - s.2 (w.new * n + m) * s.1 (w.old * n + i)
        else s.2 k), ?_, ?_, ?_, ?_, ?_⟩
    · simp only [e1, e2, rd_some i1.1, rd_some i2.2, rd_some i3.1, wr_some i1.2, wr_some i3.2, mul2_some, Option.bind_eq_bind,
        Option.bind_some, if_neg ne1]
    · intro j hj
      dsimp only
      rw [if_neg (hh.ne hj (by omega)), if_neg (hh.ne hj (by omega))]
      exact p1 j hj
    · dsimp only
      rw [if_neg (by omega), if_neg (by omega)]
      exact p2
    · intro j hj
      dsimp only
      by_cases hc : j = i
      · subst hc
        rw [if_pos rfl, (p1 j (by omega)).1, p2.1, (p1 (m - j - 1) (by omega)).2, show m - j - 1 = m - 1 - j by omega]
      · rw [if_neg (by omega)]; exact p3 j (by omega)
    · intro j hj hj'
      dsimp only
      by_cases hc : j = m - i - 1
      · rw [if_pos (by omega), (p1 (m - i - 1) (by omega)).2, p2.2, (p1 i (by omega)).1, hc, show m - 1 - (m - i - 1) = i by omega]
      · rw [if_neg (by omega)]; exact p4 j hj (by omega)

/-! ## The invariant -/

/-- Order `m`: `x` solves the leading system; the work arrays solve it for the next column and the next row. -/
structure Inv (n : ℕ) (r y : ℕ → K) (m : ℕ) (w : Ws K) : Prop where
  halves : Halves w
  sol : Solves m r w.x y
  back : m < n → ∀ i < m, ∑ j ∈ range m, T r i j * w.g (w.old * n + (m - 1 - j)) = T r i m
  forw : m < n → ∀ i < m, ∑ j ∈ range m, T r i j * w.h (w.old * n + j) = r (i + 1)

/-- The denominators of the recursion. -/
def den1 (n : ℕ) (r : ℕ → K) (m : ℕ) (w : Ws K) : K := ∑ j ∈ range m, w.g (w.old * n + (m - 1 - j)) * r (m - j) - r 0
def den2 (n : ℕ) (r : ℕ → K) (m : ℕ) (w : Ws K) : K := ∑ j ∈ range m, w.h (w.old * n + (m - 1 - j)) * star (r (m - j)) - r 0

theorem T_last (r : ℕ → K) {m j : ℕ} (hj : j ≤ m) : T r m j = r (m - j) := if_pos hj
theorem T_first (r : ℕ → K) (j : ℕ) : T r 0 (j + 1) = star (r (j + 1)) := if_neg (by omega)
theorem T_succ (r : ℕ → K) (i j : ℕ) : T r (i + 1) (j + 1) = T r i j := by
  unfold T
  by_cases h : j ≤ i
  · rw [if_pos h, if_pos (by omega), show i + 1 - (j + 1) = i - j by omega]
  · rw [if_neg h, if_neg (by omega), show j + 1 - (i + 1) = j - i by omega]
theorem T_self (r : ℕ → K) (i : ℕ) : T r i i = r 0 := by simp [T]

/-- Reverse a sum. -/
theorem sum_rev (m : ℕ) (f : ℕ → K) : ∑ j ∈ range m, f (m - 1 - j) = ∑ j ∈ range m, f j := sum_range_reflect f m

/-- The step for `x`. -/
theorem xStep_spec {n : ℕ} {r y : ℕ → K} {m : ℕ} {w : Ws K} (hm : m < n) (hi : Inv n r y m w) (hd : den1 n r m w ≠ 0) :
    ∃ x, xStep n r y m w = some x ∧ Solves (m + 1) r x y := by
  have hh := hi.halves
  have a1 : acc m (fun j => mul2 (rd n w.x j) (rd n r (m - j))) = some (∑ j ∈ range m, w.x j * r (m - j)) :=
    acc_eq fun j hj => by rw [rd_some (by omega), rd_some (by omega)]; rfl
  have a2 : acc m (fun j => mul2 (rd (2 * n) w.g (w.old * n + m - j - 1)) (rd n r (m - j))) =
      some (∑ j ∈ range m, w.g (w.old * n + (m - 1 - j)) * r (m - j)) :=
    acc_eq fun j hj => by
      rw [show w.old * n + m - j - 1 = w.old * n + (m - 1 - j) by omega, rd_some (hh.lt (by omega)).1, rd_some (by omega)]; rfl
  set v := (∑ j ∈ range m, w.x j * r (m - j) - y m) / den1 n r m w with hv
  obtain ⟨x', h1, h2⟩ := xLoop hm hh (fun k => if k = m then v else w.x k)
  refine ⟨x', ?_, ?_⟩
  · unfold xStep
    rw [a1, a2, rd_some hm, rd_some (show 0 < n by omega)]
    simp only [Option.bind_eq_bind, Option.bind_some]
    rw [dv_some (b := ∑ j ∈ range m, w.g (w.old * n + (m - 1 - j)) * r (m - j) - r 0) hd]
    simp only [Option.bind_some, wr_some hm]
    exact h1
  · have ex : ∀ k < m, x' k = w.x k - v * w.g (w.old * n + (m - 1 - k)) := by
      intro k hk; rw [h2 k, if_pos hk, if_neg (by omega), if_pos rfl]
    have em : x' m = v := by rw [h2 m, if_neg (by omega), if_pos rfl]
    intro i hi'
    rw [sum_range_succ, em]
    have e : ∑ j ∈ range m, T r i j * x' j =
        ∑ j ∈ range m, T r i j * w.x j - v * ∑ j ∈ range m, T r i j * w.g (w.old * n + (m - 1 - j)) := by
      rw [mul_sum, ← sum_sub_distrib]
      apply sum_congr rfl
      intro j hj
      rw [ex j (mem_range.1 hj)]; ring
    rw [e]
    by_cases hlt : i < m
    · rw [hi.sol i hlt, hi.back hm i hlt]; ring
    · have : i = m := by omega
      subst this
      rw [T_self]
      have e1 : ∑ j ∈ range i, T r i j * w.x j = ∑ j ∈ range i, w.x j * r (i - j) :=
        sum_congr rfl fun j hj => by rw [T_last r (by have := mem_range.1 hj; omega)]; ring
      have e2 : ∑ j ∈ range i, T r i j * w.g (w.old * n + (i - 1 - j)) = ∑ j ∈ range i, w.g (w.old * n + (i - 1 - j)) * r (i - j) :=
        sum_congr rfl fun j hj => by rw [T_last r (by have := mem_range.1 hj; omega)]; ring
      rw [e1, e2]
      have key : v * den1 n r i w = ∑ j ∈ range i, w.x j * r (i - j) - y i := by rw [hv]; field_simp
      unfold den1 at key
      linear_combination -key

/-- The step for the work arrays. -/
theorem ghStep_spec {n : ℕ} {r y : ℕ → K} {m : ℕ} {w : Ws K} (hm0 : 0 < m) (hm : m + 1 < n) (hh : Halves w)
    (hb : ∀ i < m, ∑ j ∈ range m, T r i j * w.g (w.old * n + (m - 1 - j)) = T r i m)
    (hf : ∀ i < m, ∑ j ∈ range m, T r i j * w.h (w.old * n + j) = r (i + 1)) (hs : Solves (m + 1) r w.x y)
    (hd1 : den1 n r m w ≠ 0) (hd2 : den2 n r m w ≠ 0) :
    ∃ w', ghStep n r m w = some w' ∧ Inv n r y (m + 1) w' := by
  have a1 : acc m (fun j => mul2 (rd (2 * n) w.g (w.old * n + j)) ((rd n r (m - j)).map star)) =
      some (∑ j ∈ range m, w.g (w.old * n + j) * star (r (m - j))) :=
    acc_eq fun j hj => by rw [rd_some (hh.lt (by omega)).1, rd_some (by omega)]; rfl
  have a2 : acc m (fun j => mul2 (rd (2 * n) w.h (w.old * n + m - j - 1)) ((rd n r (m - j)).map star)) =
      some (∑ j ∈ range m, w.h (w.old * n + (m - 1 - j)) * star (r (m - j))) :=
    acc_eq fun j hj => by
      rw [show w.old * n + m - j - 1 = w.old * n + (m - 1 - j) by omega, rd_some (hh.lt (by omega)).1, rd_some (by omega)]; rfl
  have a3 : acc m (fun j => mul2 (rd (2 * n) w.h (w.old * n + j)) (rd n r (m - j))) =
      some (∑ j ∈ range m, w.h (w.old * n + j) * r (m - j)) :=
    acc_eq fun j hj => by rw [rd_some (hh.lt (by omega)).1, rd_some (by omega)]; rfl
  have a4 : acc m (fun j => mul2 (rd (2 * n) w.g (w.old * n + m - j - 1)) (rd n r (m - j))) =
      some (∑ j ∈ range m, w.g (w.old * n + (m - 1 - j)) * r (m - j)) :=
    acc_eq fun j hj => by
      rw [show w.old * n + m - j - 1 = w.old * n + (m - 1 - j) by omega, rd_some (hh.lt (by omega)).1, rd_some (by omega)]; rfl
  set gm := (∑ j ∈ range m, w.g (w.old * n + j) * star (r (m - j)) - star (r (m + 1))) / den2 n r m w with hgm
  set hm' := (∑ j ∈ range m, w.h (w.old * n + j) * r (m - j) - r (m + 1)) / den1 n r m w with hhm
  have hm1 : m < n := by omega
  obtain ⟨s, h1, ⟨h2, h3⟩, h4, h5⟩ := ghLoop hm1 hh (fun k => if k = w.new * n + m then gm else w.g k)
    (fun k => if k = w.new * n + m then hm' else w.h k)
  have eo : ∀ j < n, ¬ (w.old * n + j = w.new * n + m) := fun j hj => hh.ne hj hm1
  have G1 : s.1 (w.new * n + m) = gm := by rw [h2, if_pos rfl]
  have H1 : s.2 (w.new * n + m) = hm' := by rw [h3, if_pos rfl]
  have G2 : ∀ j < m, s.1 (w.new * n + j) = w.g (w.old * n + j) - gm * w.h (w.old * n + (m - 1 - j)) := by
    intro j hj; rw [h4 j hj, if_neg (eo j (by omega)), if_pos rfl, if_neg (eo _ (by omega))]
  have H2 : ∀ j < m, s.2 (w.new * n + j) = w.h (w.old * n + j) - hm' * w.g (w.old * n + (m - 1 - j)) := by
    intro j hj; rw [h5 j hj, if_neg (eo j (by omega)), if_pos rfl, if_neg (eo _ (by omega))]
  refine ⟨{ w with g := s.1, h := s.2, old := w.new, new := w.old }, ?_, ?_⟩
  · unfold ghStep
    rw [a1, a2, a3, a4, rd_some hm, rd_some (show 0 < n by omega)]
    simp only [Option.bind_eq_bind, Option.bind_some]
    rw [dv_some (b := ∑ j ∈ range m, w.h (w.old * n + (m - 1 - j)) * star (r (m - j)) - r 0) hd2]
    simp only [Option.bind_some, wr_some (hh.lt hm1).2]
    rw [dv_some (b := ∑ j ∈ range m, w.g (w.old * n + (m - 1 - j)) * r (m - j) - r 0) hd1]
    simp only [Option.bind_some]
    rw [show (∑ j ∈ range m, w.g (w.old * n + j) * star (r (m - j)) - star (r (m + 1))) /
      (∑ j ∈ range m, w.h (w.old * n + (m - 1 - j)) * star (r (m - j)) - r 0) = gm from rfl,
      show (∑ j ∈ range m, w.h (w.old * n + j) * r (m - j) - r (m + 1)) /
      (∑ j ∈ range m, w.g (w.old * n + (m - 1 - j)) * r (m - j) - r 0) = hm' from rfl]
    simp only [Option.bind_eq_bind] at h1
    rw [h1]; rfl
  · refine ⟨?_, hs, fun _ => ?_, fun _ => ?_⟩
    · rcases hh with ⟨p, q⟩ | ⟨p, q⟩
      · exact Or.inr ⟨q, p⟩
      · exact Or.inl ⟨q, p⟩
    · -- the next column
      intro i hi
      dsimp only
      rw [sum_range_succ']
      have e0 : s.1 (w.new * n + (m + 1 - 1 - 0)) = gm := by rw [show m + 1 - 1 - 0 = m by omega]; exact G1
      rw [e0]
      have e : ∑ j ∈ range m, T r i (j + 1) * s.1 (w.new * n + (m + 1 - 1 - (j + 1))) =
          ∑ j ∈ range m, T r i (j + 1) * w.g (w.old * n + (m - 1 - j)) - gm * ∑ j ∈ range m, T r i (j + 1) * w.h (w.old * n + j) := by
        rw [mul_sum, ← sum_sub_distrib]
        apply sum_congr rfl
        intro j hj
        have hj' := mem_range.1 hj
        rw [show m + 1 - 1 - (j + 1) = m - 1 - j by omega, G2 (m - 1 - j) (by omega), show m - 1 - (m - 1 - j) = j by omega]; ring
      rw [e]
      cases i with
      | zero =>
        have s1 : ∑ j ∈ range m, T r 0 (j + 1) * w.g (w.old * n + (m - 1 - j)) = ∑ j ∈ range m, w.g (w.old * n + j) * star (r (m - j)) := by
          rw [← sum_rev]
          apply sum_congr rfl
          intro j hj
          have hj' := mem_range.1 hj
          rw [T_first, show m - 1 - (m - 1 - j) = j by omega, show m - 1 - j + 1 = m - j by omega]; ring
        have s2 : ∑ j ∈ range m, T r 0 (j + 1) * w.h (w.old * n + j) = ∑ j ∈ range m, w.h (w.old * n + (m - 1 - j)) * star (r (m - j)) := by
          rw [← sum_rev]
          apply sum_congr rfl
          intro j hj
          have hj' := mem_range.1 hj
          rw [T_first, show m - 1 - j + 1 = m - j by omega]; ring
        rw [s1, s2, T_self, T_first]
        have key : gm * den2 n r m w = ∑ j ∈ range m, w.g (w.old * n + j) * star (r (m - j)) - star (r (m + 1)) := by
          rw [hgm]; field_simp
        unfold den2 at key
        linear_combination -key
      | succ i =>
        have s1 : ∑ j ∈ range m, T r (i + 1) (j + 1) * w.g (w.old * n + (m - 1 - j)) = T r i m := by
          rw [← hb i (by omega)]; exact sum_congr rfl fun j _ => by rw [T_succ]
        have s2 : ∑ j ∈ range m, T r (i + 1) (j + 1) * w.h (w.old * n + j) = r (i + 1) := by
          rw [← hf i (by omega)]; exact sum_congr rfl fun j _ => by rw [T_succ]
        rw [s1, s2, T_last r (Nat.zero_le _), T_succ]; simp; ring
    · -- the next row
      intro i hi
      dsimp only
      rw [sum_range_succ, H1]
      have e : ∑ j ∈ range m, T r i j * s.2 (w.new * n + j) =
          ∑ j ∈ range m, T r i j * w.h (w.old * n + j) - hm' * ∑ j ∈ range m, T r i j * w.g (w.old * n + (m - 1 - j)) := by
        rw [mul_sum, ← sum_sub_distrib]
        apply sum_congr rfl
        intro j hj
        rw [H2 j (mem_range.1 hj)]; ring
      rw [e]
      by_cases hlt : i < m
      · rw [hf i hlt, hb i hlt]; ring
      · have : i = m := by omega
        subst this
        rw [T_self]
        have e1 : ∑ j ∈ range i, T r i j * w.h (w.old * n + j) = ∑ j ∈ range i, w.h (w.old * n + j) * r (i - j) :=
          sum_congr rfl fun j hj => by rw [T_last r (by have := mem_range.1 hj; omega)]; ring
        have e2 : ∑ j ∈ range i, T r i j * w.g (w.old * n + (i - 1 - j)) = ∑ j ∈ range i, w.g (w.old * n + (i - 1 - j)) * r (i - j) :=
          sum_congr rfl fun j hj => by rw [T_last r (by have := mem_range.1 hj; omega)]; ring
        rw [e1, e2]
        have key : hm' * den1 n r i w = ∑ j ∈ range i, w.h (w.old * n + j) * r (i - j) - r (i + 1) := by rw [hhm]; field_simp
        unfold den1 at key
        linear_combination -key

/-! ## When a step breaks down -/

theorem xStep_none {n : ℕ} {r y : ℕ → K} {m : ℕ} {w : Ws K} (hm : m < n) (hh : Halves w) (hd : den1 n r m w = 0) :
    xStep n r y m w = none := by
  have a1 : acc m (fun j => mul2 (rd n w.x j) (rd n r (m - j))) = some (∑ j ∈ range m, w.x j * r (m - j)) :=
    acc_eq fun j hj => by rw [rd_some (by omega), rd_some (by omega)]; rfl
  have a2 : acc m (fun j => mul2 (rd (2 * n) w.g (w.old * n + m - j - 1)) (rd n r (m - j))) =
      some (∑ j ∈ range m, w.g (w.old * n + (m - 1 - j)) * r (m - j)) :=
    acc_eq fun j hj => by
      rw [show w.old * n + m - j - 1 = w.old * n + (m - 1 - j) by omega, rd_some (hh.lt (by omega)).1, rd_some (by omega)]; rfl
  unfold xStep
  rw [a1, a2, rd_some hm, rd_some (show 0 < n by omega)]
  simp only [Option.bind_eq_bind, Option.bind_some]
  rw [show ∑ j ∈ range m, w.g (w.old * n + (m - 1 - j)) * r (m - j) - r 0 = 0 from hd, dv_none]; rfl

theorem ghStep_none {n : ℕ} {r : ℕ → K} {m : ℕ} {w : Ws K} (hm : m + 1 < n) (hh : Halves w) (hd : den2 n r m w = 0) :
    ghStep n r m w = none := by
  have a1 : acc m (fun j => mul2 (rd (2 * n) w.g (w.old * n + j)) ((rd n r (m - j)).map star)) =
      some (∑ j ∈ range m, w.g (w.old * n + j) * star (r (m - j))) :=
    acc_eq fun j hj => by rw [rd_some (hh.lt (by omega)).1, rd_some (by omega)]; rfl
  have a2 : acc m (fun j => mul2 (rd (2 * n) w.h (w.old * n + m - j - 1)) ((rd n r (m - j)).map star)) =
      some (∑ j ∈ range m, w.h (w.old * n + (m - 1 - j)) * star (r (m - j))) :=
    acc_eq fun j hj => by
      rw [show w.old * n + m - j - 1 = w.old * n + (m - 1 - j) by omega, rd_some (hh.lt (by omega)).1, rd_some (by omega)]; rfl
  have a3 : acc m (fun j => mul2 (rd (2 * n) w.h (w.old * n + j)) (rd n r (m - j))) =
      some (∑ j ∈ range m, w.h (w.old * n + j) * r (m - j)) :=
    acc_eq fun j hj => by rw [rd_some (hh.lt (by omega)).1, rd_some (by omega)]; rfl
  have a4 : acc m (fun j => mul2 (rd (2 * n) w.g (w.old * n + m - j - 1)) (rd n r (m - j))) =
      some (∑ j ∈ range m, w.g (w.old * n + (m - 1 - j)) * r (m - j)) :=
    acc_eq fun j hj => by
      rw [show w.old * n + m - j - 1 = w.old * n + (m - 1 - j) by omega, rd_some (hh.lt (by omega)).1, rd_some (by omega)]; rfl
  unfold ghStep
  rw [a1, a2, a3, a4, rd_some hm, rd_some (show 0 < n by omega)]
  simp only [Option.bind_eq_bind, Option.bind_some]
  rw [show ∑ j ∈ range m, w.h (w.old * n + (m - 1 - j)) * star (r (m - j)) - r 0 = 0 from hd, dv_none]; rfl

/-- A step goes on if the two denominators do not vanish. -/
theorem step_spec {n : ℕ} {r y : ℕ → K} {m : ℕ} {w : Ws K} (hm0 : 0 < m) (hm : m < n) (hi : Inv n r y m w)
    (hd1 : den1 n r m w ≠ 0) (hd2 : m + 1 < n → den2 n r m w ≠ 0) : ∃ w', step n r y m w = some w' ∧ Inv n r y (m + 1) w' := by
  obtain ⟨x, h1, h2⟩ := xStep_spec hm hi hd1
  unfold step
  rw [h1]
  simp only [Option.bind_eq_bind, Option.bind_some]
  by_cases hl : m + 1 = n
  · rw [if_neg (by simpa using hl)]
    exact ⟨_, rfl, hi.halves, h2, fun h => by omega, fun h => by omega⟩
  · rw [if_pos hl]
    exact ghStep_spec hm0 (by omega) (w := { w with x := x }) hi.halves (hi.back hm) (hi.forw hm) h2 hd1 (hd2 (by omega))

/-- A step that goes on keeps the invariant. -/
theorem step_inv {n : ℕ} {r y : ℕ → K} {m : ℕ} {w w' : Ws K} (hm0 : 0 < m) (hm : m < n) (hi : Inv n r y m w)
    (hs : step n r y m w = some w') : Inv n r y (m + 1) w' := by
  have hd1 : den1 n r m w ≠ 0 := by
    intro h
    rw [step, xStep_none hm hi.halves h] at hs
    cases hs
  by_cases hd2 : m + 1 < n → den2 n r m w ≠ 0
  · obtain ⟨v, h1, h2⟩ := step_spec hm0 hm hi hd1 hd2
    rw [hs] at h1; cases h1; exact h2
  · push Not at hd2
    obtain ⟨h1, h2⟩ := hd2
    obtain ⟨x, h3, -⟩ := xStep_spec hm hi hd1
    rw [step, h3] at hs
    simp only [Option.bind_eq_bind, Option.bind_some] at hs
    rw [if_pos (show m + 1 ≠ n by omega), ghStep_none (w := { w with x := x }) h1 hi.halves h2] at hs
    cases hs

theorem start_spec {n : ℕ} (hn : 2 ≤ n) {r y : ℕ → K} (h0 : r 0 ≠ 0) (x0 u : ℕ → K) :
    ∃ w, start n r y x0 u = some w ∧ Inv n r y 1 w := by
  unfold start
  rw [rd_some (show 0 < n by omega), rd_some (show 0 < n by omega), rd_some (show 1 < n by omega)]
  simp only [Option.bind_eq_bind, Option.bind_some, dv_some h0, wr_some (show 0 < n by omega), wr_some (show 0 * n + 0 < 2 * n by omega)]
  refine ⟨_, rfl, Or.inl ⟨rfl, rfl⟩, ?_, fun _ => ?_, fun _ => ?_⟩
  · intro i hi
    obtain rfl : i = 0 := by omega
    simp [T_self]; field_simp
  · intro i hi
    obtain rfl : i = 0 := by omega
    simp [T_self, T_first r 0]; field_simp
  · intro i hi
    obtain rfl : i = 0 := by omega
    simp [T_self]; field_simp

theorem run_inv {n : ℕ} {r y : ℕ → K} {w : Ws K} (hi : Inv n r y 1 w) : ∀ {k : ℕ} {w' : Ws K}, k + 1 ≤ n →
    forNM k (fun k => step n r y (k + 1)) w = some w' → Inv n r y (k + 1) w' := by
  intro k
  induction k with
  | zero => intro w' _ h; cases h; exact hi
  | succ k ih =>
    intro w' hk h
    rw [forNM_succ] at h
    obtain ⟨v, h1, h2⟩ := Option.bind_eq_some_iff.1 h
    exact step_inv (by omega) (by omega) (ih (by omega) h1) h2

/-! ## Definite matrices -/

theorem Definite.mono {n m : ℕ} {r : ℕ → K} (h : Definite n r) (hm : m ≤ n) : Definite m r := by
  intro v ⟨i, hi, hv⟩
  have := h (fun k => if k < m then v k else 0) ⟨i, by omega, by simpa [hi] using hv⟩
  intro h0
  apply this
  refine Eq.trans ?_ h0
  have hsub : range m ⊆ range n := range_subset_range.2 hm
  rw [← sum_subset hsub]
  · apply sum_congr rfl
    intro i hi
    rw [← sum_subset hsub]
    · apply sum_congr rfl
      intro j hj
      rw [if_pos (mem_range.1 hi), if_pos (mem_range.1 hj)]
    · intro j _ hj
      rw [if_neg (fun c => hj (mem_range.2 c)), mul_zero]
  · intro i _ hi
    apply sum_eq_zero
    intro j _
    rw [if_neg (fun c => hi (mem_range.2 c)), star_zero, zero_mul, zero_mul]

theorem Definite.zero {n : ℕ} {r : ℕ → K} (h : Definite n r) (hn : 0 < n) : r 0 ≠ 0 := by
  have := (h.mono (show 1 ≤ n by omega)) (fun _ => 1) ⟨0, by omega, one_ne_zero⟩
  simpa [T_self] using this

theorem Definite.den1 {n : ℕ} {r y : ℕ → K} {m : ℕ} {w : Ws K} (h : Definite n r) (hm : m < n) (hi : Inv n r y m w) :
    den1 n r m w ≠ 0 := by
  intro h0
  refine (h.mono (show m + 1 ≤ n by omega)) (fun j => if j = m then 1 else -w.g (w.old * n + (m - 1 - j))) ⟨m, by omega, by simp⟩ ?_
  have row : ∀ i < m + 1, ∑ j ∈ range (m + 1), T r i j * (if j = m then 1 else -w.g (w.old * n + (m - 1 - j))) = 0 := by
    intro i hi'
    rw [sum_range_succ, if_pos rfl]
    have e : ∑ j ∈ range m, T r i j * (if j = m then 1 else -w.g (w.old * n + (m - 1 - j))) =
        -∑ j ∈ range m, T r i j * w.g (w.old * n + (m - 1 - j)) := by
      rw [← sum_neg_distrib]
      apply sum_congr rfl
      intro j hj
      rw [if_neg (by have := mem_range.1 hj; omega)]; ring
    rw [e]
    by_cases hlt : i < m
    · rw [hi.back hm i hlt]; ring
    · obtain rfl : i = m := by omega
      rw [T_self]
      have e2 : ∑ j ∈ range i, T r i j * w.g (w.old * n + (i - 1 - j)) = ∑ j ∈ range i, w.g (w.old * n + (i - 1 - j)) * r (i - j) :=
        sum_congr rfl fun j hj => by rw [T_last r (by have := mem_range.1 hj; omega)]; ring
      rw [e2]
      unfold Toep.den1 at h0
      linear_combination -h0
  apply sum_eq_zero
  intro i hi'
  rw [sum_congr rfl fun j _ => mul_assoc _ _ _, ← mul_sum, row i (mem_range.1 hi'), mul_zero]

theorem Definite.den2 {n : ℕ} {r y : ℕ → K} {m : ℕ} {w : Ws K} (h : Definite n r) (hm : m < n) (hi : Inv n r y m w) :
    den2 n r m w ≠ 0 := by
  intro h0
  refine (h.mono (show m + 1 ≤ n by omega)) (fun j => if j = 0 then 1 else -w.h (w.old * n + (j - 1))) ⟨0, by omega, by simp⟩ ?_
  have row : ∀ i < m + 1, ∑ j ∈ range (m + 1), T r i j * (if j = 0 then 1 else -w.h (w.old * n + (j - 1))) = 0 := by
    intro i hi'
    rw [sum_range_succ', if_pos rfl]
    have e : ∑ j ∈ range m, T r i (j + 1) * (if j + 1 = 0 then 1 else -w.h (w.old * n + (j + 1 - 1))) =
        -∑ j ∈ range m, T r i (j + 1) * w.h (w.old * n + j) := by
      rw [← sum_neg_distrib]
      apply sum_congr rfl
      intro j hj
      rw [if_neg (by omega), show j + 1 - 1 = j by omega]; ring
    rw [e]
    cases i with
    | zero =>
      have s2 : ∑ j ∈ range m, T r 0 (j + 1) * w.h (w.old * n + j) = ∑ j ∈ range m, w.h (w.old * n + (m - 1 - j)) * star (r (m - j)) := by
        rw [← sum_rev]
        apply sum_congr rfl
        intro j hj
        have hj' := mem_range.1 hj
        rw [T_first, show m - 1 - j + 1 = m - j by omega]; ring
      rw [s2, T_self]
      unfold Toep.den2 at h0
      linear_combination -h0
    | succ i =>
      have s2 : ∑ j ∈ range m, T r (i + 1) (j + 1) * w.h (w.old * n + j) = r (i + 1) := by
        rw [← hi.forw hm i (by omega)]; exact sum_congr rfl fun j _ => by rw [T_succ]
      rw [s2, T_last r (Nat.zero_le _)]; simp
  apply sum_eq_zero
  intro i hi'
  rw [sum_congr rfl fun j _ => mul_assoc _ _ _, ← mul_sum, row i (mem_range.1 hi'), mul_zero]

/-! ## C103 -/

/-- **C103**: if the solver returns a result, it solves the system, whatever the right-hand side and the old contents of the arrays. -/
theorem toeplitz_solves {n : ℕ} (hn : 2 ≤ n) {r y x0 u x : ℕ → K} (h : toeplitz n r y x0 u = .done x) : Solves n r x y := by
  unfold toeplitz at h
  rw [rd_some (show 0 < n by omega)] at h
  dsimp only at h
  by_cases h0 : r 0 = 0
  · rw [if_pos h0] at h; cases h
  · rw [if_neg h0] at h
    obtain ⟨w, h1, h2⟩ := start_spec hn (y := y) h0 x0 u
    rw [h1, Option.bind_some] at h
    cases hr : forNM (n - 1) (fun k => step n r y (k + 1)) w with
    | none => rw [hr] at h; cases h
    | some w' =>
      rw [hr] at h
      cases h
      have := (run_inv h2 (by omega) hr).sol
      rwa [show n - 1 + 1 = n by omega] at this

/-- **C103**: if the quadratic form of the matrix vanishes only at zero, the solver returns a result, which is the only solution. -/
theorem toeplitz_definite {n : ℕ} (hn : 2 ≤ n) {r : ℕ → K} (hd : Definite n r) (y x0 u : ℕ → K) :
    ∃ x, toeplitz n r y x0 u = .done x ∧ Solves n r x y ∧ ∀ z, Solves n r z y → ∀ i < n, z i = x i := by
  have h0 := hd.zero (by omega)
  obtain ⟨w, h1, h2⟩ := start_spec hn (y := y) h0 x0 u
  obtain ⟨w', h3, h4⟩ := forNM_inv (n := n - 1) (s := w) (body := fun k => step n r y (k + 1))
    (P := fun k (w : Ws K) => Inv n r y (k + 1) w) h2 (fun k hk w hw =>
      step_spec (by omega) (by omega) hw (hd.den1 (by omega) hw) (fun _ => hd.den2 (by omega) hw))
  have hs : toeplitz n r y x0 u = .done w'.x := by
    unfold toeplitz
    rw [rd_some (show 0 < n by omega)]
    dsimp only
    rw [if_neg h0, h1, Option.bind_some, h3]
  refine ⟨w'.x, hs, toeplitz_solves hn hs, fun z hz i hi => ?_⟩
  by_contra hne
  refine hd (fun k => z k - w'.x k) ⟨i, hi, sub_ne_zero.2 hne⟩ ?_
  apply sum_eq_zero
  intro k hk
  have hk' := mem_range.1 hk
  rw [sum_congr rfl fun j _ => mul_assoc _ _ _, ← mul_sum]
  rw [sum_congr rfl fun j _ => mul_sub _ _ _, sum_sub_distrib, hz k hk', toeplitz_solves hn hs k hk', sub_self, mul_zero]

/-- **C103**: a zero on the diagonal ends the program with a message. -/
theorem toeplitz_stop {n : ℕ} (hn : 0 < n) {r : ℕ → K} (h0 : r 0 = 0) (y x0 u : ℕ → K) : toeplitz n r y x0 u = .stop := by
  unfold toeplitz
  rw [rd_some hn]
  dsimp only
  rw [if_pos h0]

/-- A system of one equation reads beyond the coefficients. -/
theorem toeplitz_one {r : ℕ → K} (h0 : r 0 ≠ 0) (y x0 u : ℕ → K) : toeplitz 1 r y x0 u = .bad := by
  unfold toeplitz start
  rw [rd_some (show 0 < 1 by omega), rd_some (show 0 < 1 by omega)]
  simp [h0, wr_some (show 0 < 1 by omega), rd]

end

/-! ## Instances and limits -/

/-- The hypotheses are met: real coefficients 2, 1. -/
example : Definite 2 (fun k => if k = 0 then (2 : ℝ) else if k = 1 then 1 else 0) := by
  intro v ⟨i, hi, hv⟩
  have : v 0 ≠ 0 ∨ v 1 ≠ 0 := by
    have : i = 0 ∨ i = 1 := by omega
    rcases this with rfl | rfl
    · exact Or.inl hv
    · exact Or.inr hv
  simp [Finset.sum_range_succ, T]
  have p : 0 < v 0 ^ 2 + v 1 ^ 2 := by
    rcases this with h | h
    · have := sq_pos_of_ne_zero h; positivity
    · have := sq_pos_of_ne_zero h; positivity
  nlinarith [sq_nonneg (v 0 + v 1)]

/-- A regular system that the recursion cannot solve: its second leading matrix is singular. -/
theorem toeplitz_breaks_down : ∃ r : ℕ → ℝ, (∀ y : ℕ → ℝ, ∃ x, Solves 3 r x y) ∧ ∀ y x0 u, toeplitz 3 r y x0 u = .bad := by
  refine ⟨fun k => if k = 2 then 0 else 1, fun y => ?_, fun y x0 u => ?_⟩
  · refine ⟨fun k => if k = 0 then y 1 - y 2 else if k = 1 then y 0 - y 1 + y 2 else y 1 - y 0, fun i hi => ?_⟩
    have : i = 0 ∨ i = 1 ∨ i = 2 := by omega
    rcases this with rfl | rfl | rfl <;> simp [Finset.sum_range_succ, T]
    ring
  · set r : ℕ → ℝ := fun k => if k = 2 then 0 else 1 with hr
    obtain ⟨w, h1, h2⟩ := start_spec (n := 3) (by norm_num) (r := r) (y := y) (by simp [hr]) x0 u
    have hb := h2.back (by norm_num) 0 (by norm_num)
    simp [T, hr] at hb
    have hd : den1 3 r 1 w = 0 := by simp [den1, hr, hb]
    have hs : step 3 r y 1 w = none := by
      rw [step, xStep_none (by norm_num) h2.halves hd]; rfl
    unfold toeplitz
    rw [rd_some (show 0 < 3 by norm_num)]
    dsimp only
    rw [if_neg (by simp [hr]), h1, Option.bind_some, show forNM (3 - 1) (fun k => step 3 r y (k + 1)) w =
      ((step 3 r y 1 w).bind (step 3 r y 2)) from rfl, hs]
    rfl

/-- The comment in the source calls `r` the first row of the matrix; it is the first column. -/
theorem toeplitz_not_row : ∃ r y : ℕ → ℂ, ∀ x0 u x, toeplitz 2 r y x0 u = .done x →
    ¬ ∀ i < 2, ∑ j ∈ Finset.range 2, T r j i * x j = y i := by
  refine ⟨fun k => if k = 0 then 2 else Complex.I, fun k => if k = 0 then 1 else 0, fun x0 u x h hr => ?_⟩
  have h0 := toeplitz_solves (le_refl 2) h 0 (by norm_num)
  have h1 := toeplitz_solves (le_refl 2) h 1 (by norm_num)
  have r0 := hr 0 (by norm_num)
  have r1 := hr 1 (by norm_num)
  simp [Finset.sum_range_succ, T] at h0 h1 r0 r1
  have e0 : x 0 = 1 / 2 := by linear_combination (h0 + r0) / 4
  have e1 : x 1 = 0 := by linear_combination (h1 + r1) / 4
  rw [e0, e1] at h1
  simp at h1

/-- The solver does return a result for these coefficients. -/
example (y x0 u : ℕ → ℂ) : ∃ x, toeplitz 2 (fun k => if k = 0 then 2 else Complex.I) y x0 u = .done x := by
  obtain ⟨x, h, -⟩ := toeplitz_definite (le_refl 2) (r := fun k => if k = 0 then 2 else Complex.I) (fun v ⟨i, hi, hv⟩ h => by
    have hre := congrArg Complex.re h
    simp [Finset.sum_range_succ, T] at hre
    have : v 0 ≠ 0 ∨ v 1 ≠ 0 := by
      have : i = 0 ∨ i = 1 := by omega
      rcases this with rfl | rfl
      · exact Or.inl hv
      · exact Or.inr hv
    have n0 : 0 ≤ (v 0).re ^ 2 + (v 0).im ^ 2 := by positivity
    have key : (v 0).re ^ 2 + (v 0).im ^ 2 + ((v 1).re ^ 2 + (v 1).im ^ 2) ≤ 0 := by
      nlinarith [sq_nonneg ((v 0).re + (v 1).im), sq_nonneg ((v 0).im - (v 1).re), sq_nonneg ((v 0).re - (v 1).im), sq_nonneg ((v 0).im + (v 1).re)]
    rcases this with h | h
    · apply h; apply Complex.ext <;> simp <;> nlinarith [sq_nonneg (v 0).re, sq_nonneg (v 0).im, sq_nonneg (v 1).re, sq_nonneg (v 1).im]
    · apply h; apply Complex.ext <;> simp <;> nlinarith [sq_nonneg (v 0).re, sq_nonneg (v 0).im, sq_nonneg (v 1).re, sq_nonneg (v 1).im]) y x0 u
  exact ⟨x, h⟩

end Verif.Toep

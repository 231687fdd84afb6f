import Verif.Fft.Kiss
import Mathlib.Algebra.BigOperators.Group.List.Basic
import Mathlib.Data.Nat.Prime.Basic

/-!
# C07: the plan built for `n` points multiplies back to `n`
-/

namespace Verif.Fft
open Verif

/-- Specification of a plan: a list of stages (radix, remaining length), each remaining length
being what is left after dividing by the radix, and 1 at the end. -/
inductive Plan : List (Nat × Nat) → Nat → Prop
  | last (p : Nat) (hp : 1 ≤ p) : Plan [(p, 1)] p
  | more (p m : Nat) (rest : List (Nat × Nat)) (hp : 2 ≤ p) (hm : 2 ≤ m) (h : Plan rest m) :
      Plan ((p, m) :: rest) (p * m)

theorem kfSearch_dvd (n fsqrt p : Nat) : kfSearch n fsqrt p ∣ n := by
  induction p using kfSearch.induct (n := n) (fsqrt := fsqrt) with
  | case1 p h => unfold kfSearch; rw [if_pos h]; exact Nat.dvd_of_mod_eq_zero h
  | case2 p h1 h2 => unfold kfSearch; rw [if_neg h1, if_pos h2]
  | case3 p h1 h2 ih => unfold kfSearch; rw [if_neg h1, if_neg h2]; exact ih

theorem kfLoop_plan (fsqrt n p : Nat) (hp : 2 ≤ p) (hn : 2 ≤ n) : Plan (kfLoop fsqrt n p hp) n := by
  induction n using Nat.strongRecOn generalizing p with
  | _ n ih =>
    have hq := kfSearch_ge n fsqrt p hp hn
    have hd := kfSearch_dvd n fsqrt p
    have hmul : kfSearch n fsqrt p * (n / kfSearch n fsqrt p) = n := Nat.mul_div_cancel' hd
    have hpos : 0 < n / kfSearch n fsqrt p := Nat.div_pos (Nat.le_of_dvd (by omega) hd) (by omega)
    unfold kfLoop
    dsimp only
    split
    · rename_i h
      have := ih (n / kfSearch n fsqrt p) (Nat.div_lt_self (by omega) hq) (kfSearch n fsqrt p) hq h
      have hP := Plan.more (kfSearch n fsqrt p) (n / kfSearch n fsqrt p) _ hq h this
      rwa [hmul] at hP
    · rename_i h
      have h1 : n / kfSearch n fsqrt p = 1 := by omega
      rw [h1] at hmul
      rw [h1]
      rw [Nat.mul_one] at hmul
      rw [hmul]
      exact Plan.last n (by omega)

theorem kfFactor_one : kfFactor 1 = [(1, 1)] := by
  have h1 : kfSearch 1 1 4 = 1 := by rw [kfSearch]; simp [kfNext]
  unfold kfFactor kfLoop
  simp [h1]

/-- **C07.** For every `n ≥ 1` the factorisation is a plan for `n`. -/
theorem kfFactor_plan (n : Nat) (hn : 1 ≤ n) : Plan (kfFactor n) n := by
  rcases Nat.lt_or_ge n 2 with h | h
  · have : n = 1 := by omega
    subst this
    rw [kfFactor_one]
    exact Plan.last 1 (le_refl _)
  · exact kfLoop_plan _ n 4 _ h

/-- **C07.** The radices multiply to `n`. -/
theorem Plan.prod {l : List (Nat × Nat)} {n : Nat} (h : Plan l n) : (l.map Prod.fst).prod = n := by
  induction h with
  | last p => simp
  | more p m rest _ _ _ ih => simp [ih]

theorem Plan.pos {l : List (Nat × Nat)} {n : Nat} (h : Plan l n) : 1 ≤ n := by
  cases h with
  | last p hp => exact hp
  | more p m rest hp hm _ => exact Nat.mul_pos (by omega) (by omega)

theorem Plan.radix_ge {l : List (Nat × Nat)} {n : Nat} (h : Plan l n) (hn : 2 ≤ n) :
    ∀ s ∈ l, 2 ≤ s.1 := by
  induction h with
  | last p => intro s hs; simp at hs; subst hs; exact hn
  | more p m rest hp hm _ ih =>
    intro s hs
    rcases List.mem_cons.mp hs with rfl | hs
    · exact hp
    · exact ih hm s hs

theorem Plan.length_le {l : List (Nat × Nat)} {n : Nat} (h : Plan l n) (hn : 2 ≤ n) :
    2 ^ l.length ≤ n := by
  induction h with
  | last p hp => simpa using hn
  | more p m rest hp hm _ ih =>
    rw [List.length_cons, Nat.pow_succ, Nat.mul_comm]
    exact Nat.mul_le_mul hp (ih hm)

/-- **C07.** For every `int` length the plan fits in `factors[2*MAXFACTORS]` with
`MAXFACTORS = 32` (kiss_fft.h:118). -/
theorem kfFactor_fits (n : Nat) (hn : 1 ≤ n) (hint : n < 2^31) :
    2 * (kfFactor n).length ≤ 2 * 32 := by
  rcases Nat.lt_or_ge n 2 with h | h
  · have := kfFactor_plan n hn
    have : n = 1 := by omega
    subst this
    rw [kfFactor_one]; decide
  · have h1 := (kfFactor_plan n hn).length_le h
    have h2 : 2 ^ (kfFactor n).length < 2 ^ 31 := lt_of_le_of_lt h1 hint
    have := (Nat.pow_lt_pow_iff_right (by decide : 1 < 2)).mp h2
    omega

/-- **C07.** Everything in one statement: the stages of the plan for `n`, their order and size. -/
theorem kfFactor_spec (n : Nat) (hn : 2 ≤ n) :
    ((kfFactor n).map Prod.fst).prod = n ∧ (∀ s ∈ kfFactor n, 2 ≤ s.1) ∧
    ∀ i (h : i < (kfFactor n).length),
      ((kfFactor n)[i]).2 = (((kfFactor n).drop (i+1)).map Prod.fst).prod := by
  have hP := kfFactor_plan n (by omega)
  refine ⟨hP.prod, hP.radix_ge hn, ?_⟩
  generalize kfFactor n = l at hP
  clear hn
  induction hP with
  | last p => intro i h; simp at h; subst h; simp
  | more p m rest hp hm hr ih =>
    intro i h
    cases i with
    | zero => simp [hr.prod]
    | succ i => simpa using ih i (by simpa using h)

/-- What is known about the remaining `n` when the candidate `p` is tried. -/
def Tried (n p : Nat) : Prop :=
  p = 4 ∨ (p = 2 ∧ ¬ 4 ∣ n) ∨ (p % 2 = 1 ∧ 3 ≤ p ∧ ∀ q, q.Prime → q < p → ¬ q ∣ n)

theorem Tried.next {n p : Nat} (h : Tried n p) (hd : ¬ p ∣ n) : Tried n (kfNext p) := by
  unfold kfNext
  rcases h with rfl | ⟨rfl, h⟩ | ⟨h1, h2, h3⟩
  · exact Or.inr (Or.inl ⟨rfl, hd⟩)
  · refine Or.inr (Or.inr ⟨rfl, le_refl _, fun q hq hlt hdv => ?_⟩)
    have : q = 2 := by have := hq.two_le; simp at hlt; omega
    subst this; exact hd hdv
  · rw [if_neg (by omega), if_neg (by omega)]
    refine Or.inr (Or.inr ⟨by omega, by omega, fun q hq hlt hdv => ?_⟩)
    by_cases hqp : q < p
    · exact h3 q hq hqp hdv
    · by_cases hq1 : q = p
      · subst hq1; exact hd hdv
      · have hqe : q = p + 1 := by omega
        rcases hq.eq_two_or_odd with h | h <;> omega

theorem Tried.radix {n p : Nat} (h : Tried n p) (hd : p ∣ n) : p = 4 ∨ p.Prime := by
  rcases h with rfl | ⟨rfl, _⟩ | ⟨_, h2, h3⟩
  · exact Or.inl rfl
  · exact Or.inr Nat.prime_two
  · refine Or.inr ?_
    by_contra hp
    have hm : p.minFac < p := (Nat.not_prime_iff_minFac_lt (by omega)).mp hp
    exact h3 p.minFac (Nat.minFac_prime (by omega)) hm (dvd_trans (Nat.minFac_dvd p) hd)

theorem Tried.rest {n p : Nat} (h : Tried n p) (hn : 2 ≤ n) (hlt : n < p * p) (hp : p ≠ 4) : n.Prime := by
  rcases h with rfl | ⟨rfl, h⟩ | ⟨_, h2, h3⟩
  · exact absurd rfl hp
  · have : n = 2 ∨ n = 3 := by omega
    rcases this with rfl | rfl
    · exact Nat.prime_two
    · exact Nat.prime_three
  · by_contra hq
    have hm : n.minFac ^ 2 ≤ n := Nat.minFac_sq_le_self (by omega) hq
    have hmp : n.minFac < p := by
      by_contra hge
      have : p * p ≤ n.minFac * n.minFac := Nat.mul_le_mul (by omega) (by omega)
      rw [pow_two] at hm; omega
    exact h3 _ (Nat.minFac_prime (by omega)) hmp (Nat.minFac_dvd n)

theorem kfNext_ne_four (p : Nat) (h : p = 4 ∨ p = 2 ∨ p % 2 = 1) : kfNext p ≠ 4 := by
  unfold kfNext; split_ifs <;> omega

theorem kfSearch_radix (n fsqrt p : Nat) (hn : 2 ≤ n) (hs : n < (fsqrt + 1) * (fsqrt + 1)) (h : Tried n p) :
    (kfSearch n fsqrt p = 4 ∨ (kfSearch n fsqrt p).Prime) ∧
      Tried (n / kfSearch n fsqrt p) (kfSearch n fsqrt p) := by
  induction p using kfSearch.induct (n := n) (fsqrt := fsqrt) with
  | case1 p h1 =>
    unfold kfSearch; rw [if_pos h1]
    have hd := Nat.dvd_of_mod_eq_zero h1
    refine ⟨h.radix hd, ?_⟩
    rcases h with rfl | ⟨rfl, h⟩ | ⟨q1, q2, q3⟩
    · exact Or.inl rfl
    · exact Or.inr (Or.inl ⟨rfl, fun h' => h (dvd_trans h' (Nat.div_dvd_of_dvd hd))⟩)
    · exact Or.inr (Or.inr ⟨q1, q2, fun q hq hlt hdv => q3 q hq hlt (dvd_trans hdv (Nat.div_dvd_of_dvd hd))⟩)
  | case2 p h1 h2 =>
    unfold kfSearch; rw [if_neg h1, if_pos h2]
    have hd : ¬ p ∣ n := fun h => h1 (Nat.mod_eq_zero_of_dvd h)
    have hlt : n < kfNext p * kfNext p :=
      lt_of_lt_of_le hs (Nat.mul_le_mul h2 h2)
    have hpr := (h.next hd).rest hn hlt (kfNext_ne_four p (by
      rcases h with h | ⟨h, _⟩ | ⟨h, _⟩ <;> omega))
    refine ⟨Or.inr hpr, ?_⟩
    rw [Nat.div_self (by omega)]
    rcases hpr.eq_two_or_odd with h2 | h2
    · exact Or.inr (Or.inl ⟨h2, by decide⟩)
    · exact Or.inr (Or.inr ⟨h2, by have := hpr.two_le; omega, fun q hq _ hdv => by
        have := Nat.le_of_dvd one_pos hdv; have := hq.two_le; omega⟩)
  | case3 p h1 h2 ih =>
    unfold kfSearch; rw [if_neg h1, if_neg h2]
    exact ih (h.next fun h => h1 (Nat.mod_eq_zero_of_dvd h))

theorem kfLoop_radix (fsqrt n p : Nat) (hp : 2 ≤ p) (hn : 2 ≤ n) (hs : n < (fsqrt + 1) * (fsqrt + 1))
    (h : Tried n p) : ∀ s ∈ kfLoop fsqrt n p hp, s.1 = 4 ∨ s.1.Prime := by
  induction n using Nat.strongRecOn generalizing p with
  | _ n ih =>
    have hq := kfSearch_ge n fsqrt p hp hn
    obtain ⟨g1, g2⟩ := kfSearch_radix n fsqrt p hn hs h
    unfold kfLoop
    dsimp only
    split
    · rename_i h
      intro s hs'
      rcases List.mem_cons.mp hs' with rfl | hs'
      · exact g1
      · have hlt := Nat.div_lt_self (by omega : 0 < n) hq
        exact ih (n / kfSearch n fsqrt p) hlt (kfSearch n fsqrt p) hq h (by omega) g2 s hs'
    · intro s hs'
      rcases List.mem_cons.mp hs' with rfl | hs'
      · exact g1
      · simp at hs'

/-- **C07.** The factorisation is complete: every radix is 4 or a prime, so the slow generic butterfly is
only used for prime factors above 5. -/
theorem kfFactor_radix_prime (n : Nat) (hn : 2 ≤ n) : ∀ s ∈ kfFactor n, s.1 = 4 ∨ s.1.Prime :=
  kfLoop_radix _ n 4 _ hn (Nat.lt_succ_sqrt n) (Or.inl rfl)

/-- A concrete plan: 360 = 4·2·3·3·5. -/
example : kfFactor 360 = [(4, 90), (2, 45), (3, 15), (3, 5), (5, 1)] := by
  have h19 : Nat.sqrt 360 = 18 := by decide +kernel
  unfold kfFactor
  rw [h19]
  simp [kfLoop, kfSearch, kfNext]

end Verif.Fft

import Verif.Fft.PfaShort
import Verif.Fft.KissDft
import Mathlib.Data.Nat.ChineseRemainder
import Mathlib.Algebra.BigOperators.Ring.Finset

/-!
# Combining short transforms into a long one (mathematics behind FFTlib/pfafft.c)
-/

namespace Verif.Fft.Pfa

open Complex Finset

/-- Sum over the elements that agree with `x` modulo `M`, weighted by powers of the `n`-th root of unity. -/
noncomputable def part (n M c : Nat) (f : Nat → ℂ) (x : Nat) : ℂ :=
  ∑ y ∈ (range n).filter (fun y => y ≡ x [MOD M]), f y * w n (c * (x * y))

/-- What one pass with factor `p` does: short transforms over the elements that agree modulo `m = n / p`. -/
noncomputable def passSpec (p m mu : Nat) (f : Nat → ℂ) (x : Nat) : ℂ :=
  ∑ y ∈ (range (p * m)).filter (fun y => y ≡ x [MOD m]), f y * w p (mu * (x * y))

theorem w_modEq {n a b : Nat} (hn : 0 < n) (h : a ≡ b [MOD n]) : w n a = w n b := by
  rw [← w_mod hn a, ← w_mod hn b, h]

theorem w_scale {p m a : Nat} (hm : 0 < m) : w (p * m) (m * a) = w p a := by
  have h : (m : ℂ) ≠ 0 := by exact_mod_cast hm.ne'
  rw [w, w]
  congr 1
  push_cast
  rw [mul_comm (p : ℂ), mul_comm (m : ℂ) (a : ℂ), ← mul_assoc, mul_comm (m : ℂ) (p : ℂ), mul_div_mul_right _ _ h]

/-- Before the first pass. -/
theorem part_start (n : Nat) (f : Nat → ℂ) (x : Nat) (hx : x < n) : part n n 0 f x = f x := by
  have : (range n).filter (fun y => y ≡ x [MOD n]) = {x} := by
    ext y
    rw [mem_filter, mem_range, mem_singleton]
    constructor
    · rintro ⟨h1, h2⟩; rwa [Nat.ModEq, Nat.mod_eq_of_lt h1, Nat.mod_eq_of_lt hx] at h2
    · rintro rfl; exact ⟨hx, rfl⟩
  rw [part, this, sum_singleton]
  simp [w_zero]

/-- A pass with a factor `p` prime to the factors `Q` already done. -/
theorem part_step (p Q R mu c : Nat) (hp : 0 < p) (hQ : 0 < Q) (hR : 0 < R) (hpQ : Nat.Coprime p Q)
    (hc : p * R ∣ c) (f : Nat → ℂ) (x : Nat) :
    passSpec p (Q * R) mu (part (p * (Q * R)) (p * R) c f) x =
      part (p * (Q * R)) R (c + mu * (Q * R)) f x := by
  have hn : 0 < p * (Q * R) := by positivity
  have hm : 0 < Q * R := by positivity
  rw [passSpec, part]
  simp only [part]
  have h1 : ∀ u ∈ (range (p * (Q * R))).filter (fun y => y ≡ x [MOD Q * R]),
      (∑ y ∈ (range (p * (Q * R))).filter (fun y => y ≡ u [MOD p * R]), f y * w (p * (Q * R)) (c * (u * y))) *
        w p (mu * (x * u)) =
      ∑ y ∈ range (p * (Q * R)), if y ≡ u [MOD p * R] then
        f y * w (p * (Q * R)) ((c + mu * (Q * R)) * (x * y)) else 0 := by
    intro u hu
    rw [sum_mul, sum_filter]
    refine sum_congr rfl fun y _ => ?_
    by_cases hy : y ≡ u [MOD p * R]
    · rw [if_pos hy, if_pos hy, mul_assoc, ← w_scale (p := p) (m := Q * R) hm, ← w_add]
      congr 1
      apply w_modEq hn
      have hux : u ≡ x [MOD Q * R] := (mem_filter.mp hu).2
      rw [Nat.add_mul]
      apply Nat.ModEq.add
      · -- c (u y) = c (x y) modulo n
        obtain ⟨d, rfl⟩ := hc
        have : u ≡ x [MOD Q] := hux.of_mul_right R
        have h2 : d * (u * y) ≡ d * (x * y) [MOD Q] := (this.mul_right y).mul_left d
        have h3 := h2.mul_left' (p * R)
        rw [show p * R * Q = p * (Q * R) by ring] at h3
        simpa only [Nat.mul_assoc] using h3
      · have : y ≡ u [MOD p] := hy.of_mul_right R
        have h2 : mu * (x * u) ≡ mu * (x * y) [MOD p] := ((this.symm).mul_left x).mul_left mu
        have h3 := h2.mul_left' (Q * R)
        rw [show Q * R * p = p * (Q * R) by ring] at h3
        rw [show mu * (Q * R) * (x * y) = Q * R * (mu * (x * y)) by ring]
        exact h3
    · rw [if_neg hy, if_neg hy]
  rw [sum_congr rfl h1, sum_comm, sum_filter]
  refine sum_congr rfl fun y hy => ?_
  rw [sum_filter]
  have hg : Nat.gcd (Q * R) (p * R) = R := by
    rw [Nat.gcd_mul_right, Nat.Coprime.gcd_eq_one hpQ.symm, Nat.one_mul]
  by_cases hxy : y ≡ x [MOD R]
  · rw [if_pos hxy]
    obtain ⟨u0, hu1, hu2⟩ := Nat.chineseRemainder' (n := Q * R) (m := p * R) (a := x) (b := y) (by rw [hg]; exact hxy.symm)
    have e1 : u0 % (p * (Q * R)) ≡ x [MOD Q * R] :=
      (Nat.mod_modEq u0 _ |>.of_mul_left p).trans hu1
    have e2 : u0 % (p * (Q * R)) ≡ y [MOD p * R] := by
      have := (Nat.mod_modEq u0 (p * (Q * R)))
      rw [show p * (Q * R) = Q * (p * R) by ring] at this ⊢
      exact (this.of_mul_left Q).trans hu2
    rw [sum_eq_single (u0 % (p * (Q * R)))]
    · rw [if_pos e1, if_pos e2.symm]
    · intro u hu hne
      by_cases a1 : u ≡ x [MOD Q * R]
      · rw [if_pos a1]
        by_cases a2 : y ≡ u [MOD p * R]
        · exfalso; apply hne
          have b1 : u ≡ u0 % (p * (Q * R)) [MOD Q * R] := a1.trans e1.symm
          have b2 : u ≡ u0 % (p * (Q * R)) [MOD p * R] := a2.symm.trans e2.symm
          have b3 : u ≡ u0 % (p * (Q * R)) [MOD p] := b2.of_mul_right R
          have b4 : u ≡ u0 % (p * (Q * R)) [MOD p * (Q * R)] := by
            have hl : Nat.lcm (Q * R) (p * R) = p * (Q * R) := by
              rw [Nat.lcm_mul_right, Nat.Coprime.lcm_eq_mul hpQ.symm]; ring
            rw [Nat.modEq_iff_dvd, Int.natCast_dvd] at b1 b2 ⊢
            have b5 := Nat.lcm_dvd b1 b2
            rwa [hl] at b5
          have := b4
          rw [Nat.ModEq, Nat.mod_eq_of_lt (mem_range.mp hu), Nat.mod_mod] at this
          exact this
        · rw [if_neg a2]
      · rw [if_neg a1]
    · intro hu; exact absurd (mem_range.mpr (Nat.mod_lt _ hn)) hu
  · rw [if_neg hxy]
    refine sum_eq_zero fun u _ => ?_
    by_cases a1 : u ≡ x [MOD Q * R]
    · rw [if_pos a1, if_neg]
      intro a2
      exact hxy ((a2.of_mul_left p).trans (a1.of_mul_left Q))
    · rw [if_neg a1]

/-- After the last pass. -/
theorem part_end (n c s : Nat) (hn : 0 < n) (h : c ≡ s [MOD n]) (f : Nat → ℂ) (x : Nat) :
    part n 1 c f x = ∑ y ∈ range n, f y * w n (s * (x * y)) := by
  have : (range n).filter (fun y => y ≡ x [MOD 1]) = range n := by
    ext y; simp [Nat.modEq_one]
  rw [part, this]
  exact sum_congr rfl fun y _ => by rw [w_modEq hn (h.mul_right (x * y))]

/-- The residue the weights of a transform of sign `isign` have. -/
def sres (isign : Int) (n : Nat) : Nat := if isign < 0 then n - 1 else 1

theorem w_sres_pos (n a : Nat) : w n (sres 1 n * a) = exp (((1 : Int) : ℂ) * (2 * Real.pi * I * a / n)) := by
  simp [sres, w]

theorem w_sres_neg {n : Nat} (hn : 0 < n) (a : Nat) :
    w n (sres (-1) n * a) = exp (((-1 : Int) : ℂ) * (2 * Real.pi * I * a / n)) := by
  have h1 : w n (sres (-1) n * a) * w n a = 1 := by
    rw [← w_add, show sres (-1) n * a + a = n * a by
      simp only [sres]
      rw [if_pos (by norm_num)]
      obtain ⟨m, rfl⟩ := Nat.exists_eq_succ_of_ne_zero hn.ne'
      simp; ring]
    exact w_mul_self hn a
  have h2 : exp (((-1 : Int) : ℂ) * (2 * Real.pi * I * a / n)) * w n a = 1 := by
    rw [w, ← exp_add]
    simp
  have h3 : w n a ≠ 0 := by rw [w]; exact exp_ne_zero _
  exact mul_right_cancel₀ h3 (h1.trans h2.symm)

theorem sum_dft {n : Nat} (hn : 0 < n) (s : Int) (hs : s = 1 ∨ s = -1) (f : Nat → ℂ) (x : Nat) :
    ∑ y ∈ range n, f y * w n (sres s n * (x * y)) = dft s n f x := by
  rw [dft]
  refine sum_congr rfl fun y _ => ?_
  congr 1
  rcases hs with rfl | rfl
  · rw [w_sres_pos]; congr 2; push_cast; ring
  · rw [w_sres_neg hn]; congr 2; push_cast; ring

end Verif.Fft.Pfa

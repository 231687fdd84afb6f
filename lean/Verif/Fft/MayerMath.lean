import Verif.Fft.MayerTrig

/-! # The Hartley transform: bit reversal, splitting in four -/

noncomputable section
namespace Verif.Fft.Mayer
open Verif Verif.Fft Finset

/-! ### Bit reversal -/

/-- The number with the lowest `m` binary digits in reverse order. -/
def rev : Nat → Nat → Nat
  | 0, _ => 0
  | m + 1, j => (j % 2) * 2 ^ m + rev m (j / 2)

theorem rev_lt : ∀ m j, rev m j < 2 ^ m
  | 0, _ => by simp [rev]
  | m + 1, j => by
    have := rev_lt m (j / 2)
    rw [rev, pow_succ]
    rcases (by omega : j % 2 = 0 ∨ j % 2 = 1) with h | h <;> rw [h] <;> omega

/-- Reading from the other end. -/
theorem rev_top : ∀ m j, rev (m + 1) j = 2 * rev m (j % 2 ^ m) + j / 2 ^ m % 2
  | 0, j => by simp [rev]
  | m + 1, j => by
    rw [rev, rev_top m (j / 2), rev]
    have h1 : j % 2 ^ (m + 1) % 2 = j % 2 := by
      rw [pow_succ, Nat.mul_comm, Nat.mod_mul_right_mod]
    have h2 : j % 2 ^ (m + 1) / 2 = j / 2 % 2 ^ m := by
      rw [pow_succ, Nat.mul_comm, Nat.mod_mul_right_div_self]
    have h3 : j / 2 / 2 ^ m = j / 2 ^ (m + 1) := by
      rw [Nat.div_div_eq_div_mul, pow_succ, Nat.mul_comm]
    rw [h1, h2, h3, pow_succ]; ring

theorem rev_rev : ∀ m j, j < 2 ^ m → rev m (rev m j) = j
  | 0, j, h => by simp at h; simp [rev, h]
  | m + 1, j, h => by
    rw [rev_top m (rev (m + 1) j), rev]
    have hl := rev_lt m (j / 2)
    have h1 : (j % 2 * 2 ^ m + rev m (j / 2)) % 2 ^ m = rev m (j / 2) := by
      rw [Nat.mul_comm, Nat.mul_add_mod, Nat.mod_eq_of_lt hl]
    have h2 : (j % 2 * 2 ^ m + rev m (j / 2)) / 2 ^ m = j % 2 := by
      rw [Nat.mul_comm, Nat.mul_add_div (by positivity), Nat.div_eq_of_lt hl, Nat.add_zero]
    rw [h1, h2, rev_rev m (j / 2) (by rw [pow_succ] at h; omega)]
    omega

theorem xor_low (m r : Nat) (h : r < 2 ^ m) : r ^^^ 2 ^ m = 2 ^ m + r := by
  apply Nat.eq_of_testBit_eq
  intro i
  rw [Nat.testBit_xor, Nat.testBit_two_pow]
  rcases Nat.lt_trichotomy i m with h1 | rfl | h1
  · rw [Nat.testBit_two_pow_add_gt h1, decide_eq_false (by omega : ¬ m = i), Bool.xor_false]
  · rw [Nat.testBit_two_pow_add_eq]; simp
  · have h3 : 2 ^ (m + 1) ≤ 2 ^ i := Nat.pow_le_pow_right (by omega) (by omega)
    rw [pow_succ] at h3
    rw [Nat.testBit_lt_two_pow (by omega : r < 2 ^ i), Nat.testBit_lt_two_pow (by omega : 2 ^ m + r < 2 ^ i)]
    simp; omega

theorem xor_high (m r : Nat) (h : r < 2 ^ m) : (2 ^ m + r) ^^^ 2 ^ m = r := by
  rw [← xor_low m r h, Nat.xor_assoc, Nat.xor_self, Nat.xor_zero]

theorem and_low (m r : Nat) (h : r < 2 ^ m) : r &&& 2 ^ m = 0 := by
  rw [Nat.and_two_pow, Nat.testBit_lt_two_pow h]; simp

theorem and_high (m r : Nat) (h : r < 2 ^ m) : (2 ^ m + r) &&& 2 ^ m ≠ 0 := by
  rw [Nat.and_two_pow, Nat.testBit_two_pow_add_eq, Nat.testBit_lt_two_pow h]; simp

theorem revNext_spec : ∀ m j, j + 1 < 2 ^ (m + 1) → revNext (2 ^ m) (rev (m + 1) j) = some (rev (m + 1) (j + 1))
  | m, j, h => by
    have hp : (2 : Nat) ^ m ≠ 0 := by positivity
    have hl := rev_lt m (j / 2)
    rw [revNext, dif_neg hp]
    rcases (by omega : j % 2 = 0 ∨ j % 2 = 1) with h0 | h0
    · have e1 : rev (m + 1) j = rev m (j / 2) := by rw [rev, h0]; simp
      have e2 : rev (m + 1) (j + 1) = 2 ^ m + rev m (j / 2) := by
        rw [rev, show (j + 1) % 2 = 1 by omega, show (j + 1) / 2 = j / 2 by omega]; simp
      rw [e1, e2, xor_low _ _ hl, if_pos (and_high _ _ hl)]
    · have e1 : rev (m + 1) j = 2 ^ m + rev m (j / 2) := by rw [rev, h0]; simp
      have e2 : rev (m + 1) (j + 1) = rev m (j / 2 + 1) := by
        rw [rev, show (j + 1) % 2 = 0 by omega, show (j + 1) / 2 = j / 2 + 1 by omega]; simp
      rw [e1, e2, xor_high _ _ hl, if_neg (not_not.2 (and_low _ _ hl))]
      match m, h with
      | 0, h => simp at h; omega
      | m + 1, h =>
        rw [show 2 ^ (m + 1) / 2 = 2 ^ m by rw [pow_succ]; omega]
        exact revNext_spec m (j / 2) (by rw [pow_succ] at h; omega)

/-- The first loop puts every element at the place with the reversed number. -/
theorem reorder_spec (m : Nat) (hm : 1 ≤ m) (x : Mem) :
    ∃ z, reorder (2 ^ m) x = some z ∧ (∀ c < 2 ^ m, z c = x (rev m c)) ∧ ∀ c, 2 ^ m ≤ c → z c = x c := by
  obtain ⟨m, rfl⟩ : ∃ m', m = m' + 1 := ⟨m - 1, by omega⟩
  have hn : 2 ^ (m + 1) / 2 = 2 ^ m := by rw [pow_succ]; omega
  have hpos : 0 < 2 ^ (m + 1) := by positivity
  obtain ⟨st, h1, h2, h3⟩ := forNM_inv (n := 2 ^ (m + 1) - 1) (s := ((0, x) : Nat × Mem))
    (body := fun d (st : Nat × Mem) =>
      (revNext (2 ^ (m + 1) / 2) st.1).map fun k2 =>
        (k2, if d + 1 > k2 then upd (upd st.2 (d + 1) (st.2 k2)) k2 (st.2 (d + 1)) else st.2))
    (fun d st => st.1 = rev (m + 1) d ∧
      ∀ c, st.2 c = if c < 2 ^ (m + 1) ∧ c ≤ d ∧ rev (m + 1) c ≤ d then x (rev (m + 1) c) else x c)
    (by
      refine ⟨?_, fun c => ?_⟩
      · have : ∀ k, rev k 0 = 0 := fun k => by induction k with
          | zero => rfl
          | succ k ih => rw [rev]; simp [ih]
        rw [this]
      · split_ifs with hc
        · obtain ⟨_, a, b⟩ := hc
          have : c = 0 := by omega
          subst this
          have : rev (m + 1) 0 = 0 := by omega
          rw [this]
        · rfl)
    (by
      intro d hd st ⟨hk, hz⟩
      have hr := revNext_spec m d (by omega)
      refine ⟨_, by rw [hn, hk, hr]; rfl, rfl, fun c => ?_⟩
      have hb := rev_lt (m + 1) (d + 1)
      have hrr := rev_rev (m + 1) (d + 1) (by omega)
      dsimp only
      generalize hK : rev (m + 1) (d + 1) = K at *
      by_cases hgt : d + 1 > K
      · rw [if_pos hgt]
        by_cases hcK : c = K
        · subst hcK
          rw [upd_same, hz (d + 1), if_neg (by omega), if_pos ⟨hb, by omega, by omega⟩, hrr]
        · rw [upd_ne _ _ hcK]
          by_cases hcd : c = d + 1
          · subst hcd
            rw [upd_same, hz K, if_neg (by omega), if_pos ⟨by omega, by omega, by omega⟩, hK]
          · rw [upd_ne _ _ hcd, hz c]
            congr 1
            refine propext ⟨fun ⟨a, b, e⟩ => ⟨a, by omega, by omega⟩, fun ⟨a, b, e⟩ => ⟨a, by omega, ?_⟩⟩
            by_contra hne
            have : rev (m + 1) c = d + 1 := by omega
            exact hcK (by rw [← hK, ← this, rev_rev _ _ a])
      · rw [if_neg hgt, hz c]
        by_cases hcd : c = d + 1
        · subst hcd
          rw [if_neg (by omega), hK]
          split_ifs with h
          · rw [show K = d + 1 by omega]
          · rfl
        · congr 1
          refine propext ⟨fun ⟨a, b, e⟩ => ⟨a, by omega, by omega⟩, fun ⟨a, b, e⟩ => ⟨a, by omega, ?_⟩⟩
          by_contra hne
          have h5 : rev (m + 1) c = d + 1 := by omega
          have : c = K := by rw [← hK, ← h5, rev_rev _ _ a]
          omega)
  refine ⟨st.2, by rw [reorder, h1]; rfl, fun c hc => ?_, fun c hc => ?_⟩
  · rw [h3, if_pos ⟨hc, by omega, by have := rev_lt (m + 1) c; omega⟩]
  · rw [h3, if_neg (by omega)]

theorem logLoop_spec (m : Nat) : ∀ f k, k ≤ m → m < k + f → logLoop (2 ^ m) k f = some m
  | 0, k, h1, h2 => by omega
  | f + 1, k, h1, h2 => by
    rw [logLoop]
    by_cases hk : k = m
    · subst hk; rw [if_neg (by omega)]
    · rw [if_pos (Nat.pow_lt_pow_right (by omega) (by omega))]
      exact logLoop_spec m f (k + 1) (by omega) (by omega)

/-! ### The transform -/

/-- The Hartley transform of `B` values at frequency `r`. -/
def hart (B : Nat) (y : Nat → ℝ) (r : ℤ) : ℝ :=
  ∑ j ∈ range B, y j * (Real.cos (2 * Real.pi * r * j / B) + Real.sin (2 * Real.pi * r * j / B))

theorem hart_period (B : Nat) (hB : 0 < B) (y : Nat → ℝ) (r : ℤ) (q : ℤ) : hart B y (r + q * B) = hart B y r := by
  unfold hart
  apply sum_congr rfl
  intro j _
  have hb : (B : ℝ) ≠ 0 := by positivity
  have : 2 * Real.pi * ((r + q * B : ℤ) : ℝ) * j / B = 2 * Real.pi * r * j / B + ((q * j : ℤ) : ℝ) * (2 * Real.pi) := by
    push_cast; field_simp
  rw [this, Real.cos_add_int_mul_two_pi, Real.sin_add_int_mul_two_pi]

theorem sum_four (B : Nat) (g : Nat → ℝ) :
    ∑ x ∈ range (4 * B), g x = ∑ j ∈ range B, g (4 * j) + ∑ j ∈ range B, g (4 * j + 1) + ∑ j ∈ range B, g (4 * j + 2) +
      ∑ j ∈ range B, g (4 * j + 3) := by
  induction B with
  | zero => simp
  | succ B ih =>
    rw [show 4 * (B + 1) = 4 * B + 1 + 1 + 1 + 1 by ring]
    simp only [sum_range_succ]
    rw [ih]; ring

/-- One residue class. -/
theorem part (B : Nat) (hB : 0 < B) (y : Nat → ℝ) (R : ℤ) (a : Nat) :
    ∑ j ∈ range B, y (4 * j + a) * (Real.cos (2 * Real.pi * R * (4 * j + a : Nat) / (4 * B : Nat)) +
      Real.sin (2 * Real.pi * R * (4 * j + a : Nat) / (4 * B : Nat))) =
    Real.cos (a * (2 * Real.pi * R / (4 * B))) * hart B (fun j => y (4 * j + a)) R +
      Real.sin (a * (2 * Real.pi * R / (4 * B))) * hart B (fun j => y (4 * j + a)) (-R) := by
  unfold hart
  rw [mul_sum, mul_sum, ← sum_add_distrib]
  apply sum_congr rfl
  intro j _
  have hb : (B : ℝ) ≠ 0 := by positivity
  have e : 2 * Real.pi * R * (4 * j + a : Nat) / (4 * B : Nat) =
      2 * Real.pi * R * j / B + a * (2 * Real.pi * R / (4 * B)) := by
    push_cast; field_simp
  have e2 : 2 * Real.pi * ((-R : ℤ) : ℝ) * j / B = -(2 * Real.pi * R * j / B) := by push_cast; ring
  rw [e, e2, Real.cos_add, Real.sin_add, Real.cos_neg, Real.sin_neg]
  ring

/-- Four transforms of `B` values give one of `4*B` values, at the four frequencies that agree modulo `B`. -/
theorem hart_four (B : Nat) (hB : 0 < B) (y : Nat → ℝ) (r : ℤ) (c1 s1 c2 s2 : ℝ) (hc : c1 = Real.cos (2 * Real.pi * r / (4 * B)))
    (hs : s1 = Real.sin (2 * Real.pi * r / (4 * B))) (hc2 : c2 = c1 * c1 - s1 * s1) (hs2 : s2 = 2 * (c1 * s1)) :
    let F := fun a => hart B (fun j => y (4 * j + a)) r
    let E := fun a => hart B (fun j => y (4 * j + a)) (-r)
    hart (4 * B) y r = F 0 + (c1 * F 1 + s1 * E 1) + (c2 * F 2 + s2 * E 2) + ((c1 * c2 - s1 * s2) * F 3 + (s1 * c2 + c1 * s2) * E 3) ∧
    hart (4 * B) y (r + 1 * B) = F 0 + (-s1 * F 1 + c1 * E 1) - (c2 * F 2 + s2 * E 2) + ((s1 * c2 + c1 * s2) * F 3 - (c1 * c2 - s1 * s2) * E 3) ∧
    hart (4 * B) y (r + 2 * B) = F 0 - (c1 * F 1 + s1 * E 1) + (c2 * F 2 + s2 * E 2) - ((c1 * c2 - s1 * s2) * F 3 + (s1 * c2 + c1 * s2) * E 3) ∧
    hart (4 * B) y (r + 3 * B) = F 0 + (s1 * F 1 - c1 * E 1) - (c2 * F 2 + s2 * E 2) + (-(s1 * c2 + c1 * s2) * F 3 + (c1 * c2 - s1 * s2) * E 3) := by
  intro F E
  have hb : (B : ℝ) ≠ 0 := by positivity
  have gen : ∀ q : ℤ, hart (4 * B) y (r + q * B) = F 0 +
      (Real.cos (2 * Real.pi * r / (4 * B) + q * (Real.pi / 2)) * F 1 + Real.sin (2 * Real.pi * r / (4 * B) + q * (Real.pi / 2)) * E 1) +
      (Real.cos (2 * (2 * Real.pi * r / (4 * B) + q * (Real.pi / 2))) * F 2 + Real.sin (2 * (2 * Real.pi * r / (4 * B) + q * (Real.pi / 2))) * E 2) +
      (Real.cos (3 * (2 * Real.pi * r / (4 * B) + q * (Real.pi / 2))) * F 3 + Real.sin (3 * (2 * Real.pi * r / (4 * B) + q * (Real.pi / 2))) * E 3) := by
    intro q
    have per : ∀ a, hart B (fun j => y (4 * j + a)) (r + q * B) = F a := fun a => hart_period B hB _ r q
    have pern : ∀ a, hart B (fun j => y (4 * j + a)) (-(r + q * B)) = E a := fun a => by
      rw [show -(r + q * B) = -r + (-q) * B by ring]; exact hart_period B hB _ (-r) (-q)
    have ang : 2 * Real.pi * ((r + q * B : ℤ) : ℝ) / (4 * B) = 2 * Real.pi * r / (4 * B) + q * (Real.pi / 2) := by
      push_cast; field_simp; ring
    have p0 := part B hB y (r + q * B) 0
    have p1 := part B hB y (r + q * B) 1
    have p2 := part B hB y (r + q * B) 2
    have p3 := part B hB y (r + q * B) 3
    rw [per, pern, ang] at p0 p1 p2 p3
    rw [hart, sum_four]
    simp only [Nat.add_zero] at p0
    rw [p0, p1, p2, p3]
    push_cast
    simp only [zero_mul, one_mul, Real.cos_zero, Real.sin_zero, add_zero]
  have k2c : Real.cos (2 * (2 * Real.pi * r / (4 * B))) = c2 := by rw [Real.cos_two_mul', hc2, hc, hs]; ring
  have k2s : Real.sin (2 * (2 * Real.pi * r / (4 * B))) = s2 := by rw [Real.sin_two_mul, hs2, hc, hs]; ring
  have k3 : (3 : ℝ) * (2 * Real.pi * r / (4 * B)) = 2 * Real.pi * r / (4 * B) + 2 * (2 * Real.pi * r / (4 * B)) := by ring
  have k3c : Real.cos (3 * (2 * Real.pi * r / (4 * B))) = c1 * c2 - s1 * s2 := by rw [k3, Real.cos_add, k2c, k2s, hc, hs]
  have k3s : Real.sin (3 * (2 * Real.pi * r / (4 * B))) = s1 * c2 + c1 * s2 := by rw [k3, Real.sin_add, k2c, k2s, hc, hs]
  have g0 := gen 0
  have g1 := gen 1
  have g2 := gen 2
  have g3 := gen 3
  generalize 2 * Real.pi * r / (4 * B) = θ at *
  have q1 : ∀ α, Real.cos (α + Real.pi / 2) = - Real.sin α ∧ Real.sin (α + Real.pi / 2) = Real.cos α := fun α =>
    ⟨Real.cos_add_pi_div_two α, Real.sin_add_pi_div_two α⟩
  have q2 : ∀ α, Real.cos (α + Real.pi) = - Real.cos α ∧ Real.sin (α + Real.pi) = - Real.sin α := fun α =>
    ⟨Real.cos_add_pi α, Real.sin_add_pi α⟩
  have q3 : ∀ α, Real.cos (α + 3 * (Real.pi / 2)) = Real.sin α ∧ Real.sin (α + 3 * (Real.pi / 2)) = - Real.cos α := fun α => by
    rw [show α + 3 * (Real.pi / 2) = (α + Real.pi / 2) + Real.pi by ring, (q2 _).1, (q2 _).2, (q1 _).1, (q1 _).2]; simp
  have q4 : ∀ α, Real.cos (α + 2 * Real.pi) = Real.cos α ∧ Real.sin (α + 2 * Real.pi) = Real.sin α := fun α =>
    ⟨Real.cos_add_two_pi α, Real.sin_add_two_pi α⟩
  refine ⟨?_, ?_, ?_, ?_⟩
  · rw [show r = r + (0 : ℤ) * B by ring, g0]
    push_cast
    simp only [zero_mul, add_zero]
    rw [k2c, k2s, k3c, k3s, ← hc, ← hs]
  · rw [g1]
    push_cast
    rw [show θ + 1 * (Real.pi / 2) = θ + Real.pi / 2 by ring, show 2 * (θ + Real.pi / 2) = 2 * θ + Real.pi by ring,
      show 3 * (θ + Real.pi / 2) = 3 * θ + 3 * (Real.pi / 2) by ring, (q1 _).1, (q1 _).2, (q2 _).1, (q2 _).2, (q3 _).1, (q3 _).2,
      k2c, k2s, k3c, k3s, ← hc, ← hs]
    ring
  · rw [g2]
    push_cast
    rw [show θ + 2 * (Real.pi / 2) = θ + Real.pi by ring, show 2 * (θ + Real.pi) = 2 * θ + 2 * Real.pi by ring,
      show 3 * (θ + Real.pi) = (3 * θ + Real.pi) + 2 * Real.pi by ring, (q4 _).1, (q4 _).2, (q4 _).1, (q4 _).2,
      (q2 _).1, (q2 _).2, (q2 _).1, (q2 _).2, k2c, k2s, k3c, k3s, ← hc, ← hs]
    ring
  · rw [g3]
    push_cast
    rw [show 2 * (θ + 3 * (Real.pi / 2)) = (2 * θ + Real.pi) + 2 * Real.pi by ring,
      show 3 * (θ + 3 * (Real.pi / 2)) = ((3 * θ + Real.pi / 2) + 2 * Real.pi) + 2 * Real.pi by ring, (q4 _).1, (q4 _).2, (q4 _).1, (q4 _).2,
      (q4 _).1, (q4 _).2, (q1 (3 * θ)).1, (q1 (3 * θ)).2,
      (q2 _).1, (q2 _).2, (q3 _).1, (q3 _).2, k2c, k2s, k3c, k3s, ← hc, ← hs]
    ring

end Verif.Fft.Mayer

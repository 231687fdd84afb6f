import Verif.Fft.MayerMath

/-! # The passes of the Hartley transform -/

noncomputable section
namespace Verif.Fft.Mayer
open Verif Verif.Fft Finset

/-! ### Operations on disjoint groups of elements -/

/-- `op` looks at the elements `own` only and turns their old contents `z0` into `G`. -/
def Own (op : Mem → Option Mem) (z0 G : Mem) (own : Nat → Prop) : Prop :=
  ∀ z, (∀ c, own c → z c = z0 c) → ∃ z', op z = some z' ∧ (∀ c, own c → z' c = G c) ∧ ∀ c, ¬ own c → z' c = z c

theorem Own.mono {op : Mem → Option Mem} {z0 G : Mem} {own own' : Nat → Prop} (h : Own op z0 G own) (he : ∀ c, own c ↔ own' c) :
    Own op z0 G own' := by
  have : own = own' := funext fun c => propext (he c)
  rwa [← this]

theorem Own.seq {op1 op2 : Mem → Option Mem} {z0 G : Mem} {own1 own2 : Nat → Prop} (h1 : Own op1 z0 G own1) (h2 : Own op2 z0 G own2)
    (hd : ∀ c, own1 c → ¬ own2 c) : Own (fun z => (op1 z).bind op2) z0 G (fun c => own1 c ∨ own2 c) := by
  intro z hz
  obtain ⟨z1, a1, a2, a3⟩ := h1 z fun c hc => hz c (Or.inl hc)
  obtain ⟨z2, b1, b2, b3⟩ := h2 z1 fun c hc => by rw [a3 c fun h => hd c h hc]; exact hz c (Or.inr hc)
  refine ⟨z2, by dsimp only; rw [a1]; exact b1, ?_, ?_⟩
  · rintro c (hc | hc)
    · rw [b3 c (hd c hc), a2 c hc]
    · exact b2 c hc
  · intro c hc
    rw [b3 c fun h => hc (Or.inr h), a3 c fun h => hc (Or.inl h)]

theorem Own.forNM {N : Nat} {op : Nat → Mem → Option Mem} {z0 G : Mem} {own : Nat → Nat → Prop} (h : ∀ P < N, Own (op P) z0 G (own P))
    (hd : ∀ P < N, ∀ Q < N, P ≠ Q → ∀ c, own P c → ¬ own Q c) :
    Own (fun z => forNM N op z) z0 G (fun c => ∃ P < N, own P c) := by
  induction N with
  | zero => exact fun z _ => ⟨z, rfl, fun c ⟨P, hP, _⟩ => absurd hP (Nat.not_lt_zero P), fun _ _ => rfl⟩
  | succ N ih =>
    have := Own.seq (ih (fun P hP => h P (by omega)) fun P hP Q hQ => hd P (by omega) Q (by omega)) (h N (by omega)) (by
      rintro c ⟨P, hP, hc⟩
      exact hd P (by omega) N (by omega) (by omega) c hc)
    refine Own.mono this fun c => ⟨?_, ?_⟩
    · rintro (⟨P, hP, hc⟩ | hc)
      · exact ⟨P, by omega, hc⟩
      · exact ⟨N, by omega, hc⟩
    · rintro ⟨P, hP, hc⟩
      by_cases hPN : P = N
      · subst hPN; exact Or.inr hc
      · exact Or.inl ⟨P, by omega, hc⟩

/-- The `do … while` loop over the blocks. -/
theorem Own.blocks {K N i : Nat} (hi : i < K) {body : Nat → Mem → Option Mem} {z0 G : Mem} {own : Nat → Nat → Prop}
    (h : ∀ P < N, Own (body (K * P)) z0 G (own P)) (hd : ∀ P < N, ∀ Q < N, P ≠ Q → ∀ c, own P c → ¬ own Q c) :
    ∀ f P0, P0 < N → N ≤ P0 + f → Own (blocks (K * N) K i body f (K * P0)) z0 G (fun c => ∃ P, P0 ≤ P ∧ P < N ∧ own P c)
  | 0, P0, h1, h2 => by omega
  | f + 1, P0, h1, h2 => by
    have hE : Mayer.blocks (K * N) K i body (f + 1) (K * P0) = fun z => (body (K * P0) z).bind fun z =>
        if K * P0 + K + i < K * N then Mayer.blocks (K * N) K i body f (K * P0 + K) z else some z := by
      funext z; rw [Mayer.blocks]
    rw [hE]
    have ek : K * P0 + K = K * (P0 + 1) := by ring
    have hK : 0 < K := by omega
    by_cases hl : P0 + 1 < N
    · have hc : K * P0 + K + i < K * N := by
        have : K * (P0 + 1 + 1) ≤ K * N := Nat.mul_le_mul_left _ hl
        have : K * (P0 + 1 + 1) = K * (P0 + 1) + K := by ring
        omega
      simp only [if_pos hc]
      rw [ek]
      have := Own.seq (h P0 h1) (Own.blocks hi h hd f (P0 + 1) hl (by omega)) (by
        rintro c hc ⟨P, p1, p2, p3⟩
        exact hd P0 h1 P p2 (by omega) c hc p3)
      refine Own.mono this fun c => ⟨?_, ?_⟩
      · rintro (hc | ⟨P, p1, p2, p3⟩)
        · exact ⟨P0, le_refl _, h1, hc⟩
        · exact ⟨P, by omega, p2, p3⟩
      · rintro ⟨P, p1, p2, p3⟩
        by_cases hP : P = P0
        · subst hP; exact Or.inl p3
        · exact Or.inr ⟨P, by omega, p2, p3⟩
    · have hc : ¬ K * P0 + K + i < K * N := by
        have : K * N ≤ K * (P0 + 1) := Nat.mul_le_mul_left _ (by omega)
        omega
      simp only [if_neg hc]
      have := h P0 h1
      intro z hz
      obtain ⟨z', a1, a2, a3⟩ := this z fun c hc => hz c ⟨P0, le_refl _, h1, hc⟩
      refine ⟨z', by dsimp only; rw [a1]; rfl, ?_, ?_⟩
      · rintro c ⟨P, p1, p2, p3⟩
        have : P = P0 := by omega
        subst this; exact a2 c p3
      · intro c hc
        exact a3 c fun h => hc ⟨P0, le_refl _, h1, h⟩

/-! ### The contents between the stages -/

/-- The contents after blocks of `2^b` elements are done: block `c/2^b` holds the transform of every `2^(m-b)`-th element. -/
def blk (m b : Nat) (x : Mem) : Mem := fun c =>
  hart (2 ^ b) (fun j => x (rev (m - b) (c / 2 ^ b) + j * 2 ^ (m - b))) ((c % 2 ^ b : Nat) : ℤ)

/-- The elements that block `P` of a larger size is about. -/
def sub (M P : Nat) (x : Mem) : Nat → ℝ := fun j => x (rev M P + j * 2 ^ M)

theorem blk_in (b M P q r : Nat) (x : Mem) (hq : q < 4) (hr : r < 2 ^ b) :
    blk (b + 2 + M) b x (4 * 2 ^ b * P + q * 2 ^ b + r) =
      hart (2 ^ b) (fun j => sub M P x (4 * j + (2 * (q % 2) + q / 2))) (r : ℤ) := by
  unfold blk sub
  have e : 4 * 2 ^ b * P + q * 2 ^ b + r = 2 ^ b * (4 * P + q) + r := by ring
  have hd : (2 ^ b * (4 * P + q) + r) / 2 ^ b = 4 * P + q := by
    rw [Nat.mul_add_div (by positivity), Nat.div_eq_of_lt hr]; omega
  rw [e, hd, Nat.mul_add_mod, Nat.mod_eq_of_lt hr,
    show b + 2 + M - b = M + 2 by omega]
  congr 1
  funext j
  congr 1
  rw [rev, rev]
  have h1 : (4 * P + q) % 2 = q % 2 := by omega
  have h2 : (4 * P + q) / 2 % 2 = q / 2 := by omega
  have h3 : (4 * P + q) / 2 / 2 = P := by omega
  rw [h1, h2, h3, pow_succ, pow_succ]
  ring

theorem blk_out (b M P R : Nat) (x : Mem) (hR : R < 4 * 2 ^ b) :
    blk (b + 2 + M) (b + 2) x (4 * 2 ^ b * P + R) = hart (4 * 2 ^ b) (sub M P x) (R : ℤ) := by
  unfold blk sub
  have e : (2 : Nat) ^ (b + 2) = 4 * 2 ^ b := by ring
  have hd : (4 * 2 ^ b * P + R) / (4 * 2 ^ b) = P := by
    rw [Nat.mul_add_div (by positivity), Nat.div_eq_of_lt hR]; omega
  rw [e, hd, Nat.mul_add_mod, Nat.mod_eq_of_lt hR,
    show b + 2 + M - (b + 2) = M by omega]

theorem blk_zero (m : Nat) (x : Mem) (c : Nat) : blk m 0 x c = x (rev m c) := by
  simp [blk, hart]

theorem blk_all (m : Nat) (x : Mem) (c : Nat) (h : c < 2 ^ m) : blk m m x c = hart (2 ^ m) x (c : ℤ) := by
  unfold blk
  rw [Nat.div_eq_of_lt h, Nat.mod_eq_of_lt h]
  simp [rev]

/-! ### The four kinds of butterflies -/

theorem quad_val (z : Mem) (a0 a1 a2 a3 : Nat) (h : a0 < a1 ∧ a1 < a2 ∧ a2 < a3) :
    quad z a0 a1 a2 a3 a0 = z a0 + z a1 + (z a2 + z a3) ∧ quad z a0 a1 a2 a3 a1 = z a0 - z a1 + (z a2 - z a3) ∧
    quad z a0 a1 a2 a3 a2 = z a0 + z a1 - (z a2 + z a3) ∧ quad z a0 a1 a2 a3 a3 = z a0 - z a1 - (z a2 - z a3) ∧
    ∀ c, c ≠ a0 → c ≠ a1 → c ≠ a2 → c ≠ a3 → quad z a0 a1 a2 a3 c = z c := by
  unfold quad
  refine ⟨?_, ?_, ?_, ?_, fun c h0 h1 h2 h3 => ?_⟩
  · rw [upd_ne _ _ (by omega), upd_ne _ _ (by omega), upd_same]
  · rw [upd_same]
  · rw [upd_ne _ _ (by omega), upd_ne _ _ (by omega), upd_ne _ _ (by omega), upd_same]
  · rw [upd_ne _ _ (by omega), upd_same]
  · rw [upd_ne _ _ h1, upd_ne _ _ h3, upd_ne _ _ h0, upd_ne _ _ h2]

theorem quadMid_val (z : Mem) (a0 a1 a2 a3 : Nat) (h : a0 < a1 ∧ a1 < a2 ∧ a2 < a3) :
    quadMid z a0 a1 a2 a3 a0 = z a0 + z a1 + Real.sqrt 2 * z a2 ∧ quadMid z a0 a1 a2 a3 a1 = z a0 - z a1 + Real.sqrt 2 * z a3 ∧
    quadMid z a0 a1 a2 a3 a2 = z a0 + z a1 - Real.sqrt 2 * z a2 ∧ quadMid z a0 a1 a2 a3 a3 = z a0 - z a1 - Real.sqrt 2 * z a3 ∧
    ∀ c, c ≠ a0 → c ≠ a1 → c ≠ a2 → c ≠ a3 → quadMid z a0 a1 a2 a3 c = z c := by
  unfold quadMid
  refine ⟨?_, ?_, ?_, ?_, fun c h0 h1 h2 h3 => ?_⟩
  · rw [upd_ne _ _ (by omega), upd_ne _ _ (by omega), upd_same]
  · rw [upd_same]
  · rw [upd_ne _ _ (by omega), upd_ne _ _ (by omega), upd_ne _ _ (by omega), upd_same]
  · rw [upd_ne _ _ (by omega), upd_same]
  · rw [upd_ne _ _ h1, upd_ne _ _ h3, upd_ne _ _ h0, upd_ne _ _ h2]

/-- Frequency 0: no rotation. -/
theorem hart_first (B : Nat) (hB : 0 < B) (y : Nat → ℝ) :
    let F := fun a => hart B (fun j => y (4 * j + a)) 0
    hart (4 * B) y 0 = F 0 + F 2 + (F 1 + F 3) ∧ hart (4 * B) y (B : ℤ) = F 0 - F 2 + (F 1 - F 3) ∧
    hart (4 * B) y ((2 * B : Nat) : ℤ) = F 0 + F 2 - (F 1 + F 3) ∧ hart (4 * B) y ((3 * B : Nat) : ℤ) = F 0 - F 2 - (F 1 - F 3) := by
  intro F
  obtain ⟨h0, h1, h2, h3⟩ := hart_four B hB y 0 1 0 1 0 (by simp) (by simp) (by norm_num) (by norm_num)
  simp only [neg_zero, zero_add] at h0 h1 h2 h3
  refine ⟨by rw [h0]; ring, ?_, ?_, ?_⟩
  · rw [show (B : ℤ) = 1 * B by ring, h1]; simp only [F]; ring
  · rw [show ((2 * B : Nat) : ℤ) = 2 * B by push_cast; ring, h2]; simp only [F]; ring
  · rw [show ((3 * B : Nat) : ℤ) = 3 * B by push_cast; ring, h3]; simp only [F]; ring

/-- The frequency in the middle of a block: rotation by 45 degrees. -/
theorem hart_mid (h B : Nat) (hB : B = 2 * h) (hh : 0 < h) (y : Nat → ℝ) :
    let F := fun a => hart B (fun j => y (4 * j + a)) (h : ℤ)
    hart (4 * B) y (h : ℤ) = F 0 + F 2 + Real.sqrt 2 * F 1 ∧ hart (4 * B) y ((h + B : Nat) : ℤ) = F 0 - F 2 + Real.sqrt 2 * F 3 ∧
    hart (4 * B) y ((h + 2 * B : Nat) : ℤ) = F 0 + F 2 - Real.sqrt 2 * F 1 ∧
    hart (4 * B) y ((h + 3 * B : Nat) : ℤ) = F 0 - F 2 - Real.sqrt 2 * F 3 := by
  intro F
  have ha : 2 * Real.pi * ((h : ℤ) : ℝ) / (4 * B) = Real.pi / 4 := by
    have : (h : ℝ) ≠ 0 := by positivity
    rw [hB]; push_cast; field_simp
  have hE : ∀ a, hart B (fun j => y (4 * j + a)) (-(h : ℤ)) = F a := fun a => by
    have := hart_period B (by omega) (fun j => y (4 * j + a)) (-(h : ℤ)) 1
    rw [← this]
    simp only [F]
    congr 1
    rw [hB]; push_cast; ring
  have hsq : Real.sqrt 2 / 2 * (Real.sqrt 2 / 2) = 1 / 2 := by
    have := Real.mul_self_sqrt (show (0 : ℝ) ≤ 2 by norm_num)
    linarith
  obtain ⟨h0, h1, h2, h3⟩ := hart_four B (by omega) y h (Real.sqrt 2 / 2) (Real.sqrt 2 / 2) 0 1
    (by rw [ha, Real.cos_pi_div_four]) (by rw [ha, Real.sin_pi_div_four]) (by ring) (by rw [hsq]; norm_num)
  simp only [hE] at h0 h1 h2 h3
  refine ⟨by rw [h0]; ring, ?_, ?_, ?_⟩
  · rw [show ((h + B : Nat) : ℤ) = h + 1 * B by push_cast; ring, h1]; simp only [F]; ring
  · rw [show ((h + 2 * B : Nat) : ℤ) = h + 2 * B by push_cast; ring, h2]; simp only [F]; ring
  · rw [show ((h + 3 * B : Nat) : ℤ) = h + 3 * B by push_cast; ring, h3]; simp only [F]; ring

/-- Elements number `r` of the four blocks at `p`. -/
def rowOf (B p r c : Nat) : Prop := c = p + r ∨ c = p + r + B ∨ c = p + r + 2 * B ∨ c = p + r + 3 * B

theorem in4 (b M P r : Nat) (x z0 : Mem) (hz0 : ∀ c < 2 ^ (b + 2 + M), z0 c = blk (b + 2 + M) b x c) (hP : P < 2 ^ M) (hr : r < 2 ^ b) :
    let y := sub M P x
    let F := fun a => hart (2 ^ b) (fun j => y (4 * j + a)) (r : ℤ)
    let p := 4 * 2 ^ b * P
    z0 (p + r) = F 0 ∧ z0 (p + r + 2 ^ b) = F 2 ∧ z0 (p + r + 2 * 2 ^ b) = F 1 ∧ z0 (p + r + 3 * 2 ^ b) = F 3 := by
  intro y F p
  have hb : (2 : Nat) ^ (b + 2 + M) = 4 * 2 ^ b * 2 ^ M := by ring
  have hlt : ∀ q < 4, p + q * 2 ^ b + r < 2 ^ (b + 2 + M) := by
    intro q hq
    have h1 : 4 * 2 ^ b * (P + 1) ≤ 4 * 2 ^ b * 2 ^ M := Nat.mul_le_mul_left _ hP
    have h2 : 4 * 2 ^ b * (P + 1) = p + 4 * 2 ^ b := by simp only [p]; ring
    have h3 : q * 2 ^ b ≤ 3 * 2 ^ b := Nat.mul_le_mul_right _ (by omega)
    omega
  have key : ∀ q < 4, z0 (p + q * 2 ^ b + r) = F (2 * (q % 2) + q / 2) := fun q hq => by
    rw [hz0 _ (hlt q hq)]
    exact blk_in b M P q r x hq hr
  have k0 := key 0 (by omega)
  have k1 := key 1 (by omega)
  have k2 := key 2 (by omega)
  have k3 := key 3 (by omega)
  refine ⟨?_, ?_, ?_, ?_⟩
  · rw [← k0]; congr 1; omega
  · rw [← k1]; congr 1; omega
  · rw [← k2]; congr 1; omega
  · rw [← k3]; congr 1; omega

theorem quad_own (b M P : Nat) (x z0 : Mem) (hz0 : ∀ c < 2 ^ (b + 2 + M), z0 c = blk (b + 2 + M) b x c) (hP : P < 2 ^ M) :
    Own (fun z => some (quad z (4 * 2 ^ b * P) (4 * 2 ^ b * P + 2 ^ b) (4 * 2 ^ b * P + 2 * 2 ^ b) (4 * 2 ^ b * P + 3 * 2 ^ b))) z0
      (blk (b + 2 + M) (b + 2) x) (rowOf (2 ^ b) (4 * 2 ^ b * P) 0) := by
  intro z hz
  have hb0 : 0 < 2 ^ b := by positivity
  obtain ⟨i0, i1, i2, i3⟩ := in4 b M P 0 x z0 hz0 hP hb0
  obtain ⟨o0, o1, o2, o3⟩ := hart_first (2 ^ b) hb0 (sub M P x)
  have g : ∀ R < 4 * 2 ^ b, blk (b + 2 + M) (b + 2) x (4 * 2 ^ b * P + R) = hart (4 * 2 ^ b) (sub M P x) (R : ℤ) :=
    fun R hR => blk_out b M P R x hR
  simp only [Nat.add_zero] at i0 i1 i2 i3
  generalize 4 * 2 ^ b * P = p at *
  have w0 := hz p (Or.inl (by omega))
  have w1 := hz (p + 2 ^ b) (Or.inr (Or.inl (by omega)))
  have w2 := hz (p + 2 * 2 ^ b) (Or.inr (Or.inr (Or.inl (by omega))))
  have w3 := hz (p + 3 * 2 ^ b) (Or.inr (Or.inr (Or.inr (by omega))))
  obtain ⟨v0, v1, v2, v3, v4⟩ := quad_val z p (p + 2 ^ b) (p + 2 * 2 ^ b) (p + 3 * 2 ^ b) ⟨by omega, by omega, by omega⟩
  refine ⟨_, rfl, ?_, ?_⟩
  · rintro c (rfl | rfl | rfl | rfl)
    · have := g 0 (by omega)
      simp only [Nat.add_zero] at this ⊢
      rw [v0, w0, w1, w2, w3, i0, i1, i2, i3, this]; exact o0.symm
    · simp only [Nat.add_zero]; rw [v1, w0, w1, w2, w3, i0, i1, i2, i3, g (2 ^ b) (by omega)]; exact o1.symm
    · simp only [Nat.add_zero]; rw [v2, w0, w1, w2, w3, i0, i1, i2, i3, g (2 * 2 ^ b) (by omega)]; exact o2.symm
    · simp only [Nat.add_zero]; rw [v3, w0, w1, w2, w3, i0, i1, i2, i3, g (3 * 2 ^ b) (by omega)]; exact o3.symm
  · intro c hc
    unfold rowOf at hc
    exact v4 c (by omega) (by omega) (by omega) (by omega)

theorem quadMid_own (b M P : Nat) (x z0 : Mem) (hz0 : ∀ c < 2 ^ (b + 1 + 2 + M), z0 c = blk (b + 1 + 2 + M) (b + 1) x c) (hP : P < 2 ^ M) :
    Own (fun z => some (quadMid z (4 * 2 ^ (b + 1) * P + 2 ^ b) (4 * 2 ^ (b + 1) * P + 2 ^ b + 2 ^ (b + 1))
        (4 * 2 ^ (b + 1) * P + 2 ^ b + 2 * 2 ^ (b + 1)) (4 * 2 ^ (b + 1) * P + 2 ^ b + 3 * 2 ^ (b + 1)))) z0
      (blk (b + 1 + 2 + M) (b + 1 + 2) x) (rowOf (2 ^ (b + 1)) (4 * 2 ^ (b + 1) * P) (2 ^ b)) := by
  intro z hz
  have hb0 : 0 < 2 ^ b := by positivity
  have hb1 : 2 ^ (b + 1) = 2 * 2 ^ b := by ring
  obtain ⟨i0, i1, i2, i3⟩ := in4 (b + 1) M P (2 ^ b) x z0 hz0 hP (by omega)
  obtain ⟨o0, o1, o2, o3⟩ := hart_mid (2 ^ b) (2 ^ (b + 1)) hb1 hb0 (sub M P x)
  have g : ∀ R < 4 * 2 ^ (b + 1), blk (b + 1 + 2 + M) (b + 1 + 2) x (4 * 2 ^ (b + 1) * P + R) = hart (4 * 2 ^ (b + 1)) (sub M P x) (R : ℤ) :=
    fun R hR => blk_out (b + 1) M P R x hR
  generalize 4 * 2 ^ (b + 1) * P = p at *
  have w0 := hz (p + 2 ^ b) (Or.inl (by omega))
  have w1 := hz (p + 2 ^ b + 2 ^ (b + 1)) (Or.inr (Or.inl (by omega)))
  have w2 := hz (p + 2 ^ b + 2 * 2 ^ (b + 1)) (Or.inr (Or.inr (Or.inl (by omega))))
  have w3 := hz (p + 2 ^ b + 3 * 2 ^ (b + 1)) (Or.inr (Or.inr (Or.inr (by omega))))
  obtain ⟨v0, v1, v2, v3, v4⟩ := quadMid_val z (p + 2 ^ b) (p + 2 ^ b + 2 ^ (b + 1)) (p + 2 ^ b + 2 * 2 ^ (b + 1)) (p + 2 ^ b + 3 * 2 ^ (b + 1))
    ⟨by omega, by omega, by omega⟩
  refine ⟨_, rfl, ?_, ?_⟩
  · rintro c (rfl | rfl | rfl | rfl)
    · rw [v0, w0, w1, w2, i0, i1, i2, g (2 ^ b) (by omega)]; exact o0.symm
    · rw [v1, w0, w1, w3, i0, i1, i3, Nat.add_assoc p, g (2 ^ b + 2 ^ (b + 1)) (by omega)]; exact o1.symm
    · rw [v2, w0, w1, w2, i0, i1, i2, Nat.add_assoc p, g (2 ^ b + 2 * 2 ^ (b + 1)) (by omega)]; exact o2.symm
    · rw [v3, w0, w1, w3, i0, i1, i3, Nat.add_assoc p, g (2 ^ b + 3 * 2 ^ (b + 1)) (by omega)]; exact o3.symm
  · intro c hc
    unfold rowOf at hc
    exact v4 c (by omega) (by omega) (by omega) (by omega)

/-- Blocks with different numbers have different elements. -/
theorem rowOf_block (B P r c : Nat) (hr : r < B) (h : rowOf B (4 * B * P) r c) : c / (4 * B) = P ∧ c % B = r := by
  have hB : 0 < B := by omega
  have key : ∀ q < 4, c = 4 * B * P + (r + q * B) → c / (4 * B) = P ∧ c % B = r := by
    intro q hq hc
    have : q * B ≤ 3 * B := Nat.mul_le_mul_right _ (by omega)
    constructor
    · rw [hc, Nat.mul_add_div (by omega), Nat.div_eq_of_lt (by omega)]; omega
    · rw [hc, show 4 * B * P + (r + q * B) = B * (4 * P + q) + r by ring, Nat.mul_add_mod, Nat.mod_eq_of_lt hr]
  rcases h with h | h | h | h
  · exact key 0 (by omega) (by omega)
  · exact key 1 (by omega) (by omega)
  · exact key 2 (by omega) (by omega)
  · exact key 3 (by omega) (by omega)

theorem rowOf_iff (B N c : Nat) (r : Nat) (hr : r < B) :
    (∃ P, 0 ≤ P ∧ P < N ∧ rowOf B (4 * B * P) r c) ↔ c < 4 * B * N ∧ c % B = r := by
  constructor
  · rintro ⟨P, -, hP, h⟩
    obtain ⟨h1, h2⟩ := rowOf_block B P r c hr h
    refine ⟨?_, h2⟩
    rw [← h1] at hP
    rw [Nat.mul_comm]
    exact (Nat.div_lt_iff_lt_mul (by omega)).1 hP
  · rintro ⟨h1, h2⟩
    refine ⟨c / (4 * B), Nat.zero_le _, Nat.div_lt_of_lt_mul h1, ?_⟩
    have e1 := Nat.div_add_mod c (4 * B)
    have e2 : c % (4 * B) = (c % (4 * B) / B) * B + r := by
      have a := Nat.div_add_mod (c % (4 * B)) B
      rw [show c % (4 * B) % B = r by rw [Nat.mod_mul_left_mod, h2]] at a
      rw [Nat.mul_comm B] at a; exact a.symm
    have e3 : c % (4 * B) / B < 4 := Nat.div_lt_of_lt_mul (by rw [Nat.mul_comm]; exact Nat.mod_lt _ (by omega))
    generalize c % (4 * B) / B = q at *
    generalize hp : 4 * B * (c / (4 * B)) = p at *
    unfold rowOf
    interval_cases q <;> omega

/-- Points 0 and `kx` of all blocks. -/
theorem ends_own (b M P : Nat) (x z0 : Mem) (hz0 : ∀ c < 2 ^ (b + 1 + 2 + M), z0 c = blk (b + 1 + 2 + M) (b + 1) x c) (hP : P < 2 ^ M) :
    Own (ends (2 ^ (b + 1 + 2 + M)) (2 ^ (b + 1)) (4 * 2 ^ (b + 1) * P)) z0 (blk (b + 1 + 2 + M) (b + 1 + 2) x)
      (fun c => rowOf (2 ^ (b + 1)) (4 * 2 ^ (b + 1) * P) 0 c ∨ rowOf (2 ^ (b + 1)) (4 * 2 ^ (b + 1) * P) (2 ^ b) c) := by
  have hb0 : 0 < 2 ^ b := by positivity
  have hb1 : 2 ^ (b + 1) = 2 * 2 ^ b := by ring
  have hb2 : 2 ^ (b + 1) / 2 = 2 ^ b := by omega
  have hlt : 4 * 2 ^ (b + 1) * P + 2 ^ (b + 1) / 2 + 3 * 2 ^ (b + 1) < 2 ^ (b + 1 + 2 + M) := by
    have h1 : 4 * 2 ^ (b + 1) * (P + 1) ≤ 4 * 2 ^ (b + 1) * 2 ^ M := Nat.mul_le_mul_left _ hP
    have h2 : 4 * 2 ^ (b + 1) * (P + 1) = 4 * 2 ^ (b + 1) * P + 4 * 2 ^ (b + 1) := by ring
    have h3 : (2 : Nat) ^ (b + 1 + 2 + M) = 4 * 2 ^ (b + 1) * 2 ^ M := by ring
    omega
  have := Own.seq (quad_own (b + 1) M P x z0 hz0 hP) (quadMid_own b M P x z0 hz0 hP) (by
    intro c h1 h2
    have a := (rowOf_block _ _ _ _ (by omega) h1).2
    have b := (rowOf_block _ _ _ _ (by omega) h2).2
    omega)
  intro z hz
  obtain ⟨z', a1, a2, a3⟩ := this z hz
  refine ⟨z', ?_, a2, a3⟩
  rw [ends, if_pos hlt, hb2]
  exact a1

/-- The angle of a butterfly. -/
theorem ang_eq (b i : Nat) : ang b (i : ℝ) = 2 * Real.pi * ((i : ℤ) : ℝ) / (4 * ((2 ^ b : Nat) : ℝ)) := by
  unfold ang
  have : (2 : ℝ) ^ b ≠ 0 := by positivity
  push_cast
  rw [pow_succ]
  field_simp
  ring

/-- Points `i` and `k1-i` of a block. -/
theorem bfly_own (b M P i : Nat) (x z0 : Mem) (hz0 : ∀ c < 2 ^ (b + 2 + M), z0 c = blk (b + 2 + M) b x c) (hP : P < 2 ^ M)
    (hi : 0 < i) (hi2 : 2 * i < 2 ^ b) :
    Own (bfly (2 ^ (b + 2 + M)) (2 ^ b) i (Real.cos (ang b i)) (Real.sin (ang b i)) (4 * 2 ^ b * P)) z0 (blk (b + 2 + M) (b + 2) x)
      (fun c => rowOf (2 ^ b) (4 * 2 ^ b * P) i c ∨ rowOf (2 ^ b) (4 * 2 ^ b * P) (2 ^ b - i) c) := by
  intro z hz
  have hB0 : 0 < 2 ^ b := by positivity
  have hlt : 4 * 2 ^ b * P + 4 * 2 ^ b ≤ 2 ^ (b + 2 + M) := by
    have h1 : 4 * 2 ^ b * (P + 1) ≤ 4 * 2 ^ b * 2 ^ M := Nat.mul_le_mul_left _ hP
    have h2 : 4 * 2 ^ b * (P + 1) = 4 * 2 ^ b * P + 4 * 2 ^ b := by ring
    have h3 : (2 : Nat) ^ (b + 2 + M) = 4 * 2 ^ b * 2 ^ M := by ring
    omega
  obtain ⟨i0, i1, i2, i3⟩ := in4 b M P i x z0 hz0 hP (by omega)
  obtain ⟨j0, j1, j2, j3⟩ := in4 b M P (2 ^ b - i) x z0 hz0 hP (by omega)
  have g : ∀ R < 4 * 2 ^ b, blk (b + 2 + M) (b + 2) x (4 * 2 ^ b * P + R) = hart (4 * 2 ^ b) (sub M P x) (R : ℤ) :=
    fun R hR => blk_out b M P R x hR
  have hc := congrArg Real.cos (ang_eq b i)
  have hs := congrArg Real.sin (ang_eq b i)
  generalize hC : Real.cos (ang b i) = c1 at *
  generalize hS : Real.sin (ang b i) = s1 at *
  have hneg : 2 * Real.pi * ((-(i : ℤ) : ℤ) : ℝ) / (4 * ((2 ^ b : Nat) : ℝ)) = -(2 * Real.pi * ((i : ℤ) : ℝ) / (4 * ((2 ^ b : Nat) : ℝ))) := by
    push_cast; ring
  obtain ⟨o0, o1, o2, o3⟩ := hart_four (2 ^ b) hB0 (sub M P x) i c1 s1 (c1 * c1 - s1 * s1) (2 * (c1 * s1)) hc hs rfl rfl
  obtain ⟨n0, n1, n2, n3⟩ := hart_four (2 ^ b) hB0 (sub M P x) (-i) c1 (-s1) (c1 * c1 - s1 * s1) (-(2 * (c1 * s1)))
    (by rw [hneg, Real.cos_neg]; exact hc) (by rw [hneg, Real.sin_neg, ← hs]) (by ring) (by ring)
  have hper : ∀ a, hart (2 ^ b) (fun j => sub M P x (4 * j + a)) ((2 ^ b - i : Nat) : ℤ) =
      hart (2 ^ b) (fun j => sub M P x (4 * j + a)) (-(i : ℤ)) := fun a => by
    rw [← hart_period (2 ^ b) hB0 _ (-(i : ℤ)) 1]
    congr 1
    push_cast [Nat.cast_sub (show i ≤ 2 ^ b by omega)]; ring
  simp only [hper] at j0 j1 j2 j3
  simp only [neg_neg] at n0 n1 n2 n3
  have c4 : ∀ q : Nat, ((i + q * 2 ^ b : Nat) : ℤ) = (i : ℤ) + (q : ℤ) * ((2 ^ b : Nat) : ℤ) := fun q => by push_cast; ring
  have c5 : ∀ q : Nat, ((2 ^ b - i + q * 2 ^ b : Nat) : ℤ) = -(i : ℤ) + ((q : ℤ) + 1) * ((2 ^ b : Nat) : ℤ) := fun q => by
    push_cast [Nat.cast_sub (show i ≤ 2 ^ b by omega)]; ring
  have p0 := g i (by omega)
  have p1 := g (i + 2 ^ b) (by omega)
  have p2 := g (i + 2 * 2 ^ b) (by omega)
  have p3 := g (i + 3 * 2 ^ b) (by omega)
  have r0 := g (2 ^ b - i) (by omega)
  have r1 := g (2 ^ b - i + 2 ^ b) (by omega)
  have r2 := g (2 ^ b - i + 2 * 2 ^ b) (by omega)
  have r3 := g (2 ^ b - i + 3 * 2 ^ b) (by omega)
  have d1 := c4 1
  have d2 := c4 2
  have d3 := c4 3
  have f0 := c5 0
  have f1 := c5 1
  have f2 := c5 2
  have f3 := c5 3
  simp only [Nat.one_mul, Nat.zero_mul, Nat.add_zero] at d1 f0 f1
  norm_num only [Nat.cast_ofNat, Nat.cast_one, Nat.cast_zero] at d1 d2 d3 f0 f1 f2 f3
  rw [d1, o1] at p1
  rw [d2, o2] at p2
  rw [d3, o3] at p3
  rw [o0] at p0
  rw [f0, n1] at r0
  rw [f1, n2] at r1
  rw [f2, n3] at r2
  have n4 : hart (4 * 2 ^ b) (sub M P x) (-(i : ℤ) + 4 * ((2 ^ b : Nat) : ℤ)) = hart (4 * 2 ^ b) (sub M P x) (-(i : ℤ)) := by
    rw [← hart_period (4 * 2 ^ b) (by omega) _ (-(i : ℤ)) 1]; congr 1; push_cast; ring
  rw [f3, n4, n0] at r3
  clear o0 o1 o2 o3 n0 n1 n2 n3 n4 d1 d2 d3 f0 f1 f2 f3 c4 c5 hper hneg hc hs g hz0 hC hS
  generalize 4 * 2 ^ b * P = p at *
  generalize hN : 2 ^ (b + 2 + M) = n at *
  generalize hBB : 2 ^ b = B at *
  have egi : p + B - i = p + (B - i) := by omega
  have w0 := hz (p + i) (Or.inl (Or.inl (by omega)))
  have w1 := hz (p + i + B) (Or.inl (Or.inr (Or.inl (by omega))))
  have w2 := hz (p + i + 2 * B) (Or.inl (Or.inr (Or.inr (Or.inl (by omega)))))
  have w3 := hz (p + i + 3 * B) (Or.inl (Or.inr (Or.inr (Or.inr (by omega)))))
  have u0 := hz (p + (B - i)) (Or.inr (Or.inl (by omega)))
  have u1 := hz (p + (B - i) + B) (Or.inr (Or.inr (Or.inl (by omega))))
  have u2 := hz (p + (B - i) + 2 * B) (Or.inr (Or.inr (Or.inr (Or.inl (by omega)))))
  have u3 := hz (p + (B - i) + 3 * B) (Or.inr (Or.inr (Or.inr (Or.inr (by omega)))))
  rw [i0] at w0
  rw [i1] at w1
  rw [i2] at w2
  rw [i3] at w3
  rw [j0] at u0
  rw [j1] at u1
  rw [j2] at u2
  rw [j3] at u3
  refine ⟨_, by unfold bfly; dsimp only; rw [egi, if_pos ⟨by omega, by omega⟩], ?_, ?_⟩
  · rintro c ((rfl | rfl | rfl | rfl) | (rfl | rfl | rfl | rfl))
    · rw [upd_ne _ _ (by omega), upd_ne _ _ (by omega), upd_ne _ _ (by omega), upd_ne _ _ (by omega),
        upd_ne _ _ (by omega), upd_ne _ _ (by omega), upd_same, p0, w0, w1, w2, w3, u1, u2, u3]
      ring
    · rw [upd_same, Nat.add_assoc p i B, p1, ← Nat.add_assoc p i B, w0, w1, w2, w3, u1, u2, u3]
      ring
    · rw [upd_ne _ _ (by omega), upd_ne _ _ (by omega), upd_ne _ _ (by omega), upd_ne _ _ (by omega),
        upd_ne _ _ (by omega), upd_ne _ _ (by omega), upd_ne _ _ (by omega), upd_same, Nat.add_assoc p i (2 * B), p2,
        ← Nat.add_assoc p i (2 * B), w0, w1, w2, w3, u1, u2, u3]
      ring
    · rw [upd_ne _ _ (by omega), upd_same, Nat.add_assoc p i (3 * B), p3, ← Nat.add_assoc p i (3 * B), w0, w1, w2, w3, u1, u2, u3]
      ring
    · rw [upd_ne _ _ (by omega), upd_ne _ _ (by omega), upd_same, r0, u0, w1, w2, w3, u1, u2, u3]
      ring
    · rw [upd_ne _ _ (by omega), upd_ne _ _ (by omega), upd_ne _ _ (by omega), upd_ne _ _ (by omega), upd_same,
        Nat.add_assoc p (B - i) B, r1, ← Nat.add_assoc p (B - i) B, u0, w1, w2, w3, u1, u2, u3]
      ring
    · rw [upd_ne _ _ (by omega), upd_ne _ _ (by omega), upd_ne _ _ (by omega), upd_same,
        Nat.add_assoc p (B - i) (2 * B), r2, ← Nat.add_assoc p (B - i) (2 * B), u0, w1, w2, w3, u1, u2, u3]
      ring
    · rw [upd_ne _ _ (by omega), upd_ne _ _ (by omega), upd_ne _ _ (by omega), upd_ne _ _ (by omega), upd_ne _ _ (by omega), upd_same,
        Nat.add_assoc p (B - i) (3 * B), r3, ← Nat.add_assoc p (B - i) (3 * B), u0, w1, w2, w3, u1, u2, u3]
      ring
  · intro c hc
    unfold rowOf at hc
    rw [upd_ne _ _ (by omega), upd_ne _ _ (by omega), upd_ne _ _ (by omega), upd_ne _ _ (by omega), upd_ne _ _ (by omega), upd_ne _ _ (by omega),
      upd_ne _ _ (by omega), upd_ne _ _ (by omega)]

end Verif.Fft.Mayer

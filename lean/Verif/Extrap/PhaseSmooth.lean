import Verif.Extrap.PhaseProps
import Mathlib.Analysis.SpecialFunctions.Sqrt

/-! # The smoothed operator: what is proved -/

namespace Verif.Extrap

open Verif Complex

noncomputable section

theorem toInt_nonpos {x : ℝ} (h : x ≤ 0) : toInt x = ⌈x⌉ := by
  unfold toInt
  split
  · have : x = 0 := le_antisymm h ‹_›
    rw [this]; simp
  · rfl

theorem toInt_nonneg {x : ℝ} (h : 0 ≤ x) : toInt x = ⌊x⌋ := by unfold toInt; rw [if_pos h]

/-- The limits of the band in `2h` samples. -/
structure Limits (h : ℕ) (d k1 k2 : ℝ) (b : ℤ × ℤ × ℝ) : Prop where
  lo : -(h : ℤ) < b.1
  lo0 : b.1 ≤ 0
  hi0 : 0 ≤ b.2.1
  hi : b.2.1 < h
  in1 : k1 ≤ b.1 * d
  in2 : b.2.1 * d ≤ k2
  all1 : ∀ m : ℤ, m ≤ 0 → k1 ≤ m * d → -(85 / 100) * (h : ℝ) ≤ m → b.1 ≤ m
  all2 : ∀ m : ℤ, 0 ≤ m → m * d ≤ k2 → m ≤ 85 / 100 * (h : ℝ) → m ≤ b.2.1
  perc : b.2.2 = 1 / 10 ∨ b.2.2 = 45 / 100

theorem smoothBand_limits {h : ℕ} (hh : 1 ≤ h) {d k1 k2 : ℝ} (hd : 0 < d) (h1 : k1 ≤ 0) (h2 : 0 ≤ k2) :
    Limits h d k1 k2 (smoothBand (2 * h) d k1 k2) := by
  have hR : (1 : ℝ) ≤ h := by exact_mod_cast hh
  set lo := toInt (-(85 / 100) * ((2 * h : ℕ) : ℝ) / 2) with hlo
  set hi := toInt (85 / 100 * ((2 * h : ℕ) : ℝ) / 2) with hhi
  set i1 := toInt (k1 / d) with hi1
  set i2 := toInt (k2 / d) with hi2
  have elo : -(85 / 100) * ((2 * h : ℕ) : ℝ) / 2 = -(85 / 100 * h) := by push_cast; ring
  have ehi : 85 / 100 * ((2 * h : ℕ) : ℝ) / 2 = 85 / 100 * h := by push_cast; ring
  rw [elo, toInt_nonpos (by linarith), Int.ceil_neg] at hlo
  rw [ehi, toInt_nonneg (by linarith)] at hhi
  have e : lo = -hi := by rw [hlo, hhi]
  have hi_lt : hi < h := by
    rw [hhi, Int.floor_lt]; push_cast; linarith
  have hi_nn : 0 ≤ hi := by rw [hhi]; exact Int.floor_nonneg.2 (by linarith)
  have d1 : k1 / d ≤ 0 := div_nonpos_of_nonpos_of_nonneg h1 hd.le
  have d2 : 0 ≤ k2 / d := div_nonneg h2 hd.le
  rw [toInt_nonpos d1] at hi1
  rw [toInt_nonneg d2] at hi2
  have i1n : i1 ≤ 0 := by rw [hi1]; exact Int.ceil_le.2 (by push_cast; exact d1)
  have i2n : 0 ≤ i2 := by rw [hi2]; exact Int.floor_nonneg.2 d2
  have k1i : k1 ≤ i1 * d := by
    have := Int.le_ceil (k1 / d)
    rw [← hi1, div_le_iff₀ hd] at this; exact this
  have k2i : i2 * d ≤ k2 := by
    have := Int.floor_le (k2 / d)
    rw [← hi2, le_div_iff₀ hd] at this; exact this
  have a1 : ∀ m : ℤ, k1 ≤ m * d → i1 ≤ m := fun m hm => by
    rw [hi1]; apply Int.ceil_le.2; rw [div_le_iff₀ hd]; exact hm
  have a2 : ∀ m : ℤ, m * d ≤ k2 → m ≤ i2 := fun m hm => by
    rw [hi2]; apply Int.le_floor.2; rw [le_div_iff₀ hd]; exact hm
  have b1 : ∀ m : ℤ, -(85 / 100) * (h : ℝ) ≤ m → lo ≤ m := fun m hm => by
    rw [hlo, neg_le]; apply Int.le_floor.2; push_cast; linarith
  have b2 : ∀ m : ℤ, m ≤ 85 / 100 * (h : ℝ) → m ≤ hi := fun m hm => by
    rw [hhi]; exact Int.le_floor.2 hm
  have form : smoothBand (2 * h) d k1 k2 =
      (if i1 < lo then lo else i1, if i2 > hi then hi else i2, if i2 > hi then 1 / 10 else if i1 < lo then 1 / 10 else 45 / 100) := rfl
  rw [form]
  have lod : i1 ≤ lo → k1 ≤ lo * d := fun c => by
    have : (i1 : ℝ) ≤ lo := by exact_mod_cast c
    nlinarith
  have hid : hi ≤ i2 → hi * d ≤ k2 := fun c => by
    have : (hi : ℝ) ≤ i2 := by exact_mod_cast c
    nlinarith
  constructor <;> dsimp only
  · split <;> omega
  · split <;> omega
  · split <;> omega
  · split <;> omega
  · split
    · exact lod (by omega)
    · exact k1i
  · split
    · exact hid (by omega)
    · exact k2i
  · intro m _ hm hm'
    have := a1 m hm; have := b1 m hm'
    split <;> omega
  · intro m _ hm hm'
    have := a2 m hm; have := b2 m hm'
    split <;> omega
  · split
    · exact Or.inl rfl
    · split
      · exact Or.inl rfl
      · exact Or.inr rfl

/-! ## The operator -/

/-- Value from the cubics for phase and amplitude. -/
def splVal (ph am : Cubic) (x : ℝ) : ℂ := ⟨am.at x * Real.cos (ph.at x), -am.at x * Real.sin (ph.at x)⟩

/-- The operator at wavenumber number `m`. -/
def smoothAt (k dz d : ℝ) (ik1 ik2 L R m : ℤ) : ℂ :=
  if m ≤ L then 0
  else if m < ik1 then splVal (cubic (L * d) ((ik1 - 1 : ℤ) * d) 0 (edge k dz ((ik1 - 1 : ℤ) * d)).1 0 (edge k dz ((ik1 - 1 : ℤ) * d)).2)
    (cubic (L * d) ((ik1 - 1 : ℤ) * d) 0 1 0 0) (m * d)
  else if m ≤ ik2 then ⟨Real.cos (Real.sqrt (k * k - m * d * (m * d)) * dz), -Real.sin (Real.sqrt (k * k - m * d * (m * d)) * dz)⟩
  else if m < R then splVal (cubic ((ik2 + 1 : ℤ) * d) (R * d) (edge k dz ((ik2 + 1 : ℤ) * d)).1 0 (edge k dz ((ik2 + 1 : ℤ) * d)).2 0)
    (cubic ((ik2 + 1 : ℤ) * d) (R * d) 1 0 0 0) (m * d)
  else 0

/-- Ends of the smooth parts. -/
def endL (h : ℕ) (b : ℤ × ℤ × ℝ) : ℤ := toInt (max (-(h : ℝ)) (b.1 - b.2.2 * (2 * h : ℕ) / 2))
def endR (h : ℕ) (b : ℤ × ℤ × ℝ) : ℤ := toInt (min (h : ℝ) (b.2.1 + b.2.2 * (2 * h : ℕ) / 2))

theorem ends {h : ℕ} (hh : 10 ≤ h) {d k1 k2 : ℝ} {b : ℤ × ℤ × ℝ} (hb : Limits h d k1 k2 b) :
    -(h : ℤ) ≤ endL h b ∧ endL h b ≤ b.1 - 1 ∧ b.2.1 + 1 ≤ endR h b ∧ endR h b ≤ h := by
  have hR : (10 : ℝ) ≤ h := by exact_mod_cast hh
  have hp : 1 ≤ b.2.2 * (2 * h : ℕ) / 2 := by
    rcases hb.perc with e | e <;> rw [e] <;> push_cast <;> linarith
  have l0 : (b.1 : ℝ) ≤ 0 := by exact_mod_cast hb.lo0
  have r0 : (0 : ℝ) ≤ b.2.1 := by exact_mod_cast hb.hi0
  have l1 : -(h : ℝ) + 1 ≤ b.1 := by
    have : -(h : ℤ) + 1 ≤ b.1 := by have := hb.lo; omega
    exact_mod_cast this
  have r1 : (b.2.1 : ℝ) + 1 ≤ h := by
    have : b.2.1 + 1 ≤ (h : ℤ) := by have := hb.hi; omega
    exact_mod_cast this
  have mx : max (-(h : ℝ)) (b.1 - b.2.2 * (2 * h : ℕ) / 2) ≤ ((b.1 - 1 : ℤ) : ℝ) := by
    push_cast
    refine max_le (by linarith) (by push_cast at hp; linarith)
  have mn : ((b.2.1 + 1 : ℤ) : ℝ) ≤ min (h : ℝ) (b.2.1 + b.2.2 * (2 * h : ℕ) / 2) := by
    push_cast
    refine le_min (by linarith) (by push_cast at hp; linarith)
  have mx0 : max (-(h : ℝ)) (b.1 - b.2.2 * (2 * h : ℕ) / 2) ≤ 0 := mx.trans (by push_cast; linarith)
  have mn0 : 0 ≤ min (h : ℝ) (b.2.1 + b.2.2 * (2 * h : ℕ) / 2) := le_trans (by push_cast; linarith) mn
  refine ⟨?_, ?_, ?_, ?_⟩
  · unfold endL
    rw [toInt_nonpos mx0]
    have : ((-(h : ℤ) : ℤ) : ℝ) ≤ max (-(h : ℝ)) (b.1 - b.2.2 * (2 * h : ℕ) / 2) := by push_cast; exact le_max_left _ _
    exact_mod_cast this.trans (Int.le_ceil _)
  · unfold endL
    rw [toInt_nonpos mx0]
    exact Int.ceil_le.2 mx
  · unfold endR
    rw [toInt_nonneg mn0]
    exact Int.le_floor.2 mn
  · unfold endR
    rw [toInt_nonneg mn0]
    have : min (h : ℝ) (b.2.1 + b.2.2 * (2 * h : ℕ) / 2) ≤ ((h : ℤ) : ℝ) := by push_cast; exact min_le_left _ _
    exact_mod_cast (Int.floor_le _).trans this

theorem bind_ex {α β : Type} {x : Option α} {a : α} (e : x = some a) {f : α → Option β} {P : β → Prop} (h : ∃ o, f a = some o ∧ P o) :
    ∃ o, x.bind f = some o ∧ P o := by
  rw [e]; exact h

theorem smooth_spec {h : ℕ} (hh : 10 ≤ h) (oper : CArr) (k : ℝ) {dx : ℝ} (hx : 0 < dx) (dz : ℝ) {k1 k2 : ℝ} (h1 : k1 ≤ 0) (h2 : 0 ≤ k2)
    (hk1 : -|k| ≤ k1) (hk2 : k2 ≤ |k|) :
    ∃ o, forwExtrSmooth oper k dx dz (2 * h) k1 k2 = some o ∧ ∀ q < 2 * h, o q = some (smoothAt k dz (dkx (2 * h) dx)
      (smoothBand (2 * h) (dkx (2 * h) dx) k1 k2).1 (smoothBand (2 * h) (dkx (2 * h) dx) k1 k2).2.1
      (endL h (smoothBand (2 * h) (dkx (2 * h) dx) k1 k2)) (endR h (smoothBand (2 * h) (dkx (2 * h) dx) k1 k2)) (signed (2 * h) q)) := by
  have hR : (10 : ℝ) ≤ h := by exact_mod_cast hh
  have hnd : ((2 * h : ℕ) : ℝ) * dx ≠ 0 := by push_cast; positivity
  have hd : 0 < dkx (2 * h) dx := by unfold dkx; push_cast; have := Real.pi_pos; positivity
  have lim := smoothBand_limits (h := h) (by omega) hd h1 h2
  obtain ⟨e1, e2, e3, e4⟩ := ends hh lim
  unfold forwExtrSmooth
  simp only [Option.bind_eq_bind, if_neg hnd, Nat.mul_div_cancel_left h (show 0 < 2 by norm_num)]
  set d := dkx (2 * h) dx with hd'
  set b := smoothBand (2 * h) d k1 k2 with hb
  set L := endL h b with hL
  set R := endR h b with hR'
  have f1 := lim.lo; have f2 := lim.lo0; have f3 := lim.hi0; have f4 := lim.hi
  have hnum : ((2 * h : ℕ) : ℤ) = 2 * (h : ℤ) := by push_cast; ring
  have hdiv : (((2 * h : ℕ) / 2 : ℕ) : ℤ) = (h : ℤ) := by omega
  obtain ⟨a1, ea1, ha1⟩ := putLoop (n := 2 * h) (lo := 0) (hi := h + L) (v := fun _ => 0) (body := fun ikx oper => cput (2 * h) oper ikx 0) oper
    (by omega) (by omega) (fun _ _ _ _ => rfl)
  have neL : h + L < h + b.1 - 1 → (L : ℝ) * d ≠ ((b.1 - 1 : ℤ) : ℝ) * d := fun c e => by
    have := mul_right_cancel₀ hd.ne' e
    have : L = b.1 - 1 := by exact_mod_cast this
    omega
  obtain ⟨a2, ea2, ha2⟩ := putLoop (n := 2 * h) (lo := h + L) (hi := h + b.1 - 1)
    (v := fun i => splVal (cubic (L * d) ((b.1 - 1 : ℤ) * d) 0 (edge k dz ((b.1 - 1 : ℤ) * d)).1 0 (edge k dz ((b.1 - 1 : ℤ) * d)).2)
      (cubic (L * d) ((b.1 - 1 : ℤ) * d) 0 1 0 0) ((i - (h : ℤ) + 1 : ℤ) * d))
    (body := fun ikx oper => (spline3 (L * d) ((b.1 - 1 : ℤ) * d) 0 1 0 0 none).bind fun am =>
      (spline3 (L * d) ((b.1 - 1 : ℤ) * d) 0 (edge k dz ((b.1 - 1 : ℤ) * d)).1 0 (edge k dz ((b.1 - 1 : ℤ) * d)).2 none).bind fun ph =>
      cput (2 * h) oper ikx ⟨am.at (((ikx - (((2 * h : ℕ) / 2 : ℕ) : ℤ) + 1 : ℤ) : ℝ) * d) * Real.cos (ph.at (((ikx - (((2 * h : ℕ) / 2 : ℕ) : ℤ) + 1 : ℤ) : ℝ) * d)),
        -am.at (((ikx - (((2 * h : ℕ) / 2 : ℕ) : ℤ) + 1 : ℤ) : ℝ) * d) * Real.sin (ph.at (((ikx - (((2 * h : ℕ) / 2 : ℕ) : ℤ) + 1 : ℤ) : ℝ) * d))⟩) a1
    (by omega) (by omega) (fun i a c1 c2 => by
      rw [spline3_ne (neL (by omega)), Option.bind_some, spline3_ne (neL (by omega)), Option.bind_some, hdiv]; rfl)
  have inside : ∀ m : ℤ, b.1 ≤ m → m ≤ b.2.1 → 0 ≤ k * k - m * d * (m * d) := by
    intro m m1 m2
    have g1 := lim.in1
    have g2 := lim.in2
    have m1' : (b.1 : ℝ) ≤ m := by exact_mod_cast m1
    have m2' : (m : ℝ) ≤ b.2.1 := by exact_mod_cast m2
    have l : -|k| ≤ m * d := by nlinarith
    have u : m * d ≤ |k| := by nlinarith
    have := abs_le.2 ⟨l, u⟩
    have := mul_self_le_mul_self (abs_nonneg _) this
    rw [abs_mul_abs_self, abs_mul_abs_self] at this
    linarith
  obtain ⟨a3, ea3, ha3⟩ := putLoop (n := 2 * h) (lo := h + b.1 - 1) (hi := h + b.2.1)
    (v := fun i => ⟨Real.cos (Real.sqrt (k * k - ((i - (h : ℤ) + 1 : ℤ) : ℝ) * d * (((i - (h : ℤ) + 1 : ℤ) : ℝ) * d)) * dz),
      -Real.sin (Real.sqrt (k * k - ((i - (h : ℤ) + 1 : ℤ) : ℝ) * d * (((i - (h : ℤ) + 1 : ℤ) : ℝ) * d)) * dz)⟩)
    (body := fun ikx oper =>
      if k * k - ((ikx - (((2 * h : ℕ) / 2 : ℕ) : ℤ) + 1 : ℤ) : ℝ) * d * (((ikx - (((2 * h : ℕ) / 2 : ℕ) : ℤ) + 1 : ℤ) : ℝ) * d) < 0 then none
      else cput (2 * h) oper ikx
        ⟨Real.cos (Real.sqrt (k * k - ((ikx - (((2 * h : ℕ) / 2 : ℕ) : ℤ) + 1 : ℤ) : ℝ) * d * (((ikx - (((2 * h : ℕ) / 2 : ℕ) : ℤ) + 1 : ℤ) : ℝ) * d)) * dz),
         -Real.sin (Real.sqrt (k * k - ((ikx - (((2 * h : ℕ) / 2 : ℕ) : ℤ) + 1 : ℤ) : ℝ) * d * (((ikx - (((2 * h : ℕ) / 2 : ℕ) : ℤ) + 1 : ℤ) : ℝ) * d)) * dz)⟩) a2
    (by omega) (by omega) (fun i a c1 c2 => by
      rw [hdiv, if_neg (not_lt.2 (inside _ (by omega) (by omega)))])
  have neR : h + b.2.1 < h + R - 1 → ((b.2.1 + 1 : ℤ) : ℝ) * d ≠ (R : ℝ) * d := fun c e => by
    have := mul_right_cancel₀ hd.ne' e
    have : b.2.1 + 1 = R := by exact_mod_cast this
    omega
  obtain ⟨a4, ea4, ha4⟩ := putLoop (n := 2 * h) (lo := h + b.2.1) (hi := h + R - 1)
    (v := fun i => splVal (cubic ((b.2.1 + 1 : ℤ) * d) (R * d) (edge k dz ((b.2.1 + 1 : ℤ) * d)).1 0 (edge k dz ((b.2.1 + 1 : ℤ) * d)).2 0)
      (cubic ((b.2.1 + 1 : ℤ) * d) (R * d) 1 0 0 0) ((i - (h : ℤ) + 1 : ℤ) * d))
    (body := fun ikx oper => (spline3 ((b.2.1 + 1 : ℤ) * d) (R * d) 1 0 0 0 (spline3 (L * d) ((b.1 - 1 : ℤ) * d) 0 1 0 0 none)).bind fun am =>
      (spline3 ((b.2.1 + 1 : ℤ) * d) (R * d) (edge k dz ((b.2.1 + 1 : ℤ) * d)).1 0 (edge k dz ((b.2.1 + 1 : ℤ) * d)).2 0
        (spline3 (L * d) ((b.1 - 1 : ℤ) * d) 0 (edge k dz ((b.1 - 1 : ℤ) * d)).1 0 (edge k dz ((b.1 - 1 : ℤ) * d)).2 none)).bind fun ph =>
      cput (2 * h) oper ikx ⟨am.at (((ikx - (((2 * h : ℕ) / 2 : ℕ) : ℤ) + 1 : ℤ) : ℝ) * d) * Real.cos (ph.at (((ikx - (((2 * h : ℕ) / 2 : ℕ) : ℤ) + 1 : ℤ) : ℝ) * d)),
        -am.at (((ikx - (((2 * h : ℕ) / 2 : ℕ) : ℤ) + 1 : ℤ) : ℝ) * d) * Real.sin (ph.at (((ikx - (((2 * h : ℕ) / 2 : ℕ) : ℤ) + 1 : ℤ) : ℝ) * d))⟩) a3
    (by omega) (by omega) (fun i a c1 c2 => by
      rw [spline3_ne (neR (by omega)), Option.bind_some, spline3_ne (neR (by omega)), Option.bind_some, hdiv]; rfl)
  obtain ⟨a5, ea5, ha5⟩ := putLoop (n := 2 * h) (lo := h + R - 1) (hi := ((2 * h : ℕ) : ℤ)) (v := fun _ => 0)
    (body := fun ikx oper => cput (2 * h) oper ikx 0) a4 (by omega) (by omega) (fun _ _ _ _ => rfl)
  refine bind_ex ea1 (bind_ex ea2 (bind_ex ea3 (bind_ex ea4 (bind_ex ea5 ⟨_, rfl, fun q hq => ?_⟩))))
  rw [cwrap_even (by omega) _ hq]
  set m := signed (2 * h) q with hm
  have hm1 : -(h : ℤ) < m ∧ m ≤ h := by rw [hm]; unfold signed; split <;> omega
  obtain ⟨i, hi⟩ : ∃ i : ℕ, ((h : ℤ) - 1 + m).toNat = i := ⟨_, rfl⟩
  have hi' : (i : ℤ) = (h : ℤ) - 1 + m := by omega
  rw [hi, ha5 i, ha4 i, ha3 i, ha2 i, ha1 i]
  have em : (i : ℤ) - (h : ℤ) + 1 = m := by omega
  rw [em]
  unfold smoothAt
  by_cases c1 : m ≤ L
  · rw [if_neg (by omega), if_neg (by omega), if_neg (by omega), if_neg (by omega), if_pos (by omega), if_pos c1]
  rw [if_neg c1]
  by_cases c2 : m < b.1
  · rw [if_neg (by omega), if_neg (by omega), if_neg (by omega), if_pos (by omega), if_pos c2]
  rw [if_neg c2]
  by_cases c3 : m ≤ b.2.1
  · rw [if_neg (by omega), if_neg (by omega), if_pos (by omega), if_pos c3]
  rw [if_neg c3]
  by_cases c4 : m < R
  · rw [if_neg (by omega), if_pos (by omega), if_pos c4]
  · rw [if_pos (by omega), if_neg c4]

theorem splVal_normSq (ph am : Cubic) (x : ℝ) : normSq (splVal ph am x) = am.at x ^ 2 := by
  unfold splVal
  rw [normSq_mk]
  have := Real.sin_sq_add_cos_sq (ph.at x)
  linear_combination am.at x ^ 2 * this

theorem frac_range {d : ℝ} (hd : 0 < d) {x1 x2 m : ℤ} (h1 : x1 ≤ m) (h2 : m ≤ x2) (h12 : x1 < x2) :
    0 ≤ ((m : ℝ) * d - x1 * d) / (x2 * d - x1 * d) ∧ ((m : ℝ) * d - x1 * d) / (x2 * d - x1 * d) ≤ 1 := by
  have h1' : (x1 : ℝ) ≤ m := by exact_mod_cast h1
  have h2' : (m : ℝ) ≤ x2 := by exact_mod_cast h2
  have h12' : (x1 : ℝ) < x2 := by exact_mod_cast h12
  have hp : 0 < x2 * d - x1 * d := by nlinarith
  refine ⟨div_nonneg (by nlinarith) hp.le, ?_⟩
  rw [div_le_one hp]
  nlinarith

theorem smoothAt_normSq (k dz : ℝ) {d : ℝ} (hd : 0 < d) (ik1 ik2 L R m : ℤ) : normSq (smoothAt k dz d ik1 ik2 L R m) ≤ 1 := by
  unfold smoothAt
  split
  · rw [normSq_zero]; norm_num
  rename_i c1
  split
  · rename_i c2
    rw [splVal_normSq]
    have hlt : L < ik1 - 1 ∨ L = ik1 - 1 := by omega
    rcases hlt with hlt | hlt
    · have ne : (L : ℝ) * d ≠ ((ik1 - 1 : ℤ) : ℝ) * d := fun e => by
        have : L = ik1 - 1 := by exact_mod_cast mul_right_cancel₀ hd.ne' e
        omega
      rw [cubic_up ne]
      obtain ⟨t0, t1⟩ := frac_range hd (m := m) (x1 := L) (x2 := ik1 - 1) (by omega) (by omega) hlt
      obtain ⟨u0, u1⟩ := hermite_range t0 t1
      exact pow_le_one₀ u0 u1
    · omega
  split
  · rw [normSq_mk]
    have := Real.sin_sq_add_cos_sq (Real.sqrt (k * k - m * d * (m * d)) * dz)
    nlinarith
  rename_i c3
  split
  · rename_i c4
    rw [splVal_normSq]
    have hlt : ik2 + 1 < R := by omega
    have ne : ((ik2 + 1 : ℤ) : ℝ) * d ≠ (R : ℝ) * d := fun e => by
      have : ik2 + 1 = R := by exact_mod_cast mul_right_cancel₀ hd.ne' e
      omega
    rw [cubic_down ne]
    obtain ⟨t0, t1⟩ := frac_range hd (m := m) (x1 := ik2 + 1) (x2 := R) (by omega) (by omega) hlt
    obtain ⟨u0, u1⟩ := hermite_range t0 t1
    exact pow_le_one₀ (by linarith) (by linarith)
  · rw [normSq_zero]; norm_num

theorem smoothAt_band (k dz d : ℝ) {ik1 ik2 L R m : ℤ} (hL : L < ik1) (h1 : ik1 ≤ m) (h2 : m ≤ ik2) (hk : 0 ≤ k * k - m * d * (m * d)) :
    smoothAt k dz d ik1 ik2 L R m = phaseShift k dz (m * d) := by
  unfold smoothAt
  rw [if_neg (by omega), if_neg (by omega), if_pos h2]
  unfold phaseShift
  rw [if_pos (by nlinarith), show k * k - m * d * (m * d) = k ^ 2 - (m * d) ^ 2 by ring]
  have e2 : (-((Real.sqrt (k ^ 2 - (m * d) ^ 2) * dz : ℝ) : ℂ)) = ((-(Real.sqrt (k ^ 2 - (m * d) ^ 2) * dz) : ℝ) : ℂ) := by push_cast; ring
  rw [e2]
  apply Complex.ext
  · rw [exp_ofReal_mul_I_re, Real.cos_neg]
  · rw [exp_ofReal_mul_I_im, Real.sin_neg]

/-- **C110**: every element of the smoothed operator is set, none amplifies, and inside the band it is the exact phase shift. -/
theorem forwExtrSmooth_exact {h : ℕ} (hh : 10 ≤ h) (oper : CArr) (k : ℝ) {dx : ℝ} (hx : 0 < dx) (dz : ℝ) {k1 k2 : ℝ} (h1 : k1 ≤ 0)
    (h2 : 0 ≤ k2) (hk1 : -|k| ≤ k1) (hk2 : k2 ≤ |k|) :
    ∃ o, forwExtrSmooth oper k dx dz (2 * h) k1 k2 = some o ∧ ∀ q < 2 * h, ∃ v, o q = some v ∧ ‖v‖ ≤ 1 ∧
      (k1 ≤ signed (2 * h) q * dkx (2 * h) dx → signed (2 * h) q * dkx (2 * h) dx ≤ k2 →
        |signed (2 * h) q * dkx (2 * h) dx| ≤ 85 / 100 * (Real.pi / dx) → v = phaseShift k dz (signed (2 * h) q * dkx (2 * h) dx)) := by
  obtain ⟨o, e, ho⟩ := smooth_spec hh oper k hx dz h1 h2 hk1 hk2
  refine ⟨o, e, fun q hq => ⟨_, ho q hq, ?_, fun c1 c2 c3 => ?_⟩⟩
  · have hd : 0 < dkx (2 * h) dx := by
      have : (10 : ℝ) ≤ h := by exact_mod_cast hh
      unfold dkx; push_cast; have := Real.pi_pos; positivity
    have := smoothAt_normSq k dz hd (smoothBand (2 * h) (dkx (2 * h) dx) k1 k2).1 (smoothBand (2 * h) (dkx (2 * h) dx) k1 k2).2.1
      (endL h (smoothBand (2 * h) (dkx (2 * h) dx) k1 k2)) (endR h (smoothBand (2 * h) (dkx (2 * h) dx) k1 k2)) (signed (2 * h) q)
    rw [normSq_eq_norm_sq] at this
    exact (sq_le_one_iff₀ (norm_nonneg _)).1 this
  · have hR : (10 : ℝ) ≤ h := by exact_mod_cast hh
    have hpi := Real.pi_pos
    have hd : 0 < dkx (2 * h) dx := by unfold dkx; push_cast; positivity
    have lim := smoothBand_limits (h := h) (by omega) hd h1 h2
    obtain ⟨e1, e2, e3, e4⟩ := ends hh lim
    set m := signed (2 * h) q
    have hny : Real.pi / dx = h * dkx (2 * h) dx := by unfold dkx; push_cast; field_simp
    rw [hny, abs_le] at c3
    have m1 : -(85 / 100) * (h : ℝ) ≤ m := by
      have : -(85 / 100) * (h : ℝ) * dkx (2 * h) dx ≤ m * dkx (2 * h) dx := by linarith [c3.1]
      exact le_of_mul_le_mul_right this hd
    have m2 : (m : ℝ) ≤ 85 / 100 * h := by
      have : (m : ℝ) * dkx (2 * h) dx ≤ 85 / 100 * h * dkx (2 * h) dx := by linarith [c3.2]
      exact le_of_mul_le_mul_right this hd
    have hsq : 0 ≤ k * k - m * dkx (2 * h) dx * (m * dkx (2 * h) dx) := by
      have := mul_self_le_mul_self (abs_nonneg _) (abs_le.2 ⟨hk1.trans c1, c2.trans hk2⟩)
      rw [abs_mul_abs_self, abs_mul_abs_self] at this
      linarith
    have f2 := lim.lo0; have f3 := lim.hi0
    refine smoothAt_band k dz _ (by omega) ?_ ?_ hsq
    · by_cases c : m ≤ 0
      · exact lim.all1 m c c1 m1
      · omega
    · by_cases c : 0 ≤ m
      · exact lim.all2 m c c2 m2
      · omega

/-- **C110**: outside the band and a transition zone of 0.45 times the Nyquist wavenumber the operator is zero; at the Nyquist
wavenumber it always is. -/
theorem forwExtrSmooth_zero {h : ℕ} (hh : 10 ≤ h) (oper : CArr) (k : ℝ) {dx : ℝ} (hx : 0 < dx) (dz : ℝ) {k1 k2 : ℝ} (h1 : k1 ≤ 0)
    (h2 : 0 ≤ k2) (hk1 : -|k| ≤ k1) (hk2 : k2 ≤ |k|) :
    ∃ o, forwExtrSmooth oper k dx dz (2 * h) k1 k2 = some o ∧ o h = some 0 ∧ ∀ q < 2 * h,
      (k2 + 45 / 100 * (Real.pi / dx) ≤ signed (2 * h) q * dkx (2 * h) dx ∨ signed (2 * h) q * dkx (2 * h) dx ≤ k1 - 45 / 100 * (Real.pi / dx)) →
        o q = some 0 := by
  obtain ⟨o, e, ho⟩ := smooth_spec hh oper k hx dz h1 h2 hk1 hk2
  have hR : (10 : ℝ) ≤ h := by exact_mod_cast hh
  have hpi := Real.pi_pos
  have hd : 0 < dkx (2 * h) dx := by unfold dkx; push_cast; positivity
  have lim := smoothBand_limits (h := h) (by omega) hd h1 h2
  obtain ⟨e1, e2, e3, e4⟩ := ends hh lim
  have hny : Real.pi / dx = h * dkx (2 * h) dx := by unfold dkx; push_cast; field_simp
  have f2 := lim.lo0; have f3 := lim.hi0
  have hp : (smoothBand (2 * h) (dkx (2 * h) dx) k1 k2).2.2 * (2 * h : ℕ) / 2 ≤ 45 / 100 * h := by
    rcases lim.perc with e | e <;> rw [e] <;> push_cast <;> linarith
  have hr : ∀ m, endR h (smoothBand (2 * h) (dkx (2 * h) dx) k1 k2) ≤ m → smoothAt k dz (dkx (2 * h) dx)
      (smoothBand (2 * h) (dkx (2 * h) dx) k1 k2).1 (smoothBand (2 * h) (dkx (2 * h) dx) k1 k2).2.1
      (endL h (smoothBand (2 * h) (dkx (2 * h) dx) k1 k2)) (endR h (smoothBand (2 * h) (dkx (2 * h) dx) k1 k2)) m = 0 := by
    intro m hm
    unfold smoothAt
    rw [if_neg (by omega), if_neg (by omega), if_neg (by omega), if_neg (by omega)]
  refine ⟨o, e, ?_, fun q hq hc => ?_⟩
  · rw [ho h (by omega), hr]
    unfold signed; rw [if_pos (by omega)]; exact e4
  · rw [ho q hq]
    set m := signed (2 * h) q
    rw [hny] at hc
    rcases hc with c | c
    · rw [hr]
      have : (smoothBand (2 * h) (dkx (2 * h) dx) k1 k2).2.1 + 45 / 100 * (h : ℝ) ≤ m := by
        refine le_of_mul_le_mul_right ?_ hd
        have := lim.in2
        linarith
      have b0 : (0 : ℝ) ≤ (smoothBand (2 * h) (dkx (2 * h) dx) k1 k2).2.1 := by exact_mod_cast f3
      have pp : (0 : ℝ) ≤ (smoothBand (2 * h) (dkx (2 * h) dx) k1 k2).2.2 * (2 * h : ℕ) / 2 := by
        rcases lim.perc with e | e <;> rw [e] <;> positivity
      have : (endR h (smoothBand (2 * h) (dkx (2 * h) dx) k1 k2) : ℝ) ≤ m := by
        unfold endR
        rw [toInt_nonneg (le_min (by linarith) (by linarith))]
        exact (Int.floor_le _).trans ((min_le_right _ _).trans (by linarith))
      exact_mod_cast this
    · have : (m : ℝ) ≤ (smoothBand (2 * h) (dkx (2 * h) dx) k1 k2).1 - 45 / 100 * (h : ℝ) := by
        refine le_of_mul_le_mul_right ?_ hd
        have := lim.in1
        linarith
      have b0 : ((smoothBand (2 * h) (dkx (2 * h) dx) k1 k2).1 : ℝ) ≤ 0 := by exact_mod_cast f2
      have pp : (0 : ℝ) ≤ (smoothBand (2 * h) (dkx (2 * h) dx) k1 k2).2.2 * (2 * h : ℕ) / 2 := by
        rcases lim.perc with e | e <;> rw [e] <;> positivity
      have : (m : ℝ) ≤ endL h (smoothBand (2 * h) (dkx (2 * h) dx) k1 k2) := by
        unfold endL
        rw [toInt_nonpos (max_le (by linarith) (by linarith))]
        exact le_trans (le_trans (by linarith) (le_max_right _ _)) (Int.le_ceil _)
      have : m ≤ endL h (smoothBand (2 * h) (dkx (2 * h) dx) k1 k2) := by exact_mod_cast this
      unfold smoothAt
      rw [if_pos this]

/-- **C110**: the cubic outside the band starts with the phase of the exact operator and the derivative of that phase. -/
theorem edge_slope {k x : ℝ} (dz : ℝ) (h : x ^ 2 < k ^ 2) :
    (edge k dz x).1 = Real.sqrt (k ^ 2 - x ^ 2) * dz ∧ HasDerivAt (fun x => Real.sqrt (k ^ 2 - x ^ 2) * dz) (edge k dz x).2 x := by
  unfold edge
  rw [if_pos (by nlinarith), show k * k - x * x = k ^ 2 - x ^ 2 by ring]
  refine ⟨rfl, ?_⟩
  have h1 := (((hasDerivAt_pow 2 x).const_sub (k ^ 2)).sqrt (by linarith)).mul_const dz
  refine h1.congr_deriv ?_
  have : Real.sqrt (k ^ 2 - x ^ 2) ≠ 0 := (Real.sqrt_pos.2 (by linarith)).ne'
  push_cast
  field_simp

theorem edge_neg (k dz x : ℝ) : edge k dz (-x) = ((edge k dz x).1, -(edge k dz x).2) := by
  unfold edge
  rw [neg_mul_neg]
  split
  · congr 1; ring
  · simp

theorem smoothAt_neg (k dz : ℝ) {d : ℝ} (hd : 0 < d) {j R : ℤ} (hR : j + 1 ≤ R) (hj : 0 ≤ j) (m : ℤ) :
    smoothAt k dz d (-j) j (-R) R (-m) = smoothAt k dz d (-j) j (-R) R m := by
  have key : ∀ m : ℤ, j < m → m < R → smoothAt k dz d (-j) j (-R) R (-m) = smoothAt k dz d (-j) j (-R) R m := by
    intro m m1 m2
    have ne : ((j + 1 : ℤ) : ℝ) * d ≠ (R : ℝ) * d := fun e => by
      have : j + 1 = R := by exact_mod_cast mul_right_cancel₀ hd.ne' e
      omega
    unfold smoothAt
    rw [if_neg (by omega), if_pos (by omega), if_neg (by omega), if_neg (by omega), if_neg (by omega), if_pos m2]
    have x2 : ((-j - 1 : ℤ) : ℝ) * d = -(((j + 1 : ℤ) : ℝ) * d) := by push_cast; ring
    have x1 : ((-R : ℤ) : ℝ) * d = -((R : ℝ) * d) := by push_cast; ring
    have x0 : ((-m : ℤ) : ℝ) * d = -((m : ℝ) * d) := by push_cast; ring
    rw [x2, x1, x0, edge_neg]
    unfold splVal
    dsimp only
    have p1 := cubic_mirror (((j + 1 : ℤ) : ℝ) * d) (R * d) (edge k dz (((j + 1 : ℤ) : ℝ) * d)).1 0 (edge k dz (((j + 1 : ℤ) : ℝ) * d)).2 0 (m * d) ne
    have p2 := cubic_mirror (((j + 1 : ℤ) : ℝ) * d) (R * d) 1 0 0 0 (m * d) ne
    rw [neg_zero] at p1 p2
    rw [p1, p2]
  rcases lt_trichotomy m 0 with c | c | c
  · by_cases c1 : -m ≤ j
    · unfold smoothAt
      rw [if_neg (by omega), if_neg (by omega), if_pos c1, if_neg (by omega), if_neg (by omega), if_pos (by omega)]
      push_cast
      rw [show -(m : ℝ) * d * (-(m : ℝ) * d) = m * d * (m * d) by ring]
    · by_cases c2 : -m < R
      · have := key (-m) (by omega) c2
        rw [neg_neg] at this
        exact this.symm
      · unfold smoothAt
        rw [if_neg (by omega), if_neg (by omega), if_neg (by omega), if_neg (by omega), if_pos (by omega)]
  · rw [c]; rfl
  · by_cases c1 : m ≤ j
    · unfold smoothAt
      rw [if_neg (by omega), if_neg (by omega), if_pos (by omega), if_neg (by omega), if_neg (by omega), if_pos (by omega)]
      push_cast
      rw [show -(m : ℝ) * d * (-(m : ℝ) * d) = m * d * (m * d) by ring]
    · by_cases c2 : m < R
      · exact key m (by omega) c2
      · unfold smoothAt
        rw [if_pos (by omega), if_neg (by omega), if_neg (by omega), if_neg (by omega), if_neg (by omega)]

theorem toInt_neg (x : ℝ) : toInt (-x) = -toInt x := by
  rcases le_total 0 x with h | h
  · rw [toInt_nonpos (by linarith), toInt_nonneg h, Int.ceil_neg]
  · rw [toInt_nonneg (by linarith), toInt_nonpos h, Int.floor_neg]

/-- **C110**: for a symmetric band the operator is symmetric, as the convolution that uses half of it presumes. -/
theorem forwExtrSmooth_symmetric {h : ℕ} (hh : 10 ≤ h) (oper : CArr) (k : ℝ) {dx : ℝ} (hx : 0 < dx) (dz : ℝ) {k2 : ℝ} (h2 : 0 ≤ k2)
    (hk2 : k2 ≤ |k|) :
    ∃ o, forwExtrSmooth oper k dx dz (2 * h) (-k2) k2 = some o ∧ ∀ q, 0 < q → q < 2 * h → o (2 * h - q) = o q := by
  have hR : (10 : ℝ) ≤ h := by exact_mod_cast hh
  have hd : 0 < dkx (2 * h) dx := by unfold dkx; push_cast; have := Real.pi_pos; positivity
  obtain ⟨o, e, ho⟩ := smooth_spec hh oper k hx dz (by linarith : -k2 ≤ 0) h2 (by linarith) hk2
  have lim := smoothBand_limits (h := h) (by omega) hd (by linarith : -k2 ≤ 0) h2
  obtain ⟨e1, e2, e3, e4⟩ := ends hh lim
  refine ⟨o, e, fun q q0 hq => ?_⟩
  rw [ho q hq, ho _ (by omega)]
  have hb : (smoothBand (2 * h) (dkx (2 * h) dx) (-k2) k2).1 = -(smoothBand (2 * h) (dkx (2 * h) dx) (-k2) k2).2.1 := by
    unfold smoothBand
    dsimp only
    rw [show -(85 / 100) * ((2 * h : ℕ) : ℝ) / 2 = -(85 / 100 * ((2 * h : ℕ) : ℝ) / 2) by ring, toInt_neg, neg_div, toInt_neg]
    split <;> split <;> omega
  have hLR : endL h (smoothBand (2 * h) (dkx (2 * h) dx) (-k2) k2) = -endR h (smoothBand (2 * h) (dkx (2 * h) dx) (-k2) k2) := by
    unfold endL endR
    rw [← toInt_neg, hb]
    congr 1
    push_cast
    rw [← max_neg_neg]
    congr 1; ring
  rw [hb, hLR]
  have f3 := lim.hi0
  by_cases c : q = h
  · subst c
    rw [show 2 * q - q = q by omega]
  · have : signed (2 * h) (2 * h - q) = -signed (2 * h) q := by
      unfold signed
      split <;> split <;> omega
    rw [this, smoothAt_neg k dz hd e3 f3]

/-! ## Non-vacuity -/

example : (edge 2 1 1).1 = Real.sqrt (2 ^ 2 - 1 ^ 2) * 1 := (edge_slope 1 (by norm_num)).1

example : ∃ o, forwExtrSmooth (fun _ => none) 1 1 1 64 (-(1 / 2)) (1 / 2) = some o ∧ ∃ v, o 0 = some v ∧ ‖v‖ ≤ 1 := by
  obtain ⟨o, e, h⟩ := forwExtrSmooth_exact (h := 32) (by norm_num) (fun _ => none) 1 one_pos 1 (by norm_num : -(1 / 2 : ℝ) ≤ 0)
    (by norm_num : (0 : ℝ) ≤ 1 / 2) (by norm_num) (by norm_num)
  obtain ⟨v, h1, h2, -⟩ := h 0 (by norm_num)
  exact ⟨o, e, v, h1, h2⟩

example : ∃ o, forwExtrSmooth (fun _ => none) 1 1 1 64 (-(1 / 2)) (1 / 2) = some o ∧ o 32 = some 0 := by
  obtain ⟨o, e, h, -⟩ := forwExtrSmooth_zero (h := 32) (by norm_num) (fun _ => none) 1 one_pos 1 (by norm_num : -(1 / 2 : ℝ) ≤ 0)
    (by norm_num : (0 : ℝ) ≤ 1 / 2) (by norm_num) (by norm_num)
  exact ⟨o, e, h⟩

example : ∃ o, forwExtrSmooth (fun _ => none) 1 1 1 64 (-(1 / 2)) (1 / 2) = some o ∧ o 63 = o 1 := by
  obtain ⟨o, e, h⟩ := forwExtrSmooth_symmetric (h := 32) (by norm_num) (fun _ => none) 1 one_pos 1 (by norm_num : (0 : ℝ) ≤ 1 / 2) (by norm_num)
  exact ⟨o, e, h 1 (by norm_num) (by norm_num)⟩

end

end Verif.Extrap

import Mathlib.Analysis.SpecialFunctions.Trigonometric.Basic

/-!
# Specification of the muting windows

Two cosine edges, written without reference to the code.  All times are sample numbers.
-/

namespace Verif.Mute.Spec

/-- Rising edge of width `s` that has reached 1 at time `e`: 0 before `e-s`, 1 from `e` on. -/
noncomputable def riseW (s : Nat) (e t : Int) : ℝ :=
  if t < e - s then 0
  else if t < e then (1 - Real.cos (Real.pi * ((t - (e - s) : Int) + 1) / (s + 1))) / 2
  else 1

/-- Falling edge of width `s` that starts at time `b`: 1 before `b`, 0 from `b+s` on. -/
noncomputable def fallW (s : Nat) (b t : Int) : ℝ :=
  if t < b then 1
  else if t < b + s then (1 + Real.cos (Real.pi * ((t - b : Int) + 1) / (s + 1))) / 2
  else 0

/-- A falling edge and the rising edge over the same samples add up to one. -/
theorem fall_add_rise (s : Nat) (b t : Int) : fallW s b t + riseW s (b + s) t = 1 := by
  unfold fallW riseW
  by_cases h1 : t < b
  · simp [h1]
  · by_cases h2 : t < b + s
    · simp [h1, h2]; ring
    · simp [h1, h2]

theorem cos_pos_aux (s : Nat) (l : Int) (h0 : 0 ≤ l) (h1 : l < s) :
    -1 < Real.cos (Real.pi * ((l : ℝ) + 1) / (s + 1)) ∧
    Real.cos (Real.pi * ((l : ℝ) + 1) / (s + 1)) < 1 := by
  have hs : (0:ℝ) < s + 1 := by positivity
  have hl : (0:ℝ) ≤ l := by exact_mod_cast h0
  have hl1 : (l:ℝ) + 1 < s + 1 := by
    have : (l:ℝ) < s := by exact_mod_cast h1
    linarith
  have hpi := Real.pi_pos
  have hx0 : 0 < Real.pi * ((l : ℝ) + 1) / (s + 1) := by positivity
  have hx1 : Real.pi * ((l : ℝ) + 1) / (s + 1) < Real.pi := by
    rw [div_lt_iff₀ hs]; nlinarith
  constructor
  · have := Real.cos_lt_cos_of_nonneg_of_le_pi hx0.le (le_refl Real.pi) hx1
    simpa using this
  · have := Real.cos_lt_cos_of_nonneg_of_le_pi (le_refl 0) hx1.le hx0
    simpa using this

/-- Inside the edge the weight is strictly between 0 and 1. -/
theorem riseW_mem (s : Nat) (e t : Int) (h1 : e - s ≤ t) (h2 : t < e) :
    0 < riseW s e t ∧ riseW s e t < 1 := by
  have := cos_pos_aux s (t - (e - s)) (by omega) (by omega)
  unfold riseW
  rw [if_neg (by omega), if_pos h2]
  constructor <;> linarith [this.1, this.2]

theorem fallW_mem (s : Nat) (b t : Int) (h1 : b ≤ t) (h2 : t < b + s) :
    0 < fallW s b t ∧ fallW s b t < 1 := by
  have := cos_pos_aux s (t - b) (by omega) (by omega)
  unfold fallW
  rw [if_neg (by omega), if_pos h2]
  constructor <;> linarith [this.1, this.2]

end Verif.Mute.Spec

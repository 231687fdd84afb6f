import Mathlib.Data.Rat.Floor
import Mathlib.Algebra.Order.Ring.Rat
import Mathlib.Tactic.Linarith
import Mathlib.Tactic.NormNum

/-!
# C204: size and spacing of a model file (fdelmodc/getModelInfo.c)

The extreme values are in `Med/Info`.  Exact numbers.
-/

namespace Verif.Util.Info

/-- `n2` (fdelmodc/getModelInfo.c:38-40, 59-61): bytes of the file over bytes of a trace, with a header of 240 bytes. -/
def traces (bytes ns : Nat) : Nat := bytes / (4 * ns + 240)

/-- `d1`, `d2` (fdelmodc/getModelInfo.c:44-58): `NINT` of positive numbers; `none` is the error; `par` is the parameter `dx=`. -/
def spacing (d1 d2 : ℚ) (par : Option ℚ) : Option (ℚ × ℚ) :=
  let d2 := if ⌊100 * (d1 / d2) + 1 / 2⌋ ≠ 100 then d1 else d2
  if ⌊1000 * d1 + 1 / 2⌋ = 0 then par.map fun d => (d, d) else some (d1, d2)

/-! ## Properties -/

/-- **C204.** The number of traces is that of the file. -/
theorem info_traces (ntr ns : Nat) : traces (ntr * (240 + 4 * ns)) ns = ntr := by
  unfold traces
  rw [show 4 * ns + 240 = 240 + 4 * ns by omega]
  exact Nat.mul_div_cancel _ (by omega)

/-- **C204.** The spacings are those of the header when they differ by less than 0.4% and are not below half a millimetre. -/
theorem info_spacing_partial (d1 d2 : ℚ) (par : Option ℚ) (hd : 1 / 2000 ≤ d1) (h2 : 0 < d2) (ha : 249 / 250 * d2 ≤ d1)
    (hb : d1 ≤ 251 / 250 * d2) : spacing d1 d2 par = some (d1, d2) := by
  have e : ⌊100 * (d1 / d2) + 1 / 2⌋ = 100 := by
    rw [Int.floor_eq_iff]
    have q1 : 249 / 250 ≤ d1 / d2 := (le_div_iff₀ h2).mpr ha
    have q2 : d1 / d2 ≤ 251 / 250 := (div_le_iff₀ h2).mpr hb
    constructor <;> push_cast <;> linarith
  have e2 : ⌊1000 * d1 + 1 / 2⌋ ≠ 0 := by
    have : (1 : Int) ≤ ⌊1000 * d1 + 1 / 2⌋ := Int.le_floor.mpr (by push_cast; linarith)
    omega
  unfold spacing
  dsimp only
  rw [if_neg e2, e, if_neg (by simp)]

/-- **C204 violated.** A model with another horizontal spacing is taken as one with square cells (the program warns). -/
theorem info_spacing_square (d1 d2 : ℚ) (par : Option ℚ) (hd : 1 / 2000 ≤ d1) (h2 : 0 < d2)
    (h : d1 < 199 / 200 * d2 ∨ 201 / 200 * d2 ≤ d1) : spacing d1 d2 par = some (d1, d1) := by
  have e : ⌊100 * (d1 / d2) + 1 / 2⌋ ≠ 100 := by
    intro e
    rw [Int.floor_eq_iff] at e
    obtain ⟨a, b⟩ := e
    push_cast at a b
    rcases h with h | h
    · have q : d1 / d2 < 199 / 200 := (div_lt_iff₀ h2).mpr h
      linarith
    · have q : 201 / 200 ≤ d1 / d2 := (le_div_iff₀ h2).mpr h
      linarith
  have e2 : ⌊1000 * d1 + 1 / 2⌋ ≠ 0 := by
    have : (1 : Int) ≤ ⌊1000 * d1 + 1 / 2⌋ := Int.le_floor.mpr (by push_cast; linarith)
    omega
  unfold spacing
  dsimp only
  rw [if_neg e2, if_pos e]

/-! Cases that meet the hypotheses. -/
example : spacing 5 10 none = some (5, 5) := info_spacing_square 5 10 none (by norm_num) (by norm_num) (Or.inl (by norm_num))
example : spacing 5 5 none = some (5, 5) := info_spacing_partial 5 5 none (by norm_num) (by norm_num) (by norm_num) (by norm_num)

end Verif.Util.Info

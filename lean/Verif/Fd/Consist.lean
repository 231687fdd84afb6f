import Verif.Fd.AcouInterior
import Mathlib.Algebra.Field.Rat
import Mathlib.Tactic.NormNum
import Mathlib.Tactic.FieldSimp

/-! # C53: the staggered difference is a derivative -/

namespace Verif.Fd.Acou

/-- The Taylor coefficients of the boundaries and of the elastic schemes (boundaries.c:33-34, elastic4.c:76-77). -/
def taylor1 : Rat := 9 / 8
def taylor2 : Rat := -1 / 24

/-- The coefficients `acoustic4` uses in the interior (acoustic4.c:77-78); the decimal constants, exactly. -/
def l2opt1 : Rat := 1129042 / 1000000
def l2opt2 : Rat := -4301412 / 100000000

/-- Values of the polynomial `a + b x + c x² + d x³ + e x⁴` at the half-way points `(j + 1/2) h` around `x`. -/
def samples (a b c d e h x : Rat) (j : Int) : Rat :=
  let y := x + (j + 1 / 2) * h
  a + b * y + c * y ^ 2 + d * y ^ 3 + e * y ^ 4

/-- C53 (partial: the coefficients of the boundary zones and of the elastic schemes). The staggered difference of a polynomial of
degree at most four is exactly `h` times its derivative. -/
theorem derivative_exact_partial (a b c d e h x : Rat) :
    stag taylor1 taylor2 (samples a b c d e h x) = h * (b + 2 * c * x + 3 * d * x ^ 2 + 4 * e * x ^ 3) := by
  simp only [stag, taylor1, taylor2, samples]
  push_cast
  ring

/-- C53 is false of the coefficients `acoustic4` uses inside the model: even the slope of a linear field comes out too small, by
the factor 0.99999964. -/
theorem acoustic_slope (a b h x : Rat) :
    stag l2opt1 l2opt2 (samples a b 0 0 0 h x) = (24999991 / 25000000) * (h * b) := by
  simp only [stag, l2opt1, l2opt2, samples]
  push_cast
  ring

theorem acoustic_slope_wrong : ∃ a b h x : Rat, stag l2opt1 l2opt2 (samples a b 0 0 0 h x) ≠ h * b :=
  ⟨0, 1, 1, 0, by rw [acoustic_slope]; norm_num⟩

/-- A field that is not constant. -/
example : stag taylor1 taylor2 (samples 0 0 0 1 0 2 3) = 54 := by
  rw [derivative_exact_partial]; norm_num

end Verif.Fd.Acou

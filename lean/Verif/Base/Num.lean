import Mathlib.Algebra.Order.Floor.Ring
import Mathlib.Data.Rat.Floor
import Mathlib.Tactic.Linarith

/-! # Rounding macros shared by the C programs -/

namespace Verif

/-- `#define NINT(x) ((int)((x)>0.0?(x)+0.5:(x)-0.5))` (e.g. fdelmodc/getParameters.c,
fdelmodc/fdelmodc.c, marchenko/applyMute.c:13); the cast truncates toward zero. -/
def NINT (x : ℚ) : Int := if x > 0 then ⌊x + 1/2⌋ else ⌈x - 1/2⌉

theorem NINT_int (n : Int) : NINT (n : ℚ) = n := by
  unfold NINT
  split
  · rw [Int.floor_eq_iff]; constructor <;> push_cast <;> linarith
  · rw [Int.ceil_eq_iff]; constructor <;> push_cast <;> linarith

end Verif

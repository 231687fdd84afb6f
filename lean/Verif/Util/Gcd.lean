import Mathlib.Data.Nat.GCD.Basic
import Mathlib.Algebra.Order.Ring.Nat
import Mathlib.Tactic.Ring

/-!
# C44: gcd_uint (fdacrtmc/gcd_uint.c)

Unsigned integers are natural numbers below `2^32`; no operation of the function can leave that range
(right shifts and swaps only, and the final left shift is never reached, see `gcd_uint_diverges`).
A loop that is still running after the given number of turns is `none`.
-/

namespace Verif.Util

/-- `while((v&1)==0) v>>=1;` (gcd_uint.c:10, 13) limited to `n` turns. -/
def strip : Nat → Nat → Option Nat
  | 0, _ => none
  | n+1, v => if v % 2 = 0 then strip n (v / 2) else some v

/-- `for(shift = 0;((u|v)&1)==0;++shift){u>>=1;v >>= 1;}` (gcd_uint.c:9) limited to `n` turns. -/
def commonTwos : Nat → Nat → Nat → Nat → Option (Nat × Nat × Nat)
  | 0, _, _, _ => none
  | n+1, shift, u, v =>
    if u % 2 = 0 ∧ v % 2 = 0 then commonTwos n (shift+1) (u/2) (v/2) else some (shift, u, v)

/-- `do{ while((v&1)==0) v>>=1; if(u>v){t=v;v=u;u=t;} }while (v != 0);` (gcd_uint.c:12-15), at most `n` turns
of each loop; the result is `u`. -/
def mainLoop (n : Nat) : Nat → Nat → Nat → Option Nat
  | 0, _, _ => none
  | k+1, u, v =>
    (strip n v).bind fun v =>
    let (u, v) := if u > v then (v, u) else (u, v)
    if v ≠ 0 then mainLoop n k u v else some u

/-- `gcd_uint(u,v)`, gcd_uint.c:1-18, where every loop may make at most `n` turns. -/
def gcdUint (n : Nat) (u v : Nat) : Option Nat :=
  if u = v then some u
  else if u = 0 then some v
  else if v = 0 then some u
  else
    (commonTwos n 0 u v).bind fun (shift, u, v) =>
    (strip n u).bind fun u =>
    (mainLoop n n u v).map fun u => u * 2 ^ shift

/-- `gcd_uint(u,v)` returns `r`. -/
def Returns (u v r : Nat) : Prop := ∃ n, gcdUint n u v = some r
/-- `gcd_uint(u,v)` runs forever. -/
def Diverges (u v : Nat) : Prop := ∀ n, gcdUint n u v = none

theorem strip_pos {n v w : Nat} (h : strip n v = some w) : w % 2 = 1 := by
  induction n generalizing v with
  | zero => exact absurd h (by simp [strip])
  | succ n ih =>
    unfold strip at h
    split at h
    · exact ih h
    · cases h; omega

theorem mainLoop_none (n : Nat) : ∀ k u v, u % 2 = 1 → mainLoop n k u v = none := by
  intro k
  induction k with
  | zero => intros; rfl
  | succ k ih =>
    intro u v hu
    unfold mainLoop
    cases hs : strip n v with
    | none => rfl
    | some w =>
      have hw := strip_pos hs
      simp only [Option.bind_some]
      by_cases hc : u > w
      · rw [if_pos hc]
        dsimp only
        rw [if_pos (by omega)]
        exact ih w u hw
      · rw [if_neg hc]
        dsimp only
        rw [if_pos (by omega)]
        exact ih u w hu

/-- **C44 on the trivial pairs** (equal arguments or a zero argument): the greatest common divisor. -/
theorem gcd_uint_trivial_partial (u v : Nat) (h : u = v ∨ u = 0 ∨ v = 0) : Returns u v (Nat.gcd u v) := by
  refine ⟨0, ?_⟩
  unfold gcdUint
  by_cases h1 : u = v
  · subst h1; rw [if_pos rfl, Nat.gcd_self]
  · rw [if_neg h1]
    by_cases h2 : u = 0
    · subst h2; rw [if_pos rfl, Nat.gcd_zero_left]
    · rw [if_neg h2]
      have h3 : v = 0 := by omega
      subst h3; rw [if_pos rfl, Nat.gcd_zero_right]

/-- **C44 is refuted**: for any two different non-zero arguments the function never returns (the subtraction
`v -= u` of the binary algorithm is missing). -/
theorem gcd_uint_diverges (u v : Nat) (h : u ≠ v) (hu : u ≠ 0) (hv : v ≠ 0) : Diverges u v := by
  intro n
  unfold gcdUint
  rw [if_neg h, if_neg hu, if_neg hv]
  cases commonTwos n 0 u v with
  | none => rfl
  | some p =>
    obtain ⟨s, u', v'⟩ := p
    simp only [Option.bind_some]
    cases hs : strip n u' with
    | none => rfl
    | some w =>
      simp only [Option.bind_some]
      rw [mainLoop_none n n w v' (strip_pos hs)]
      rfl

/-- The loops that precede the endless one do finish: it is the main loop that hangs. -/
theorem strip_finishes (v : Nat) (hv : v ≠ 0) : ∃ n w, strip n v = some w := by
  induction v using Nat.strong_induction_on with
  | _ v ih =>
    by_cases h : v % 2 = 0
    · obtain ⟨n, w, hw⟩ := ih (v/2) (by omega) (by omega)
      exact ⟨n+1, w, by rw [strip, if_pos h]; exact hw⟩
    · exact ⟨1, v, by rw [strip, if_neg h]⟩

example : Returns 12 12 12 ∧ Returns 0 7 7 ∧ Diverges 12 18 :=
  ⟨gcd_uint_trivial_partial 12 12 (by omega), by simpa using gcd_uint_trivial_partial 0 7 (by omega),
   gcd_uint_diverges 12 18 (by omega) (by omega) (by omega)⟩

end Verif.Util

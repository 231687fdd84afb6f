import Mathlib.Algebra.Order.Ring.Int
import Mathlib.Tactic.Ring

/-!
# C49: the checked conversions of fdelmodc/atopkge.c

`strtol` and `strtoul` are library functions; they are modelled after ISO C 7.22.1.4 for base 10 and 64 bit `long`.
`errno` is one bit: is it `ERANGE`?  The conversions only look at that bit and never clear it.  `err` terminates the
program: `none`.  Texts are lists of characters without the terminating zero.  The floating-point conversions
`eatof` and `eatod` are not modelled.
-/

namespace Verif.Getpar

/-- `isspace` in the C locale. -/
def isSpace (c : Char) : Bool := c = ' ' || c = '\t' || c = '\n' || c = '\x0b' || c = '\x0c' || c = '\r'

/-- Sign and magnitude of the numeral a text starts with: white space, an optional sign, decimal digits.
Without digits the value is 0. -/
def scan (s : List Char) : Bool × Nat :=
  match s.dropWhile isSpace with
  | [] => (false, 0)
  | c :: cs =>
    if c = '-' then (true, Nat.ofDigitChars 10 (cs.takeWhile Char.isDigit) 0)
    else if c = '+' then (false, Nat.ofDigitChars 10 (cs.takeWhile Char.isDigit) 0)
    else (false, Nat.ofDigitChars 10 ((c :: cs).takeWhile Char.isDigit) 0)

/-- `strtol(s,NULL,10)`: result and `errno`. -/
def strtol (s : List Char) (erange : Bool) : Int × Bool :=
  let (neg, m) := scan s
  let v : Int := if neg then -m else m
  if v > 2^63 - 1 then (2^63 - 1, true)
  else if v < -2^63 then (-2^63, true)
  else (v, erange)

/-- `strtoul(s,NULL,10)`: a minus sign negates the value as an unsigned number. -/
def strtoul (s : List Char) (erange : Bool) : Int × Bool :=
  let (neg, m) := scan s
  if (m : Int) > 2^64 - 1 then (2^64 - 1, true)
  else (if neg then (-(m:Int)) % 2^64 else m, erange)

/-- `eatoh`, atopkge.c:145-153. -/
def eatoh (s : List Char) (erange : Bool) : Option Int :=
  let (n, e) := strtol s erange
  if n > 32767 ∨ n < -32768 ∨ e then none else some n

/-- `eatou`, atopkge.c:157-165. -/
def eatou (s : List Char) (erange : Bool) : Option Int :=
  let (n, e) := strtoul s erange
  if n > 65535 ∨ e then none else some n

/-- `eatoi`, atopkge.c:169-177. -/
def eatoi (s : List Char) (erange : Bool) : Option Int :=
  let (n, e) := strtol s erange
  if n > 2147483647 ∨ n < -2147483648 ∨ e then none else some n

/-- `eatop`, atopkge.c:181-189. -/
def eatop (s : List Char) (erange : Bool) : Option Int :=
  let (n, e) := strtoul s erange
  if n > 4294967295 ∨ e then none else some n

/-- `eatol`, atopkge.c:193-201. -/
def eatol (s : List Char) (erange : Bool) : Option Int :=
  let (n, e) := strtol s erange
  if e then none else some n

/-- `eatov`, atopkge.c:205-213. -/
def eatov (s : List Char) (erange : Bool) : Option Int :=
  let (n, e) := strtoul s erange
  if e then none else some n

/-! ### Specification -/

/-- Decimal text of an integer, as printed by `%ld`. -/
def showInt (v : Int) : List Char :=
  if v < 0 then '-' :: Nat.toDigits 10 v.natAbs else Nat.toDigits 10 v.natAbs

/-- A text denotes the integer `v` if it is the decimal text of `v`, possibly preceded by blanks and followed by
something that is not a digit (a comma, for instance). -/
def Denotes (s : List Char) (v : Int) : Prop :=
  ∃ blanks rest, s = blanks ++ showInt v ++ rest ∧ (∀ c ∈ blanks, isSpace c) ∧ ∀ c ∈ rest.head?, ¬ c.isDigit

theorem takeWhile_digits (n : Nat) (rest : List Char) (h : ∀ c ∈ rest.head?, ¬ c.isDigit) :
    (Nat.toDigits 10 n ++ rest).takeWhile Char.isDigit = Nat.toDigits 10 n := by
  have key : ∀ l : List Char, (∀ c ∈ l, c.isDigit) → (l ++ rest).takeWhile Char.isDigit = l := by
    intro l hl
    induction l with
    | nil =>
      cases rest with
      | nil => rfl
      | cons c cs =>
        have : ¬ c.isDigit := h c (by simp)
        simp [this]
    | cons c cs ih =>
      have hc : c.isDigit := hl c (by simp)
      rw [List.cons_append, List.takeWhile_cons, if_pos hc, ih (fun c hc => hl c (by simp [hc]))]
  exact key _ (fun c hc => Nat.isDigit_of_mem_toDigits (by decide) (by decide) hc)

theorem not_space_of_digit {c : Char} (h : c.isDigit) : isSpace c = false ∧ c ≠ '-' ∧ c ≠ '+' := by
  refine ⟨?_, ?_, ?_⟩
  · unfold isSpace
    by_contra hc
    simp only [Bool.not_eq_false, Bool.or_eq_true, decide_eq_true_eq] at hc
    rcases hc with ((((h1 | h1) | h1) | h1) | h1) | h1 <;> · subst h1; exact absurd h (by decide)
  · intro h1; subst h1; exact absurd h (by decide)
  · intro h1; subst h1; exact absurd h (by decide)

theorem scan_denotes (s : List Char) (v : Int) (h : Denotes s v) : scan s = (decide (v < 0), v.natAbs) := by
  obtain ⟨blanks, rest, rfl, hb, hr⟩ := h
  unfold scan
  have hdrop : ∀ l : List Char, (∀ c ∈ l.head?, isSpace c = false) →
      (blanks ++ l).dropWhile isSpace = l := by
    intro l hl
    induction blanks with
    | nil =>
      cases l with
      | nil => rfl
      | cons c cs =>
        have : isSpace c = false := hl c (by simp)
        simp [this]
    | cons c cs ih =>
      have hc : isSpace c := hb c (by simp)
      rw [List.cons_append, List.dropWhile_cons, if_pos hc]
      exact ih (fun c hc => hb c (by simp [hc]))
  obtain ⟨d, ds, hds⟩ := List.exists_cons_of_ne_nil (Nat.toDigits_ne_nil (n := v.natAbs) (b := 10))
  have hd : d.isDigit := Nat.isDigit_of_mem_toDigits (b := 10) (n := v.natAbs) (by decide) (by decide) (by rw [hds]; simp)
  obtain ⟨q1, q2, q3⟩ := not_space_of_digit hd
  rw [List.append_assoc]
  unfold showInt
  by_cases hneg : v < 0
  · rw [if_pos hneg, hdrop _ (by simp [isSpace])]
    simp only [List.cons_append, if_true]
    rw [takeWhile_digits _ _ hr, Nat.ofDigitChars_ten_toDigits]
    simp [hneg]
  · rw [if_neg hneg, hdrop _ (by rw [hds]; simpa using q1)]
    have ht := takeWhile_digits v.natAbs rest hr
    rw [hds] at ht ⊢
    simp only [List.cons_append] at ht ⊢
    rw [if_neg q2, if_neg q3, ht, ← hds, Nat.ofDigitChars_ten_toDigits]
    simp [hneg]

theorem strtol_denotes (s : List Char) (v : Int) (e : Bool) (h : Denotes s v) :
    strtol s e = if v > 2^63 - 1 then (2^63 - 1, true) else if v < -2^63 then (-2^63, true) else (v, e) := by
  unfold strtol
  rw [scan_denotes s v h]
  dsimp only
  have : (if decide (v < 0) = true then -((v.natAbs : Nat) : Int) else ((v.natAbs : Nat) : Int)) = v := by
    by_cases hv : v < 0
    · rw [if_pos (by simpa using hv)]; omega
    · rw [if_neg (by simpa using hv)]; omega
  rw [this]

/-- **C49 for `int`.** The text of `v` is converted to `v` if `v` fits and is an error otherwise. -/
theorem eatoi_exact_or_error (s : List Char) (v : Int) (h : Denotes s v) :
    eatoi s false = if -2^31 ≤ v ∧ v ≤ 2^31 - 1 then some v else none := by
  unfold eatoi
  rw [strtol_denotes s v false h]
  by_cases h1 : v > 2^63 - 1
  · rw [if_pos h1]; dsimp only; rw [if_pos (by simp), if_neg (by omega)]
  · rw [if_neg h1]
    by_cases h2 : v < -2^63
    · rw [if_pos h2]; dsimp only; rw [if_pos (by simp), if_neg (by omega)]
    · rw [if_neg h2]; dsimp only
      by_cases h3 : -2^31 ≤ v ∧ v ≤ 2^31 - 1
      · rw [if_pos h3, if_neg]; simp; omega
      · rw [if_neg h3, if_pos]; simp; omega

/-- **C49 for `short`.** -/
theorem eatoh_exact_or_error (s : List Char) (v : Int) (h : Denotes s v) :
    eatoh s false = if -2^15 ≤ v ∧ v ≤ 2^15 - 1 then some v else none := by
  unfold eatoh
  rw [strtol_denotes s v false h]
  by_cases h1 : v > 2^63 - 1
  · rw [if_pos h1]; dsimp only; rw [if_pos (by simp), if_neg (by omega)]
  · rw [if_neg h1]
    by_cases h2 : v < -2^63
    · rw [if_pos h2]; dsimp only; rw [if_pos (by simp), if_neg (by omega)]
    · rw [if_neg h2]; dsimp only
      by_cases h3 : -2^15 ≤ v ∧ v ≤ 2^15 - 1
      · rw [if_pos h3, if_neg]; simp; omega
      · rw [if_neg h3, if_pos]; simp; omega

/-- **C49 for `long`.** -/
theorem eatol_exact_or_error (s : List Char) (v : Int) (h : Denotes s v) :
    eatol s false = if -2^63 ≤ v ∧ v ≤ 2^63 - 1 then some v else none := by
  unfold eatol
  rw [strtol_denotes s v false h]
  by_cases h1 : v > 2^63 - 1
  · rw [if_pos h1]; dsimp only; rw [if_pos rfl, if_neg (by omega)]
  · rw [if_neg h1]
    by_cases h2 : v < -2^63
    · rw [if_pos h2]; dsimp only; rw [if_pos rfl, if_neg (by omega)]
    · rw [if_neg h2]; dsimp only
      rw [if_neg (by simp), if_pos (by omega)]

/-- What the unsigned conversions with upper limit `hi` do with the text of `v`: `2^64` is added to a negative value. -/
def unsignedResult (hi v : Int) : Option Int :=
  if 0 ≤ v then (if v ≤ hi then some v else none)
  else if -(2^64 - 1) ≤ v ∧ v + 2^64 ≤ hi then some (v + 2^64) else none

theorem strtoul_denotes (s : List Char) (v : Int) (e : Bool) (h : Denotes s v) :
    strtoul s e = if v > 2^64 - 1 ∨ v < -(2^64 - 1) then (2^64 - 1, true) else (if v < 0 then v + 2^64 else v, e) := by
  unfold strtoul
  rw [scan_denotes s v h]
  dsimp only
  by_cases h1 : v > 2^64 - 1 ∨ v < -(2^64 - 1)
  · rw [if_pos h1, if_pos (by omega)]
  · rw [if_neg h1, if_neg (by omega)]
    by_cases hv : v < 0
    · simp only [hv, decide_true, if_true]; congr 1; omega
    · simp only [hv, decide_false, if_false, Bool.false_eq_true]; congr 1; omega

theorem eatou_result (s : List Char) (v : Int) (h : Denotes s v) : eatou s false = unsignedResult 65535 v := by
  unfold eatou unsignedResult
  rw [strtoul_denotes s v false h]
  by_cases h1 : v > 2^64 - 1 ∨ v < -(2^64 - 1)
  · rw [if_pos h1]; dsimp only; rw [if_pos (by simp)]; split_ifs <;> first | rfl | omega
  · rw [if_neg h1]; dsimp only; simp only [Bool.false_eq_true, or_false]; split_ifs <;> first | rfl | omega

theorem eatop_result (s : List Char) (v : Int) (h : Denotes s v) : eatop s false = unsignedResult 4294967295 v := by
  unfold eatop unsignedResult
  rw [strtoul_denotes s v false h]
  by_cases h1 : v > 2^64 - 1 ∨ v < -(2^64 - 1)
  · rw [if_pos h1]; dsimp only; rw [if_pos (by simp)]; split_ifs <;> first | rfl | omega
  · rw [if_neg h1]; dsimp only; simp only [Bool.false_eq_true, or_false]; split_ifs <;> first | rfl | omega

theorem eatov_result (s : List Char) (v : Int) (h : Denotes s v) : eatov s false = unsignedResult (2^64 - 1) v := by
  unfold eatov unsignedResult
  rw [strtoul_denotes s v false h]
  by_cases h1 : v > 2^64 - 1 ∨ v < -(2^64 - 1)
  · rw [if_pos h1]; dsimp only; rw [if_pos rfl]; split_ifs <;> first | rfl | omega
  · rw [if_neg h1]; dsimp only; simp only [Bool.false_eq_true, if_false]; split_ifs <;> first | rfl | omega

/-- **C49 for the unsigned types** on texts of non-negative values.  Missing: negative values, where the claim is
false (`unsigned_wraps`). -/
theorem unsigned_exact_or_error_partial (s : List Char) (v : Int) (h : Denotes s v) (hv : 0 ≤ v) :
    eatou s false = (if v ≤ 2^16 - 1 then some v else none) ∧
    eatop s false = (if v ≤ 2^32 - 1 then some v else none) ∧
    eatov s false = (if v ≤ 2^64 - 1 then some v else none) := by
  rw [eatou_result s v h, eatop_result s v h, eatov_result s v h]
  unfold unsignedResult
  rw [if_pos hv, if_pos hv, if_pos hv]
  exact ⟨rfl, rfl, rfl⟩

theorem denotes_show (v : Int) (rest : List Char) (h : ∀ c ∈ rest.head?, ¬ c.isDigit) : Denotes (showInt v ++ rest) v :=
  ⟨[], rest, by simp, by simp, h⟩

/-- **C49 is refuted for the unsigned types**: "-1" becomes `2^64-1` as an `unsigned long`, and the texts of
`1-2^64` … are accepted as 1 … for the shorter types. -/
theorem unsigned_wraps :
    eatov ['-', '1'] false = some (2^64 - 1) ∧
    eatop (showInt (1 - 2^64)) false = some 1 ∧ eatou (showInt (1 - 2^64)) false = some 1 := by
  have h1 : Denotes ['-', '1'] (-1) := ⟨[], [], by decide +kernel, by simp, by simp⟩
  have h2 : Denotes (showInt (1 - 2^64)) (1 - 2^64) := by
    have := denotes_show (1 - 2^64) [] (by simp)
    rwa [List.append_nil] at this
  rw [eatov_result _ _ h1, eatop_result _ _ h2, eatou_result _ _ h2]
  decide +kernel

/-- **C49**: a stale `ERANGE` in `errno` — the functions never clear it — makes every conversion fail, whatever
the text. -/
theorem stale_errno_rejects (s : List Char) : eatoh s true = none ∧ eatou s true = none ∧ eatoi s true = none ∧
    eatop s true = none ∧ eatol s true = none ∧ eatov s true = none := by
  have h1 : (strtol s true).2 = true := by
    unfold strtol; dsimp only; split_ifs <;> rfl
  have h2 : (strtoul s true).2 = true := by
    unfold strtoul; dsimp only; split_ifs <;> rfl
  unfold eatoh eatou eatoi eatop eatol eatov
  simp [h1, h2]

example : eatoi [' ', '-', '4', '2', ',', '7'] false = some (-42) := by decide +kernel
example : Denotes [' ', '-', '4', '2', ',', '7'] (-42) :=
  ⟨[' '], [',', '7'], by decide +kernel, by decide, by decide⟩

end Verif.Getpar

import Mathlib.Data.Rat.Floor
import Mathlib.Tactic.Linarith
import Mathlib.Tactic.Ring
import Mathlib.Tactic.NormNum

/-!
# C209: receivers on a line of points, program green (utils/getrecpos.c, utils/green.c)

`lint=1`, no random shifts.  The points are a first point and a list of others, exact numbers.  The two arrays have `nx` elements; a
store outside ends the program (`none`).
-/

namespace Verif.Util.RecPos

abbrev Pt := ℚ × ℚ

/-- `NINT` (utils/getrecpos.c:16). -/
def nint (x : ℚ) : Int := if 0 < x then ⌊x + 1 / 2⌋ else ⌈x - 1 / 2⌉

/-- `ndeltx` (utils/getrecpos.c:63-65). -/
def ndelt (dx : ℚ) (p q : Pt) : Nat := (nint |(q.1 - p.1) / dx|).toNat

/-- The receivers in the order of `np` (utils/getrecpos.c:59-73). -/
def segs (dx : ℚ) : Pt → List Pt → List Pt
  | _, [] => []
  | p, q :: rest =>
    ((List.range (ndelt dx p q)).map fun j : Nat => (p.1 + j * dx, p.2 + j * ((q.2 - p.2) / ndelt dx p q))) ++ segs dx q rest

/-- The last point. -/
def last (p : Pt) (l : List Pt) : Pt := l.getLastD p

/-- `nx` (utils/green.c:176). -/
def count (dx : ℚ) (p : Pt) (l : List Pt) : Int := nint (((last p l).1 - p.1) / dx) + 1

/-- `xi`, `zi` after getrecpos (utils/getrecpos.c:58-76): the stores `np = 0, 1, …`, then element `nx-1`. -/
def receivers (dx : ℚ) (p : Pt) (l : List Pt) : Option (Nat → Option Pt) :=
  if ((segs dx p l).length : Int) ≤ count dx p l ∧ 1 ≤ count dx p l then
    some fun i => if (i : Int) = count dx p l - 1 then some (last p l) else (segs dx p l)[i]?
  else none

/-! ## Specification -/

/-- The line goes to the right, in whole numbers of spacings. -/
def Right (dx : ℚ) : Pt → List Pt → Prop
  | _, [] => True
  | p, q :: rest => (∃ k : Nat, 1 ≤ k ∧ q.1 = p.1 + k * dx) ∧ Right dx q rest

/-- `r` is on the broken line through the points. -/
def OnLine (r : Pt) : Pt → List Pt → Prop
  | p, [] => r = p
  | p, q :: rest => (p.1 ≤ r.1 ∧ r.1 ≤ q.1 ∧ (r.2 - p.2) * (q.1 - p.1) = (q.2 - p.2) * (r.1 - p.1)) ∨ OnLine r q rest

/-! ## Lemmas -/

theorem nint_nat (n : Nat) : nint n = n := by
  unfold nint
  split
  · rw [Int.floor_eq_iff]; push_cast; constructor <;> linarith
  · rename_i h
    have : (n : ℚ) = 0 := le_antisymm (not_lt.mp h) (by positivity)
    rw [this]
    have e : n = 0 := by exact_mod_cast this
    subst e
    rw [Int.ceil_eq_iff]; push_cast; constructor <;> norm_num

theorem ndelt_eq {dx : ℚ} {p q : Pt} (hd : 0 < dx) (k : Nat) (h : q.1 = p.1 + k * dx) : ndelt dx p q = k := by
  unfold ndelt
  rw [h, show p.1 + (k : ℚ) * dx - p.1 = k * dx by ring, mul_div_assoc, div_self hd.ne', mul_one, abs_of_nonneg (by positivity),
    nint_nat]
  rfl

theorem last_cons (p q : Pt) (l : List Pt) : last p (q :: l) = last q l := by
  unfold last; rw [List.getLastD_cons]

theorem last_eq {dx : ℚ} (hd : 0 < dx) (p : Pt) (l : List Pt) (h : Right dx p l) :
    (last p l).1 = p.1 + (segs dx p l).length * dx := by
  induction l generalizing p with
  | nil => simp [last, segs]
  | cons q l ih =>
    obtain ⟨⟨k, hk, e⟩, h⟩ := h
    rw [last_cons, ih q h, segs, List.length_append, List.length_map, List.length_range, ndelt_eq hd k e, e]
    push_cast; ring

theorem last_on {dx : ℚ} (p : Pt) (l : List Pt) (h : Right dx p l) : OnLine (last p l) p l := by
  induction l generalizing p with
  | nil => simp [last, OnLine]
  | cons q l ih => rw [last_cons]; exact Or.inr (ih q h.2)

theorem segs_get {dx : ℚ} (hd : 0 < dx) (p : Pt) (l : List Pt) (h : Right dx p l) (i : Nat) (hi : i < (segs dx p l).length) :
    ∃ r, (segs dx p l)[i]? = some r ∧ r.1 = p.1 + i * dx ∧ OnLine r p l := by
  induction l generalizing p i with
  | nil => simp [segs] at hi
  | cons q l ih =>
    obtain ⟨⟨k, hk, e⟩, h⟩ := h
    have hn := ndelt_eq hd k e
    unfold segs at hi ⊢
    rw [hn] at hi ⊢
    rw [List.length_append, List.length_map, List.length_range] at hi
    have hk' : (0 : ℚ) < k := by exact_mod_cast hk
    by_cases c : i < k
    · rw [List.getElem?_append_left (by rw [List.length_map, List.length_range]; exact c), List.getElem?_map,
        List.getElem?_range c]
      refine ⟨(p.1 + i * dx, p.2 + i * ((q.2 - p.2) / k)), rfl, rfl, Or.inl ⟨?_, ?_, ?_⟩⟩
      · dsimp only
        have : 0 ≤ (i : ℚ) * dx := by positivity
        linarith
      · dsimp only
        rw [e]
        have : (i : ℚ) ≤ k := by exact_mod_cast c.le
        nlinarith
      · dsimp only
        rw [e]
        field_simp
        ring
    · rw [List.getElem?_append_right (by rw [List.length_map, List.length_range]; omega), List.length_map, List.length_range]
      obtain ⟨r, h1, h2, h3⟩ := ih q h (i - k) (by omega)
      refine ⟨r, h1, ?_, Or.inr h3⟩
      rw [h2, e, Nat.cast_sub (by omega)]
      ring

/-! ## Properties -/

/-- **C209.** On a line that goes to the right in whole numbers of spacings, the receivers are at equal distances `dx` from the first
to the last point, all on the line, and every element has a value.  Missing: other lines (`receivers_back`, `receivers_left`). -/
theorem receivers_line_partial (dx : ℚ) (p : Pt) (l : List Pt) (hd : 0 < dx) (h : Right dx p l) :
    ∃ f, receivers dx p l = some f ∧ (∃ n : Nat, count dx p l = n ∧ (last p l).1 = p.1 + ((n : ℚ) - 1) * dx) ∧
      ∀ i : Nat, (i : Int) < count dx p l → ∃ r, f i = some r ∧ r.1 = p.1 + i * dx ∧ OnLine r p l := by
  have hl := last_eq hd p l h
  have hc : count dx p l = (segs dx p l).length + 1 := by
    unfold count
    rw [hl, show p.1 + ((segs dx p l).length : ℚ) * dx - p.1 = (segs dx p l).length * dx by ring, mul_div_assoc, div_self hd.ne',
      mul_one, nint_nat]
  refine ⟨fun i => if (i : Int) = count dx p l - 1 then some (last p l) else (segs dx p l)[i]?, ?_,
    ⟨(segs dx p l).length + 1, by rw [hc]; push_cast; rfl, by rw [hl]; push_cast; ring⟩, fun i hi => ?_⟩
  · unfold receivers
    rw [if_pos ⟨by omega, by omega⟩]
  · by_cases c : (i : Int) = count dx p l - 1
    · refine ⟨last p l, if_pos c, ?_, last_on p l h⟩
      rw [hl, show (segs dx p l).length = i by omega]
    · beta_reduce
      rw [if_neg c]
      exact segs_get hd p l h i (by omega)

/-- **C209 violated.** A line that turns back to where it began writes after the end of the arrays. -/
theorem receivers_back (dx x z z' z'' : ℚ) (k : Nat) (hd : 0 < dx) (hk : 1 ≤ k) :
    receivers dx (x, z) [(x + k * dx, z'), (x, z'')] = none := by
  have e1 : ndelt dx (x, z) (x + k * dx, z') = k := ndelt_eq hd k rfl
  have e2 : ndelt dx (x + k * dx, z') (x, z'') = k := by
    unfold ndelt
    dsimp only
    rw [show x - (x + (k : ℚ) * dx) = -(k * dx) by ring, neg_div, abs_neg, mul_div_assoc, div_self hd.ne', mul_one,
      abs_of_nonneg (by positivity), nint_nat]
    rfl
  have hs : (segs dx (x, z) [(x + k * dx, z'), (x, z'')]).length = 2 * k := by
    simp only [segs, List.length_append, List.length_map, List.length_range, List.length_nil, e1, e2]; omega
  have hc : count dx (x, z) [(x + k * dx, z'), (x, z'')] = 1 := by
    unfold count last
    simp only [List.getLastD_cons, List.getLastD_nil, sub_self, zero_div]
    exact congrArg (· + 1) (nint_nat 0)
  unfold receivers
  rw [hs, hc, if_neg (by omega)]

/-- **C209 violated.** A line of one segment that goes to the left has no valid number of receivers. -/
theorem receivers_left (dx x z z' : ℚ) (k : Nat) (hd : 0 < dx) (hk : 1 ≤ k) : receivers dx (x, z) [(x - k * dx, z')] = none := by
  have hc : count dx (x, z) [(x - k * dx, z')] ≤ 0 := by
    unfold count last
    simp only [List.getLastD_cons, List.getLastD_nil]
    rw [show x - (k : ℚ) * dx - x = -(k * dx) by ring, neg_div, mul_div_assoc, div_self hd.ne', mul_one]
    have hk' : (1 : ℚ) ≤ k := by exact_mod_cast hk
    unfold nint
    rw [if_neg (by linarith)]
    have : ⌈-(k : ℚ) - 1 / 2⌉ ≤ -1 := Int.ceil_le.mpr (by push_cast; linarith)
    omega
  unfold receivers
  rw [if_neg (by omega)]

/-- **C209 violated.** A vertical line of receivers has only its last point. -/
theorem receivers_vertical (dx x z z' : ℚ) :
    ∃ f, receivers dx (x, z) [(x, z')] = some f ∧ count dx (x, z) [(x, z')] = 1 ∧ f 0 = some (x, z') := by
  have e1 : ndelt dx (x, z) (x, z') = 0 := by
    unfold ndelt
    dsimp only
    rw [sub_self, zero_div, abs_zero]
    exact congrArg Int.toNat (nint_nat 0)
  have hs : (segs dx (x, z) [(x, z')]).length = 0 := by
    simp only [segs, List.length_append, List.length_map, List.length_range, List.length_nil, e1]
  have hc : count dx (x, z) [(x, z')] = 1 := by
    unfold count last
    simp only [List.getLastD_cons, List.getLastD_nil, sub_self, zero_div]
    exact congrArg (· + 1) (nint_nat 0)
  refine ⟨fun i => if (i : Int) = count dx (x, z) [(x, z')] - 1 then some (last (x, z) [(x, z')]) else (segs dx (x, z) [(x, z')])[i]?,
    ?_, hc, ?_⟩
  · unfold receivers
    rw [hs, if_pos (by omega)]
  · beta_reduce
    rw [hc, if_pos (by norm_num)]
    rfl

/-! Cases that meet the hypotheses. -/
example : Right 10 (0, 0) [(20, 5), (50, -4)] := ⟨⟨2, by norm_num, by norm_num⟩, ⟨3, by norm_num, by norm_num⟩, trivial⟩
example : ((receivers 10 (0, 0) [(20, 6), (50, 0)]).map fun f => (List.range 6).map f) =
    some [some (0, 0), some (10, 3), some (20, 6), some (30, 4), some (40, 2), some (50, 0)] := by decide +kernel
example : receivers 10 (0, 0) [(0 + (3 : Nat) * 10, 0), (0, 50)] = none := receivers_back 10 0 0 0 50 3 (by norm_num) (by norm_num)
example : receivers 10 (0, 0) [(0 - (3 : Nat) * 10, 0)] = none := receivers_left 10 0 0 0 3 (by norm_num) (by norm_num)

end Verif.Util.RecPos

import Verif.Util.Shapes
import Mathlib.Algebra.BigOperators.Ring.Finset
import Mathlib.Algebra.BigOperators.Field
import Mathlib.Analysis.SpecialFunctions.Trigonometric.Basic
import Mathlib.Analysis.SpecialFunctions.Sqrt
import Mathlib.Tactic.FieldSimp

/-!
# C210, C211: the shapes of interfaces of makemod (utils/sinuousint.c, utils/fractint.c, utils/roughint.c)

Exact real numbers.  Not modelled: the random numbers (any numbers) and the transforms of roughint; the result of its inverse
transform is any array.
-/

namespace Verif.Util.Intf

open Finset

/-- `NINT` and the clamp `if (SGN(zp[i]) < 0) zp[i] = 0` (utils/sinuousint.c:22-25). -/
noncomputable def cell (x : ℝ) : Int := if rnint x < 0 then 0 else rnint x

/-- The last loop (utils/sinuousint.c:20-26, utils/fractint.c:58-64): column `i` gets the interface plus element `i - minx` of the
shape `s`. -/
noncomputable def columns (minx maxx : Int) (dz : ℝ) (interface : Int → ℝ) (s : Nat → ℝ) (zp : Int → Int) : Int → Int :=
  ((upto minx maxx).foldl (fun (st : Nat × (Int → Int)) i =>
    (st.1 + 1, fun k => if k = i then cell ((interface i + s st.1) / dz) else st.2 k)) (0, zp)).2

/-- The shape of sinuousint (utils/sinuousint.c:22). -/
noncomputable def sinus (dx ampl wavel : ℝ) (j : Nat) : ℝ := ampl * Real.sin (2 * Real.pi * j * dx / wavel)

/-- The shape of fractint (utils/fractint.c:44-56): `N` sines with phases `phase`; `fmod` with `2π` does not change the sine. -/
noncomputable def fract (dx deltx ampl D k0 b : ℝ) (N : Nat) (phase : Nat → ℝ) (j : Nat) : ℝ :=
  (∑ i ∈ range N, (D - 1) ^ i * Real.sin (k0 * (2 * Real.pi / deltx) * b ^ i * j * dx + phase i)) *
    (ampl * Real.sqrt (2 * D * (2 - D) / (1 - (D - 1) ^ (2 * N))))

/-- `mean` and the square of `std` (utils/roughint.c:96-112). -/
noncomputable def mean (n : Nat) (a : Nat → ℝ) : ℝ := (∑ i ∈ range n, a i) / n
noncomputable def var (n : Nat) (a : Nat → ℝ) : ℝ := (∑ i ∈ range n, (a i - mean n a) ^ 2) / (n - 1)

/-- The shape of roughint after the transforms (utils/roughint.c:75-79). -/
noncomputable def rough (n : Nat) (ampl : ℝ) (a : Nat → ℝ) (j : Nat) : ℝ := (a j - mean n a) * (ampl / (2 * Real.sqrt (var n a)))

/-- The spectrum that roughint transforms (utils/roughint.c:58-69): `c` is the spectrum of the random numbers, `w j` the weight
`pow(j*dk, -beta/2)`; `none` is an element of `malloc` that is not set. -/
def spectrum (n : Nat) (w : Nat → ℝ) (c : Nat → ℝ × ℝ) (j : Nat) : Option (ℝ × ℝ) :=
  if j = 0 then some (0, 0)
  else if n / 2 + 2 ≤ j ∧ j < n then some ((c (n - j)).1, -1 * (c (n - j)).2)
  else if j < n / 2 + 1 then some ((c j).1 * w j, (c j).2 * w j)
  else none

/-! ## Lemmas -/

theorem columns_aux (minx : Int) (n : Nat) (dz : ℝ) (interface : Int → ℝ) (s : Nat → ℝ) (zp : Int → Int) :
    ∃ z, (((List.range n).map fun i : Nat => minx + (i : Int)).foldl (fun (st : Nat × (Int → Int)) i =>
      (st.1 + 1, fun k => if k = i then cell ((interface i + s st.1) / dz) else st.2 k)) (0, zp)) = (n, z) ∧
      (∀ j < n, z (minx + j) = cell ((interface (minx + j) + s j) / dz)) ∧ ∀ k, (k < minx ∨ minx + n ≤ k) → z k = zp k := by
  induction n with
  | zero => exact ⟨zp, rfl, by simp, fun _ _ => rfl⟩
  | succ n ih =>
    obtain ⟨z, h1, h2, h3⟩ := ih
    refine ⟨fun k => if k = minx + n then cell ((interface (minx + n) + s n) / dz) else z k, ?_, ?_, ?_⟩
    · rw [List.range_succ, List.map_append, List.foldl_append, h1]; rfl
    · intro j hj
      beta_reduce
      by_cases c : j = n
      · rw [c, if_pos rfl]
      · rw [if_neg (by omega), h2 j (by omega)]
    · intro k hk
      beta_reduce
      rw [if_neg (by omega), h3 k (by omega)]

theorem columns_spec (minx maxx : Int) (dz : ℝ) (interface : Int → ℝ) (s : Nat → ℝ) (zp : Int → Int) :
    (∀ i, minx ≤ i → i < maxx → columns minx maxx dz interface s zp i = cell ((interface i + s (i - minx).toNat) / dz)) ∧
      ∀ i, (i < minx ∨ maxx ≤ i) → columns minx maxx dz interface s zp i = zp i := by
  unfold columns upto
  obtain ⟨z, h1, h2, h3⟩ := columns_aux minx (maxx - minx).toNat dz interface s zp
  rw [h1]
  dsimp only
  refine ⟨fun i a b => ?_, fun i h => h3 i (by omega)⟩
  have := h2 (i - minx).toNat (by omega)
  rw [show minx + ((i - minx).toNat : Int) = i by omega] at this
  exact this

theorem cell_near {x : ℝ} : 0 ≤ cell x ∧ (0 ≤ x → |(cell x : ℝ) - x| ≤ 1 / 2) ∧ (x ≤ 0 → cell x = 0) := by
  unfold cell
  refine ⟨by split <;> omega, fun h => ?_, fun h => ?_⟩
  · have a : 0 ≤ rnint x := by
      unfold rnint
      split
      · exact Int.floor_nonneg.mpr (by linarith)
      · have : x = 0 := by linarith
        subst this
        have : (-1 : Int) < ⌈(0 : ℝ) - 1 / 2⌉ := Int.lt_ceil.mpr (by push_cast; norm_num)
        omega
    rw [if_neg (by omega)]
    unfold rnint
    split
    · have l := Int.floor_le (x + 1 / 2)
      have u := Int.lt_floor_add_one (x + 1 / 2)
      rw [abs_le]; constructor <;> linarith
    · have l := Int.le_ceil (x - 1 / 2)
      have u := Int.ceil_lt_add_one (x - 1 / 2)
      rw [abs_le]; constructor <;> linarith
  · have a : rnint x ≤ 0 := by
      unfold rnint
      rw [if_neg (by linarith)]
      exact Int.ceil_le.mpr (by push_cast; linarith)
    split <;> omega

/-! ## Properties -/

/-- **C210.** Whatever the shape, each column from `minx` to before `maxx` gets the cell nearest to the depth of the interface plus
the shape, or the first cell if that is above the model; the other columns keep their cell. -/
theorem interface_cells (minx maxx : Int) (dz : ℝ) (interface : Int → ℝ) (s : Nat → ℝ) (zp : Int → Int) (hz : 0 < dz) :
    (∀ i, minx ≤ i → i < maxx → 0 ≤ columns minx maxx dz interface s zp i ∧
      (0 ≤ interface i + s (i - minx).toNat →
        |(columns minx maxx dz interface s zp i : ℝ) * dz - (interface i + s (i - minx).toNat)| ≤ dz / 2) ∧
      (interface i + s (i - minx).toNat ≤ 0 → columns minx maxx dz interface s zp i = 0)) ∧
      ∀ i, (i < minx ∨ maxx ≤ i) → columns minx maxx dz interface s zp i = zp i := by
  obtain ⟨h1, h2⟩ := columns_spec minx maxx dz interface s zp
  refine ⟨fun i a b => ?_, h2⟩
  rw [h1 i a b]
  obtain ⟨c1, c2, c3⟩ := cell_near (x := (interface i + s (i - minx).toNat) / dz)
  refine ⟨c1, fun h => ?_, fun h => c3 (div_nonpos_of_nonpos_of_nonneg h hz.le)⟩
  have k := c2 (div_nonneg h hz.le)
  generalize (cell ((interface i + s (i - minx).toNat) / dz) : ℝ) = q at *
  generalize interface i + s (i - minx).toNat = d at *
  have e : q * dz - d = (q - d / dz) * dz := by field_simp
  rw [e, abs_mul, abs_of_pos hz]
  nlinarith

/-- **C210.** The sinuous shape begins at 0, is at most the amplitude, and repeats after a wavelength of whole samples. -/
theorem sinus_shape (dx ampl wavel : ℝ) : sinus dx ampl wavel 0 = 0 ∧ (∀ j, |sinus dx ampl wavel j| ≤ |ampl|) ∧
    ∀ m : Nat, wavel = m * dx → wavel ≠ 0 → ∀ j, sinus dx ampl wavel (j + m) = sinus dx ampl wavel j := by
  refine ⟨by simp [sinus], fun j => ?_, fun m hm h0 j => ?_⟩
  · unfold sinus
    rw [abs_mul]
    exact mul_le_of_le_one_right (abs_nonneg _) (Real.abs_sin_le_one _)
  · unfold sinus
    have e : 2 * Real.pi * ((j + m : Nat) : ℝ) * dx / wavel = 2 * Real.pi * j * dx / wavel + 2 * Real.pi := by
      push_cast
      rw [show 2 * Real.pi * ((j : ℝ) + m) * dx = 2 * Real.pi * j * dx + 2 * Real.pi * (m * dx) by ring, ← hm, add_div,
        mul_div_assoc (2 * Real.pi) wavel wavel, div_self h0, mul_one]
    rw [e, Real.sin_add_two_pi]

/-- **C210.** The fractal shape, for a dimension from 1 to 2, is bounded by the sum of its sines, for all phases. -/
theorem fract_bound (dx deltx ampl D k0 b : ℝ) (N : Nat) (phase : Nat → ℝ) (j : Nat) (h1 : 1 ≤ D) :
    |fract dx deltx ampl D k0 b N phase j| ≤
      (∑ i ∈ range N, (D - 1) ^ i) * (|ampl| * Real.sqrt (2 * D * (2 - D) / (1 - (D - 1) ^ (2 * N)))) := by
  unfold fract
  rw [abs_mul, abs_mul, abs_of_nonneg (Real.sqrt_nonneg _)]
  apply mul_le_mul_of_nonneg_right _ (by positivity)
  refine le_trans (abs_sum_le_sum_abs _ _) (sum_le_sum fun i _ => ?_)
  rw [abs_mul, abs_of_nonneg (pow_nonneg (by linarith) i)]
  exact mul_le_of_le_one_right (pow_nonneg (by linarith) i) (Real.abs_sin_le_one _)

theorem sum_dev (n : Nat) (hn : 0 < n) (a : Nat → ℝ) : ∑ i ∈ range n, (a i - mean n a) = 0 := by
  have : (n : ℝ) ≠ 0 := by positivity
  rw [sum_sub_distrib, sum_const, card_range, nsmul_eq_mul]
  unfold mean
  field_simp
  ring

/-- **C211.** The rough shape has, over the length of the transform, mean zero and a standard deviation of half the amplitude,
whatever the random numbers, if they are not all equal. -/
theorem rough_statistics (n : Nat) (ampl : ℝ) (a : Nat → ℝ) (hn : 2 ≤ n) (hv : 0 < var n a) :
    ∑ i ∈ range n, rough n ampl a i = 0 ∧ (∑ i ∈ range n, rough n ampl a i ^ 2) / (n - 1) = (ampl / 2) ^ 2 := by
  have hn' : (0 : ℝ) < n - 1 := by
    have : (2 : ℝ) ≤ n := by exact_mod_cast hn
    linarith
  constructor
  · unfold rough
    rw [← sum_mul, sum_dev n (by omega) a, zero_mul]
  · have e : ∀ i, rough n ampl a i ^ 2 = (a i - mean n a) ^ 2 * ((ampl / 2) ^ 2 / var n a) := by
      intro i
      unfold rough
      rw [mul_pow, div_pow, mul_pow, Real.sq_sqrt hv.le, div_pow, div_div]
    simp only [e]
    rw [← sum_mul, mul_div_right_comm]
    change var n a * ((ampl / 2) ^ 2 / var n a) = _
    field_simp

/-- **C211 violated.** One element of the spectrum, after the middle, is never set: the interface is not determined by the seed. -/
theorem rough_unset (n : Nat) (w : Nat → ℝ) (c : Nat → ℝ × ℝ) : spectrum n w c (n / 2 + 1) = none := by
  unfold spectrum
  rw [if_neg (by omega), if_neg (by omega), if_neg (by omega)]

/-- **C211.** All other elements are set. -/
theorem rough_set (n : Nat) (w : Nat → ℝ) (c : Nat → ℝ × ℝ) (j : Nat) (hj : j < n) (h : j ≠ n / 2 + 1) :
    (spectrum n w c j).isSome := by
  unfold spectrum
  split
  · rfl
  · split
    · rfl
    · rw [if_pos (by omega)]; rfl

/-- **C211 violated.** The negative wavenumbers do not get the weight of the positive ones: at `j` and `n - j` the spectrum is
conjugated only if the weight is 1 or the coefficient zero. -/
theorem rough_unweighted (n : Nat) (w : Nat → ℝ) (c : Nat → ℝ × ℝ) (j : Nat) (hj : 1 ≤ j) (h : j + (n / 2 + 2) ≤ n) :
    ∃ p q, spectrum n w c j = some p ∧ spectrum n w c (n - j) = some q ∧ (q = (p.1, -p.2) ↔ w j = 1 ∨ c j = (0, 0)) := by
  refine ⟨((c j).1 * w j, (c j).2 * w j), ((c j).1, -1 * (c j).2), ?_, ?_, ?_⟩
  · unfold spectrum
    rw [if_neg (by omega), if_neg (by omega), if_pos (by omega)]
  · unfold spectrum
    rw [if_neg (by omega), if_pos (by omega), show n - (n - j) = j by omega]
  · rw [Prod.mk.injEq]
    dsimp only
    constructor
    · rintro ⟨a, b⟩
      by_cases hw : w j = 1
      · exact Or.inl hw
      · right
        have hw' : 1 - w j ≠ 0 := fun h => hw (by linarith)
        have e1 : (c j).1 * (1 - w j) = 0 := by linarith
        have e2 : (c j).2 * (1 - w j) = 0 := by linarith
        exact Prod.ext ((mul_eq_zero.mp e1).resolve_right hw') ((mul_eq_zero.mp e2).resolve_right hw')
    · rintro (h | h)
      · rw [h]; constructor <;> ring
      · rw [h]; simp

/-! Cases that meet the hypotheses. -/
example : columns 1 3 2 (fun _ => 10) (fun j => j) (fun _ => 7) 0 = 7 := (interface_cells 1 3 2 _ _ _ (by norm_num)).2 0 (by norm_num)
example : columns 1 3 2 (fun _ => -10) (fun j => j) (fun _ => 7) 2 = 0 :=
  ((interface_cells 1 3 2 _ _ _ (by norm_num)).1 2 (by norm_num) (by norm_num)).2.2 (by norm_num)
example : 0 < var 2 (fun i => i) := by norm_num [var, mean, sum_range_succ]
example : (10 : ℕ) ≠ 10 / 2 + 1 ∧ 1 + (10 / 2 + 2) ≤ 10 := by decide

end Verif.Util.Intf

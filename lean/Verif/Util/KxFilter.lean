import Verif.Util.Shapes
import Mathlib.Analysis.SpecialFunctions.Trigonometric.Basic
import Mathlib.Data.Rat.Floor
import Mathlib.Tactic.Linarith
import Mathlib.Tactic.NormNum

/-!
# C203: the wavenumber filter of basop (utils/kxwfilter.c: kxwfilt)

One frequency.  Wavenumbers are counted in spacings `dkx = 2π/(nkx dx)`: the Nyquist wavenumber `π/dx` is `nkx/2`, and `p` is the
wavenumber `k sin(a1)` of the given angle (Nyquist for angles above 90 degrees).  Exact numbers.  A store outside the array of `nkx`
elements ends the program (`none`).  Not modelled: the transforms, and the frequencies outside `fmin..fmax`, which pass unfiltered.
-/

namespace Verif.Util.Kxw

/-- `ntap` at first (utils/kxwfilter.c:83): `abs((int)(perc*2*kpos/dkx))`. -/
def ntap (p perc : ℚ) : Int := ⌊|perc * (2 * p)|⌋

/-- `(ik1, ik2)` (utils/kxwfilter.c:84-108), for `p ≥ 0`. -/
def ends (nkx : Nat) (p perc : ℚ) : Int × Int :=
  if perc < -1 / 2 ∨ 1 < perc then ((nkx / 2 : Nat) - 1, ⌊if 17 / 20 * (nkx / 2 : ℚ) < p then 17 / 20 * (nkx / 2 : ℚ) else p⌋)
  else if 0 < perc then
    if p + ntap p perc < nkx / 2 then (⌊p + ntap p perc⌋, ⌊p + ntap p perc⌋ - ntap p perc)
    else (⌊(nkx / 2 : ℚ)⌋, ⌊(nkx / 2 : ℚ)⌋ - ⌊3 / 20 * (nkx : ℚ) / 2⌋)
  else (⌊min p (nkx / 2)⌋, ⌊min p (nkx / 2)⌋ - ntap p perc)

/-- One step of the taper (utils/kxwfilter.c:110, 114). -/
noncomputable def taper (ik1 ik2 i : Int) : ℝ := 1 / 2 * (Real.cos (Real.pi * (i - ik2) * (1 / (ik1 - ik2))) + 1)

/-- The stores of the three loops (utils/kxwfilter.c:111-116). -/
noncomputable def stores (nkx : Nat) (ik1 ik2 : Int) : List (Int × ℝ) :=
  ((upto 0 ik2).map fun i => (i, 1)) ++ ((upto ik2 ik1).map fun i => (i, taper ik1 ik2 i)) ++
    ((upto ik1 ((nkx / 2 : Nat) + 1)).map fun i => (i, 0))

/-- A store in an array of `n` elements, of which some have no value yet. -/
def put {K : Type*} (n : Nat) (f : Int → Option K) (s : Int × K) : Option (Int → Option K) :=
  if 0 ≤ s.1 ∧ s.1 < n then some fun j => if j = s.1 then some s.2 else f j else none

/-- The table `filter` (utils/kxwfilter.c:80, 111-116); `malloc` gives no values. -/
noncomputable def table (nkx : Nat) (p perc : ℚ) : Option (Int → Option ℝ) :=
  (stores nkx (ends nkx p perc).1 (ends nkx p perc).2).foldlM (put nkx) fun _ => none

/-- The factor applied to element `i` of the spectrum (utils/kxwfilter.c:118-125). -/
noncomputable def gain (nkx : Nat) (p perc : ℚ) (i : Nat) : Option ℝ := do
  let f ← table nkx p perc
  if i ≤ nkx / 2 then f i else f (nkx - i : Nat)

/-! ## Specification -/

/-- The wavenumber of element `i`, without its sign: elements above `nkx/2` are the negative wavenumbers. -/
def wavenumber (nkx i : Nat) : Nat := if i ≤ nkx / 2 then i else nkx - i

/-! ## Lemmas -/

theorem put_spec {K : Type*} (n : Nat) (L : List (Int × K)) (f : Int → Option K) (h : ∀ s ∈ L, 0 ≤ s.1 ∧ s.1 < n)
    (hf : ∀ s ∈ L, ∀ t ∈ L, s.1 = t.1 → s.2 = t.2) :
    ∃ g, L.foldlM (put n) f = some g ∧ (∀ s ∈ L, g s.1 = some s.2) ∧ ∀ j, (∀ s ∈ L, s.1 ≠ j) → g j = f j := by
  induction L generalizing f with
  | nil => exact ⟨f, rfl, by simp, fun _ _ => rfl⟩
  | cons a L ih =>
    obtain ⟨g, h1, h2, h3⟩ := ih (fun j => if j = a.1 then some a.2 else f j) (fun m hm => h m (by simp [hm]))
      (fun m hm m' hm' => hf m (by simp [hm]) m' (by simp [hm']))
    refine ⟨g, ?_, ?_, ?_⟩
    · rw [List.foldlM_cons, put, if_pos (h a (by simp))]; exact h1
    · intro m hm
      rcases List.mem_cons.mp hm with rfl | hm'
      · by_cases he : ∃ z ∈ L, z.1 = m.1
        · obtain ⟨z, hz, e⟩ := he
          rw [← e, h2 z hz, hf z (by simp [hz]) m (by simp) e]
        · rw [h3 m.1 fun z hz e => he ⟨z, hz, e⟩]; simp
      · exact h2 m hm'
    · intro j hj
      rw [h3 j fun m hm => hj m (by simp [hm]), if_neg fun e => hj a (by simp) e.symm]

theorem put_none {K : Type*} (n : Nat) (L : List (Int × K)) (f : Int → Option K) (h : ∃ s ∈ L, ¬ (0 ≤ s.1 ∧ s.1 < n)) :
    L.foldlM (put n) f = none := by
  induction L generalizing f with
  | nil => obtain ⟨s, hs, -⟩ := h; simp at hs
  | cons a L ih =>
    rw [List.foldlM_cons]
    by_cases hc : 0 ≤ a.1 ∧ a.1 < n
    · rw [put, if_pos hc]
      obtain ⟨m, hm, hn⟩ := h
      rcases List.mem_cons.mp hm with rfl | hm
      · exact absurd hc hn
      · exact ih _ ⟨m, hm, hn⟩
    · rw [put, if_neg hc]; rfl

theorem mem_stores {nkx : Nat} {ik1 ik2 : Int} {s : Int × ℝ} : s ∈ stores nkx ik1 ik2 ↔
    (0 ≤ s.1 ∧ s.1 < ik2 ∧ s.2 = 1) ∨ (ik2 ≤ s.1 ∧ s.1 < ik1 ∧ s.2 = taper ik1 ik2 s.1) ∨
      (ik1 ≤ s.1 ∧ s.1 ≤ (nkx / 2 : Nat) ∧ s.2 = 0) := by
  unfold stores
  simp only [List.mem_append, List.mem_map, mem_upto]
  constructor
  · rintro ((⟨i, hi, rfl⟩ | ⟨i, hi, rfl⟩) | ⟨i, hi, rfl⟩)
    · exact Or.inl ⟨hi.1, hi.2, rfl⟩
    · exact Or.inr (Or.inl ⟨hi.1, hi.2, rfl⟩)
    · exact Or.inr (Or.inr ⟨hi.1, by dsimp only; omega, rfl⟩)
  · rintro (⟨a, b, c⟩ | ⟨a, b, c⟩ | ⟨a, b, c⟩)
    · exact Or.inl (Or.inl ⟨s.1, ⟨a, b⟩, Prod.ext rfl c.symm⟩)
    · exact Or.inl (Or.inr ⟨s.1, ⟨a, b⟩, Prod.ext rfl c.symm⟩)
    · exact Or.inr ⟨s.1, ⟨a, by omega⟩, Prod.ext rfl c.symm⟩

/-- The table with its ends in order. -/
noncomputable def shape (ik1 ik2 i : Int) : ℝ := if i < ik2 then 1 else if i < ik1 then taper ik1 ik2 i else 0

theorem table_shape {nkx : Nat} {p perc : ℚ} (h0 : 0 ≤ (ends nkx p perc).2)
    (h1 : (ends nkx p perc).2 ≤ (ends nkx p perc).1) (h2 : (ends nkx p perc).1 ≤ (nkx / 2 : Nat)) (h3 : 2 ≤ nkx) :
    ∃ f, table nkx p perc = some f ∧ ∀ i : Nat, i ≤ nkx / 2 → f i = some (shape (ends nkx p perc).1 (ends nkx p perc).2 i) := by
  unfold table
  generalize (ends nkx p perc).1 = a at *
  generalize (ends nkx p perc).2 = b at *
  obtain ⟨f, e1, e2, -⟩ := put_spec nkx (stores nkx a b) (fun _ => none)
    (by
      intro s hs
      rcases mem_stores.mp hs with h | h | h <;> omega)
    (by
      intro s hs t ht e
      rcases mem_stores.mp hs with ⟨u, v, w⟩ | ⟨u, v, w⟩ | ⟨u, v, w⟩ <;>
      rcases mem_stores.mp ht with ⟨u', v', w'⟩ | ⟨u', v', w'⟩ | ⟨u', v', w'⟩ <;> first | omega | (rw [w, w']; try rw [e]))
  refine ⟨f, e1, fun i hi => ?_⟩
  refine e2 ((i : Int), shape a b i) (mem_stores.mpr ?_)
  unfold shape
  dsimp only
  by_cases c1 : (i : Int) < b
  · exact Or.inl ⟨by omega, c1, by rw [if_pos c1]⟩
  · by_cases c2 : (i : Int) < a
    · exact Or.inr (Or.inl ⟨by omega, c2, by rw [if_neg c1, if_pos c2]⟩)
    · exact Or.inr (Or.inr ⟨by omega, by omega, by rw [if_neg c1, if_neg c2]⟩)

theorem taper_range (a b i : Int) : 0 ≤ taper a b i ∧ taper a b i ≤ 1 := by
  unfold taper
  have h1 := Real.neg_one_le_cos (Real.pi * (i - b) * (1 / (a - b)))
  have h2 := Real.cos_le_one (Real.pi * (i - b) * (1 / (a - b)))
  constructor <;> linarith

theorem taper_anti {a b i j : Int} (h0 : b ≤ i) (h1 : i ≤ j) (h2 : j < a) : taper a b j ≤ taper a b i := by
  unfold taper
  have hab : (0 : ℝ) < (a : ℝ) - b := by
    have : (b : ℝ) < a := by exact_mod_cast (by omega : b < a)
    linarith
  have hi : (0 : ℝ) ≤ (i : ℝ) - b := by
    have : (b : ℝ) ≤ i := by exact_mod_cast h0
    linarith
  have hij : (i : ℝ) - b ≤ (j : ℝ) - b := by
    have : (i : ℝ) ≤ j := by exact_mod_cast h1
    linarith
  have hj : (j : ℝ) - b ≤ (a : ℝ) - b := by
    have : (j : ℝ) ≤ a := by exact_mod_cast h2.le
    linarith
  have hpi := Real.pi_pos
  have k := Real.cos_le_cos_of_nonneg_of_le_pi (x := Real.pi * (i - b) * (1 / (a - b))) (y := Real.pi * (j - b) * (1 / (a - b)))
    (by positivity)
    (by
      rw [mul_one_div, div_le_iff₀ hab]
      exact mul_le_mul_of_nonneg_left hj hpi.le)
    (by
      apply mul_le_mul_of_nonneg_right _ (by positivity)
      exact mul_le_mul_of_nonneg_left hij hpi.le)
  linarith

theorem shape_range (a b i : Int) : 0 ≤ shape a b i ∧ shape a b i ≤ 1 := by
  unfold shape
  split
  · norm_num
  · split
    · exact taper_range a b i
    · norm_num

theorem shape_anti (a b : Int) {i j : Int} (h : i ≤ j) : shape a b j ≤ shape a b i := by
  have ri := shape_range a b i
  have rj := shape_range a b j
  by_cases c1 : i < b
  · have e : shape a b i = 1 := by unfold shape; rw [if_pos c1]
    rw [e]; exact rj.2
  · by_cases c2 : j < a
    · unfold shape
      rw [if_neg (show ¬ j < b by omega), if_pos c2, if_neg c1, if_pos (show i < a by omega)]
      exact taper_anti (by omega) h c2
    · have e : shape a b j = 0 := by unfold shape; rw [if_neg (show ¬ j < b by omega), if_neg c2]
      rw [e]; exact ri.1

theorem ntap_nonneg (p perc : ℚ) : 0 ≤ ntap p perc := Int.floor_nonneg.mpr (abs_nonneg _)

theorem floor_half (nkx : Nat) : ⌊(nkx / 2 : ℚ)⌋ = (nkx / 2 : Nat) := by
  have := Rat.floor_natCast_div_natCast nkx 2
  push_cast at this ⊢
  exact_mod_cast this

theorem ends_order {nkx : Nat} {p perc : ℚ} (h3 : 2 ≤ nkx) (hev : 2 ∣ nkx) (hp : 0 ≤ p)
    (ha : -1 / 2 ≤ perc → perc ≤ 0 → p ≤ nkx / 2) :
    0 ≤ (ends nkx p perc).2 ∧ (ends nkx p perc).2 ≤ (ends nkx p perc).1 ∧ (ends nkx p perc).1 ≤ (nkx / 2 : Nat) := by
  have hnt := ntap_nonneg p perc
  obtain ⟨m, rfl⟩ := hev
  have hm : 1 ≤ m := by omega
  have e2 : 2 * m / 2 = m := by omega
  have eq2 : (((2 * m : Nat) : ℚ) / 2) = m := by push_cast; ring
  have hm' : (1 : ℚ) ≤ m := by exact_mod_cast hm
  unfold ends
  rw [e2, eq2]
  by_cases c1 : perc < -1 / 2 ∨ 1 < perc
  · rw [if_pos c1]
    dsimp only
    have h0 : (0 : ℚ) ≤ if 17 / 20 * (m : ℚ) < p then 17 / 20 * (m : ℚ) else p := by split <;> linarith
    have h1 : (if 17 / 20 * (m : ℚ) < p then 17 / 20 * (m : ℚ) else p) < m := by split <;> linarith
    have k : ⌊if 17 / 20 * (m : ℚ) < p then 17 / 20 * (m : ℚ) else p⌋ < (m : Int) := Int.floor_lt.mpr (by exact_mod_cast h1)
    refine ⟨Int.floor_nonneg.mpr h0, by omega, by omega⟩
  · rw [if_neg c1]
    push Not at c1
    by_cases c2 : 0 < perc
    · rw [if_pos c2]
      by_cases c3 : p + ntap p perc < m
      · rw [if_pos c3]
        dsimp only
        rw [Int.floor_add_intCast]
        have f0 := Int.floor_nonneg.mpr hp
        have k : ⌊p⌋ + ntap p perc < (m : Int) := by
          rw [← Int.floor_add_intCast]
          exact Int.floor_lt.mpr (by exact_mod_cast c3)
        omega
      · rw [if_neg c3]
        dsimp only
        rw [Int.floor_natCast]
        have q0 : 0 ≤ ⌊3 / 20 * ((2 * m : Nat) : ℚ) / 2⌋ := Int.floor_nonneg.mpr (by positivity)
        have q1 : ⌊3 / 20 * ((2 * m : Nat) : ℚ) / 2⌋ ≤ (m : Int) := by
          have : ⌊3 / 20 * ((2 * m : Nat) : ℚ) / 2⌋ < (m : Int) + 1 := Int.floor_lt.mpr (by push_cast; linarith)
          omega
        omega
    · rw [if_neg c2]
      push Not at c2
      have hpm := ha c1.1 c2
      rw [eq2] at hpm
      dsimp only
      rw [min_eq_left hpm]
      have k1 : ntap p perc ≤ ⌊p⌋ := by
        unfold ntap
        apply Int.floor_le_floor
        rw [abs_mul, abs_of_nonpos c2, abs_of_nonneg (by linarith)]
        nlinarith
      have k2 : ⌊p⌋ ≤ (m : Int) := by
        have : ⌊p⌋ < (m : Int) + 1 := Int.floor_lt.mpr (by push_cast; linarith)
        omega
      omega

theorem gain_eq {nkx : Nat} {p perc : ℚ} (h3 : 2 ≤ nkx) (hev : 2 ∣ nkx) (hp : 0 ≤ p)
    (ha : -1 / 2 ≤ perc → perc ≤ 0 → p ≤ nkx / 2) {i : Nat} (hi : i < nkx) :
    gain nkx p perc i = some (shape (ends nkx p perc).1 (ends nkx p perc).2 (wavenumber nkx i)) := by
  obtain ⟨a, b, c⟩ := ends_order h3 hev hp ha
  obtain ⟨f, e1, e2⟩ := table_shape a b c h3
  unfold gain wavenumber
  rw [e1, Option.bind_eq_bind, Option.bind_some]
  by_cases c1 : i ≤ nkx / 2
  · rw [if_pos c1, if_pos c1, e2 i c1]
  · rw [if_neg c1, if_neg c1, e2 (nkx - i) (by omega)]

/-! ## Properties -/

/-- **C203.** Every element of the spectrum is multiplied by a number between 0 and 1 that does not grow with the wavenumber and is
the same for waves to the left and to the right.  Missing: negative `perc` at a frequency above the spatial Nyquist
(`filter_aliased`). -/
theorem filter_gain_partial (nkx : Nat) (p perc : ℚ) (h3 : 2 ≤ nkx) (hev : 2 ∣ nkx) (hp : 0 ≤ p)
    (ha : -1 / 2 ≤ perc → perc ≤ 0 → p ≤ nkx / 2) :
    ∃ g : Nat → ℝ, (∀ i < nkx, gain nkx p perc i = some (g i)) ∧ (∀ i < nkx, 0 ≤ g i ∧ g i ≤ 1) ∧
      ∀ i < nkx, ∀ j < nkx, wavenumber nkx i ≤ wavenumber nkx j → g j ≤ g i :=
  ⟨fun i => shape (ends nkx p perc).1 (ends nkx p perc).2 (wavenumber nkx i), fun _ hi => gain_eq h3 hev hp ha hi,
    fun _ _ => shape_range _ _ _, fun _ _ _ _ hw => shape_anti _ _ (by exact_mod_cast hw)⟩

/-- **C203.** With `0 < perc ≤ 1` the filter keeps the wavenumbers below that of the angle, and removes those beyond it by `perc` of
the width `2p` of the band, as long as that is below Nyquist. -/
theorem filter_outside (nkx : Nat) (p perc : ℚ) (h3 : 2 ≤ nkx) (hev : 2 ∣ nkx) (hp : 0 ≤ p) (h0 : 0 < perc) (h1 : perc ≤ 1)
    (hn : p + ⌊perc * (2 * p)⌋ < nkx / 2) {i : Nat} (hi : i < nkx) :
    ((wavenumber nkx i : ℚ) + 1 ≤ p → gain nkx p perc i = some 1) ∧
      (p + perc * (2 * p) ≤ wavenumber nkx i → gain nkx p perc i = some 0) := by
  have en : ntap p perc = ⌊perc * (2 * p)⌋ := by unfold ntap; rw [abs_of_nonneg (by positivity)]
  have hE : ends nkx p perc = (⌊p⌋ + ⌊perc * (2 * p)⌋, ⌊p⌋) := by
    unfold ends
    rw [if_neg (show ¬ (perc < -1 / 2 ∨ 1 < perc) by intro h; rcases h with h | h <;> linarith), if_pos h0, en, if_pos hn,
      Int.floor_add_intCast]
    ext <;> dsimp only; omega
  rw [gain_eq h3 hev hp (fun _ h => absurd h0 (by linarith)) hi, hE]
  unfold shape
  dsimp only
  constructor
  · intro h
    rw [if_pos]
    have : (wavenumber nkx i : Int) + 1 ≤ ⌊p⌋ := Int.le_floor.mpr (by push_cast; exact h)
    omega
  · intro h
    have f0 : 0 ≤ ⌊perc * (2 * p)⌋ := Int.floor_nonneg.mpr (by positivity)
    have : ⌊p⌋ + ⌊perc * (2 * p)⌋ ≤ (wavenumber nkx i : Int) := by
      have a := Int.floor_le p
      have b := Int.floor_le (perc * (2 * p))
      have : ((⌊p⌋ + ⌊perc * (2 * p)⌋ : Int) : ℚ) ≤ ((wavenumber nkx i : Int) : ℚ) := by push_cast; linarith
      exact_mod_cast this
    rw [if_neg (by omega), if_neg (by omega)]

/-- **C203.** With `-1/2 ≤ perc ≤ 0` the filter removes the wavenumbers from that of the angle on, and keeps those below it by `-perc`
of the width of the band. -/
theorem filter_inside (nkx : Nat) (p perc : ℚ) (h3 : 2 ≤ nkx) (hev : 2 ∣ nkx) (hp : 0 ≤ p) (h0 : perc ≤ 0) (h1 : -1 / 2 ≤ perc)
    (hn : p ≤ nkx / 2) {i : Nat} (hi : i < nkx) :
    (p ≤ wavenumber nkx i → gain nkx p perc i = some 0) ∧
      ((wavenumber nkx i : ℚ) + 1 + -perc * (2 * p) ≤ p → gain nkx p perc i = some 1) := by
  have en : ntap p perc = ⌊-perc * (2 * p)⌋ := by
    unfold ntap; rw [abs_mul, abs_of_nonpos h0, abs_of_nonneg (by linarith)]
  have hE : ends nkx p perc = (⌊p⌋, ⌊p⌋ - ⌊-perc * (2 * p)⌋) := by
    unfold ends
    rw [if_neg (show ¬ (perc < -1 / 2 ∨ 1 < perc) by intro h; rcases h with h | h <;> linarith), if_neg (by linarith), en,
      min_eq_left hn]
  have f0 : 0 ≤ ⌊-perc * (2 * p)⌋ := Int.floor_nonneg.mpr (by nlinarith)
  rw [gain_eq h3 hev hp (fun _ _ => hn) hi, hE]
  unfold shape
  dsimp only
  constructor
  · intro h
    have : ⌊p⌋ ≤ (wavenumber nkx i : Int) := by
      have a := Int.floor_le p
      have : ((⌊p⌋ : Int) : ℚ) ≤ ((wavenumber nkx i : Int) : ℚ) := by push_cast; linarith
      exact_mod_cast this
    rw [if_neg (by omega), if_neg (by omega)]
  · intro h
    rw [if_pos]
    have : (wavenumber nkx i : Int) + 1 + ⌊-perc * (2 * p)⌋ ≤ ⌊p⌋ := by
      apply Int.le_floor.mpr
      have b := Int.floor_le (-perc * (2 * p))
      push_cast at b ⊢; linarith
    omega

/-- **C203.** With the default treatment (`perc` outside `[-1/2, 1]`) all wavenumbers below that of the angle are kept up to 0.85
Nyquist, and Nyquist is removed. -/
theorem filter_wide (nkx : Nat) (p perc : ℚ) (h3 : 2 ≤ nkx) (hev : 2 ∣ nkx) (hp : 0 ≤ p) (h : perc < -1 / 2 ∨ 1 < perc) {i : Nat}
    (hi : i < nkx) :
    ((wavenumber nkx i : ℚ) + 1 ≤ p → (wavenumber nkx i : ℚ) + 1 ≤ 17 / 20 * (nkx / 2) → gain nkx p perc i = some 1) ∧
      (nkx / 2 ≤ wavenumber nkx i + 1 → gain nkx p perc i = some 0) := by
  have ha : -1 / 2 ≤ perc → perc ≤ 0 → p ≤ nkx / 2 := by intro a b; rcases h with h | h <;> linarith
  obtain ⟨o1, o2, o3⟩ := ends_order h3 hev hp ha
  rw [gain_eq h3 hev hp ha hi]
  unfold ends at *
  rw [if_pos h] at *
  dsimp only at *
  unfold shape
  constructor
  · intro a b
    rw [if_pos]
    have : (wavenumber nkx i : Int) + 1 ≤ ⌊if 17 / 20 * (nkx / 2 : ℚ) < p then 17 / 20 * (nkx / 2 : ℚ) else p⌋ :=
      Int.le_floor.mpr (by push_cast; split <;> assumption)
    omega
  · intro a
    rw [if_neg (by omega), if_neg (by omega)]

/-- **C203 violated.** With a negative `perc` the taper is not limited to the Nyquist wavenumber: at frequencies where it is longer
than `nkx/2` the program writes before the table. -/
theorem filter_aliased (nkx : Nat) (p perc : ℚ) (h0 : perc ≤ 0) (h1 : -1 / 2 ≤ perc) (hp : nkx / 2 ≤ p)
    (hn : (nkx / 2 : ℚ) + 1 ≤ -perc * (2 * p)) : table nkx p perc = none := by
  have hp0 : 0 ≤ p := le_trans (by positivity) hp
  have en : ntap p perc = ⌊-perc * (2 * p)⌋ := by
    unfold ntap; rw [abs_mul, abs_of_nonpos h0, abs_of_nonneg (by linarith)]
  have hE : ends nkx p perc = (((nkx / 2 : Nat) : Int), (nkx / 2 : Nat) - ⌊-perc * (2 * p)⌋) := by
    unfold ends
    rw [if_neg (show ¬ (perc < -1 / 2 ∨ 1 < perc) by intro h; rcases h with h | h <;> linarith), if_neg (by linarith), en,
      min_eq_right hp, floor_half]
  unfold table
  rw [hE]
  dsimp only
  have hlt : ((nkx / 2 : Nat) : Int) + 1 ≤ ⌊-perc * (2 * p)⌋ := by
    apply Int.le_floor.mpr
    have : ((nkx / 2 : Nat) : ℚ) ≤ nkx / 2 := by exact_mod_cast Nat.cast_div_le (α := ℚ) (m := nkx) (n := 2)
    generalize nkx / 2 = m at this ⊢
    push_cast; linarith
  apply put_none
  refine ⟨(((nkx / 2 : Nat) : Int) - ⌊-perc * (2 * p)⌋,
    taper (nkx / 2 : Nat) ((nkx / 2 : Nat) - ⌊-perc * (2 * p)⌋) ((nkx / 2 : Nat) - ⌊-perc * (2 * p)⌋)), mem_stores.mpr (Or.inr (Or.inl ⟨le_rfl, ?_, rfl⟩)), ?_⟩
  · dsimp only; omega
  · dsimp only; omega

/-! Cases that meet the hypotheses. -/
example : gain 64 10 (1 / 4) 3 = some 1 := (filter_outside 64 10 (1 / 4) (by norm_num) (by norm_num) (by norm_num) (by norm_num)
  (by norm_num) (by norm_num) (by norm_num)).1 (by norm_num [wavenumber])
example : gain 64 10 (1 / 4) 40 = some 0 := (filter_outside 64 10 (1 / 4) (by norm_num) (by norm_num) (by norm_num) (by norm_num)
  (by norm_num) (by norm_num) (by norm_num)).2 (by norm_num [wavenumber])
example : gain 64 10 (-1 / 4) 60 = some 1 := (filter_inside 64 10 (-1 / 4) (by norm_num) (by norm_num) (by norm_num) (by norm_num)
  (by norm_num) (by norm_num) (by norm_num)).2 (by norm_num [wavenumber])
example : gain 64 40 10 20 = some 1 := (filter_wide 64 40 10 (by norm_num) (by norm_num) (by norm_num) (Or.inr (by norm_num))
  (by norm_num)).1 (by norm_num [wavenumber]) (by norm_num [wavenumber])
example : table 64 100 (-1 / 4) = none := filter_aliased 64 100 (-1 / 4) (by norm_num) (by norm_num) (by norm_num) (by norm_num)

end Verif.Util.Kxw

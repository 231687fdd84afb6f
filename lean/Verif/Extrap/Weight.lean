import Verif.Extrap.Props

/-! # The weights of the short operators, and `shortoper` as a whole -/

namespace Verif.Extrap

open Verif Verif.Toep

noncomputable section

/-! ## Conversion to integer -/

theorem toInt_lt (x : ℝ) : (toInt x : ℝ) < x + 1 := by
  unfold toInt
  split
  · have := Int.floor_le x; linarith
  · have := Int.ceil_lt_add_one x; linarith

theorem lt_toInt (x : ℝ) : x - 1 < toInt x := by
  unfold toInt
  split
  · have := Int.lt_floor_add_one x; linarith
  · have := Int.le_ceil x; linarith

/-- An integer above the conversion of `x` is above `x`. -/
theorem above_toInt {x : ℝ} {s : ℤ} (h : toInt x < s) : x < s := by
  unfold toInt at h
  split at h
  · have h1 := Int.lt_floor_add_one x
    have h2 : ((⌊x⌋ + 1 : ℤ) : ℝ) ≤ s := by exact_mod_cast h
    push_cast at h2; linarith
  · have h1 := Int.le_ceil x
    have h2 : ((⌈x⌉ + 1 : ℤ) : ℝ) ≤ s := by exact_mod_cast h
    push_cast at h2; linarith

theorem below_toInt {x : ℝ} {s : ℤ} (h : s < toInt x) : s < x := by
  unfold toInt at h
  split at h
  · have h1 := Int.floor_le x
    have h2 : (s : ℝ) + 1 ≤ ⌊x⌋ := by exact_mod_cast h
    linarith
  · have h1 := Int.ceil_lt_add_one x
    have h2 : (s : ℝ) + 1 ≤ ⌈x⌉ := by exact_mod_cast h
    linarith

/-! ## Loops -/

theorem fill_spec {nkx : ℕ} {lo hi : ℤ} (v : ℝ) (a : Arr) (h1 : lo < hi → 0 ≤ ((nkx / 2 : ℕ) : ℤ) - 1 + lo)
    (h2 : lo < hi → ((nkx / 2 : ℕ) : ℤ) - 1 + hi ≤ nkx) :
    ∃ a', fill nkx lo hi v a = some a' ∧
      ∀ k : ℕ, a' k = if lo ≤ (k : ℤ) - (((nkx / 2 : ℕ) : ℤ) - 1) ∧ (k : ℤ) - (((nkx / 2 : ℕ) : ℤ) - 1) < hi then some v else a k := by
  unfold fill forIM
  refine Exists.elim (forNM_inv (n := (hi - lo).toNat) (s := a)
    (body := fun i a => put nkx a (((nkx / 2 : ℕ) : ℤ) - 1 + (lo + i)) v)
    (P := fun i (z : Arr) => ∀ k : ℕ, z k = if lo ≤ (k : ℤ) - (((nkx / 2 : ℕ) : ℤ) - 1) ∧
      (k : ℤ) - (((nkx / 2 : ℕ) : ℤ) - 1) < lo + i then some v else a k)
    (fun k => by rw [if_neg (by omega)]) (fun i hi' z hz => ⟨_, if_pos ⟨by omega, by omega⟩, fun k => ?_⟩)) ?_
  · by_cases h : (k : ℤ) = ((nkx / 2 : ℕ) : ℤ) - 1 + (lo + i)
    · rw [if_pos h, if_pos (by push_cast; omega)]
    · rw [if_neg h, hz k]
      by_cases h' : lo ≤ (k : ℤ) - (((nkx / 2 : ℕ) : ℤ) - 1) ∧ (k : ℤ) - (((nkx / 2 : ℕ) : ℤ) - 1) < lo + i
      · rw [if_pos h', if_pos (by push_cast; omega)]
      · rw [if_neg h', if_neg (by push_cast; omega)]
  · intro a' ⟨e, h⟩
    refine ⟨a', e, fun k => ?_⟩
    rw [h k]
    by_cases h' : lo ≤ (k : ℤ) - (((nkx / 2 : ℕ) : ℤ) - 1) ∧ (k : ℤ) - (((nkx / 2 : ℕ) : ℤ) - 1) < hi
    · rw [if_pos h', if_pos (by omega)]
    · rw [if_neg h', if_neg (by omega)]

theorem fill_none {nkx : ℕ} {lo hi : ℤ} (v : ℝ) (a : Arr) (h : lo < hi) (h1 : ((nkx / 2 : ℕ) : ℤ) - 1 + lo < 0) :
    fill nkx lo hi v a = none := by
  unfold fill forIM
  obtain ⟨m, hm⟩ : ∃ m, (hi - lo).toNat = m + 1 := ⟨(hi - lo).toNat - 1, by omega⟩
  rw [hm]
  apply forNM_first
  exact if_neg (by push_cast; omega)

theorem wrapLoop {cnt b : ℕ} (f : ℕ → Option ℝ) (d : Arr) :
    ∀ k, forN cnt (fun j (d : Arr) => fun k => if k = b + j then f j else d k) d k =
      if b ≤ k ∧ k < b + cnt then f (k - b) else d k := by
  refine forN_inv (P := fun i (z : Arr) => ∀ k, z k = if b ≤ k ∧ k < b + i then f (k - b) else d k)
    (fun k => by rw [if_neg (by omega)]) (fun i hi z hz k => ?_)
  by_cases h : k = b + i
  · rw [if_pos h, if_pos (by omega), h, Nat.add_sub_cancel_left]
  · rw [if_neg h, hz k]
    by_cases h' : b ≤ k ∧ k < b + i
    · rw [if_pos h', if_pos (by omega)]
    · rw [if_neg h', if_neg (by omega)]

theorem wrapLoop0 {cnt : ℕ} (f : ℕ → Option ℝ) (d : Arr) :
    ∀ k, forN cnt (fun j (d : Arr) => fun k => if k = j then f j else d k) d k = if k < cnt then f k else d k := by
  intro k
  have := wrapLoop (cnt := cnt) (b := 0) f d k
  simpa using this

/-- `wrap` puts wavenumber number `s` of an even number of samples where the transform expects it. -/
theorem wrap_even {h : ℕ} (hh : 0 < h) (a : Arr) {q : ℕ} (hq : q < 2 * h) :
    wrap (2 * h) a q = a (((h : ℤ) - 1 + signed (2 * h) q).toNat) := by
  unfold wrap signed
  rw [if_neg (show ¬ 2 * h % 2 = 1 by omega), if_neg (show ¬ 2 * h % 2 = 1 by omega), Nat.mul_div_cancel_left _ (by norm_num)]
  rw [wrapLoop, wrapLoop0]
  by_cases h1 : q ≤ h
  · rw [if_neg (by omega), if_pos (by omega), if_pos h1]; congr 1; omega
  · rw [if_pos (by omega), if_neg h1]; congr 1; omega

/-- With an odd number of samples the last one of the array goes to the middle. -/
theorem wrap_odd (h : ℕ) (a : Arr) : wrap (2 * h + 1) a h = a (2 * h) := by
  unfold wrap
  rw [if_pos (show (2 * h + 1) % 2 = 1 by omega), if_pos (show (2 * h + 1) % 2 = 1 by omega), show (2 * h + 1 + 1) / 2 = h + 1 by omega]
  rw [wrapLoop, wrapLoop0, if_neg (by omega), if_pos (by omega)]
  congr 1; omega

/-! ## Weights -/

theorem nyq_dkx {nkx : ℕ} {dx : ℝ} (hn : 0 < nkx) (hdx : 0 < dx) : Real.pi / dx = nkx / 2 * dkx nkx dx := by
  unfold dkx
  have : (nkx : ℝ) ≠ 0 := by exact_mod_cast hn.ne'
  field_simp

theorem dkx_pos {nkx : ℕ} {dx : ℝ} (hn : 0 < nkx) (hdx : 0 < dx) : 0 < dkx nkx dx := by
  unfold dkx
  have : (0 : ℝ) < nkx := by exact_mod_cast hn
  positivity

/-- The limits of the loops. -/
def ikMin (nkx : ℕ) (k dx alfa1 : ℝ) : ℤ := toInt (bandMin k dx alfa1 / dkx nkx dx)
def ikMax (nkx : ℕ) (k dx alfa2 : ℝ) : ℤ := toInt (bandMax k dx alfa2 / dkx nkx dx)

theorem weightfunct_eq {nkx : ℕ} {k dx alfa1 alfa2 scale : ℝ} (hdx : 0 < dx)
    (h1 : k * Real.sin (Real.pi * alfa1 / 180) ≤ Real.pi / dx) (w0 : Arr) :
    weightfunct w0 k dx nkx alfa1 alfa2 scale = (do
      let w ← fill nkx (-((nkx / 2 : ℕ) : ℤ) + 1) (ikMin nkx k dx alfa1 + 1) scale w0
      let w ← fill nkx (ikMin nkx k dx alfa1 + 1) (ikMax nkx k dx alfa2) 1 w
      let w ← fill nkx (ikMax nkx k dx alfa2) (((nkx / 2 : ℕ) : ℤ) + 1) scale w
      some (wrap nkx w)) := by
  have hp : 0 < Real.pi / dx := by positivity
  have e1 : max (if k * Real.sin (Real.pi * alfa1 / 180) < -(85 / 100) * (Real.pi / dx) then -(85 / 100) * (Real.pi / dx)
      else k * Real.sin (Real.pi * alfa1 / 180)) (-(Real.pi / dx)) = bandMin k dx alfa1 := by
    unfold bandMin
    split
    · rename_i h
      rw [max_eq_right h.le, max_eq_left (by linarith)]
    · rename_i h
      push Not at h
      rw [max_eq_left h, max_eq_left (by linarith)]
  have e2 : min (if k * Real.sin (Real.pi * alfa2 / 180) > 85 / 100 * (Real.pi / dx) then 85 / 100 * (Real.pi / dx)
      else k * Real.sin (Real.pi * alfa2 / 180)) (Real.pi / dx) = bandMax k dx alfa2 := by
    unfold bandMax
    split
    · rename_i h
      rw [min_eq_right h.le, min_eq_left (by linarith)]
    · rename_i h
      push Not at h
      rw [min_eq_left h, min_eq_left (by linarith)]
  unfold weightfunct
  dsimp only
  rw [if_neg (by push Not; exact h1), e1, e2]
  rfl

/-- Bounds of the loop limits. -/
theorem ik_bounds {nkx : ℕ} (hn : 2 ≤ nkx) {k dx alfa1 alfa2 : ℝ} (hdx : 0 < dx)
    (h1 : k * Real.sin (Real.pi * alfa1 / 180) ≤ Real.pi / dx) (h2 : -(Real.pi / dx) < k * Real.sin (Real.pi * alfa2 / 180)) :
    -((nkx / 2 : ℕ) : ℤ) ≤ ikMin nkx k dx alfa1 ∧ ikMin nkx k dx alfa1 ≤ ((nkx / 2 : ℕ) : ℤ) ∧
      -((nkx / 2 : ℕ) : ℤ) ≤ ikMax nkx k dx alfa2 - (if nkx % 2 = 0 then 1 else 0) ∧ ikMax nkx k dx alfa2 ≤ ((nkx / 2 : ℕ) : ℤ) := by
  have hd := dkx_pos (nkx := nkx) (by omega) hdx
  have hN := nyq_dkx (nkx := nkx) (by omega) hdx
  have hp : 0 < Real.pi / dx := by positivity
  have a1 : -((nkx : ℝ) / 2) < bandMin k dx alfa1 / dkx nkx dx := by
    rw [lt_div_iff₀ hd]
    have := le_max_right (k * Real.sin (Real.pi * alfa1 / 180)) (-(85 / 100) * (Real.pi / dx))
    unfold bandMin; linarith
  have a2 : bandMin k dx alfa1 / dkx nkx dx ≤ nkx / 2 := by
    rw [div_le_iff₀ hd, ← hN]
    exact max_le h1 (by linarith)
  have a3 : -((nkx : ℝ) / 2) < bandMax k dx alfa2 / dkx nkx dx := by
    rw [lt_div_iff₀ hd, neg_mul, ← hN]
    exact lt_min h2 (by linarith)
  have a4 : bandMax k dx alfa2 / dkx nkx dx ≤ nkx / 2 := by
    rw [div_le_iff₀ hd, ← hN]
    exact (min_le_right _ _).trans (by linarith)
  -- integers
  have up : ∀ x : ℝ, x ≤ nkx / 2 → toInt x ≤ ((nkx / 2 : ℕ) : ℤ) := by
    intro x hx
    unfold toInt
    split
    · have h3 := Int.floor_le x
      have : (2 : ℝ) * ⌊x⌋ ≤ nkx := by linarith
      have : 2 * ⌊x⌋ ≤ (nkx : ℤ) := by exact_mod_cast this
      omega
    · have : ⌈x⌉ ≤ 0 := Int.ceil_le.2 (by push_cast; linarith)
      omega
  have dn : ∀ x : ℝ, -((nkx : ℝ) / 2) < x → -((nkx / 2 : ℕ) : ℤ) ≤ toInt x - (if nkx % 2 = 0 then 1 else 0) := by
    intro x hx
    unfold toInt
    split
    · have : (0 : ℤ) ≤ ⌊x⌋ := Int.floor_nonneg.2 ‹_›
      split <;> omega
    · have h3 := Int.le_ceil x
      have : -(nkx : ℝ) < 2 * ⌈x⌉ := by linarith
      have : -(nkx : ℤ) < 2 * ⌈x⌉ := by exact_mod_cast this
      split <;> omega
  refine ⟨?_, up _ a2, dn _ a3, up _ a4⟩
  have := dn _ a1
  unfold ikMin
  split at this <;> omega

/-- The weights of an even number of samples. -/
theorem weightfunct_exact {nkx : ℕ} (hn : 2 ≤ nkx) (heven : nkx % 2 = 0) {k dx alfa1 alfa2 scale : ℝ} (hdx : 0 < dx)
    (h1 : k * Real.sin (Real.pi * alfa1 / 180) ≤ Real.pi / dx) (h2 : -(Real.pi / dx) < k * Real.sin (Real.pi * alfa2 / 180)) (w0 : Arr) :
    ∃ w, weightfunct w0 k dx nkx alfa1 alfa2 scale = some w ∧
      ∀ q < nkx, w q = some (if ikMin nkx k dx alfa1 < signed nkx q ∧ signed nkx q < ikMax nkx k dx alfa2 then 1 else scale) := by
  obtain ⟨b1, b2, b3, b4⟩ := ik_bounds hn hdx h1 h2
  rw [if_pos heven] at b3
  rw [weightfunct_eq hdx h1]
  obtain ⟨a, ea, ha⟩ := fill_spec (nkx := nkx) (lo := -((nkx / 2 : ℕ) : ℤ) + 1) (hi := ikMin nkx k dx alfa1 + 1) scale w0
    (by omega) (by omega)
  obtain ⟨b, eb, hb⟩ := fill_spec (nkx := nkx) (lo := ikMin nkx k dx alfa1 + 1) (hi := ikMax nkx k dx alfa2) 1 a (by omega) (by omega)
  obtain ⟨c, ec, hc⟩ := fill_spec (nkx := nkx) (lo := ikMax nkx k dx alfa2) (hi := ((nkx / 2 : ℕ) : ℤ) + 1) scale b (by omega) (by omega)
  refine ⟨wrap nkx c, by rw [ea]; simp only [Option.bind_eq_bind, Option.bind_some]; rw [eb, Option.bind_some, ec]; rfl, fun q hq => ?_⟩
  obtain ⟨h, rfl⟩ : ∃ h, nkx = 2 * h := ⟨nkx / 2, by omega⟩
  have hdiv : 2 * h / 2 = h := by omega
  rw [wrap_even (by omega) c hq]
  have hs : -(h : ℤ) + 1 ≤ signed (2 * h) q ∧ signed (2 * h) q ≤ h := by
    unfold signed; rw [hdiv]; split <;> omega
  set s := signed (2 * h) q with hsdef
  rw [hc, hb, ha, hdiv]
  rw [show (((h : ℤ) - 1 + s).toNat : ℤ) - ((h : ℤ) - 1) = s by omega]
  rw [hdiv] at b1 b2 b3 b4
  by_cases c1 : ikMax (2 * h) k dx alfa2 ≤ s
  · rw [if_pos (by omega), if_neg (by omega)]
  · rw [if_neg (by omega)]
    by_cases c2 : ikMin (2 * h) k dx alfa1 < s
    · rw [if_pos (by omega), if_pos (by omega)]
    · rw [if_neg (by omega), if_pos (by omega), if_neg (by omega)]

/-- **C105**: for an even number of samples every weight is set; wavenumbers outside the band have the weight `scale`, wavenumbers
inside by at least one sample have the weight 1. -/
theorem weightfunct_band {nkx : ℕ} (hn : 2 ≤ nkx) (heven : nkx % 2 = 0) {k dx alfa1 alfa2 scale : ℝ} (hdx : 0 < dx)
    (h1 : k * Real.sin (Real.pi * alfa1 / 180) ≤ Real.pi / dx) (h2 : -(Real.pi / dx) < k * Real.sin (Real.pi * alfa2 / 180)) (w0 : Arr) :
    ∃ w v, weightfunct w0 k dx nkx alfa1 alfa2 scale = some w ∧ (∀ q < nkx, w q = some (v q)) ∧
      BandWeights nkx k dx alfa1 alfa2 scale v := by
  obtain ⟨w, hw, hq⟩ := weightfunct_exact hn heven (scale := scale) hdx h1 h2 w0
  have hd := dkx_pos (nkx := nkx) (by omega) hdx
  refine ⟨w, _, hw, hq, fun q hq' => ⟨?_, fun hout => ?_, fun ⟨hi1, hi2⟩ => ?_⟩⟩
  · split
    · exact Or.inl rfl
    · exact Or.inr rfl
  · rw [if_neg]
    intro ⟨c1, c2⟩
    apply hout
    exact ⟨(div_lt_iff₀ hd).1 (above_toInt c1), (lt_div_iff₀ hd).1 (below_toInt c2)⟩
  · rw [if_pos]
    constructor
    · have t := toInt_lt (bandMin k dx alfa1 / dkx nkx dx)
      have : bandMin k dx alfa1 / dkx nkx dx + 1 ≤ signed nkx q := by
        rw [← div_self hd.ne', ← add_div, div_le_iff₀ hd]; exact hi1
      have : ((ikMin nkx k dx alfa1 : ℤ) : ℝ) < signed nkx q := by unfold ikMin; linarith
      exact_mod_cast this
    · have t := lt_toInt (bandMax k dx alfa2 / dkx nkx dx)
      have : (signed nkx q : ℝ) ≤ bandMax k dx alfa2 / dkx nkx dx - 1 := by
        rw [← div_self hd.ne', ← sub_div, le_div_iff₀ hd]; exact hi2
      have : (signed nkx q : ℝ) < (ikMax nkx k dx alfa2 : ℤ) := by unfold ikMax; linarith
      exact_mod_cast this

/-- With an odd number of samples one weight, in the middle, is never set. -/
theorem weightfunct_odd {nkx : ℕ} (hn : 3 ≤ nkx) (hodd : nkx % 2 = 1) {k dx alfa1 alfa2 scale : ℝ} (hdx : 0 < dx)
    (h1 : k * Real.sin (Real.pi * alfa1 / 180) ≤ Real.pi / dx) {w0 w : Arr}
    (h : weightfunct w0 k dx nkx alfa1 alfa2 scale = some w) (h2 : -(Real.pi / dx) < k * Real.sin (Real.pi * alfa2 / 180)) :
    w (nkx / 2) = w0 (nkx - 1) := by
  obtain ⟨b1, b2, b3, b4⟩ := ik_bounds (nkx := nkx) (by omega) hdx h1 h2
  rw [if_neg (by omega)] at b3
  rw [weightfunct_eq hdx h1] at h
  obtain ⟨a, ea, ha⟩ := fill_spec (nkx := nkx) (lo := -((nkx / 2 : ℕ) : ℤ) + 1) (hi := ikMin nkx k dx alfa1 + 1) scale w0
    (by omega) (by omega)
  rw [ea] at h
  simp only [Option.bind_eq_bind, Option.bind_some] at h
  by_cases c0 : ikMin nkx k dx alfa1 + 1 < ikMax nkx k dx alfa2 ∧ ikMin nkx k dx alfa1 = -((nkx / 2 : ℕ) : ℤ) - 1
  · omega
  obtain ⟨b, eb, hb⟩ := fill_spec (nkx := nkx) (lo := ikMin nkx k dx alfa1 + 1) (hi := ikMax nkx k dx alfa2) 1 a (by omega) (by omega)
  rw [eb, Option.bind_some] at h
  by_cases c1 : ikMax nkx k dx alfa2 = -((nkx / 2 : ℕ) : ℤ)
  · rw [fill_none (lo := ikMax nkx k dx alfa2) (hi := ((nkx / 2 : ℕ) : ℤ) + 1) _ _ (by omega) (by omega)] at h; cases h
  obtain ⟨c, ec, hc⟩ := fill_spec (nkx := nkx) (lo := ikMax nkx k dx alfa2) (hi := ((nkx / 2 : ℕ) : ℤ) + 1) scale b (by omega) (by omega)
  rw [ec, Option.bind_some] at h
  cases h
  obtain ⟨m, rfl⟩ : ∃ m, nkx = 2 * m + 1 := ⟨nkx / 2, by omega⟩
  have hdiv : (2 * m + 1) / 2 = m := by omega
  rw [hdiv] at b1 b2 b3 b4 hc hb ha ⊢
  rw [wrap_odd, hc, if_neg (by push_cast; omega), hb, if_neg (by push_cast; omega), ha, if_neg (by push_cast; omega)]
  congr 1

/-- A band wholly beyond the negative Nyquist wavenumber makes the program write before the array. -/
theorem weightfunct_outside {nkx : ℕ} (hn : 2 ≤ nkx) (heven : nkx % 2 = 0) {k dx alfa1 alfa2 scale : ℝ} (hdx : 0 < dx)
    (h1 : k * Real.sin (Real.pi * alfa1 / 180) ≤ Real.pi / dx) (h2 : k * Real.sin (Real.pi * alfa2 / 180) ≤ -(Real.pi / dx)) (w0 : Arr) :
    weightfunct w0 k dx nkx alfa1 alfa2 scale = none := by
  have hd := dkx_pos (nkx := nkx) (by omega) hdx
  have hN := nyq_dkx (nkx := nkx) (by omega) hdx
  have hk : ikMax nkx k dx alfa2 ≤ -((nkx / 2 : ℕ) : ℤ) := by
    have a : bandMax k dx alfa2 / dkx nkx dx ≤ -((nkx : ℝ) / 2) := by
      rw [div_le_iff₀ hd, neg_mul, ← hN]; exact (min_le_left _ _).trans h2
    have hc : (nkx : ℝ) / 2 = ((nkx / 2 : ℕ) : ℝ) := by
      obtain ⟨h, rfl⟩ : ∃ h, nkx = 2 * h := ⟨nkx / 2, by omega⟩
      rw [Nat.mul_div_cancel_left _ (by norm_num)]; push_cast; ring
    rw [hc] at a
    have hpos : (0 : ℝ) < ((nkx / 2 : ℕ) : ℝ) := by
      have : 0 < nkx / 2 := by omega
      exact_mod_cast this
    unfold ikMax toInt
    rw [if_neg (by linarith)]
    exact Int.ceil_le.2 (by rw [Int.cast_neg, Int.cast_natCast]; linarith)
  rw [weightfunct_eq hdx h1]
  cases fill nkx (-((nkx / 2 : ℕ) : ℤ) + 1) (ikMin nkx k dx alfa1 + 1) scale w0 with
  | none => rfl
  | some a =>
    simp only [Option.bind_eq_bind, Option.bind_some]
    cases fill nkx (ikMin nkx k dx alfa1 + 1) (ikMax nkx k dx alfa2) 1 a with
    | none => rfl
    | some b => rw [Option.bind_some, fill_none _ _ (by omega) (by omega)]; rfl

/-- A band wholly beyond the positive Nyquist wavenumber leaves all weights unset. -/
theorem weightfunct_unset {nkx : ℕ} {k dx alfa1 alfa2 scale : ℝ} (h1 : Real.pi / dx < k * Real.sin (Real.pi * alfa1 / 180)) (w0 : Arr) :
    weightfunct w0 k dx nkx alfa1 alfa2 scale = some w0 := by
  unfold weightfunct
  dsimp only
  rw [if_pos h1]

/-! ## The whole program -/

theorem values_some {n : ℕ} {a : Arr} {v : ℕ → ℝ} (h : ∀ i < n, a i = some (v i)) : ∃ u, values n a = some u ∧ ∀ i < n, u i = v i := by
  unfold values
  rw [if_pos (fun i hi => by rw [h i hi]; rfl)]
  exact ⟨_, rfl, fun i hi => by rw [h i hi]; rfl⟩

theorem values_none {n i : ℕ} {a : Arr} (hi : i < n) (h : a i = none) : values n a = none := by
  unfold values
  rw [if_neg]
  intro hc
  have := hc i hi
  rw [h] at this
  cases this

/-- **C104**: for an even number of wavenumbers and an odd operator length the program returns the best operator, for weights that
are 1 in the band and `scale` outside, or for equal weights if `scale` is above 0.999. -/
theorem shortoper_best {nkx opl : ℕ} (heven : nkx % 2 = 0) (hodd : opl % 2 = 1) (h3 : 3 ≤ opl) (ho : opl ≤ nkx)
    {dx kw alfa1 alfa2 scale : ℝ} (hdx : 0 < dx) (hs0 : 0 < scale)
    (h1 : kw * Real.sin (Real.pi * alfa1 / 180) ≤ Real.pi / dx) (h2 : -(Real.pi / dx) < kw * Real.sin (Real.pi * alfa2 / 180))
    (K x0 : ℕ → ℂ) (junk : Junk) {s : Fft.Lib.St} (hs : Fft.Lib.Hist s) :
    ∃ x s', shortoper K nkx opl x0 dx kw alfa1 alfa2 scale junk s = some (.done x, s') ∧ Fft.Lib.Hist s' ∧
      (scale > 999 / 1000 → Best nkx opl (fun _ => 1) K x) ∧
      (scale ≤ 999 / 1000 → ∃ w, BandWeights nkx kw dx alfa1 alfa2 scale w ∧ Best nkx opl w K x) := by
  by_cases hc : scale > 999 / 1000
  · obtain ⟨x, s', e, H, hb, -⟩ := trunc1D_best (len := opl) hodd ho (le_refl _) K x0 junk.fft1 hs
    refine ⟨x, s', ?_, H, fun _ => hb, fun h => by linarith⟩
    unfold shortoper
    rw [if_pos hc, e]; rfl
  · obtain ⟨w, v, hw, hv, hb⟩ := weightfunct_band (scale := scale) (by omega) heven hdx h1 h2 (fun _ => none)
    obtain ⟨u, hu, huv⟩ := values_some hv
    have hbu : BandWeights nkx kw dx alfa1 alfa2 scale u := fun q hq => by rw [huv q hq]; exact hb q hq
    have hpos : ∀ q < nkx, 0 < u q := fun q hq => by
      rcases (hbu q hq).1 with h | h <;> rw [h]
      · exact one_pos
      · exact hs0
    obtain ⟨x, s', e, H, hx⟩ := wlsq_best hodd h3 ho hpos K junk hs
    refine ⟨x, s', ?_, H, fun h => absurd h hc, fun _ => ⟨u, hbu, hx⟩⟩
    unfold shortoper
    rw [if_neg hc, hw]
    simp only [Option.bind_eq_bind, Option.bind_some]
    rw [hu, Option.bind_some, e]

/-- With an odd number of wavenumbers, or a band wholly beyond the Nyquist wavenumber, the program uses memory that was never set. -/
theorem shortoper_undefined {nkx opl : ℕ} (hn : 3 ≤ nkx) {dx kw alfa1 alfa2 scale : ℝ} (hdx : 0 < dx) (hs1 : scale ≤ 999 / 1000)
    (h : nkx % 2 = 1 ∧ -(Real.pi / dx) < kw * Real.sin (Real.pi * alfa2 / 180) ∨ Real.pi / dx < kw * Real.sin (Real.pi * alfa1 / 180))
    (K x0 : ℕ → ℂ) (junk : Junk) (s : Fft.Lib.St) : shortoper K nkx opl x0 dx kw alfa1 alfa2 scale junk s = none := by
  unfold shortoper
  rw [if_neg (by linarith)]
  by_cases h1 : Real.pi / dx < kw * Real.sin (Real.pi * alfa1 / 180)
  · rw [weightfunct_unset h1]
    simp only [Option.bind_eq_bind, Option.bind_some]
    rw [values_none (i := 0) (by omega) rfl]; rfl
  · obtain ⟨hodd, h2⟩ := h.resolve_right h1
    cases hw : weightfunct (fun _ => none) kw dx nkx alfa1 alfa2 scale with
    | none => rfl
    | some w =>
      simp only [Option.bind_eq_bind, Option.bind_some]
      rw [values_none (i := nkx / 2) (by omega) (weightfunct_odd hn hodd hdx (not_lt.1 h1) hw h2)]; rfl

/-- The hypotheses are met: a band of 60 degrees at a quarter of the sampling wavenumber. -/
example (K x0 : ℕ → ℂ) (junk : Junk) : ∃ x s', shortoper K 64 19 x0 1 1 (-60) 60 (1 / 1000) junk Fft.Lib.St.init = some (.done x, s') := by
  have hpi := Real.two_le_pi
  have b1 := Real.sin_le_one (Real.pi * (-60) / 180)
  have b2 := Real.neg_one_le_sin (Real.pi * 60 / 180)
  obtain ⟨x, s', h, -⟩ := shortoper_best (nkx := 64) (opl := 19) (by norm_num) (by norm_num) (by norm_num) (by norm_num)
    (dx := 1) (kw := 1) (alfa1 := -60) (alfa2 := 60) (scale := 1 / 1000) (by norm_num) (by norm_num)
    (by rw [one_mul, div_one]; linarith) (by rw [one_mul, div_one]; linarith) K x0 junk .start
  exact ⟨x, s', h⟩

end

end Verif.Extrap

import Verif.Util.Shapes

/-! # C196, C197: bodies of makemod -/

namespace Verif.Util

universe u
variable {K : Type u}

/-- C196: the diamond of width `w` covers the cells at most `w/2` steps away. -/
theorem diamond_cells (w j k : Int) (hw : 0 ≤ w) : (j, k) ∈ diamond w ↔ |j| + |k| ≤ w / 2 := by
  unfold diamond
  rw [Int.tdiv_eq_ediv_of_nonneg hw]
  dsimp only
  rw [List.mem_append, List.mem_append, mem_prod, mem_prod, mem_upto, mem_upto, mem_upto, mem_upto]
  simp only [List.mem_cons, List.not_mem_nil, or_false, Prod.mk.injEq]
  have h0 : 0 ≤ w / 2 := by omega
  rcases abs_cases j with ⟨a, a'⟩ | ⟨a, a'⟩ <;> rcases abs_cases k with ⟨b, b'⟩ | ⟨b, b'⟩ <;> rw [a, b] <;> omega

/-- C196: the circle of width `w` covers the cells less than `w/2 + 1/2` away from its centre. -/
theorem circle_cells (w j k : Int) (hw : 0 ≤ w) : (j, k) ∈ circle w ↔ j ^ 2 + k ^ 2 ≤ (w / 2) ^ 2 + w / 2 := by
  unfold circle
  rw [Int.tdiv_eq_ediv_of_nonneg hw]
  dsimp only
  rw [List.mem_filter, mem_prod, mem_upto, mem_upto, decide_eq_true_eq]
  obtain ⟨r, hr⟩ : ∃ r, r = w / 2 := ⟨_, rfl⟩
  have h0 : 0 ≤ r := by omega
  rw [← hr]
  have hq : (0 : Int) ≤ j * j + k * k := add_nonneg (mul_self_nonneg j) (mul_self_nonneg k)
  rw [rnint_le (Real.sqrt_nonneg _) r h0]
  have hR : (0 : ℝ) ≤ r := by exact_mod_cast h0
  rw [Real.sqrt_lt' (by linarith)]
  have key : ((j * j + k * k : Int) : ℝ) < ((r : ℝ) + 1 / 2) ^ 2 ↔ j ^ 2 + k ^ 2 ≤ r ^ 2 + r := by
    have e : ((r : ℝ) + 1 / 2) ^ 2 = ((r ^ 2 + r : Int) : ℝ) + 1 / 4 := by push_cast; ring
    rw [e, show j ^ 2 + k ^ 2 = j * j + k * k by ring]
    constructor
    · intro h
      by_contra hc
      have : (r ^ 2 + r + 1 : Int) ≤ j * j + k * k := by omega
      have : ((r ^ 2 + r + 1 : Int) : ℝ) ≤ ((j * j + k * k : Int) : ℝ) := by exact_mod_cast this
      push_cast at *
      linarith
    · intro h
      have : ((j * j + k * k : Int) : ℝ) ≤ ((r ^ 2 + r : Int) : ℝ) := by exact_mod_cast h
      linarith
  rw [key]
  constructor
  · exact fun h => h.2
  · intro h
    refine ⟨⟨⟨?_, ?_⟩, ?_, ?_⟩, h⟩ <;> by_contra hc
    · nlinarith [sq_nonneg k]
    · nlinarith [sq_nonneg k]
    · nlinarith [sq_nonneg j]
    · nlinarith [sq_nonneg j]

/-- C196: the square of width `w` covers the cells from `-(w/2)` up to, not including, `w/2`. -/
theorem square_cells (w j k : Int) (hw : 0 ≤ w) : (j, k) ∈ square w ↔ (-(w / 2) ≤ j ∧ j < w / 2) ∧ -(w / 2) ≤ k ∧ k < w / 2 := by
  unfold square
  rw [mem_prod, mem_upto, mem_upto, tdiv_neg_two w hw, Int.tdiv_eq_ediv_of_nonneg hw]

/-- C196: diamonds and circles are symmetric about their point. -/
theorem diamond_circle_symmetric (w j k : Int) (hw : 0 ≤ w) :
    ((j, k) ∈ diamond w ↔ (-j, k) ∈ diamond w) ∧ ((j, k) ∈ diamond w ↔ (k, j) ∈ diamond w) ∧
    ((j, k) ∈ circle w ↔ (-j, k) ∈ circle w) ∧ ((j, k) ∈ circle w ↔ (k, j) ∈ circle w) := by
  rw [diamond_cells w j k hw, diamond_cells w (-j) k hw, diamond_cells w k j hw, circle_cells w j k hw, circle_cells w (-j) k hw,
    circle_cells w k j hw, abs_neg, neg_sq, add_comm |k|, add_comm (k ^ 2)]
  exact ⟨Iff.rfl, Iff.rfl, Iff.rfl, Iff.rfl⟩

/-- C196 (violation): a square of width 1 (or 0) has no cells, so the default kind of diffractor of one grid point is not in the
model at all. -/
theorem square_one_empty (nx nz type ix iz : Int) (v : K) (g : Int → Int → K) (ht : type ≠ 1 ∧ type ≠ 2) (hx : 0 ≤ ix ∧ ix < nx) :
    diffraction nx nz type 1 [(ix, iz, v)] g = some g := by
  unfold diffraction body
  rw [List.foldlM_cons, if_pos hx, if_neg ht.1, if_neg ht.2]
  rfl

/-- C196: the square of even width `w` has `w` rows and columns, the one of odd width `w - 1`. -/
theorem square_size (w : Int) (hw : 0 ≤ w) : (square w).length = (w - w % 2).toNat * (w - w % 2).toNat := by
  unfold square upto
  rw [List.length_flatMap]
  rw [tdiv_neg_two w hw, Int.tdiv_eq_ediv_of_nonneg hw]
  simp only [List.length_map, List.length_range, List.map_const', List.sum_replicate, smul_eq_mul]
  rw [show w / 2 - -(w / 2) = w - w % 2 by omega]

/-- C197: a body whose cells are all in the model gets its value in exactly these cells, and nothing else changes. -/
theorem diffraction_point (nx nz type w ix iz : Int) (v : K) (g : Int → Int → K) (hx : 0 ≤ ix ∧ ix < nx)
    (hb : ∀ j k, (j, k) ∈ body type w → 0 ≤ ix + j ∧ ix + j < nx ∧ 0 ≤ iz + k ∧ iz + k < nz) :
    ∃ g', diffraction nx nz type w [(ix, iz, v)] g = some g' ∧ ∀ i k, ((i - ix, k - iz) ∈ body type w → g' i k = v) ∧
      ((i - ix, k - iz) ∉ body type w → g' i k = g i k) := by
  obtain ⟨g', h1, h2⟩ := paint_spec nx nz (body type w) ix iz v g fun c hc => hb c.1 c.2 hc
  refine ⟨g', ?_, h2⟩
  unfold diffraction
  rw [List.foldlM_cons, if_pos hx, h1]
  rfl

/-- C197 (violation): nothing keeps a body inside the model: a diffractor of two or more grid points wide whose point is on the
edge of the model writes outside the grid, whatever its kind. -/
theorem diffraction_edge (nx nz type w iz : Int) (v : K) (g : Int → Int → K) (hw : 2 ≤ w) (hn : 0 < nx) :
    diffraction nx nz type w [(0, iz, v)] g = none := by
  unfold diffraction
  rw [List.foldlM_cons, if_pos ⟨le_refl 0, hn⟩, paint_none]
  · rfl
  · refine ⟨(-1, 0), ?_, fun h => by dsimp only at h; omega⟩
    unfold body
    split
    · rw [diamond_cells w _ _ (by omega)]
      norm_num
      omega
    · split
      · rw [circle_cells w _ _ (by omega)]
        have : 1 ≤ w / 2 := by omega
        nlinarith
      · rw [square_cells w _ _ (by omega)]
        omega

/-- C197: an ellipse fills exactly the cells of the model whose distance to its centre, measured in radii, is at most one: it is
never cut off by the box the program looks at, and it never leaves the model. -/
theorem ellipse_cells (nx nz : Int) (dx dz r1 r2 : ℝ) (ixm izm : Int) (v : K) (g : Int → Int → K) (hdx : 0 < dx) (hdz : 0 < dz)
    (h1 : 0 < r1) (h2 : 0 < r2) (hx : 0 ≤ ixm ∧ ixm < nx) :
    ∃ g', ellipse nx nz dx dz r1 r2 ixm izm v g = some g' ∧ ∀ i k : Int,
      ((0 ≤ i ∧ i < nx ∧ 0 ≤ k ∧ k < nz ∧ (((i : ℝ) - ixm) * dx / r2) ^ 2 + (((k : ℝ) - izm) * dz / r1) ^ 2 ≤ 1) → g' i k = v) ∧
      (¬ (0 ≤ i ∧ i < nx ∧ 0 ≤ k ∧ k < nz ∧ (((i : ℝ) - ixm) * dx / r2) ^ 2 + (((k : ℝ) - izm) * dz / r1) ^ 2 ≤ 1) →
        g' i k = g i k) := by
  unfold ellipse
  rw [if_pos hx]
  have box : ∀ (r d : ℝ) (n : Int), 0 < d → 0 < r → ((n : ℝ) * d / r) ^ 2 ≤ 1 → |n| ≤ rnint (r / d) := by
    intro r d n hd hr hs
    have h0 : |(n : ℝ) * d / r| ≤ 1 := by rwa [sq_le_one_iff_abs_le_one] at hs
    rw [abs_div, abs_mul, abs_of_pos hd, abs_of_pos hr, div_le_one hr] at h0
    have h3 : |(n : ℝ)| ≤ r / d := by rw [le_div_iff₀ hd]; exact h0
    unfold rnint
    rw [if_pos (by positivity), Int.le_floor]
    push_cast
    linarith
  obtain ⟨g', e1, e2⟩ := paint_spec nx nz (ellipseCells nx nz dx dz r1 r2 ixm izm) 0 0 v g (fun c hc => by
    have hc' := List.mem_filter.mp hc
    obtain ⟨c1, c2⟩ := c
    have hm := hc'.1
    rw [mem_prod, mem_upto, mem_upto] at hm
    dsimp only
    omega)
  refine ⟨g', e1, fun i k => ?_⟩
  have iff : (i - 0, k - 0) ∈ ellipseCells nx nz dx dz r1 r2 ixm izm ↔
      (0 ≤ i ∧ i < nx ∧ 0 ≤ k ∧ k < nz ∧ (((i : ℝ) - ixm) * dx / r2) ^ 2 + (((k : ℝ) - izm) * dz / r1) ^ 2 ≤ 1) := by
    unfold ellipseCells
    dsimp only
    rw [Int.sub_zero, Int.sub_zero, List.mem_filter, mem_prod, mem_upto, mem_upto, decide_eq_true_eq]
    rw [show (1 : ℝ) = Real.sqrt 1 by rw [Real.sqrt_one], Real.sqrt_le_sqrt_iff (by norm_num), Real.sqrt_one]
    dsimp only
    push_cast
    rw [← sq, ← sq]
    constructor
    · rintro ⟨⟨⟨a, b⟩, c, d⟩, e⟩
      exact ⟨by omega, by omega, by omega, by omega, e⟩
    · rintro ⟨a, b, c, d, e⟩
      have p1 := sq_nonneg ((((i : ℝ) - ixm) * dx / r2))
      have p2 := sq_nonneg ((((k : ℝ) - izm) * dz / r1))
      have q1 := box r2 dx (i - ixm) hdx h2 (by push_cast; linarith)
      have q2 := box r1 dz (k - izm) hdz h1 (by push_cast; linarith)
      rw [abs_le] at q1 q2
      exact ⟨⟨⟨by omega, by omega⟩, by omega, by omega⟩, e⟩
  exact ⟨fun h => (e2 i k).1 (iff.mpr h), fun h => (e2 i k).2 fun hm => h (iff.mp hm)⟩

/-! ## The hypotheses are met -/

example : (diamond 2).toFinset = {(-1, 0), (1, 0), (0, -1), (0, 0), (0, 1)} := by decide +kernel
example : square 3 = [(-1, -1), (-1, 0), (0, -1), (0, 0)] := by decide +kernel
/-- A diamond of width 4 in the middle of a model of 10 by 10. -/
example : ∀ j k, (j, k) ∈ body 1 4 → (0 : Int) ≤ 5 + j ∧ 5 + j < 10 ∧ 0 ≤ 5 + k ∧ 5 + k < 10 := by
  intro j k h
  unfold body at h
  rw [if_pos rfl, diamond_cells 4 j k (by omega)] at h
  rcases abs_cases j with ⟨a, a'⟩ | ⟨a, a'⟩ <;> rcases abs_cases k with ⟨b, b'⟩ | ⟨b, b'⟩ <;> rw [a, b] at h <;> omega
/-- The circle of width 4 has the corner (1,2) and not (2,2). -/
example : (1, 2) ∈ circle 4 ∧ (2, 2) ∉ circle 4 := by
  rw [circle_cells 4 _ _ (by omega), circle_cells 4 _ _ (by omega)]; decide
/-- An ellipse on the edge of a model. -/
example : ∃ g', ellipse 10 10 5 5 12 20 0 3 (2000 : ℝ) (fun _ _ => 1500) = some g' ∧ g' 4 3 = 2000 ∧ g' 5 3 = 1500 := by
  obtain ⟨g', h1, h2⟩ := ellipse_cells 10 10 5 5 12 20 0 3 (2000 : ℝ) (fun _ _ => 1500) (by norm_num) (by norm_num) (by norm_num)
    (by norm_num) (by omega)
  exact ⟨g', h1, (h2 4 3).1 ⟨by omega, by omega, by omega, by omega, by norm_num⟩, (h2 5 3).2 fun h => by
    have := h.2.2.2.2; norm_num at this⟩

end Verif.Util

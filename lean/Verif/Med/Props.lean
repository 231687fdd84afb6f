import Verif.Med.Pml
import Mathlib.Tactic.NormNum

/-!
# Properties of the medium parameters (readModel.c)
-/

namespace Verif.Med

section
variable {K : Type} [Field K] [LinearOrder K] [IsStrictOrderedRing K]

/-- The value found at a model point. -/
def stored (p : Par) (q : Inp K) (fac : K) : Arr → Int → Int → K
  | .rox, i, j => if q.cp i j = 0 then 0 else raw p q fac .rox i j
  | .roz, i, j => if q.cp i j = 0 then 0 else
      if p.ischeme > 2 then raw p q fac .roz (pmlCol p i) (pmlRow p j) else raw p q fac .roz i j
  | a, i, j => raw p q fac a i j

variable {p : Par} {q : Inp K} {fac : K}

theorem l2m_zero (hro : ∀ i j, 0 < q.ro i j) (hf : fac ≠ 0) (i j : Int) : raw p q fac .l2m i j = 0 ↔ q.cp i j = 0 := by
  simp only [raw, Inp.l2m, mul_eq_zero, hf, false_or, pow_eq_zero_iff, ne_eq, OfNat.ofNat_ne_zero, not_false_eq_true,
    (ne_of_gt (hro i j)), or_false]

/-- Everything `readModel` stores, in closed form. -/
theorem grids_spec (hv : Valid p) (hl : p.ischeme > 2 → p.lef = 2 → 2 ≤ p.nx) (hb : p.ischeme > 2 → p.bot = 2 → 2 ≤ p.nz)
    (hro : ∀ i j, 0 < q.ro i j) (hf : fac ≠ 0) :
    ∃ m, grids p q fac = some m ∧
      (∀ a, used p a → ∀ x z, inBox p a x z → m a x z = stored p q fac a (nearX p (x - ox p a)) (nearZ p (z - oz p a))) ∧
      (∀ a, a = .rox ∨ a = .roz ∨ a = .l2m → ∀ x z, ox p a - p.pad p.lef ≤ x → x < ox p a + p.nx + p.pad p.rig →
        oz p a - p.add ≤ z → z < oz p a → p.top = 5 → m a x z = 0) := by
  have hx := hv.nx
  have hz := hv.nz
  have s1 : ∃ m1, fillGrids p q fac (fun _ _ _ => 0) = some m1 ∧ ∀ a, used p a → ∀ i j, 0 ≤ i → i < p.nx → 0 ≤ j → j < p.nz → m1 a (i + ox p a) (j + oz p a) =
        if p.ischeme > 2 then raw p q fac a (srcCol p a i) (srcRow p a j) else raw p q fac a i j := by
    unfold fillGrids
    by_cases hs : p.ischeme > 2
    · rw [if_pos hs, elaFill_spec hv hro, Option.bind_some]
      obtain ⟨m1, e, k⟩ := cpml_spec hv (hl hs) (hb hs) (upd (inModel p) (byCell p (raw p q fac)) (fun _ _ _ => 0))
      refine ⟨m1, e, fun a _ i j h1 h2 h3 h4 => ?_⟩
      rw [k a i j h1 h2 h3 h4, if_pos hs, upd_in, byCell_at]
      have c1 : 0 ≤ srcCol p a i ∧ srcCol p a i < p.nx := by
        unfold srcCol pmlCol
        have := hl hs
        split
        · split <;> omega
        · omega
      have c2 : 0 ≤ srcRow p a j ∧ srcRow p a j < p.nz := by
        unfold srcRow pmlRow
        have := hb hs
        split
        · split <;> omega
        · omega
      unfold inModel; omega
    · rw [if_neg hs, acoFill_spec hv]
      refine ⟨_, rfl, fun a ha i j h1 h2 h3 h4 => ?_⟩
      rw [if_neg hs, upd_in, byCell_at]
      refine ⟨?_, by unfold inModel; omega⟩
      cases a
      · simp
      · simp
      · simp
      · exact absurd ha hs
      · exact absurd ha hs
  obtain ⟨m1, e1, k1⟩ := s1
  obtain ⟨m2, e2, k2⟩ := air_spec hv m1
  have h2 : HoldsAll p m2 (stored p q fac) 0 0 0 0 := by
    intro a ha x z g1 g2 g3 g4
    rw [nearX_id (by omega) (by omega), nearZ_id (by omega) (by omega)]
    have hk := k2 a (x - ox p a) (z - oz p a) (by omega) (by omega) (by omega) (by omega)
    have c1 : x - ox p a + ox p a = x := by omega
    have c2 : z - oz p a + oz p a = z := by omega
    have hL := k1 .l2m trivial (x - ox p a) (z - oz p a) (by omega) (by omega) (by omega) (by omega)
    have hL' : (if p.ischeme > 2 then raw p q fac .l2m (srcCol p .l2m (x - ox p a)) (srcRow p .l2m (z - oz p a))
        else raw p q fac .l2m (x - ox p a) (z - oz p a)) = raw p q fac .l2m (x - ox p a) (z - oz p a) := by
      have : ∀ i, srcCol p .l2m i = i := fun i => by simp [srcCol]
      have : ∀ i, srcRow p .l2m i = i := fun i => by simp [srcRow]
      simp [*]
    rw [hL'] at hL
    rw [hL] at hk
    rw [c1, c2] at hk
    rw [hk]
    have hA := k1 a ha (x - ox p a) (z - oz p a) (by omega) (by omega) (by omega) (by omega)
    rw [c1, c2] at hA
    rw [hA]
    simp only [l2m_zero hro hf]
    cases a <;> simp [stored, srcCol, srcRow]
  obtain ⟨m3, e3, k3⟩ := extLef_spec hv h2
  obtain ⟨m4, e4, k4⟩ := extRig_spec hv k3
  obtain ⟨m5, e5, k5⟩ := extTop_spec hv k4
  obtain ⟨m6, e6, k6⟩ := extBot_spec hv k5
  obtain ⟨m7, e7, k7, k8⟩ := extMov_spec hv k6
  refine ⟨m7, ?_, ?_, k8⟩
  · unfold grids
    simp only [Option.bind_eq_bind]
    rw [e1]
    simp only [Option.bind_some, e2, e3, e4, e5, e6, e7]
  · intro a ha x z hb
    exact k7 a ha x z hb.1.1 hb.1.2 hb.2.1 hb.2.2

/-- Acoustic schemes: every cell of the three arrays, borders included, holds the medium parameter of the nearest model
point, for every size, order, border width and combination of sides; nothing is accessed outside the arrays. -/
theorem medium_acoustic (hv : Valid p) (hs : p.ischeme ≤ 2) (hro : ∀ i j, 0 < q.ro i j) (hf : fac ≠ 0) :
    ∃ m, grids p q fac = some m ∧ ∀ a, a = .rox ∨ a = .roz ∨ a = .l2m → ∀ x z, inBox p a x z →
      m a x z = medium p q fac a (nearX p (x - ox p a)) (nearZ p (z - oz p a)) := by
  obtain ⟨m, e, k, _⟩ := grids_spec (q := q) (fac := fac) hv (fun h => by omega) (fun h => by omega) hro hf
  refine ⟨m, e, fun a ha x z hb => ?_⟩
  have hns : ¬ p.ischeme > 2 := by omega
  rcases ha with rfl | rfl | rfl
  · rw [k .rox trivial x z hb]; rfl
  · rw [k .roz trivial x z hb]; simp only [stored, medium, raw, hns, if_false]
  · rw [k .l2m trivial x z hb]; rfl

/-- The rows above a moving surface are vacuum: no buoyancy and no stiffness. -/
theorem moving_surface (hv : Valid p) (hs : p.ischeme ≤ 2) (hro : ∀ i j, 0 < q.ro i j) (hf : fac ≠ 0) (ht : p.top = 5) :
    ∃ m, grids p q fac = some m ∧ ∀ a, a = .rox ∨ a = .roz ∨ a = .l2m → ∀ x z,
      ox p a - p.pad p.lef ≤ x → x < ox p a + p.nx + p.pad p.rig → oz p a - p.topadd ≤ z → z < oz p a → m a x z = 0 := by
  obtain ⟨m, e, _, k⟩ := grids_spec (q := q) (fac := fac) hv (fun h => by omega) (fun h => by omega) hro hf
  refine ⟨m, e, fun a ha x z h1 h2 h3 h4 => k a ha x z h1 h2 ?_ h4 ht⟩
  have : p.add = p.topadd := by unfold Par.add; rw [if_pos ht]
  omega

/-- Elastic schemes.  The full claim is that every cell of the five arrays holds `medium` of the nearest model point.
Proved: `l2m`, `lam` and the buoyancy of the horizontal velocity, for all sides; the buoyancy of the vertical velocity where
neither the left side nor the bottom is a PML; the shear modulus where the density does not change along the rows.  The rest
is false: `pml_roz_shifted`, `shear_wrong_density`. -/
theorem medium_elastic_partial (hv : Valid p) (hs : p.ischeme > 2) (hl : p.lef = 2 → 2 ≤ p.nx) (hb : p.bot = 2 → 2 ≤ p.nz)
    (hro : ∀ i j, 0 < q.ro i j) (hf : fac ≠ 0) :
    ∃ m, grids p q fac = some m ∧ ∀ a,
      (a = .roz → p.lef ≠ 2 ∧ p.bot ≠ 2) → (a = .muu → ∀ i i' j, q.ro i j = q.ro i' j) → ∀ x z, inBox p a x z →
      m a x z = medium p q fac a (nearX p (x - ox p a)) (nearZ p (z - oz p a)) := by
  obtain ⟨m, e, k, _⟩ := grids_spec (q := q) (fac := fac) hv (fun _ => hl) (fun _ => hb) hro hf
  refine ⟨m, e, fun a h1 h2 x z hbx => ?_⟩
  cases a
  · rw [k .rox trivial x z hbx]; rfl
  · rw [k .roz trivial x z hbx]
    obtain ⟨g1, g2⟩ := h1 rfl
    simp only [stored, medium, raw, hs, if_true, pmlCol, pmlRow, g1, g2, false_and, if_false]
  · rw [k .l2m trivial x z hbx]; rfl
  · rw [k .lam hs x z hbx]; rfl
  · rw [k .muu hs x z hbx]
    have h3 := h2 rfl
    simp only [stored, medium, raw, muCode, Inp.mu]
    have : ∀ j', roRight p q (nearX p (x - ox p .muu)) (nearZ p (z - oz p .muu)) j' =
        q.ro (rightOf p (nearX p (x - ox p .muu))) j' := by
      intro j'; unfold roRight; split
      · exact h3 _ _ _
      · rfl
    rw [this, this]

/-- With a PML on the left, the first column of the buoyancy of the vertical velocity holds the values of the second
column; with a PML at the bottom, the last row holds those of the row above it. -/
theorem pml_roz_shifted (hv : Valid p) (hs : p.ischeme > 2) (hl : p.lef = 2 → 2 ≤ p.nx) (hb : p.bot = 2 → 2 ≤ p.nz)
    (hro : ∀ i j, 0 < q.ro i j) (hf : fac ≠ 0) (hcp : ∀ i j, q.cp i j ≠ 0) :
    ∃ m, grids p q fac = some m ∧ ∀ i j, 0 ≤ i → i < p.nx → 0 ≤ j → j < p.nz →
      m .roz (i + ox p .roz) (j + oz p .roz) =
        medium p q fac .roz (if p.lef = 2 ∧ i = 0 then 1 else i) (if p.bot = 2 ∧ j = p.nz - 1 then p.nz - 2 else j) := by
  obtain ⟨m, e, k, _⟩ := grids_spec (q := q) (fac := fac) hv (fun _ => hl) (fun _ => hb) hro hf
  refine ⟨m, e, fun i j h1 h2 h3 h4 => ?_⟩
  have t1 := pad_nonneg hv p.lef; have t2 := pad_nonneg hv p.rig; have t3 := pad_nonneg hv p.top
  have t4 := pad_nonneg hv p.bot
  rw [k .roz trivial _ _ ⟨⟨by omega, by omega⟩, by omega, by omega⟩]
  have c1 : i + ox p .roz - ox p .roz = i := by omega
  have c2 : j + oz p .roz - oz p .roz = j := by omega
  rw [c1, c2, nearX_id h1 h2, nearZ_id h3 h4]
  simp only [stored, medium, raw, hs, if_true, hcp, if_false, pmlCol, pmlRow]

/-- A homogeneous model gives homogeneous arrays, borders included, for every scheme and combination of sides. -/
theorem homogeneous (hv : Valid p) (hl : p.ischeme > 2 → p.lef = 2 → 2 ≤ p.nx) (hb : p.ischeme > 2 → p.bot = 2 → 2 ≤ p.nz)
    (c s r : K) (hc : c ≠ 0) (hr : 0 < r) (hf : fac ≠ 0) :
    ∃ m, grids p ⟨fun _ _ => c, fun _ _ => s, fun _ _ => r⟩ fac = some m ∧
      (∀ x z, inBox p .rox x z → m .rox x z = fac / r) ∧ (∀ x z, inBox p .roz x z → m .roz x z = fac / r) ∧
      (∀ x z, inBox p .l2m x z → m .l2m x z = fac * (c ^ 2 * r)) ∧
      (p.ischeme > 2 → ∀ x z, inBox p .lam x z → m .lam x z = fac * (c ^ 2 * r - 2 * (s ^ 2 * r))) ∧
      (p.ischeme > 2 → ∀ x z, inBox p .muu x z → m .muu x z = fac * (s ^ 2 * r)) := by
  obtain ⟨m, e, k, _⟩ := grids_spec (q := ⟨fun _ _ => c, fun _ _ => s, fun _ _ => r⟩) (fac := fac) hv hl hb (fun _ _ => hr) hf
  refine ⟨m, e, fun x z hx => ?_, fun x z hx => ?_, fun x z hx => ?_, fun hs x z hx => ?_, fun hs x z hx => ?_⟩
  · rw [k .rox trivial x z hx]; simp only [stored, raw, hc, if_false, half1]
  · rw [k .roz trivial x z hx]; simp only [stored, raw, hc, if_false, half1, ite_self]
  · rw [k .l2m trivial x z hx]; rfl
  · rw [k .lam hs x z hx]; rfl
  · rw [k .muu hs x z hx]; simp only [stored, raw, muCode, roRight, Inp.mu, ite_self, harmonic_same]

/-- The shear modulus vanishes as soon as one of the four points around is a fluid. -/
theorem shear_fluid (hv : Valid p) (hs : p.ischeme > 2) (hl : p.lef = 2 → 2 ≤ p.nx) (hb : p.bot = 2 → 2 ≤ p.nz)
    (hro : ∀ i j, 0 < q.ro i j) (hf : fac ≠ 0) :
    ∃ m, grids p q fac = some m ∧ ∀ i j, 0 ≤ i → i < p.nx → 0 ≤ j → j < p.nz →
      (m .muu (i + ox p .muu) (j + oz p .muu) = 0 ↔
        q.cs i j = 0 ∨ q.cs i (below p j) = 0 ∨ q.cs (rightOf p i) j = 0 ∨ q.cs (rightOf p i) (below p j) = 0) := by
  obtain ⟨m, e, k, _⟩ := grids_spec (q := q) (fac := fac) hv (fun _ => hl) (fun _ => hb) hro hf
  refine ⟨m, e, fun i j h1 h2 h3 h4 => ?_⟩
  have t1 := pad_nonneg hv p.lef; have t2 := pad_nonneg hv p.rig; have t3 := pad_nonneg hv p.top
  have t4 := pad_nonneg hv p.bot
  rw [k .muu hs _ _ ⟨⟨by omega, by omega⟩, by omega, by omega⟩]
  have c1 : i + ox p .muu - ox p .muu = i := by omega
  have c2 : j + oz p .muu - oz p .muu = j := by omega
  rw [c1, c2, nearX_id h1 h2, nearZ_id h3 h4]
  have hrr : ∀ j', 0 < roRight p q i j j' := by intro j'; unfold roRight; split <;> exact hro _ _
  have z0 : ∀ a b : K, 0 < b → (a ^ 2 * b = 0 ↔ a = 0) := by
    intro a b hb
    simp [ne_of_gt hb]
  have pos : ∀ a b : K, 0 < b → a ≠ 0 → 0 < a ^ 2 * b := by
    intro a b hb ha
    exact mul_pos (lt_of_le_of_ne (sq_nonneg a) (Ne.symm (pow_ne_zero 2 ha))) hb
  simp only [stored, raw, muCode, mul_eq_zero, hf, false_or]
  unfold harmonic Inp.mu
  simp only [z0 _ _ (hro _ _), z0 _ _ (hrr _)]
  constructor
  · intro h
    by_contra hn
    rw [if_neg hn] at h
    push Not at hn
    obtain ⟨n1, n2, n3, n4⟩ := hn
    have p1 := one_div_pos.2 (pos _ _ (hro i j) n1)
    have p2 := one_div_pos.2 (pos _ _ (hro i (below p j)) n2)
    have p3 := one_div_pos.2 (pos _ _ (hrr j) n3)
    have p4 := one_div_pos.2 (pos _ _ (hrr (below p j)) n4)
    have := div_pos (show (0 : K) < 4 by norm_num) (add_pos (add_pos (add_pos p1 p2) p3) p4)
    exact absurd h (ne_of_gt this)
  · intro h
    rw [if_pos h]

end

/-! ## Concrete cases -/

section
/-- Three traces of three samples, PML of width 2 on three sides, free surface on top: the default of the elastic scheme. -/
def pE : Par := ⟨3, 3, 4, 2, 0, 3, 2, 2, 1, 2⟩
/-- The same, acoustic. -/
def pA : Par := { pE with ischeme := 1 }
/-- Elastic with tapers. -/
def pT : Par := { pE with lef := 4, rig := 4, bot := 4 }
/-- Acoustic with a moving surface. -/
def pM : Par := { pA with top := 5, topadd := 8 }

theorem pE_ok : Valid pE := by constructor <;> decide
theorem pA_ok : Valid pA := by constructor <;> decide
theorem pT_ok : Valid pT := by constructor <;> decide
theorem pM_ok : Valid pM := by constructor <;> decide

/-- The density grows along the rows: 1, 2, 3. -/
def qR : Inp ℚ := ⟨fun _ _ => 2, fun _ _ => 1, fun i _ => if i ≤ 0 then 1 else if i ≤ 1 then 2 else 3⟩

theorem qR_pos (i j : Int) : 0 < qR.ro i j := by
  simp only [qR]; split
  · norm_num
  · split <;> norm_num

/-- The hypotheses are met by models with varying density, on all four kinds of grids. -/
example : ∃ m, grids pA qR 1 = some m ∧ ∀ a, a = .rox ∨ a = .roz ∨ a = .l2m → ∀ x z, inBox pA a x z →
    m a x z = medium pA qR 1 a (nearX pA (x - ox pA a)) (nearZ pA (z - oz pA a)) :=
  medium_acoustic pA_ok (by decide) qR_pos (by norm_num)
example := moving_surface (q := qR) (fac := 1) pM_ok (by decide) qR_pos (by norm_num) rfl
example := medium_elastic_partial (q := qR) (fac := 1) pT_ok (by decide) (by decide) (by decide) qR_pos (by norm_num)
example := homogeneous (fac := (1 : ℚ)) pE_ok (by decide) (by decide) 2 1 5 (by norm_num) (by norm_num) (by norm_num)
example := shear_fluid (q := qR) (fac := 1) pE_ok (by decide) (by decide) (by decide) qR_pos (by norm_num)

/-- The buoyancy of the vertical velocity at the first point of the model is 1/2, that of the second column; the density of
the first column is 1. -/
theorem pml_roz_example : ∃ m, grids pE qR 1 = some m ∧ m .roz (0 + ox pE .roz) (0 + oz pE .roz) = 1 / 2 ∧
    medium pE qR 1 .roz 0 0 = 1 := by
  obtain ⟨m, e, k⟩ := pml_roz_shifted (q := qR) (fac := 1) pE_ok (by decide) (by decide) (by decide) qR_pos (by norm_num)
    (fun _ _ => by simp [qR])
  refine ⟨m, e, ?_, ?_⟩
  · rw [k 0 0 (by decide) (by decide) (by decide) (by decide)]
    norm_num [pE, medium, qR, below]
  · norm_num [pE, medium, qR, below]

/-- The shear modulus between the first two columns is that of density 1 alone: 1 instead of the harmonic mean 4/3 of the
moduli 1 and 2. -/
theorem shear_wrong_density : ∃ m, grids pT qR 1 = some m ∧ m .muu (0 + ox pT .muu) (0 + oz pT .muu) = 1 ∧
    medium pT qR 1 .muu 0 0 = 4 / 3 := by
  obtain ⟨m, e, k, _⟩ := grids_spec (q := qR) (fac := 1) pT_ok (by decide) (by decide) qR_pos (by norm_num)
  refine ⟨m, e, ?_, ?_⟩
  · rw [k .muu (show pT.ischeme > 2 by decide) _ _ (show inBox pT .muu _ _ by unfold inBox; decide)]
    norm_num [pT, pE, stored, raw, muCode, roRight, qR, below, rightOf, nearX, nearZ, ox, oz, Inp.mu, harmonic]
  · norm_num [pT, pE, medium, qR, below, rightOf, Inp.mu, harmonic]

end

end Verif.Med

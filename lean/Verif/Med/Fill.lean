import Verif.Med.Sides
import Mathlib.Tactic.FieldSimp
import Mathlib.Tactic.Ring
import Mathlib.Tactic.Linarith

/-! # The loops over the model points -/

namespace Verif.Med

section
variable {K : Type} [Field K] [LinearOrder K] [IsStrictOrderedRing K]

/-- The density that multiplies the squared S velocity of the column to the right: away from the last row and column it is
the density of the point's own column. -/
def roRight (p : Par) (q : Inp K) (i j j' : Int) : K :=
  if i < p.nx - 1 ∧ j < p.nz - 1 then q.ro i j' else q.ro (rightOf p i) j'

/-- The value stored for the shear modulus, before the factor. -/
def muCode (p : Par) (q : Inp K) (i j : Int) : K :=
  harmonic (q.mu i j) (q.mu i (below p j)) (q.cs (rightOf p i) j ^ 2 * roRight p q i j j)
    (q.cs (rightOf p i) (below p j) ^ 2 * roRight p q i j (below p j))

/-- What the loops over the model points store. -/
def raw (p : Par) (q : Inp K) (fac : K) : Arr → Int → Int → K
  | .rox, i, j => fac / ((q.ro i j + q.ro (rightOf p i) j) / 2)
  | .roz, i, j => fac / ((q.ro i j + q.ro i (below p j)) / 2)
  | .l2m, i, j => fac * q.l2m i j
  | .lam, i, j => fac * q.lam i j
  | .muu, i, j => fac * muCode p q i j

omit [IsStrictOrderedRing K] in
theorem harm4_eq {a b c d : K} (ha : 0 ≤ a) : harm4 a b c d = harmonic a b c d := by
  unfold harm4 harmonic
  by_cases h : a = 0
  · simp [h]
  · have : a > 0 := lt_of_le_of_ne ha (Ne.symm h)
    simp [h, this]

theorem harmonic_same (a : K) : harmonic a a a a = a := by
  unfold harmonic
  by_cases h : a = 0
  · simp [h]
  · simp only [h, or_self, if_false]
    field_simp
    norm_num

/-- The model points of an array. -/
def inModel (p : Par) (a : Arr) (x z : Int) : Prop :=
  (ox p a ≤ x ∧ x < ox p a + p.nx) ∧ (oz p a ≤ z ∧ z < oz p a + p.nz)

theorem inG_model {p : Par} (hv : Valid p) (a : Arr) {i j : Int} (hi : 0 ≤ i ∧ i < p.nx) (hj : 0 ≤ j ∧ j < p.nz) :
    p.inG (i + ox p a) (j + oz p a) := by
  have := hv.iorder; have := hv.even
  have t1 := pad_nonneg hv p.lef; have t2 := pad_nonneg hv p.rig; have t3 := pad_nonneg hv p.top
  have t4 := pad_nonneg hv p.bot; have t5 := add_nonneg' hv
  unfold Par.inG
  cases a <;> geo

variable {p : Par} {q : Inp K} {fac : K} {m : Mem K}

/-- The values by array cell. -/
def byCell (p : Par) (V : Mem K) : Mem K := fun a x z => V a (x - ox p a) (z - oz p a)

omit [Field K] [LinearOrder K] [IsStrictOrderedRing K] in
theorem byCell_at (V : Mem K) (a : Arr) (i j : Int) : byCell p V a (i + ox p a) (j + oz p a) = V a i j := by
  unfold byCell; congr 1 <;> omega

omit [LinearOrder K] [IsStrictOrderedRing K] [Field K] in
theorem put5_spec (hv : Valid p) (V : Mem K) {ix iz : Int} (hi : 0 ≤ ix ∧ ix < p.nx) (hj : 0 ≤ iz ∧ iz < p.nz) (m : Mem K) :
    put5 p ix iz (V .rox ix iz) (V .roz ix iz) (V .l2m ix iz) (V .lam ix iz) (V .muu ix iz) m =
      some (upd (fun a x z => x = ix + ox p a ∧ z = iz + oz p a) (byCell p V) m) := by
  unfold put5
  have g := fun a => inG_model hv a hi hj
  have e1 : p.rPx = ox p .l2m := rfl
  have e2 : p.rPz = oz p .l2m := by geo
  have e3 : p.rTx = ox p .muu := rfl
  have e4 : p.rTz = oz p .muu := by geo
  have e5 : ox p .lam = ox p .l2m := rfl
  have e6 : oz p .lam = oz p .l2m := rfl
  have e7 : p.ioXx = ox p .rox := rfl
  have e8 : p.ioXz = oz p .rox := rfl
  have e9 : p.ioZx = ox p .roz := rfl
  have e10 : p.ioZz = oz p .roz := rfl
  have glam := g .lam
  rw [e5, e6] at glam
  rw [e1, e2, e3, e4, e7, e8, e9, e10, wr_ok (g .rox)]
  simp only [Option.bind_eq_bind, Option.bind_some]
  rw [wr_ok (g .roz)]
  simp only [Option.bind_some]
  rw [wr_ok (g .l2m)]
  simp only [Option.bind_some]
  rw [wr_ok glam]
  simp only [Option.bind_some]
  rw [wr_ok (g .muu)]
  rw [set_eq_upd (F := byCell p V) _ (byCell_at V .rox ix iz), set_eq_upd (F := byCell p V) _ (byCell_at V .roz ix iz), upd_upd,
    set_eq_upd (F := byCell p V) _ (byCell_at V .l2m ix iz), upd_upd,
    set_eq_upd (F := byCell p V) _
      (show byCell p V .lam (ix + ox p .l2m) (iz + oz p .l2m) = _ by rw [← e5, ← e6]; exact byCell_at V .lam ix iz), upd_upd,
    set_eq_upd (F := byCell p V) _ (byCell_at V .muu ix iz), upd_upd]
  congr 1
  apply upd_congr
  intro a x z
  cases a <;> simp [e5, e6]

omit [LinearOrder K] [IsStrictOrderedRing K] [Field K] in
theorem put3_spec (hv : Valid p) (V : Mem K) {ix iz : Int} (hi : 0 ≤ ix ∧ ix < p.nx) (hj : 0 ≤ iz ∧ iz < p.nz) (m : Mem K) :
    put3 p ix iz (V .rox ix iz) (V .roz ix iz) (V .l2m ix iz) m =
      some (upd (fun a x z => (a = .rox ∨ a = .roz ∨ a = .l2m) ∧ x = ix + ox p a ∧ z = iz + oz p a) (byCell p V) m) := by
  unfold put3
  have g := fun a => inG_model hv a hi hj
  have e1 : p.rPx = ox p .l2m := rfl
  have e2 : p.rPz = oz p .l2m := by geo
  have e7 : p.ioXx = ox p .rox := rfl
  have e8 : p.ioXz = oz p .rox := rfl
  have e9 : p.ioZx = ox p .roz := rfl
  have e10 : p.ioZz = oz p .roz := rfl
  rw [e1, e2, e7, e8, e9, e10, wr_ok (g .rox)]
  simp only [Option.bind_eq_bind, Option.bind_some]
  rw [wr_ok (g .roz)]
  simp only [Option.bind_some]
  rw [wr_ok (g .l2m)]
  rw [set_eq_upd (F := byCell p V) _ (byCell_at V .rox ix iz), set_eq_upd (F := byCell p V) _ (byCell_at V .roz ix iz), upd_upd,
    set_eq_upd (F := byCell p V) _ (byCell_at V .l2m ix iz), upd_upd]
  congr 1
  apply upd_congr
  intro a x z
  cases a <;> simp

omit [Field K] [LinearOrder K] [IsStrictOrderedRing K] in
theorem smp_ok {f : Int → Int → K} {i j : Int} (h0 : 0 ≤ i) (h1 : i < p.nx) (h2 : 0 ≤ j) (h3 : j < p.nz) :
    smp p f i j = some (f i j) := by
  unfold smp; rw [if_pos ⟨⟨h0, h1⟩, h2, h3⟩]

theorem right_in {i : Int} (h : i < p.nx - 1) : rightOf p i = i + 1 := by unfold rightOf; omega
theorem right_last : rightOf p (p.nx - 1) = p.nx - 1 := by unfold rightOf; omega
theorem below_in {j : Int} (h : j < p.nz - 1) : below p j = j + 1 := by unfold below; omega
theorem below_last : below p (p.nz - 1) = p.nz - 1 := by unfold below; omega

theorem half2 (a b : K) : 1 / 2 * (a + b) = (a + b) / 2 := by ring
theorem half1 (a : K) : (a + a) / 2 = a := by ring

section
variable (hv : Valid p) (hro : ∀ i j, 0 < q.ro i j)
include hv hro

omit hv in
theorem mu_nonneg (i j : Int) : 0 ≤ q.mu i j := mul_nonneg (sq_nonneg _) (le_of_lt (hro i j))

theorem elaRow_spec {ix : Int} (h0 : 0 ≤ ix) (h1 : ix < p.nx - 1) (m : Mem K) :
    elaRow p q fac ix m = some (upd (fun a x z => x = ix + ox p a ∧ z = p.nz - 1 + oz p a) (byCell p (raw p q fac)) m) := by
  have hz := hv.nz
  rw [← put5_spec hv (raw p q fac) ⟨h0, by omega⟩ ⟨by omega, by omega⟩]
  unfold elaRow
  dsimp only
  rw [smp_ok h0 (by omega) (by omega) (by omega), smp_ok h0 (by omega) (by omega) (by omega),
    smp_ok (by omega) (by omega) (by omega) (by omega), smp_ok h0 (by omega) (by omega) (by omega),
    smp_ok (by omega) (by omega) (by omega) (by omega)]
  simp only [Option.bind_eq_bind, Option.bind_some]
  have hm := mu_nonneg hro ix (p.nz - 1)
  congr 1
  · simp only [raw, right_in h1, half2]
  · simp only [raw, below_last, half1]
  · simp only [raw, Inp.l2m, sq]
  · simp only [raw, Inp.lam, Inp.l2m, Inp.mu, sq]
  · simp only [raw, muCode, roRight, below_last, right_in h1, lt_irrefl, and_false, if_false]
    rw [← harm4_eq hm]
    simp only [Inp.mu, sq]

theorem elaCol_spec {iz : Int} (h0 : 0 ≤ iz) (h1 : iz < p.nz - 1) (m : Mem K) :
    elaCol p q fac iz m = some (upd (fun a x z => x = p.nx - 1 + ox p a ∧ z = iz + oz p a) (byCell p (raw p q fac)) m) := by
  have hx := hv.nx
  rw [← put5_spec hv (raw p q fac) ⟨by omega, by omega⟩ ⟨h0, by omega⟩]
  unfold elaCol
  dsimp only
  rw [smp_ok (by omega) (by omega) (by omega) (by omega), smp_ok (by omega) (by omega) (by omega) (by omega),
    smp_ok (by omega) (by omega) (by omega) (by omega), smp_ok (by omega) (by omega) (by omega) (by omega),
    smp_ok (by omega) (by omega) (by omega) (by omega)]
  simp only [Option.bind_eq_bind, Option.bind_some]
  have hm := mu_nonneg hro (p.nx - 1) iz
  congr 1
  · simp only [raw, right_last, half1]
  · simp only [raw, below_in h1, half2]
  · simp only [raw, Inp.l2m, sq]
  · simp only [raw, Inp.lam, Inp.l2m, Inp.mu, sq]
  · simp only [raw, muCode, roRight, below_in h1, right_last, lt_irrefl, false_and, if_false]
    rw [← harm4_eq hm]
    simp only [Inp.mu, sq]

omit hro in
theorem elaCorner_spec (m : Mem K) :
    elaCorner p q fac m = some (upd (fun a x z => x = p.nx - 1 + ox p a ∧ z = p.nz - 1 + oz p a)
      (byCell p (raw p q fac)) m) := by
  have hx := hv.nx
  have hz := hv.nz
  rw [← put5_spec hv (raw p q fac) ⟨by omega, by omega⟩ ⟨by omega, by omega⟩]
  unfold elaCorner
  dsimp only
  rw [smp_ok (by omega) (by omega) (by omega) (by omega), smp_ok (by omega) (by omega) (by omega) (by omega),
    smp_ok (by omega) (by omega) (by omega) (by omega)]
  simp only [Option.bind_eq_bind, Option.bind_some]
  congr 1
  · simp only [raw, right_last, half1]
  · simp only [raw, below_last, half1]
  · simp only [raw, Inp.l2m, sq]
  · simp only [raw, Inp.lam, Inp.l2m, Inp.mu, sq]
  · simp only [raw, muCode, roRight, below_last, right_last, lt_irrefl, false_and, if_false]
    change _ = fac * harmonic (q.mu _ _) (q.mu _ _) (q.mu _ _) (q.mu _ _)
    rw [harmonic_same]
    simp only [Inp.mu, sq]

theorem elaPoint_spec {ix iz : Int} (g0 : 0 ≤ ix) (g1 : ix < p.nx - 1) (h0 : 0 ≤ iz) (h1 : iz < p.nz - 1) (m : Mem K) :
    elaPoint p q fac ix iz m = some (upd (fun a x z => x = ix + ox p a ∧ z = iz + oz p a) (byCell p (raw p q fac)) m) := by
  rw [← put5_spec hv (raw p q fac) ⟨by omega, by omega⟩ ⟨by omega, by omega⟩]
  unfold elaPoint
  dsimp only
  rw [smp_ok (by omega) (by omega) (by omega) (by omega), smp_ok (by omega) (by omega) (by omega) (by omega),
    smp_ok (by omega) (by omega) (by omega) (by omega), smp_ok (by omega) (by omega) (by omega) (by omega),
    smp_ok (by omega) (by omega) (by omega) (by omega), smp_ok (by omega) (by omega) (by omega) (by omega),
    smp_ok (by omega) (by omega) (by omega) (by omega), smp_ok (by omega) (by omega) (by omega) (by omega)]
  simp only [Option.bind_eq_bind, Option.bind_some]
  have hm := mu_nonneg hro ix iz
  congr 1
  · simp only [raw, right_in g1, half2]
  · simp only [raw, below_in h1, half2]
  · simp only [raw, Inp.l2m, sq]
  · simp only [raw, Inp.lam, Inp.l2m, Inp.mu, sq]
  · simp only [raw, muCode, roRight, below_in h1, right_in g1, g1, h1, and_self, if_true]
    rw [← harm4_eq hm]
    simp only [Inp.mu, sq]

/-- The elastic loops fill every model point of the five arrays and nothing else. -/
theorem elaFill_spec (m : Mem K) :
    elaFill p q fac m = some (upd (inModel p) (byCell p (raw p q fac)) m) := by
  have hx := hv.nx
  have hz := hv.nz
  unfold elaFill
  rw [loop1_spec (m := m) (T := fun _ _ _ => True) (F := byCell p (raw p q fac))
    (W := fun u a x z => x = u + ox p a ∧ z = p.nz - 1 + oz p a) (fun _ _ _ _ _ _ _ => trivial)
    (fun u h0 h1 m' _ _ => elaRow_spec hv hro h0 h1 m') m (fun _ _ _ _ => rfl) (fun _ _ _ => Or.inl rfl)]
  simp only [Option.bind_eq_bind, Option.bind_some]
  rw [loop1_spec (m := _) (T := fun _ _ _ => True) (F := byCell p (raw p q fac))
    (W := fun u a x z => x = p.nx - 1 + ox p a ∧ z = u + oz p a) (fun _ _ _ _ _ _ _ => trivial)
    (fun u h0 h1 m' _ _ => elaCol_spec hv hro h0 h1 m') _ (fun _ _ _ _ => rfl) (fun _ _ _ => Or.inl rfl)]
  simp only [Option.bind_some]
  rw [elaCorner_spec hv]
  simp only [Option.bind_some]
  rw [loop2_spec (F := byCell p (raw p q fac)) (W := fun u v a x z => x = u + ox p a ∧ z = v + oz p a) (fun _ _ _ => Iff.rfl)
    (fun u v h0 h1 h2 h3 m' _ _ => elaPoint_spec hv hro h0 h1 h2 h3 m')]
  rw [upd_upd, upd_upd, upd_upd]
  congr 1
  apply upd_congr
  intro a x z
  unfold inModel
  simp only [or_assoc]
  constructor
  · rintro (⟨u, v, h1, h2, h3, h4⟩ | ⟨h1, h2⟩ | ⟨u, h1, h2, h3, h4⟩ | ⟨u, h1, h2, h3, h4⟩) <;> omega
  · intro h
    by_cases c1 : x - ox p a < p.nx - 1
    · by_cases c2 : z - oz p a < p.nz - 1
      · exact Or.inl ⟨x - ox p a, z - oz p a, ⟨by omega, c1⟩, ⟨by omega, c2⟩, by omega, by omega⟩
      · exact Or.inr (Or.inr (Or.inr ⟨x - ox p a, by omega, c1, by omega, by omega⟩))
    · by_cases c2 : z - oz p a < p.nz - 1
      · exact Or.inr (Or.inr (Or.inl ⟨z - oz p a, by omega, c2, by omega, by omega⟩))
      · exact Or.inr (Or.inl ⟨by omega, by omega⟩)

end

section
variable (hv : Valid p)
include hv

theorem acoRow_spec {ix : Int} (h0 : 0 ≤ ix) (h1 : ix < p.nx - 1) (m : Mem K) :
    acoRow p q fac ix m = some (upd (fun a x z => (a = .rox ∨ a = .roz ∨ a = .l2m) ∧ x = ix + ox p a ∧ z = p.nz - 1 + oz p a)
      (byCell p (raw p q fac)) m) := by
  have hz := hv.nz
  rw [← put3_spec hv (raw p q fac) ⟨h0, by omega⟩ ⟨by omega, by omega⟩]
  unfold acoRow
  dsimp only
  rw [smp_ok h0 (by omega) (by omega) (by omega), smp_ok h0 (by omega) (by omega) (by omega),
    smp_ok (by omega) (by omega) (by omega) (by omega)]
  simp only [Option.bind_eq_bind, Option.bind_some]
  congr 1
  · simp only [raw, right_in h1, half2]
  · simp only [raw, below_last, half1]
  · simp only [raw, Inp.l2m, sq]

theorem acoCol_spec {iz : Int} (h0 : 0 ≤ iz) (h1 : iz < p.nz - 1) (m : Mem K) :
    acoCol p q fac iz m = some (upd (fun a x z => (a = .rox ∨ a = .roz ∨ a = .l2m) ∧ x = p.nx - 1 + ox p a ∧ z = iz + oz p a)
      (byCell p (raw p q fac)) m) := by
  have hx := hv.nx
  rw [← put3_spec hv (raw p q fac) ⟨by omega, by omega⟩ ⟨h0, by omega⟩]
  unfold acoCol
  dsimp only
  rw [smp_ok (by omega) (by omega) (by omega) (by omega), smp_ok (by omega) (by omega) (by omega) (by omega),
    smp_ok (by omega) (by omega) (by omega) (by omega)]
  simp only [Option.bind_eq_bind, Option.bind_some]
  congr 1
  · simp only [raw, right_last, half1]
  · simp only [raw, below_in h1, half2]
  · simp only [raw, Inp.l2m, sq]

theorem acoCorner_spec (m : Mem K) :
    acoCorner p q fac m = some (upd (fun a x z => (a = .rox ∨ a = .roz ∨ a = .l2m) ∧ x = p.nx - 1 + ox p a ∧
      z = p.nz - 1 + oz p a) (byCell p (raw p q fac)) m) := by
  have hx := hv.nx
  have hz := hv.nz
  rw [← put3_spec hv (raw p q fac) ⟨by omega, by omega⟩ ⟨by omega, by omega⟩]
  unfold acoCorner
  dsimp only
  rw [smp_ok (by omega) (by omega) (by omega) (by omega), smp_ok (by omega) (by omega) (by omega) (by omega)]
  simp only [Option.bind_eq_bind, Option.bind_some]
  congr 1
  · simp only [raw, right_last, half1]
  · simp only [raw, below_last, half1]
  · simp only [raw, Inp.l2m, sq]

theorem acoPoint_spec {ix iz : Int} (g0 : 0 ≤ ix) (g1 : ix < p.nx - 1) (h0 : 0 ≤ iz) (h1 : iz < p.nz - 1) (m : Mem K) :
    acoPoint p q fac ix iz m = some (upd (fun a x z => (a = .rox ∨ a = .roz ∨ a = .l2m) ∧ x = ix + ox p a ∧ z = iz + oz p a)
      (byCell p (raw p q fac)) m) := by
  rw [← put3_spec hv (raw p q fac) ⟨by omega, by omega⟩ ⟨by omega, by omega⟩]
  unfold acoPoint
  rw [smp_ok (by omega) (by omega) (by omega) (by omega), smp_ok (by omega) (by omega) (by omega) (by omega),
    smp_ok (by omega) (by omega) (by omega) (by omega), smp_ok (by omega) (by omega) (by omega) (by omega)]
  simp only [Option.bind_eq_bind, Option.bind_some]
  congr 1
  · simp only [raw, right_in g1, half2]
  · simp only [raw, below_in h1, half2]
  · simp only [raw, Inp.l2m, sq]

/-- The acoustic loops fill every model point of the three arrays and nothing else. -/
theorem acoFill_spec (m : Mem K) :
    acoFill p q fac m = some (upd (fun a x z => (a = .rox ∨ a = .roz ∨ a = .l2m) ∧ inModel p a x z)
      (byCell p (raw p q fac)) m) := by
  have hx := hv.nx
  have hz := hv.nz
  unfold acoFill
  rw [loop1_spec (m := m) (T := fun _ _ _ => True) (F := byCell p (raw p q fac))
    (W := fun u a x z => (a = .rox ∨ a = .roz ∨ a = .l2m) ∧ x = u + ox p a ∧ z = p.nz - 1 + oz p a) (fun _ _ _ _ _ _ _ => trivial)
    (fun u h0 h1 m' _ _ => acoRow_spec hv h0 h1 m') m (fun _ _ _ _ => rfl) (fun _ _ _ => Or.inl rfl)]
  simp only [Option.bind_eq_bind, Option.bind_some]
  rw [loop1_spec (m := _) (T := fun _ _ _ => True) (F := byCell p (raw p q fac))
    (W := fun u a x z => (a = .rox ∨ a = .roz ∨ a = .l2m) ∧ x = p.nx - 1 + ox p a ∧ z = u + oz p a) (fun _ _ _ _ _ _ _ => trivial)
    (fun u h0 h1 m' _ _ => acoCol_spec hv h0 h1 m') _ (fun _ _ _ _ => rfl) (fun _ _ _ => Or.inl rfl)]
  simp only [Option.bind_some]
  rw [acoCorner_spec hv]
  simp only [Option.bind_some]
  rw [loop2_spec (F := byCell p (raw p q fac))
    (W := fun u v a x z => (a = .rox ∨ a = .roz ∨ a = .l2m) ∧ x = u + ox p a ∧ z = v + oz p a) (fun _ _ _ => Iff.rfl)
    (fun u v h0 h1 h2 h3 m' _ _ => acoPoint_spec hv h0 h1 h2 h3 m')]
  rw [upd_upd, upd_upd, upd_upd]
  congr 1
  apply upd_congr
  intro a x z
  unfold inModel
  simp only [or_assoc]
  constructor
  · rintro (⟨u, v, h1, h2, h5, h3, h4⟩ | ⟨h5, h1, h2⟩ | ⟨u, h1, h2, h5, h3, h4⟩ | ⟨u, h1, h2, h5, h3, h4⟩) <;>
      exact ⟨h5, by omega, by omega⟩
  · rintro ⟨h5, h⟩
    by_cases c1 : x - ox p a < p.nx - 1
    · by_cases c2 : z - oz p a < p.nz - 1
      · exact Or.inl ⟨x - ox p a, z - oz p a, ⟨by omega, c1⟩, ⟨by omega, c2⟩, h5, by omega, by omega⟩
      · exact Or.inr (Or.inr (Or.inr ⟨x - ox p a, by omega, c1, h5, by omega, by omega⟩))
    · by_cases c2 : z - oz p a < p.nz - 1
      · exact Or.inr (Or.inr (Or.inl ⟨z - oz p a, by omega, c2, h5, by omega, by omega⟩))
      · exact Or.inr (Or.inl ⟨h5, by omega, by omega⟩)

end

end

end Verif.Med

import Mathlib.Data.Real.Sqrt
import Mathlib.Algebra.Order.Floor.Ring
import Mathlib.Tactic.Linarith
import Mathlib.Tactic.Ring
import Mathlib.Tactic.FieldSimp
import Mathlib.Tactic.Positivity

/-!
# Bodies in a model made by makemod: utils/diffraction.c, utils/elipse.c

A grid of `nx` columns of `nz` samples is a function of the column and the sample; a store outside it ends the program (`none`).
Numbers are real.  Not modelled: the random perturbation of an ellipse (`gradcp`, `gradcs`, `gradro` are zero), `randdf`; the
three grids (cp, cs, ro) are treated alike by the code and one of them is modelled.
-/

namespace Verif.Util

universe u
variable {K : Type u}

/-- `for (j=a; j<b; j++)`. -/
def upto (a b : Int) : List Int := (List.range (b - a).toNat).map fun i : Nat => a + (i : Int)

/-- `NINT` (utils/diffraction.c:5, utils/elipse.c:5); the cast truncates toward zero. -/
noncomputable def rnint (x : ℝ) : Int := if 0 < x then ⌊x + 1 / 2⌋ else ⌈x - 1 / 2⌉

/-- Cells of makesquare, relative to the centre (utils/diffraction.c:15-24); `/` truncates toward zero. -/
def square (w : Int) : List (Int × Int) :=
  (upto ((-w).tdiv 2) (w.tdiv 2)).flatMap fun j => (upto ((-w).tdiv 2) (w.tdiv 2)).map fun k => (j, k)

/-- Cells of makediamond (utils/diffraction.c:26-47). -/
def diamond (w : Int) : List (Int × Int) :=
  let id := w.tdiv 2
  [(-id, 0), (id, 0)] ++ ((upto (-id + 1) (0 + 1)).flatMap fun j => (upto (-(j + id)) (j + id + 1)).map fun k => (j, k)) ++
    (upto 1 (id - 1 + 1)).flatMap fun j => (upto (j - id) (-(j - id) + 1)).map fun k => (j, k)

/-- Cells of makecircle (utils/diffraction.c:49-61). -/
noncomputable def circle (w : Int) : List (Int × Int) :=
  let id := w.tdiv 2
  ((upto (-id) (id + 1)).flatMap fun j => (upto (-id) (id + 1)).map fun k => (j, k)).filter fun c =>
    decide (rnint (Real.sqrt ((c.1 * c.1 + c.2 * c.2 : Int) : ℝ)) ≤ id)

/-- The kind of body (`switch( type )`, utils/diffraction.c:78-89). -/
noncomputable def body (type w : Int) : List (Int × Int) :=
  if type = 1 then diamond w else if type = 2 then circle w else square w

/-- A store in the grid. -/
def put (nx nz : Int) (g : Int → Int → K) (ix iz : Int) (v : K) : Option (Int → Int → K) :=
  if 0 ≤ ix ∧ ix < nx ∧ 0 ≤ iz ∧ iz < nz then some fun i k => if i = ix ∧ k = iz then v else g i k else none

/-- `med[ix+j][iz+k] = value` for all cells of a body (utils/diffraction.c:20, 32-43, 57). -/
def paint (nx nz : Int) (cells : List (Int × Int)) (ix iz : Int) (v : K) (g : Int → Int → K) : Option (Int → Int → K) :=
  cells.foldlM (fun g c => put nx nz g (ix + c.1) (iz + c.2) v) g

/-- diffraction for one grid (utils/diffraction.c:64-91): the points are a list of grid positions (`NINT(x[i]/dx)`,
`NINT(z[i]/dz)`) with their value; `interface` and `zp` have `nx` elements, which the first two stores use. -/
noncomputable def diffraction (nx nz type w : Int) (pts : List (Int × Int × K)) (g : Int → Int → K) : Option (Int → Int → K) :=
  pts.foldlM (fun g p => if 0 ≤ p.1 ∧ p.1 < nx then paint nx nz (body type w) p.1 p.2.1 p.2.2 g else none) g

/-- The cells of an ellipse (utils/elipse.c:38-44), `r1` and `r2` the vertical and horizontal radius. -/
noncomputable def ellipseCells (nx nz : Int) (dx dz r1 r2 : ℝ) (ixm izm : Int) : List (Int × Int) :=
  let izr := rnint (r1 / dz)
  let ixr := rnint (r2 / dx)
  ((upto (max (ixm - ixr) 0) (min (ixm + ixr) (nx - 1) + 1)).flatMap fun ix =>
    (upto (max (izm - izr) 0) (min (izm + izr) (nz - 1) + 1)).map fun iz => (ix, iz)).filter fun c =>
      decide (Real.sqrt (((c.1 - ixm : Int) : ℝ) * dx / r2 * (((c.1 - ixm : Int) : ℝ) * dx / r2) +
        ((c.2 - izm : Int) : ℝ) * dz / r1 * (((c.2 - izm : Int) : ℝ) * dz / r1)) ≤ 1)

/-- One point of elipse (utils/elipse.c:33-50); `interface` and `zp` have `nx` elements. -/
noncomputable def ellipse (nx nz : Int) (dx dz r1 r2 : ℝ) (ixm izm : Int) (v : K) (g : Int → Int → K) : Option (Int → Int → K) :=
  if 0 ≤ ixm ∧ ixm < nx then paint nx nz (ellipseCells nx nz dx dz r1 r2 ixm izm) 0 0 v g else none

/-! ## Lemmas -/

theorem mem_upto {a b i : Int} : i ∈ upto a b ↔ a ≤ i ∧ i < b := by
  unfold upto
  rw [List.mem_map]
  constructor
  · rintro ⟨n, hn, rfl⟩
    rw [List.mem_range] at hn
    omega
  · rintro ⟨h1, h2⟩
    exact ⟨(i - a).toNat, by rw [List.mem_range]; omega, by omega⟩

theorem mem_prod {A : List Int} {B : Int → List Int} {j k : Int} :
    (j, k) ∈ (A.flatMap fun j => (B j).map fun k => (j, k)) ↔ j ∈ A ∧ k ∈ B j := by
  simp only [List.mem_flatMap, List.mem_map, Prod.mk.injEq]
  constructor
  · rintro ⟨a, h1, b, h2, rfl, rfl⟩; exact ⟨h1, h2⟩
  · rintro ⟨h1, h2⟩; exact ⟨j, h1, k, h2, rfl, rfl⟩

theorem tdiv_neg_two (w : Int) (h : 0 ≤ w) : (-w).tdiv 2 = -(w / 2) := by
  rw [Int.neg_tdiv, Int.tdiv_eq_ediv_of_nonneg h]

theorem paint_spec (nx nz : Int) (cells : List (Int × Int)) (ix iz : Int) (v : K) (g : Int → Int → K)
    (h : ∀ c ∈ cells, 0 ≤ ix + c.1 ∧ ix + c.1 < nx ∧ 0 ≤ iz + c.2 ∧ iz + c.2 < nz) :
    ∃ g', paint nx nz cells ix iz v g = some g' ∧ ∀ i k, ((i - ix, k - iz) ∈ cells → g' i k = v) ∧
      ((i - ix, k - iz) ∉ cells → g' i k = g i k) := by
  induction cells generalizing g with
  | nil => exact ⟨g, rfl, by simp⟩
  | cons c cells ih =>
    obtain ⟨g', h1, h2⟩ := ih (fun i k => if i = ix + c.1 ∧ k = iz + c.2 then v else g i k) fun d hd => h d (by simp [hd])
    refine ⟨g', ?_, fun i k => ⟨fun hm => ?_, fun hm => ?_⟩⟩
    · unfold paint at *
      rw [List.foldlM_cons, put, if_pos (h c (by simp))]
      exact h1
    · by_cases hd : (i - ix, k - iz) ∈ cells
      · exact (h2 i k).1 hd
      · rw [(h2 i k).2 hd]
        rcases List.mem_cons.mp hm with e | e
        · rw [← e, if_pos ⟨by dsimp only; omega, by dsimp only; omega⟩]
        · exact absurd e hd
    · rw [(h2 i k).2 fun e => hm (by simp [e])]
      rw [if_neg]
      rintro ⟨rfl, rfl⟩
      apply hm
      rw [show ((ix + c.1 - ix, iz + c.2 - iz) : Int × Int) = c by ext <;> dsimp only <;> omega]
      simp

theorem paint_none (nx nz : Int) (cells : List (Int × Int)) (ix iz : Int) (v : K) (g : Int → Int → K)
    (h : ∃ c ∈ cells, ¬ (0 ≤ ix + c.1 ∧ ix + c.1 < nx ∧ 0 ≤ iz + c.2 ∧ iz + c.2 < nz)) :
    paint nx nz cells ix iz v g = none := by
  induction cells generalizing g with
  | nil => obtain ⟨c, hc, -⟩ := h; simp at hc
  | cons c cells ih =>
    unfold paint at *
    rw [List.foldlM_cons]
    by_cases hc : 0 ≤ ix + c.1 ∧ ix + c.1 < nx ∧ 0 ≤ iz + c.2 ∧ iz + c.2 < nz
    · rw [put, if_pos hc]
      obtain ⟨d, hd, hn⟩ := h
      rcases List.mem_cons.mp hd with rfl | hd
      · exact absurd hc hn
      · exact ih _ ⟨d, hd, hn⟩
    · rw [put, if_neg hc]; rfl

/-- Rounding to the nearest integer, for numbers that are not negative. -/
theorem rnint_le {x : ℝ} (hx : 0 ≤ x) (n : Int) (hn : 0 ≤ n) : rnint x ≤ n ↔ x < n + 1 / 2 := by
  unfold rnint
  split
  · rw [show ⌊x + 1 / 2⌋ ≤ n ↔ ⌊x + 1 / 2⌋ < n + 1 by omega, Int.floor_lt]
    push_cast
    constructor <;> intro h <;> linarith
  · have : x = 0 := by linarith
    subst this
    have h2 : (0 : ℝ) ≤ n := by exact_mod_cast hn
    constructor
    · intro; linarith
    · intro
      rw [Int.ceil_le]
      linarith

end Verif.Util

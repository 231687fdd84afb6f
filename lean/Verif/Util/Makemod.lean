import Verif.Util.Interface
import Verif.Base.Write

/-!
# C60, C61: filling the gridded model (utils/grid.c, utils/gridabove.c, utils/linearint.c, utils/makemod.c)

The grid of `nx` columns with `nz` cells is one block of memory (alloc2float(nz, nx), makemod.c:333): cell `j` of column `i` is element `i*nz+j`.  Only
the grid of P-wave velocities is modelled; the grids of the S-wave velocities and densities, when present, are filled by the same statements with their
own values.
-/

namespace Verif.Util
open Verif

/-- linearint (linearint.c:15-24): depth index of the interface in the columns `minx … maxx-1`. -/
def linearint (dz : ℚ) (minx maxx : Int) (iface : Buf ℚ) (zp : Buf Int) : Option (Buf Int) :=
  forIM minx maxx (fun i (zp : Buf Int) => do
    let v ← iface.rd i
    let d ← quot v dz
    zp.wr i (max (NINT d) 0)) zp

/-- Cells `lo … hi-1` of column `i` (the loops over `j`). -/
def fillColumn (nz : Nat) (i lo hi : Int) (v : Int → ℚ) (g : Buf ℚ) : Option (Buf ℚ) :=
  forIM lo hi (fun j (g : Buf ℚ) => g.wr (i * nz + j) (v j)) g

/-- grid with `optgrad=3` (grid.c:73-79; also 138-145 and 209-217). -/
def grid3 (nz : Nat) (zp : Buf Int) (cp1 : Int → ℚ) (minx maxx : Int) (gradcp : ℚ) (g : Buf ℚ) : Option (Buf ℚ) :=
  forIM minx maxx (fun i (g : Buf ℚ) => do
    let z ← zp.rd i
    fillColumn nz i z nz (fun j => cp1 i + (j - z) * gradcp) g) g

/-- grid with `optgrad=1` (grid.c:34-51; also 92-112 and 157-180).  gridabove with `optgrad=1` (gridabove.c:32-49) is the same code. -/
def grid1 (nz : Nat) (zp : Buf Int) (cp0 cp1 : Int → ℚ) (minx maxx : Int) (gradlen gradcp dz : ℚ) (g : Buf ℚ) : Option (Buf ℚ) :=
  let n := NINT (gradlen / dz) - 1
  forIM minx maxx (fun i (g : Buf ℚ) => do
    let delt ← quot (cp1 i - cp0 i) n
    let z ← zp.rd i
    let k0 : Int := if z = 0 then 1 else 0
    let gradend := min (z + n) nz
    let g ← fillColumn nz i z (gradend + 1) (fun j => cp0 i + delt * (k0 + (j - z))) g
    fillColumn nz i (gradend + 1) nz (fun j => cp1 i + (j - (gradend + 1)) * gradcp) g) g

/-- gridabove with `optgrad=3` (gridabove.c:69-75). -/
def gridabove3 (nz : Nat) (zp : Buf Int) (cp1 : Int → ℚ) (minx maxx : Int) (gradcp : ℚ) (g : Buf ℚ) : Option (Buf ℚ) :=
  forIM minx maxx (fun i (g : Buf ℚ) => do
    let z ← zp.rd i
    fillColumn nz i 0 z (fun j => cp1 i + j * gradcp) g) g

/-! ## Single columns -/

private theorem cell_inj {nz : Nat} {i i' j j' : Int} (h : 0 ≤ j) (hj : j < nz) (h' : 0 ≤ j') (hj' : j' < nz) (e : i * nz + j = i' * nz + j') : i = i' ∧ j = j' := by
  have hi : i = i' := by
    by_contra hne
    rcases lt_or_gt_of_ne hne with hlt | hlt
    · have : (i + 1) * (nz : Int) ≤ i' * nz := mul_le_mul_of_nonneg_right (by omega) (by omega)
      rw [add_mul] at this; omega
    · have : (i' + 1) * (nz : Int) ≤ i * nz := mul_le_mul_of_nonneg_right (by omega) (by omega)
      rw [add_mul] at this; omega
  subst hi
  exact ⟨rfl, by omega⟩

private theorem cell_ok {nz nx : Nat} {i j : Int} (hi : 0 ≤ i) (hi2 : i < nx) (h : 0 ≤ j) (hj : j < nz) : 0 ≤ i * nz + j ∧ i * nz + j < ((nx * nz : Nat) : Int) := by
  have h1 : 0 ≤ i * (nz : Int) := mul_nonneg hi (by omega)
  have h2 : (i + 1) * (nz : Int) ≤ nx * nz := mul_le_mul_of_nonneg_right (by omega) (by omega)
  rw [add_mul] at h2
  push_cast
  omega

private theorem fillColumn_spec {nz nx : Nat} {i lo hi : Int} (hi0 : 0 ≤ i) (hi2 : i < nx) (hlo : 0 ≤ lo) (hhi : hi ≤ nz) (v : Int → ℚ) {g : Buf ℚ} (hg : g.size = nx * nz) :
    ∃ g', fillColumn nz i lo hi v g = some g' ∧ g'.size = nx * nz ∧
      ∀ i' j : Int, 0 ≤ j → j < nz → g'.val (i' * nz + j) = if i' = i ∧ lo ≤ j ∧ j < hi then v j else g.val (i' * nz + j) := by
  unfold fillColumn forIM
  obtain ⟨b, e, h1, h2⟩ := forNM_inv (n := (hi - lo).toNat) (body := fun k (g : Buf ℚ) => (fun (j : Int) (g : Buf ℚ) => g.wr (i * nz + j) (v j)) (lo + k) g) (s := g)
    (fun k b => b.size = nx * nz ∧ ∀ i' j : Int, 0 ≤ j → j < nz → b.val (i' * nz + j) = if i' = i ∧ lo ≤ j ∧ j < lo + k then v j else g.val (i' * nz + j))
    ⟨hg, fun i' j _ _ => by rw [if_neg (by omega)]⟩ (by
      rintro k hk b ⟨h1, h2⟩
      beta_reduce
      have hc := cell_ok (nz := nz) (nx := nx) (j := lo + k) hi0 hi2 (by omega) (by omega)
      unfold Buf.wr
      rw [if_pos ⟨hc.1, by rw [h1]; exact hc.2⟩]
      refine ⟨_, rfl, h1, fun i' j hj hj2 => ?_⟩
      dsimp only
      by_cases e : i' * (nz : Int) + j = i * nz + (lo + k)
      · obtain ⟨rfl, rfl⟩ := cell_inj hj hj2 (by omega) (by omega) e
        rw [if_pos rfl, if_pos (by omega)]
      · rw [if_neg e, h2 i' j hj hj2]
        by_cases c : i' = i ∧ lo ≤ j ∧ j < lo + k
        · rw [if_pos c, if_pos (by omega)]
        · rw [if_neg c, if_neg (by
            rintro ⟨rfl, c2, c3⟩
            exact c ⟨rfl, c2, by
              by_contra h
              exact e (by rw [show j = lo + k from by omega])⟩)])
  refine ⟨b, e, h1, fun i' j hj hj2 => ?_⟩
  rw [h2 i' j hj hj2]
  by_cases c : i' = i ∧ lo ≤ j ∧ j < hi
  · rw [if_pos c, if_pos (by omega)]
  · rw [if_neg c, if_neg (by omega)]

/-- Columns filled one after the other. -/
private theorem columns_spec {nz nx : Nat} {minx maxx : Int} {body : Int → Buf ℚ → Option (Buf ℚ)} {w : Int → Int → Option ℚ}
    (hb : ∀ (i : Int) (g : Buf ℚ), minx ≤ i → i < maxx → g.size = nx * nz → ∃ g', body i g = some g' ∧ g'.size = nx * nz ∧
      ∀ i' j : Int, 0 ≤ j → j < nz → g'.val (i' * nz + j) = if i' = i then (w i j).getD (g.val (i' * nz + j)) else g.val (i' * nz + j))
    {g : Buf ℚ} (hg : g.size = nx * nz) : ∃ g', forIM minx maxx body g = some g' ∧ g'.size = nx * nz ∧
      ∀ i j : Int, 0 ≤ j → j < nz → g'.val (i * nz + j) = if minx ≤ i ∧ i < maxx then (w i j).getD (g.val (i * nz + j)) else g.val (i * nz + j) := by
  unfold forIM
  obtain ⟨b, e, h1, h2⟩ := forNM_inv (n := (maxx - minx).toNat) (body := fun k (g : Buf ℚ) => body (minx + k) g) (s := g)
    (fun k b => b.size = nx * nz ∧ ∀ i j : Int, 0 ≤ j → j < nz → b.val (i * nz + j) = if minx ≤ i ∧ i < minx + k then (w i j).getD (g.val (i * nz + j)) else g.val (i * nz + j))
    ⟨hg, fun i' j _ _ => by rw [if_neg (by omega)]⟩ (by
      rintro k hk b ⟨h1, h2⟩
      obtain ⟨b', e, c1, c2⟩ := hb (minx + k) b (by omega) (by omega) h1
      refine ⟨b', e, c1, fun i j hj hj2 => ?_⟩
      rw [c2 i j hj hj2, h2 i j hj hj2]
      by_cases e2 : i = minx + k
      · rw [if_pos e2, if_neg (by omega), if_pos (by omega), e2]
      · rw [if_neg e2]
        by_cases c : minx ≤ i ∧ i < minx + k
        · rw [if_pos c, if_pos (by omega)]
        · rw [if_neg c, if_neg (by omega)])
  refine ⟨b, e, h1, fun i j hj hj2 => ?_⟩
  rw [h2 i j hj hj2]
  by_cases c : minx ≤ i ∧ i < maxx
  · rw [if_pos c, if_pos (by omega)]
  · rw [if_neg c, if_neg (by omega)]

private theorem rdI_some {α : Type} {b : Buf α} {i : Int} (h : 0 ≤ i) (h2 : i < b.size) : b.rd i = some (b.val i) := by
  unfold Buf.rd; rw [if_pos ⟨h, h2⟩]

/-! ## The grid below and above an interface -/

/-- **C60.** Without a gradient zone, filling below the interface gives every cell of the chosen columns at or below the depth index of the interface the
velocity of the layer plus the gradient times the distance to the interface, and leaves all other cells. -/
theorem grid_below {nz nx : Nat} {zp : Buf Int} {cp1 : Int → ℚ} {minx maxx : Int} (h0 : 0 ≤ minx) (hm : maxx ≤ nx) (hs : zp.size = nx)
    (hz : ∀ i, minx ≤ i → i < maxx → 0 ≤ zp.val i) (gradcp : ℚ) {g : Buf ℚ} (hg : g.size = nx * nz) :
    ∃ g', grid3 nz zp cp1 minx maxx gradcp g = some g' ∧ g'.size = nx * nz ∧
      ∀ i j : Int, 0 ≤ j → j < nz → g'.val (i * nz + j) = if minx ≤ i ∧ i < maxx ∧ zp.val i ≤ j then cp1 i + (j - zp.val i) * gradcp else g.val (i * nz + j) := by
  obtain ⟨g', e, h1, h2⟩ := columns_spec (nz := nz) (nx := nx) (minx := minx) (maxx := maxx) (w := fun i j => if zp.val i ≤ j then some (cp1 i + (j - zp.val i) * gradcp) else none)
    (body := fun i (g : Buf ℚ) => (do
      let z ← zp.rd i
      fillColumn nz i z nz (fun j => cp1 i + (j - z) * gradcp) g)) (fun i g hi hi2 hg => by
      simp only [Option.bind_eq_bind]
      rw [rdI_some (by omega) (by omega), Option.bind_some]
      obtain ⟨g', e, c1, c2⟩ := fillColumn_spec (nz := nz) (nx := nx) (i := i) (lo := zp.val i) (hi := nz) (by omega) (by omega) (hz i hi hi2) (le_refl _)
        (fun j => cp1 i + (j - zp.val i) * gradcp) hg
      refine ⟨g', e, c1, fun i' j hj hj2 => ?_⟩
      rw [c2 i' j hj hj2]
      by_cases a : i' = i
      · rw [if_pos a]
        by_cases b : zp.val i ≤ j
        · rw [if_pos ⟨a, b, hj2⟩, if_pos b]; rfl
        · rw [if_neg (by omega), if_neg b]; rfl
      · rw [if_neg a, if_neg (by omega)]) hg
  refine ⟨g', e, h1, fun i j hj hj2 => ?_⟩
  rw [h2 i j hj hj2]
  by_cases a : minx ≤ i ∧ i < maxx
  · rw [if_pos a]
    by_cases b : zp.val i ≤ j
    · rw [if_pos b, if_pos ⟨a.1, a.2, b⟩]; rfl
    · rw [if_neg b, if_neg (by omega)]; rfl
  · rw [if_neg a, if_neg (by omega)]

/-- **C60.** Filling above the interface (`above=1`) without a gradient zone: the cells above the depth index of the interface, if that index does not lie
below the model. -/
theorem grid_above_partial {nz nx : Nat} {zp : Buf Int} {cp1 : Int → ℚ} {minx maxx : Int} (h0 : 0 ≤ minx) (hm : maxx ≤ nx) (hs : zp.size = nx)
    (hz : ∀ i, minx ≤ i → i < maxx → zp.val i ≤ nz) (gradcp : ℚ) {g : Buf ℚ} (hg : g.size = nx * nz) :
    ∃ g', gridabove3 nz zp cp1 minx maxx gradcp g = some g' ∧ g'.size = nx * nz ∧
      ∀ i j : Int, 0 ≤ j → j < nz → g'.val (i * nz + j) = if minx ≤ i ∧ i < maxx ∧ j < zp.val i then cp1 i + j * gradcp else g.val (i * nz + j) := by
  obtain ⟨g', e, h1, h2⟩ := columns_spec (nz := nz) (nx := nx) (minx := minx) (maxx := maxx) (w := fun i j => if j < zp.val i then some (cp1 i + j * gradcp) else none)
    (body := fun i (g : Buf ℚ) => (do
      let z ← zp.rd i
      fillColumn nz i 0 z (fun j => cp1 i + j * gradcp) g)) (fun i g hi hi2 hg => by
      simp only [Option.bind_eq_bind]
      rw [rdI_some (by omega) (by omega), Option.bind_some]
      obtain ⟨g', e, c1, c2⟩ := fillColumn_spec (nz := nz) (nx := nx) (i := i) (lo := 0) (hi := zp.val i) (by omega) (by omega) (le_refl _) (hz i hi hi2)
        (fun j => cp1 i + j * gradcp) hg
      refine ⟨g', e, c1, fun i' j hj hj2 => ?_⟩
      rw [c2 i' j hj hj2]
      by_cases a : i' = i
      · rw [if_pos a]
        by_cases b : j < zp.val i
        · rw [if_pos ⟨a, hj, b⟩, if_pos b]; rfl
        · rw [if_neg (by omega), if_neg b]; rfl
      · rw [if_neg a, if_neg (by omega)]) hg
  refine ⟨g', e, h1, fun i j hj hj2 => ?_⟩
  rw [h2 i j hj hj2]
  by_cases a : minx ≤ i ∧ i < maxx
  · rw [if_pos a]
    by_cases b : j < zp.val i
    · rw [if_pos b, if_pos ⟨a.1, a.2, b⟩]; rfl
    · rw [if_neg b, if_neg (by omega)]; rfl
  · rw [if_neg a, if_neg (by omega)]

/-- **C60.** With a linear gradient zone of `n+1 ≥ 2` cells that ends inside the model, below an interface that is not at the surface: the velocity runs
linearly from the upper value at the interface to the lower value `n` cells below it, and continues with the layer gradient. -/
theorem grid_gradient_partial {nz nx : Nat} {zp : Buf Int} {cp0 cp1 : Int → ℚ} {minx maxx : Int} (h0 : 0 ≤ minx) (hm : maxx ≤ nx) (hs : zp.size = nx) {gradlen gradcp dz : ℚ}
    {n : Int} (hn : NINT (gradlen / dz) = n + 1) (hn1 : 1 ≤ n) (hz : ∀ i, minx ≤ i → i < maxx → 0 < zp.val i ∧ zp.val i + n < nz) {g : Buf ℚ} (hg : g.size = nx * nz) :
    ∃ g', grid1 nz zp cp0 cp1 minx maxx gradlen gradcp dz g = some g' ∧ g'.size = nx * nz ∧
      ∀ i j : Int, 0 ≤ j → j < nz → g'.val (i * nz + j) =
        if minx ≤ i ∧ i < maxx ∧ zp.val i ≤ j then
          if j ≤ zp.val i + n then cp0 i + (cp1 i - cp0 i) * (j - zp.val i) / n else cp1 i + (j - (zp.val i + n + 1)) * gradcp
        else g.val (i * nz + j) := by
  have hnq : (n : ℚ) ≠ 0 := by
    have : (1 : ℚ) ≤ n := by exact_mod_cast hn1
    linarith
  unfold grid1
  rw [hn, show n + 1 - 1 = n from by omega]
  obtain ⟨g', e, h1, h2⟩ := columns_spec (nz := nz) (nx := nx) (minx := minx) (maxx := maxx) (w := fun i j => if zp.val i ≤ j then
      some (if j ≤ zp.val i + n then cp0 i + (cp1 i - cp0 i) * (j - zp.val i) / n else cp1 i + (j - (zp.val i + n + 1)) * gradcp) else none)
    (body := fun i (g : Buf ℚ) => (do
      let delt ← quot (cp1 i - cp0 i) n
      let z ← zp.rd i
      let k0 : Int := if z = 0 then 1 else 0
      let gradend := min (z + n) nz
      let g ← fillColumn nz i z (gradend + 1) (fun j => cp0 i + delt * (k0 + (j - z))) g
      fillColumn nz i (gradend + 1) nz (fun j => cp1 i + (j - (gradend + 1)) * gradcp) g)) (fun i g hi hi2 hg => by
      obtain ⟨z1, z2⟩ := hz i hi hi2
      simp only [Option.bind_eq_bind]
      rw [quot_some hnq, Option.bind_some, rdI_some (by omega) (by omega), Option.bind_some, if_neg (by omega), show min (zp.val i + n) (nz : Int) = zp.val i + n from by omega]
      obtain ⟨g1, e1, c1, c2⟩ := fillColumn_spec (nz := nz) (nx := nx) (i := i) (lo := zp.val i) (hi := zp.val i + n + 1) (by omega) (by omega) (by omega) (by omega)
        (fun j => cp0 i + (cp1 i - cp0 i) / n * ((0 : Int) + (j - zp.val i))) hg
      obtain ⟨g2, e2, d1, d2⟩ := fillColumn_spec (nz := nz) (nx := nx) (i := i) (lo := zp.val i + n + 1) (hi := nz) (by omega) (by omega) (by omega) (by omega)
        (fun j => cp1 i + (j - ((zp.val i + n + 1 : Int) : ℚ)) * gradcp) c1
      refine ⟨g2, ?_, d1, fun i' j hj hj2 => ?_⟩
      · push_cast at e1 e2 ⊢
        rw [e1, Option.bind_some]
        exact e2
      · rw [d2 i' j hj hj2, c2 i' j hj hj2]
        by_cases a : i' = i
        · rw [if_pos a]
          by_cases b : zp.val i ≤ j
          · rw [if_pos b]
            by_cases c : j ≤ zp.val i + n
            · rw [if_neg (by omega), if_pos (by omega), if_pos c]
              rw [Option.getD_some]; push_cast; ring
            · rw [if_pos (by omega), if_neg c, Option.getD_some]; push_cast; ring
          · rw [if_neg (by omega), if_neg (by omega), if_neg b]; rfl
        · rw [if_neg a, if_neg (by omega), if_neg (by omega)]) hg
  refine ⟨g', e, h1, fun i j hj hj2 => ?_⟩
  rw [h2 i j hj hj2]
  by_cases a : minx ≤ i ∧ i < maxx
  · rw [if_pos a]
    by_cases b : zp.val i ≤ j
    · rw [if_pos b, if_pos (show minx ≤ i ∧ i < maxx ∧ zp.val i ≤ j from ⟨a.1, a.2, b⟩)]; rfl
    · rw [if_neg b, if_neg (by omega)]; rfl
  · rw [if_neg a, if_neg (by omega)]

/-- Contents of a grid of two columns. -/
private def show2 (nz : Nat) (g : Option (Buf ℚ)) : Option (List ℚ) := g.map fun g => (List.range (2 * nz)).map fun k => g.val k

/-- **C60 violated.** A gradient zone reaching below the model: cell `nz` of the column, which is the first cell of the next column, is overwritten
(`j <= gradend` with `gradend = MIN(ngrad, nz)`, grid.c:41-42). -/
theorem grid_gradient_spills : show2 3 (grid1 3 ⟨2, fun _ => 2⟩ (fun _ => 10) (fun _ => 30) 0 1 3 0 1 ⟨6, fun _ => 7⟩) = some [7, 7, 10, 20, 7, 7] := by decide +kernel

/-- **C60 violated.** In the last column the same write lands outside the grid. -/
theorem grid_gradient_outside : grid1 3 ⟨2, fun _ => 2⟩ (fun _ => 10) (fun _ => 30) 1 2 3 0 1 ⟨6, fun _ => 7⟩ |>.isNone := by decide +kernel

/-- **C60 violated.** Below an interface at the surface the zone starts with `k = 1` (grid.c:38) and overshoots the lower velocity (40 instead of 30). -/
theorem grid_gradient_overshoots : show2 4 (grid1 4 ⟨2, fun _ => 0⟩ (fun _ => 10) (fun _ => 30) 0 2 3 0 1 ⟨8, fun _ => 7⟩) = some [20, 30, 40, 30, 20, 30, 40, 30] := by decide +kernel

/-- **C60 violated.** An interface that (after polynomial or spline interpolation) lies below the model: filling above it writes outside the grid. -/
theorem grid_above_outside : (gridabove3 3 ⟨2, fun _ => 4⟩ (fun _ => 10) 0 2 0 ⟨6, fun _ => 7⟩).isNone := by decide +kernel

/-- Non-vacuity of the theorems above. -/
example : show2 4 (grid3 4 ⟨2, fun i => i + 1⟩ (fun i => 10 + i) 0 2 2 ⟨8, fun _ => 7⟩) = some [7, 10, 12, 14, 7, 7, 11, 13] := by decide +kernel
example : show2 4 (gridabove3 4 ⟨2, fun i => i + 1⟩ (fun i => 10 + i) 0 2 2 ⟨8, fun _ => 7⟩) = some [10, 7, 7, 7, 11, 13, 7, 7] := by decide +kernel
example : show2 5 (grid1 5 ⟨2, fun _ => 1⟩ (fun _ => 10) (fun _ => 30) 0 2 3 5 1 ⟨10, fun _ => 7⟩) = some [7, 10, 20, 30, 30, 7, 10, 20, 30, 30] ∧ NINT (3 / 1) = 2 + 1 := by decide +kernel

/-! ## The layers of a model -/

/-- An interface of type `def` with one velocity (makemod.c:417-468). -/
structure Layer where
  nxp : Nat
  x : Nat → ℚ
  z : Nat → ℚ
  cp : ℚ
  grad : ℚ

/-- One pass of the loop over the interfaces for `intt=def`, `poly=0`, `nvel=1`, `above=0` and no gradient zone (makemod.c:464, 554-559, 632-633;
with `nvel=1` the velocity is the same in all columns, interpolation.c:203-212).  The state is `nminx`, `nmaxx`, `zp` and the grid. -/
def addLayer (nx nz : Nat) (dx dz : ℚ) (L : Layer) (s : Int × Int × Buf Int × Buf ℚ) : Option (Int × Int × Buf Int × Buf ℚ) := do
  let r ← linearInterface L.x L.z L.nxp nx dx s.1 s.2.1 ⟨nx, fun _ => 0⟩
  let zp ← linearint dz r.1 r.2.1 r.2.2 s.2.2.1
  let g ← grid3 nz zp (fun _ => L.cp) r.1 r.2.1 L.grad s.2.2.2
  pure (r.1, r.2.1, zp, g)

/-- All interfaces in order, after the homogeneous background (makemod.c:371-392, 406-650). -/
def makemod (nx nz : Nat) (dx dz cp0 : ℚ) (Ls : List Layer) (mem : Int → ℚ) : Option (Buf ℚ) := do
  let g ← grid3 nz ⟨nx, fun _ => 0⟩ (fun _ => cp0) 0 nx 0 ⟨nx * nz, mem⟩
  let s ← Ls.foldlM (fun s L => addLayer nx nz dx dz L s) (0, (nx : Int), ⟨nx, fun _ => 0⟩, g)
  pure s.2.2.2

/-- The depth index `d` of a layer in column `i`: the depth of the line between the neighbouring points, rounded to a cell and not above the surface. -/
def Layer.At (L : Layer) (dx dz : ℚ) (i : Nat) (d : Int) : Prop :=
  ∃ k a b : Nat, k + 1 < L.nxp ∧ L.x k = a * dx ∧ L.x (k + 1) = b * dx ∧ a ≤ i ∧ i ≤ b ∧ d = max (NINT (lineAt a b (L.z k) (L.z (k + 1)) i / dz)) 0

/-- At least two points on grid columns in increasing order, the first inside the model. -/
def Layer.Ok (L : Layer) (nx : Nat) (dx : ℚ) : Prop :=
  ∃ g : Nat → Nat, 2 ≤ L.nxp ∧ (∀ i, i + 1 < L.nxp → g i < g (i + 1)) ∧ g 0 < nx ∧ ∀ i, L.x i = g i * dx

private theorem linearint_spec {dz : ℚ} (hd : dz ≠ 0) {minx maxx : Int} {nx : Nat} (h0 : 0 ≤ minx) (hm : maxx ≤ nx) {iface : Buf ℚ} (hi : iface.size = nx) {zp : Buf Int}
    (hz : zp.size = nx) : ∃ zp', linearint dz minx maxx iface zp = some zp' ∧ zp'.size = nx ∧
      ∀ i, minx ≤ i → i < maxx → zp'.val i = max (NINT (iface.val i / dz)) 0 := by
  unfold linearint forIM
  obtain ⟨b, e, h1, h2⟩ := forNM_inv (n := (maxx - minx).toNat) (body := fun k (zp : Buf Int) => (fun i (zp : Buf Int) => (do
    let v ← iface.rd i
    let d ← quot v dz
    zp.wr i (max (NINT d) 0))) (minx + k) zp) (s := zp)
    (fun k b => b.size = nx ∧ ∀ i, minx ≤ i → i < minx + k → b.val i = max (NINT (iface.val i / dz)) 0)
    ⟨hz, fun i a b => by omega⟩ (by
      rintro k hk b ⟨h1, h2⟩
      simp only [Option.bind_eq_bind]
      rw [rdI_some (by omega) (by omega), Option.bind_some, quot_some hd, Option.bind_some]
      unfold Buf.wr
      rw [if_pos ⟨by omega, by omega⟩]
      refine ⟨_, rfl, h1, fun i a c => ?_⟩
      dsimp only
      by_cases e : i = minx + k
      · rw [if_pos e, e]
      · rw [if_neg e]; exact h2 i a (by omega))
  exact ⟨b, e, h1, fun i a c => h2 i a (by omega)⟩

private theorem segment {g : Nat → Nat} {n : Nat} (hn : 2 ≤ n) {i : Nat} (h0 : g 0 ≤ i) (h1 : i ≤ g (n - 1)) : ∃ k, k + 1 < n ∧ g k ≤ i ∧ i ≤ g (k + 1) := by
  classical
  have hex : ∃ k, k + 1 < n ∧ i ≤ g (k + 1) := ⟨n - 2, by omega, by rw [show n - 2 + 1 = n - 1 from by omega]; exact h1⟩
  have hs := Nat.find_spec hex
  have hmin := fun m hm => Nat.find_min hex (m := m) hm
  generalize Nat.find hex = m at hs hmin
  refine ⟨m, hs.1, ?_, hs.2⟩
  by_cases hm : m = 0
  · rw [hm]; exact h0
  · by_contra h
    exact hmin (m - 1) (by omega) ⟨by omega, by rw [show m - 1 + 1 = m from by omega]; omega⟩

/-- One layer changes exactly the cells at or below it. -/
private theorem addLayer_spec {nx nz : Nat} {dx dz : ℚ} (hdx : 0 < dx) (hdz : 0 < dz) {L : Layer} (hL : L.Ok nx dx) {s : Int × Int × Buf Int × Buf ℚ} (hz : s.2.2.1.size = nx)
    (hg : s.2.2.2.size = nx * nz) : ∃ s', addLayer nx nz dx dz L s = some s' ∧ s'.2.2.1.size = nx ∧ s'.2.2.2.size = nx * nz ∧
      ∀ i j : Nat, i < nx → j < nz → (∃ d, L.At dx dz i d ∧ d ≤ j ∧ s'.2.2.2.val (i * nz + j) = L.cp + (j - d) * L.grad) ∨
        ((∀ d, L.At dx dz i d → (j : Int) < d) ∧ s'.2.2.2.val (i * nz + j) = s.2.2.2.val (i * nz + j)) := by
  obtain ⟨nxp, x, z, cp, grad⟩ := L
  obtain ⟨g, h2, hinc, h0, hx⟩ := hL
  dsimp only at h2 hinc hx
  obtain rfl : x = fun i => g i * dx := funext hx
  obtain ⟨b, e, b1, b2, b3⟩ := linear_interface_partial (z := z) hdx h2 hinc h0 s.1 s.2.1 (out := ⟨nx, fun _ => 0⟩) rfl
  obtain ⟨zp, ez, z1, z2⟩ := linearint_spec (ne_of_gt hdz) (minx := g 0) (maxx := ((min (g (nxp - 1) + 1) nx : Nat) : Int)) (nx := nx) (by omega) (by omega) b1 hz
  obtain ⟨g', eg, g1, g2⟩ := grid_below (nz := nz) (cp1 := fun _ => cp) (minx := g 0) (maxx := ((min (g (nxp - 1) + 1) nx : Nat) : Int)) (nx := nx) (by omega) (by omega) z1
    (fun i a c => by rw [z2 i a c]; omega) grad hg
  have hmono : ∀ j i, i < j → j < nxp → g i < g j := by
    intro j
    induction j with
    | zero => intro i h; omega
    | succ j ih =>
      intro i h hj
      by_cases e : i = j
      · subst e; exact hinc _ hj
      · exact lt_trans (ih i (by omega) (by omega)) (hinc j hj)
  have hcast : ∀ {a b : Nat}, (a : ℚ) * dx = b * dx → a = b := fun h => by
    have := mul_right_cancel₀ (ne_of_gt hdx) h
    exact_mod_cast this
  refine ⟨((g 0 : Int), ((min (g (nxp - 1) + 1) nx : Nat) : Int), zp, g'), ?_, z1, g1, fun i j hi hj => ?_⟩
  · unfold addLayer
    dsimp only
    rw [e]
    simp only [Option.bind_eq_bind, Option.bind_some]
    rw [ez, Option.bind_some, eg]; rfl
  · dsimp only
    rw [g2 i j (by omega) (by omega)]
    -- the depth of the interface in a covered column
    have hat : ∀ d, Layer.At ⟨nxp, fun i => g i * dx, z, cp, grad⟩ dx dz i d → g 0 ≤ i ∧ i ≤ g (nxp - 1) ∧ d = zp.val i := by
      rintro d ⟨k, a, c, k1, k2, k3, k4, k5, k6⟩
      dsimp only at k1 k2 k3 k6
      obtain rfl := hcast k2
      obtain rfl := hcast k3
      have l1 : g 0 ≤ g k := by
        rcases Nat.eq_zero_or_pos k with h | h
        · rw [h]
        · exact le_of_lt (hmono _ _ h (by omega))
      have l2 : g (k + 1) ≤ g (nxp - 1) := by
        by_cases h : k + 1 = nxp - 1
        · rw [h]
        · exact le_of_lt (hmono _ _ (by omega) (by omega))
      refine ⟨by omega, by omega, ?_⟩
      rw [z2 i (by omega) (by omega), b2 k i k1 k4 k5 hi]
      exact k6
    by_cases hc : g 0 ≤ i ∧ i ≤ g (nxp - 1)
    · obtain ⟨k, k1, k2, k3⟩ := segment h2 hc.1 hc.2
      have hd : Layer.At ⟨nxp, fun i => g i * dx, z, cp, grad⟩ dx dz i (zp.val i) :=
        ⟨k, g k, g (k + 1), k1, rfl, rfl, k2, k3, by rw [z2 i (by omega) (by omega), b2 k i k1 k2 k3 hi]⟩
      by_cases hj2 : zp.val i ≤ j
      · left
        exact ⟨zp.val i, hd, hj2, by rw [if_pos ⟨by omega, by omega, hj2⟩]; push_cast; ring⟩
      · right
        refine ⟨fun d h => by rw [(hat d h).2.2]; omega, by rw [if_neg (by omega)]⟩
    · right
      refine ⟨fun d h => absurd ⟨(hat d h).1, (hat d h).2.1⟩ hc, by rw [if_neg (by omega)]⟩

/-- **C61.** A model of any number of piecewise linear interfaces with points on grid columns: the program stays inside its arrays, and every cell has the
velocity (plus gradient times depth below the interface) of the last listed interface that lies at or above the cell in its column, or the background velocity
if there is none. -/
theorem makemod_layers_partial {nx nz : Nat} {dx dz : ℚ} (hdx : 0 < dx) (hdz : 0 < dz) (cp0 : ℚ) {Ls : List Layer} (hL : ∀ L ∈ Ls, L.Ok nx dx) (mem : Int → ℚ) :
    ∃ G, makemod nx nz dx dz cp0 Ls mem = some G ∧ ∀ i j : Nat, i < nx → j < nz →
      ((∀ L ∈ Ls, ∀ d, L.At dx dz i d → (j : Int) < d) ∧ G.val (i * nz + j) = cp0) ∨
      ∃ (A B : List Layer) (L : Layer) (d : Int), Ls = A ++ L :: B ∧ L.At dx dz i d ∧ d ≤ j ∧ (∀ L' ∈ B, ∀ d', L'.At dx dz i d' → (j : Int) < d') ∧
        G.val (i * nz + j) = L.cp + (j - d) * L.grad := by
  obtain ⟨g0, e0, s0, v0⟩ := grid_below (nz := nz) (nx := nx) (zp := ⟨nx, fun _ => 0⟩) (cp1 := fun _ => cp0) (minx := 0) (maxx := nx) (le_refl _) (le_refl _) rfl
    (fun i _ _ => le_refl _) 0 (g := ⟨nx * nz, mem⟩) rfl
  have key : ∀ (Ms A : List Layer) (s : Int × Int × Buf Int × Buf ℚ), (∀ L ∈ Ms, L.Ok nx dx) → s.2.2.1.size = nx → s.2.2.2.size = nx * nz →
      (∀ i j : Nat, i < nx → j < nz → ((∀ L ∈ A, ∀ d, L.At dx dz i d → (j : Int) < d) ∧ s.2.2.2.val (i * nz + j) = cp0) ∨
        ∃ (A' B : List Layer) (L : Layer) (d : Int), A = A' ++ L :: B ∧ L.At dx dz i d ∧ d ≤ j ∧ (∀ L' ∈ B, ∀ d', L'.At dx dz i d' → (j : Int) < d') ∧
          s.2.2.2.val (i * nz + j) = L.cp + (j - d) * L.grad) →
      ∃ s', Ms.foldlM (fun s L => addLayer nx nz dx dz L s) s = some s' ∧
        ∀ i j : Nat, i < nx → j < nz → ((∀ L ∈ A ++ Ms, ∀ d, L.At dx dz i d → (j : Int) < d) ∧ s'.2.2.2.val (i * nz + j) = cp0) ∨
          ∃ (A' B : List Layer) (L : Layer) (d : Int), A ++ Ms = A' ++ L :: B ∧ L.At dx dz i d ∧ d ≤ j ∧ (∀ L' ∈ B, ∀ d', L'.At dx dz i d' → (j : Int) < d') ∧
            s'.2.2.2.val (i * nz + j) = L.cp + (j - d) * L.grad := by
    intro Ms
    induction Ms with
    | nil => intro A s _ _ _ h; exact ⟨s, rfl, by simpa using h⟩
    | cons M Ms ih =>
      intro A s hok hz hg h
      obtain ⟨s1, e1, z1, g1, v1⟩ := addLayer_spec hdx hdz (hok M (by simp)) hz hg
      obtain ⟨s', e', v'⟩ := ih (A ++ [M]) s1 (fun L hL => hok L (by simp [hL])) z1 g1 (fun i j hi hj => by
        rcases v1 i j hi hj with ⟨d, a1, a2, a3⟩ | ⟨a1, a2⟩
        · exact Or.inr ⟨A, [], M, d, rfl, a1, a2, by simp, a3⟩
        · rcases h i j hi hj with ⟨c1, c2⟩ | ⟨A', B, L, d, c1, c2, c3, c4, c5⟩
          · refine Or.inl ⟨fun L hL d => ?_, a2.trans c2⟩
            rcases List.mem_append.1 hL with hL | hL
            · exact c1 L hL d
            · rw [List.mem_singleton.1 hL]; exact a1 d
          · refine Or.inr ⟨A', B ++ [M], L, d, by rw [c1]; simp, c2, c3, fun L' hL' d' => ?_, a2.trans c5⟩
            rcases List.mem_append.1 hL' with hL' | hL'
            · exact c4 L' hL' d'
            · rw [List.mem_singleton.1 hL']; exact a1 d')
      refine ⟨s', ?_, by simpa using v'⟩
      rw [List.foldlM_cons, e1]
      exact e'
  obtain ⟨s', e', v'⟩ := key Ls [] (0, (nx : Int), ⟨nx, fun _ => 0⟩, g0) hL rfl s0 (fun i j hi hj => Or.inl ⟨by simp, by
    dsimp only
    rw [v0 i j (by omega) (by omega), if_pos ⟨by omega, by omega, by dsimp only; omega⟩]; simp⟩)
  refine ⟨s'.2.2.2, ?_, by simpa using v'⟩
  unfold makemod
  rw [e0]
  simp only [Option.bind_eq_bind, Option.bind_some]
  rw [e']; rfl

/-- Non-vacuity: a flat and a dipping interface in a model of three columns and four cells. -/
private def flat : Layer := ⟨2, fun i => (2 * i : Nat) * 5, fun _ => 2, 2000, 0⟩
private def dip : Layer := ⟨2, fun i => ((i + 1 : Nat) : ℚ) * 5, fun i => if i = 0 then 3 else 1, 3000, 10⟩
example : (makemod 3 4 5 1 1500 [flat, dip] fun _ => 0).map (fun G => (List.range 12).map fun k => G.val k) =
    some [1500, 1500, 2000, 2000, 1500, 1500, 2000, 3000, 1500, 3000, 3010, 3020] := by decide +kernel
example : ∀ L ∈ [flat, dip], L.Ok 3 5 := by
  intro L hL
  rcases List.mem_cons.1 hL with rfl | hL
  · exact ⟨fun i => 2 * i, by decide, fun i _ => by dsimp only; omega, by decide, fun i => rfl⟩
  · rcases List.mem_cons.1 hL with rfl | hL
    · exact ⟨fun i => i + 1, by decide, fun i _ => by dsimp only; omega, by decide, fun i => rfl⟩
    · simp at hL

end Verif.Util

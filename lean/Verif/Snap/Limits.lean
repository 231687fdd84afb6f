import Verif.Snap.Props
import Mathlib.Algebra.BigOperators.Group.List.Basic
import Mathlib.Algebra.BigOperators.Group.Finset.Basic
import Mathlib.Algebra.Order.AbsoluteValue.Basic

/-! # Snapshots and beams: the range asked for, borders, beams, and where they are wrong -/

namespace Verif.Snap

open Verif

theorem NINT_pos {q : ℚ} (h : 0 ≤ q) : NINT q = ⌊q + 1 / 2⌋ := by
  unfold NINT
  split
  · rfl
  · have : q = 0 := le_antisymm (by linarith) h
    subst this
    norm_num

/-- The range asked for, cut off at the sides of the model, is in the model, with each end at the nearest grid point. -/
theorem snaPar_range (a : Ask) (p : Med.Par) (hp : p.nx = a.nx ∧ p.nz = a.nz) (hnx : 1 ≤ a.nx) (hnz : 1 ≤ a.nz) (hdx : 0 < a.dx) (hdz : 0 < a.dz)
    (hx : a.xsnap1 ≤ a.xsnap2) (hz : a.zsnap1 ≤ a.zsnap2) (s : Sna) (h : snaPar a = some s) :
    s.Ok p ∧ (a.x0 ≤ a.xsnap1 → a.xsnap1 ≤ a.x0 + (a.nx - 1) * a.dx → |a.x0 + s.x1 * a.dx - a.xsnap1| ≤ a.dx / 2) ∧
      (a.x0 ≤ a.xsnap2 → a.xsnap2 ≤ a.x0 + (a.nx - 1) * a.dx → |a.x0 + s.x2 * a.dx - a.xsnap2| ≤ a.dx / 2) ∧
      (a.z0 ≤ a.zsnap1 → a.zsnap1 ≤ a.z0 + (a.nz - 1) * a.dz → |a.z0 + s.z1 * a.dz - a.zsnap1| ≤ a.dz / 2) ∧
      (a.z0 ≤ a.zsnap2 → a.zsnap2 ≤ a.z0 + (a.nz - 1) * a.dz → |a.z0 + s.z2 * a.dz - a.zsnap2| ≤ a.dz / 2) := by
  unfold snaPar at h
  split at h
  swap
  · cases h
  cases h
  have lo : ∀ x0 d v : ℚ, ∀ n : ℤ, 1 ≤ n → 0 < d → 0 ≤ (min (max x0 v) (x0 + (n - 1) * d) - x0) / d := by
    intro x0 d v n hn hd
    have : (1 : ℚ) ≤ n := by exact_mod_cast hn
    refine div_nonneg ?_ hd.le
    have : x0 ≤ min (max x0 v) (x0 + (n - 1) * d) := le_min (le_max_left _ _) (by nlinarith)
    linarith
  have hi : ∀ x0 d v : ℚ, ∀ n : ℤ, 0 < d → NINT ((min (max x0 v) (x0 + (n - 1) * d) - x0) / d) < n := by
    intro x0 d v n hd
    have : NINT ((min (max x0 v) (x0 + (n - 1) * d) - x0) / d) ≤ n - 1 := by
      apply Recv.NINT_le
      rw [div_le_iff₀ hd]
      push_cast
      have := min_le_right (max x0 v) (x0 + (n - 1) * d)
      linarith
    omega
  have mono : ∀ x0 d v w : ℚ, ∀ n : ℤ, 1 ≤ n → 0 < d → v ≤ w → NINT ((min (max x0 v) (x0 + (n - 1) * d) - x0) / d) ≤
      NINT ((min (max x0 w) (x0 + (n - 1) * d) - x0) / d) := by
    intro x0 d v w n hn hd hvw
    rw [NINT_pos (lo x0 d v n hn hd), NINT_pos (lo x0 d w n hn hd)]
    refine Int.floor_le_floor ?_
    have : min (max x0 v) (x0 + (n - 1) * d) ≤ min (max x0 w) (x0 + (n - 1) * d) := min_le_min (max_le_max le_rfl hvw) le_rfl
    have := div_le_div_of_nonneg_right (sub_le_sub_right this x0) hd.le
    linarith
  have near : ∀ x0 d v : ℚ, ∀ n : ℤ, 0 < d → x0 ≤ v → v ≤ x0 + (n - 1) * d →
      |x0 + (NINT ((min (max x0 v) (x0 + (n - 1) * d) - x0) / d) : ℚ) * d - v| ≤ d / 2 := by
    intro x0 d v n hd h1 h2
    rw [max_eq_right h1, min_eq_left h2]
    have hn := Recv.NINT_near ((v - x0) / d)
    have e : x0 + (NINT ((v - x0) / d) : ℚ) * d - v = (NINT ((v - x0) / d) - (v - x0) / d) * d := by field_simp; ring
    rw [e, abs_mul, abs_of_pos hd]
    nlinarith
  refine ⟨⟨Recv.NINT_nonneg (lo _ _ _ _ hnx hdx), mono _ _ _ _ _ hnx hdx hx, by rw [hp.1]; exact hi _ _ _ _ hdx,
    Recv.NINT_nonneg (lo _ _ _ _ hnz hdz), mono _ _ _ _ _ hnz hdz hz, by rw [hp.2]; exact hi _ _ _ _ hdz,
    lt_of_lt_of_le one_pos (le_max_left _ _), lt_of_lt_of_le one_pos (le_max_left _ _), rfl, rfl⟩,
    near _ _ _ _ hdx, near _ _ _ _ hdx, near _ _ _ _ hdz, near _ _ _ _ hdz⟩

section
variable {K : Type} [Field K]

/-- The first trace of a pressure snapshot is not the pressure at its position. -/
theorem snapshot_wrong_column (p : Med.Par) (o : Ok p) (g : ℚ × ℚ) (s : Sna) (h : s.Ok p) (typ : Kind → Bool) (sdx : K) (isnap : ℤ) :
    ∃ (f : Wave (K := K)) (t : Trace (K := K)) (ts : List (Trace (K := K))) (v : K) (vs : List K),
      snapshot p g s false typ f sdx isnap .p = some (t :: ts) ∧ t.gx = 1000 * (g.1 + s.x1 * g.2) ∧ t.samples = v :: vs ∧
      v ≠ wanted p f sdx .p s.x1 s.z1 := by
  have c1 : ∃ n, s.nx.toNat = n + 1 := ⟨s.nx.toNat - 1, by
    have := Int.tdiv_nonneg (by have := h.x12; omega : 0 ≤ s.x2 - s.x1) h.skipx.le
    have := h.nx; omega⟩
  have c2 : ∃ n, s.nz.toNat = n + 1 := ⟨s.nz.toNat - 1, by
    have := Int.tdiv_nonneg (by have := h.z12; omega : 0 ≤ s.z2 - s.z1) h.skipz.le
    have := h.nz; omega⟩
  obtain ⟨n1, e1⟩ := c1
  obtain ⟨n2, e2⟩ := c2
  let f : Wave (K := K) := ⟨fun _ => 0, fun _ => 0, fun i => if i = (p.rPx + s.x1) * p.naz + (p.rPz + s.z1) then 1 else 0, fun _ => 0, fun _ => 0⟩
  have e := snapshot_values_partial p o g s h typ f sdx isnap .p
  rw [e1, List.range_succ_eq_map, List.map_cons] at e
  simp only [e2, List.range_succ_eq_map, List.map_cons] at e
  refine ⟨f, _, _, _, _, e, by simp, rfl, ?_⟩
  · have nz : 0 < p.naz := by
      have t := o.pad p.top; have b := o.pad p.bot; have ad := o.add; have := o.hz; have := o.ord
      unfold Med.Par.naz; omega
    have ne : ¬ (p.rPx + (s.x1 + 1)) * p.naz + (p.rPz + s.z1) = (p.rPx + s.x1) * p.naz + (p.rPz + s.z1) := by
      intro h'
      have : (p.rPx + (s.x1 + 1)) * p.naz = (p.rPx + s.x1) * p.naz + p.naz := by ring
      omega
    simp only [wanted, Nat.cast_zero, zero_mul, add_zero, f]
    rw [if_neg ne, if_pos trivial]
    exact zero_ne_one

/-! ## Borders -/

omit [Field K] in
/-- The array of a kind that is written as it is. -/
def plain (f : Wave (K := K)) : Kind → Option (ℤ → K)
  | .p => some f.tzz
  | .tzz => some f.tzz
  | .txx => some f.txx
  | _ => none

/-- A snapshot of the stresses with borders is the whole array, unless `txz` is written and `vz` is not. -/
theorem withbnd_values (p : Med.Par) (hx : 0 < p.nax) (hz : 0 < p.naz) (g : ℚ × ℚ) (s : Sna) (typ : Kind → Bool) (ht : typ .vz = true ∨ typ .txz = false)
    (f : Wave (K := K)) (sdx : K) (isnap : ℤ) (k : Kind) (a : ℤ → K) (hk : plain f k = some a) :
    ∃ ts, snapshot p g s true typ f sdx isnap k = some ts ∧
      ts.map Trace.samples = (List.range p.nax.toNat).map fun i : ℕ => (List.range p.naz.toNat).map fun j : ℕ => a (i * p.naz + j) := by
  have lp : ∀ n : ℤ, 0 < n → loop 0 (n - 1) 1 = (List.range n.toNat).map fun k : ℕ => (k : ℤ) := fun n hn => by
    rw [loop_count one_pos (by omega), sub_zero, Int.tdiv_one, show 1 + (n - 1) = n by ring]
    simp
  have T : ∀ i : ℕ, (i : ℤ) < p.nax → trace p f sdx k i i 0 (p.naz - 1) 1 p.naz = some ((List.range p.naz.toNat).map fun j : ℕ => a (i * p.naz + j)) := by
    intro i hi
    unfold trace
    rw [lp _ hz, mapM_some (g := fun iz : ℤ => a (i * p.naz + iz)), List.map_map]
    · change (if _ then none else _) = _
      rw [List.length_map, List.length_range, if_neg (by omega), List.take_of_length_le (by simp)]
      rfl
    · intro iz h
      obtain ⟨j, hj, rfl⟩ := List.mem_map.1 h
      have := List.mem_range.1 hj
      have G : p.inG i j := ⟨⟨by omega, hi⟩, by omega, by omega⟩
      unfold plain at hk
      cases k <;> simp only [reduceCtorEq] at hk <;> (cases hk; simp only [value]; exact at_in G)
  have S : startRow p (withBorders p s true) true typ k = 0 := by
    unfold startRow plain at *
    cases k <;> simp only [reduceCtorEq] at hk <;> rcases ht with h | h <;> simp [h]
  unfold snapshot
  dsimp only
  rw [S]
  unfold withBorders
  simp only [if_true, true_and]
  rw [lp _ hx, zipIdx_range_map, mapM_some (g := fun t : ℤ × ℕ => (⟨t.2 + 1, isnap * p.nax + t.2 + 1,
    if p.lef % 2 = 0 then 1000 * (g.1 - p.npml * g.2) else 1000 * (g.1 + t.1 * g.2),
    (List.range p.naz.toNat).map fun j : ℕ => a (t.1 * p.naz + j)⟩ : Trace (K := K)))]
  · refine ⟨_, rfl, ?_⟩
    rw [List.map_map, List.map_map]
    rfl
  · intro t h
    obtain ⟨i, hi, rfl⟩ := List.mem_map.1 h
    dsimp only
    rw [T i (by have := List.mem_range.1 hi; omega)]
    rfl

/-- With borders and an absorbing left side all traces carry the same position. -/
theorem withbnd_same_position (p : Med.Par) (g : ℚ × ℚ) (s : Sna) (typ : Kind → Bool) (f : Wave (K := K)) (sdx : K) (isnap : ℤ) (k : Kind)
    (hl : p.lef % 2 = 0) (ts : List (Trace (K := K))) (h : snapshot p g s true typ f sdx isnap k = some ts) :
    ∀ t ∈ ts, t.gx = 1000 * (g.1 - p.npml * g.2) := by
  have key : ∀ (l : List (ℤ × ℕ)) (F : ℤ × ℕ → Option (List K)) (c : ℚ) (A B : ℤ × ℕ → ℤ) (ts : List (Trace (K := K))),
      l.mapM (fun t => do let vs ← F t; pure (⟨A t, B t, c, vs⟩ : Trace (K := K))) = some ts → ∀ t ∈ ts, t.gx = c := by
    intro l F c A B
    induction l with
    | nil => intro ts h; cases h; simp
    | cons x l ih =>
      intro ts h
      rw [List.mapM_cons] at h
      obtain ⟨y, h1, h⟩ := Option.bind_eq_some_iff.1 h
      obtain ⟨ys, h2, h⟩ := Option.bind_eq_some_iff.1 h
      cases h
      obtain ⟨vs, -, h1⟩ := Option.bind_eq_some_iff.1 h1
      cases h1
      intro t ht
      rcases List.mem_cons.1 ht with rfl | ht
      · rfl
      · exact ih ys h2 t ht
  unfold snapshot at h
  simp only [if_true, true_and, if_pos hl] at h
  exact key _ _ _ _ _ _ h

/-- With borders the vertical velocity is read one element beyond the end of its array. -/
theorem withbnd_vz_out (p : Med.Par) (hx : 0 < p.nax) (hz : 0 < p.naz) (g : ℚ × ℚ) (s : Sna) (typ : Kind → Bool) (f : Wave (K := K)) (sdx : K)
    (isnap : ℤ) : snapshot p g s true typ f sdx isnap .vz = none := by
  unfold snapshot withBorders
  simp only [if_true]
  rw [loop_count one_pos (by omega), sub_zero, Int.tdiv_one, show 1 + (p.nax - 1) = p.nax by ring, zipIdx_range_map]
  refine mapM_none (x := (p.nax - 1, (p.nax - 1).toNat)) (List.mem_map.2 ⟨(p.nax - 1).toNat, List.mem_range.2 (by omega), ?_⟩) ?_
  · have : (((p.nax - 1).toNat : ℕ) : ℤ) = p.nax - 1 := Int.toNat_of_nonneg (by omega)
    rw [this]; simp
  · have T : trace p f sdx .vz (p.nax - 1) (p.nax - 1) (-1) (p.naz - 1) 1 p.naz = none := by
      unfold trace
      have : (loop (-1) (p.naz - 1) 1).mapM (fun iz => value p f sdx .vz (p.nax - 1) (p.nax - 1) iz) = none := by
        rw [loop_count one_pos (by omega), Int.tdiv_one]
        refine mapM_none (x := p.naz - 1) (List.mem_map.2 ⟨p.naz.toNat, List.mem_range.2 (by omega), ?_⟩) ?_
        · rw [Int.toNat_of_nonneg hz.le]; ring
        · simp only [value, at_]
          have : (p.nax - 1) * p.naz + (p.naz - 1 + 1) = p.nax * p.naz := by ring
          rw [this, if_neg (by omega)]
      rw [this]; rfl
    have e : startRow p { s with nz := p.naz, z1 := 0, z2 := p.naz - 1, skipdz := 1, nx := p.nax, x1 := 0, x2 := p.nax - 1, skipdx := 1 } true typ .vz = -1 := rfl
    dsimp only
    rw [e, T]; rfl

/-- With borders and `vz` or `txz`, the horizontal velocity is read before the begin of its array. -/
theorem withbnd_vx_out (p : Med.Par) (hx : 0 < p.nax) (hz : 0 < p.naz) (g : ℚ × ℚ) (s : Sna) (typ : Kind → Bool) (ht : typ .vz = true ∨ typ .txz = true)
    (f : Wave (K := K)) (sdx : K) (isnap : ℤ) : snapshot p g s true typ f sdx isnap .vx = none := by
  unfold snapshot withBorders
  simp only [if_true]
  rw [loop_count one_pos (by omega), sub_zero, Int.tdiv_one, show 1 + (p.nax - 1) = p.nax by ring, zipIdx_range_map]
  refine mapM_none (x := (0, 0)) (List.mem_map.2 ⟨0, List.mem_range.2 (by omega), by simp⟩) ?_
  have T : trace p f sdx .vx 0 0 (-1) (p.naz - 1) 1 p.naz = none := by
    unfold trace
    have : (loop (-1) (p.naz - 1) 1).mapM (fun iz => value p f sdx .vx 0 0 iz) = none := by
      rw [loop_count one_pos (by omega), Int.tdiv_one]
      refine mapM_none (x := -1) (List.mem_map.2 ⟨0, List.mem_range.2 (by omega), by simp⟩) ?_
      simp only [value, at_]
      rw [if_neg (by omega)]
    rw [this]; rfl
  have e : startRow p { s with nz := p.naz, z1 := 0, z2 := p.naz - 1, skipdz := 1, nx := p.nax, x1 := 0, x2 := p.nax - 1, skipdx := 1 } true typ .vx = -1 := by
    unfold startRow
    rcases ht with h | h <;> simp [h]
  dsimp only
  rw [e, T]; rfl

/-! ## Beams -/

section
variable [LinearOrder K]

omit [LinearOrder K] in
theorem foldlM_add {α : Type} {F : ℕ → α} {st : (ℤ → K) → α → Option (ℤ → K)} {c : ℕ → ℤ → K} : ∀ (n : ℕ) (b : ℤ → K),
    (∀ j < n, ∀ b, st b (F j) = some fun m => b m + c j m) →
    ((List.range n).map F).foldlM st b = some fun m => b m + ∑ j ∈ Finset.range n, c j m
  | 0, b, _ => by simp
  | n + 1, b, h => by
    rw [List.range_succ, List.map_append, List.foldlM_append, foldlM_add n b fun j hj b => h j (by omega) b]
    change (List.foldlM st _ [F n]) = _
    rw [List.foldlM_cons, h n (by omega)]
    change some _ = _
    congr 1
    funext m
    rw [Finset.sum_range_succ, add_assoc]

/-- What the beam sums: the field at the pressure point; the rotation at the corner down and right of it. -/
def wantedBeam (p : Med.Par) (f : Wave (K := K)) (sdx : K) (k : Kind) (gx gz : ℤ) : K :=
  if k = .ss then wanted p f sdx .ss (gx + 1) (gz + 1) else wanted p f sdx k gx gz

omit [LinearOrder K] in
theorem beamValue_wanted {p : Med.Par} (o : Ok p) (f : Wave (K := K)) (sdx : K) (k : Kind) (hk : k ≠ .dxvx ∧ k ≠ .dzvz) {x z : ℤ} (hx : 0 ≤ x)
    (hx' : x < p.nx) (hz : 0 ≤ z) (hz' : z < p.nz) : beamValue p f sdx k (x + p.ioPx) (z + p.ioPx) =
      some (wantedBeam p f sdx k (x - p.pad p.lef) (z - p.pad p.top - p.add)) := by
  have l := o.pad p.lef; have r := o.pad p.rig; have t := o.pad p.top; have b := o.pad p.bot; have ad := o.add
  have o1 := o.even; have o2 := o.ord
  have ex : x + p.ioPx = p.rPx + (x - p.pad p.lef) := by unfold Med.Par.rPx; ring
  have ez : z + p.ioPx = p.rPz + (z - p.pad p.top - p.add) := by unfold Med.Par.rPz Med.Par.ioPz Med.Par.ioPx; ring
  have G : ∀ c d : ℤ, 0 ≤ c → c ≤ 1 → 0 ≤ d → d ≤ 1 → ∀ i j : ℤ, -1 ≤ i → i ≤ 2 → -1 ≤ j → j ≤ 2 →
      p.inG (p.rPx + (x - p.pad p.lef + c) + i) (p.rPz + (z - p.pad p.top - p.add + d) + j) := by
    intro c d _ _ _ _ i j _ _ _ _
    unfold Med.Par.inG Med.Par.nax Med.Par.naz Med.Par.rPx Med.Par.rPz Med.Par.ioPx Med.Par.ioPz
    omega
  rw [ex, ez]
  have V0 : value p f sdx k (p.rPx + (x - p.pad p.lef)) (p.rPx + (x - p.pad p.lef) + 1) (p.rPz + (z - p.pad p.top - p.add)) = _ :=
    value_at f sdx k (fun i j h1 h2 h3 h4 => by have := G 0 0 (by omega) (by omega) (by omega) (by omega) i j h1 h2 h3 h4; simpa using this)
  have V1 := value_at (p := p) f sdx .ss (gx := x - p.pad p.lef + 1) (gz := z - p.pad p.top - p.add + 1) (G 1 1 (by omega) (by omega) (by omega) (by omega))
  generalize x - p.pad p.lef = X at *
  generalize z - p.pad p.top - p.add = Z at *
  unfold wantedBeam
  cases k
  case ss =>
    rw [if_pos rfl, ← V1]
    simp only [beamValue, value]
    rw [← add_assoc, ← add_assoc, add_sub_cancel_right, add_sub_cancel_right]
  case dxvx => exact absurd rfl hk.1
  case dzvz => exact absurd rfl hk.2
  all_goals
    rw [if_neg (by simp), ← V0]
    rfl

/-- A shot: the beam at point `(i,j)` grows by the sum over time of the absolute values of the field `pad` columns and rows before the point it is
written for. -/
theorem beam_values_partial (p : Med.Par) (o : Ok p) (s : Sna) (h : s.Ok p) (fs : List (Wave (K := K))) (sdx : K) (k : Kind)
    (hk : k ≠ .dxvx ∧ k ≠ .dzvz) (b : ℤ → K) :
    ∃ b', beamShot p s fs sdx k b = some b' ∧ ∀ i j : ℤ, 0 ≤ i → i < s.nx → 0 ≤ j → j < s.nz → b' (i * s.nz + j) = b (i * s.nz + j) +
      (fs.map fun f => |wantedBeam p f sdx k (s.x1 + i * s.skipdx - p.pad p.lef) (s.z1 + j * s.skipdz - p.pad p.top - p.add)|).sum := by
  have q1 := h.x1; have q2 := h.x2; have q3 := h.z1; have q4 := h.z2
  let w : Wave (K := K) → ℕ → ℕ → K := fun f i j =>
    |wantedBeam p f sdx k (s.x1 + i * s.skipdx - p.pad p.lef) (s.z1 + j * s.skipdz - p.pad p.top - p.add)|
  have step : ∀ f b, beamStep p s f sdx k b = some fun m => b m + ∑ i ∈ Finset.range s.nx.toNat, ∑ j ∈ Finset.range s.nz.toNat,
      if m = i * s.nz + j then w f i j else 0 := by
    intro f b
    unfold beamStep
    rw [loop_count h.skipx h.x12, ← h.nx, zipIdx_range_map]
    refine foldlM_add _ _ fun i hi b => ?_
    rw [h.nx] at hi
    obtain ⟨i1, i2⟩ := count_bound h.skipx h.x12 hi
    rw [← h.nx] at hi
    dsimp only
    have pz : p.ioPz = p.ioPx := rfl
    rw [pz, loop_count h.skipz (by have := h.z12; omega), show s.z2 + p.ioPx - (s.z1 + p.ioPx) = s.z2 - s.z1 by ring, ← h.nz, zipIdx_range_map]
    refine foldlM_add _ _ fun j hj b => ?_
    rw [h.nz] at hj
    obtain ⟨j1, j2⟩ := count_bound h.skipz h.z12 hj
    rw [← h.nz] at hj
    dsimp only
    rw [show s.z1 + p.ioPx + (j : ℤ) * s.skipdz = s.z1 + j * s.skipdz + p.ioPx by ring,
      beamValue_wanted o f sdx k hk (by omega) (by omega) (by omega) (by omega)]
    change addBeam s i j _ b = _
    unfold addBeam
    have e1 : (0 : ℤ) ≤ i * s.nz := mul_nonneg (by positivity) (by omega)
    have e2 : ((i : ℤ) + 1) * s.nz ≤ s.nx * s.nz := mul_le_mul_of_nonneg_right (by omega) (by omega)
    rw [add_mul, mul_comm s.nx] at e2
    rw [if_pos ⟨by omega, by omega⟩]
    congr 1
    funext m
    split
    · rfl
    · rw [add_zero]
  have all : ∀ (fs : List (Wave (K := K))) b, beamShot p s fs sdx k b = some fun m => b m + (fs.map fun f => ∑ i ∈ Finset.range s.nx.toNat,
      ∑ j ∈ Finset.range s.nz.toNat, if m = i * s.nz + j then w f i j else 0).sum := by
    intro fs
    induction fs with
    | nil => intro b; simp [beamShot]
    | cons f fs ih =>
      intro b
      unfold beamShot
      rw [List.foldlM_cons, step]
      change beamShot p s fs sdx k _ = _
      rw [ih]
      congr 1
      funext m
      rw [List.map_cons, List.sum_cons, add_assoc]
  refine ⟨_, all fs b, fun i j hi hi' hj hj' => ?_⟩
  congr 2
  refine List.map_congr_left fun f _ => ?_
  have ei : ((i.toNat : ℕ) : ℤ) = i := Int.toNat_of_nonneg hi
  have ej : ((j.toNat : ℕ) : ℤ) = j := Int.toNat_of_nonneg hj
  rw [Finset.sum_eq_single i.toNat, Finset.sum_eq_single j.toNat]
  · rw [ei, ej, if_pos rfl]; simp only [w]; rw [ei, ej]
  · intro j' _ hne
    rw [ei, if_neg]
    intro h'
    apply hne
    omega
  · intro h'; exact absurd (Finset.mem_range.2 (by omega)) h'
  · intro i' _ hne
    refine Finset.sum_eq_zero fun j' hj'' => if_neg fun h' => hne ?_
    have := Finset.mem_range.1 hj''
    have a1 : (i - i') * s.nz < s.nz := by rw [sub_mul]; omega
    have a2 : -s.nz < (i - i') * s.nz := by rw [sub_mul]; omega
    have : i - i' < 1 := by by_contra hc; nlinarith
    have : -1 < i - i' := by by_contra hc; nlinarith
    omega
  · intro h'; exact absurd (Finset.mem_range.2 (by omega)) h'

/-- Without absorbing sides at the left and the top the beam is that of its own point. -/
theorem beam_values (p : Med.Par) (o : Ok p) (hl : p.lef ≠ 2 ∧ p.lef ≠ 4) (ht : p.top ≠ 2 ∧ p.top ≠ 4 ∧ p.top ≠ 5) (s : Sna) (h : s.Ok p)
    (fs : List (Wave (K := K))) (sdx : K) (k : Kind) (hk : k ≠ .dxvx ∧ k ≠ .dzvz) :
    ∃ b', beamShot p s fs sdx k (fun _ => 0) = some b' ∧ ∀ i j : ℤ, 0 ≤ i → i < s.nx → 0 ≤ j → j < s.nz → b' (i * s.nz + j) =
      (fs.map fun f => |wantedBeam p f sdx k (s.x1 + i * s.skipdx) (s.z1 + j * s.skipdz)|).sum := by
  obtain ⟨b', e, hb⟩ := beam_values_partial p o s h fs sdx k hk (fun _ => 0)
  refine ⟨b', e, fun i j h1 h2 h3 h4 => ?_⟩
  have p1 : p.pad p.lef = 0 := by unfold Med.Par.pad; rw [if_neg]; rintro (h | h); exacts [hl.2 h, hl.1 h]
  have p2 : p.pad p.top = 0 := by unfold Med.Par.pad; rw [if_neg]; rintro (h | h); exacts [ht.2.1 h, ht.1 h]
  have p3 : p.add = 0 := by unfold Med.Par.add; rw [if_neg ht.2.2]
  rw [hb i j h1 h2 h3 h4, p1, p2, p3, zero_add]
  simp only [sub_zero]

end

/-- The position in the header of a beam trace is wrong from the second trace on if points are left out. -/
theorem beam_position_wrong (g : ℚ × ℚ) (hg : 0 < g.2) (s : Sna) (hs : 1 < s.skipdx) (i : ℤ) (hi : 0 < i) :
    beamGx g s i < 1000 * (g.1 + ((s.x1 + i * s.skipdx : ℤ) : ℚ) * g.2) := by
  unfold beamGx
  have : (i : ℚ) < i * s.skipdx := by
    have h1 : (0 : ℚ) < i := by exact_mod_cast hi
    have h2 : (1 : ℚ) < s.skipdx := by exact_mod_cast hs
    nlinarith
  push_cast
  nlinarith

end

/-! ## Concrete cases -/

/-- 8 columns and 6 rows of 10 m, a time step of 1/1000, 500 steps: a snapshot every 1/10 from 1/10 to 1, every second column. -/
def sampleAsk : Ask := ⟨1/10, 1, 1/10, 20, 10, 0, 70, 0, 50, 0, 0, 10, 10, 1/1000, 8, 6, 500⟩

/-- A free top, the other sides absorbing over 10 points. -/
def samplePar : Med.Par := ⟨8, 6, 4, 10, 0, 1, 4, 4, 1, 4⟩

/-- Nothing absorbs: free sides and a rigid right side. -/
def sampleFree : Med.Par := ⟨8, 6, 4, 10, 0, 1, 1, 3, 1, 1⟩

/-- Snapshots at the steps 100, 200, 300, 400; that at 500 and those after are not reached. -/
def sampleSna : Sna := ⟨4, 100, 100, 2, 1, 0, 7, 0, 5, 4, 6⟩

theorem samplePar_ok : Ok samplePar := ⟨by decide, by decide, by decide, by decide, by decide, by decide⟩
theorem sampleFree_ok : Ok sampleFree := ⟨by decide, by decide, by decide, by decide, by decide, by decide⟩
theorem sampleSna_ok : sampleSna.Ok samplePar :=
  ⟨by decide, by decide, by decide, by decide, by decide, by decide, by decide, by decide, by decide, by decide⟩
theorem sampleSna_free : sampleSna.Ok sampleFree :=
  ⟨by decide, by decide, by decide, by decide, by decide, by decide, by decide, by decide, by decide, by decide⟩

theorem sample_par : snaPar sampleAsk = some sampleSna := by
  norm_num [snaPar, sampleAsk, sampleSna, NINT]
  decide

example : shotSnaps sampleSna 500 = [(1, 100), (2, 200), (3, 300), (4, 400)] :=
  shotSnaps_all sampleSna (by decide) 500 (by decide) (by decide)

example : ∃ s, snaPar sampleAsk = some s ∧ s.delay + (s.nsnap - 1) * s.skipdt < 500 := by
  obtain ⟨s, h1, -, -, -, -, h2, -⟩ := snaPar_times sampleAsk (by norm_num [sampleAsk]) (by norm_num [sampleAsk]) (by norm_num [sampleAsk])
    (by norm_num [sampleAsk]) (by norm_num [sampleAsk, NINT])
  exact ⟨s, h1, h2⟩

example : sampleSna.Ok samplePar := (snaPar_range sampleAsk samplePar ⟨rfl, rfl⟩ (by decide) (by decide) (by norm_num [sampleAsk])
  (by norm_num [sampleAsk]) (by norm_num [sampleAsk]) (by norm_num [sampleAsk]) sampleSna sample_par).1

/-- 4 traces of 6 samples. -/
example (f : Wave (K := ℚ)) : ∃ ts, snapshot samplePar (0, 10) sampleSna false (fun _ => true) f (1/10) 0 .pp = some ts ∧ ts.length = 4 :=
  ⟨_, snapshot_values_partial samplePar samplePar_ok (0, 10) sampleSna sampleSna_ok _ f _ 0 .pp, by simp [sampleSna]⟩

example (f : Wave (K := ℚ)) : ∃ ts, snapshot samplePar (0, 10) sampleSna true (fun k => k == .vz || k == .p) f (1/10) 0 .p = some ts ∧
    ts.map Trace.samples = (List.range 32).map fun i : ℕ => (List.range 20).map fun j : ℕ => f.tzz (i * 20 + j) :=
  withbnd_values samplePar (by decide) (by decide) (0, 10) sampleSna _ (Or.inl rfl) f _ 0 .p f.tzz rfl

example (f : Wave (K := ℚ)) : ∃ b', beamShot sampleFree sampleSna [f, f] (1/10) .p (fun _ => 0) = some b' ∧
    b' 7 = |f.tzz ((1 + 2) * 10 + (1 + 1))| + |f.tzz ((1 + 2) * 10 + (1 + 1))| := by
  obtain ⟨b', h, hb⟩ := beam_values sampleFree sampleFree_ok (by decide) (by decide) sampleSna sampleSna_free [f, f] (1/10) .p (by decide)
  refine ⟨b', h, ?_⟩
  have := hb 1 1 (by decide) (by decide) (by decide) (by decide)
  simpa [sampleSna, wantedBeam, wanted, sampleFree, Med.Par.rPx, Med.Par.rPz, Med.Par.ioPx, Med.Par.ioPz, Med.Par.pad, Med.Par.add, Med.Par.naz]
    using this

example : beamGx (0, 10) sampleSna 1 < 20000 := by
  have := beam_position_wrong (0, 10) (by norm_num) sampleSna (by decide) 1 (by decide)
  refine this.trans_le ?_
  norm_num [sampleSna]

end Verif.Snap

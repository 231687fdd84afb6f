import Verif.Ray.Scale

/-! # raytime: mean velocity between source and receiver -/

namespace Verif.Ray

open Verif

noncomputable section

/-- `velocity[ix*nz+iz]`; a point outside the grid is `none`. -/
def vget (nx nz : ℤ) (v : ℤ → ℤ → ℝ) (ix iz : ℤ) : Option ℝ := if 0 ≤ ix ∧ ix < nx ∧ 0 ≤ iz ∧ iz < nz then some (v ix iz) else none

/-- `cp_average`, raytime.c:327-337.  C division of integers rounds towards zero, `floor` of an integer changes nothing.  The division by zero of
line 337 is `none`. -/
def cpAverage (nx nz : ℤ) (v : ℤ → ℤ → ℝ) (sx sz rx rz : ℤ) : Option ℝ :=
  let nrx := rx - sx
  let nrz := rz - sz
  let nr := |nrx| + |nrz|
  (forNM nr.toNat (fun ir c => (vget nx nz v (sx + (ir * nrx).tdiv nr) (sz + (ir * nrz).tdiv nr)).map (c + ·)) 0).bind fun c =>
    if nr - 1 = 0 then none else some (c / (nr - 1 : ℤ))

/-- `time` and `ampl` of one receiver for the method "fd" (raytime.c:325-338). -/
def fdReceiver (g : Grid) (v : ℤ → ℤ → ℝ) (sx sz sbox mzrcv rx rz : ℤ) : Option (ℝ × ℝ) :=
  (vidale g sx sz sbox mzrcv).bind fun T => (tget g T rx rz).bind fun t => (cpAverage g.nx g.nz v sx sz rx rz).map fun c => (t, Real.sqrt (t * c))

theorem between {s d n : ℤ} {r : ℕ} (hr : (r : ℤ) < n) (lo hi : ℤ) (h1 : lo ≤ s) (h2 : s < hi) (h3 : lo ≤ s + d) (h4 : s + d < hi) :
    lo ≤ s + (r * d).tdiv n ∧ s + (r * d).tdiv n < hi := by
  have n0 : 0 < n := by omega
  rcases le_total 0 d with hd | hd
  · have a : 0 ≤ (r * d).tdiv n := Int.tdiv_nonneg (by positivity) n0.le
    have b : (r * d).tdiv n ≤ d := by
      rw [Int.tdiv_eq_ediv_of_nonneg (by positivity)]
      apply Int.ediv_le_of_le_mul n0
      nlinarith
    omega
  · have e : (r * d).tdiv n = -((r * (-d)).tdiv n) := by rw [mul_neg, Int.neg_tdiv, neg_neg]
    have a : 0 ≤ (r * (-d)).tdiv n := Int.tdiv_nonneg (by nlinarith [Int.natCast_nonneg r]) n0.le
    have b : (r * (-d)).tdiv n ≤ -d := by
      rw [Int.tdiv_eq_ediv_of_nonneg (by nlinarith [Int.natCast_nonneg r])]
      apply Int.ediv_le_of_le_mul n0
      nlinarith
    omega

/-- For a source and a receiver on the grid at least two steps apart the mean stays inside the velocity model, and is between `nr/(nr-1)` times
the smallest and `nr/(nr-1)` times the largest velocity, `nr` the number of horizontal and vertical steps.  Missing for the full property: a mean
between the smallest and the largest velocity, which is false, see `cpAverage_constant`. -/
theorem cpAverage_partial (nx nz : ℤ) (v : ℤ → ℤ → ℝ) (c0 c1 : ℝ) (sx sz rx rz : ℤ) (hs : 0 ≤ sx ∧ sx < nx ∧ 0 ≤ sz ∧ sz < nz)
    (hr : 0 ≤ rx ∧ rx < nx ∧ 0 ≤ rz ∧ rz < nz) (h2 : 2 ≤ |rx - sx| + |rz - sz|)
    (hv : ∀ x z, 0 ≤ x → x < nx → 0 ≤ z → z < nz → c0 ≤ v x z ∧ v x z ≤ c1) :
    ∃ c, cpAverage nx nz v sx sz rx rz = some c ∧
      c0 * ((|rx - sx| + |rz - sz| : ℤ) : ℝ) / ((|rx - sx| + |rz - sz| - 1 : ℤ) : ℝ) ≤ c ∧
      c ≤ c1 * ((|rx - sx| + |rz - sz| : ℤ) : ℝ) / ((|rx - sx| + |rz - sz| - 1 : ℤ) : ℝ) := by
  unfold cpAverage
  dsimp only
  obtain ⟨n, hn⟩ : ∃ n, n = |rx - sx| + |rz - sz| := ⟨_, rfl⟩
  rw [← hn] at h2 ⊢
  refine Exists.elim (forNM_inv (n := n.toNat) (s := (0 : ℝ))
    (body := fun ir c => (vget nx nz v (sx + (ir * (rx - sx)).tdiv n) (sz + (ir * (rz - sz)).tdiv n)).map (c + ·))
    (fun k c => c0 * k ≤ c ∧ c ≤ c1 * k) (by simp) ?_) ?_
  · intro k hk c hc
    have a := between (s := sx) (d := rx - sx) (r := k) (n := n) (by omega) 0 nx hs.1 hs.2.1 (by omega) (by omega)
    have b := between (s := sz) (d := rz - sz) (r := k) (n := n) (by omega) 0 nz hs.2.2.1 hs.2.2.2 (by omega) (by omega)
    unfold vget
    rw [if_pos ⟨a.1, a.2, b.1, b.2⟩]
    have := hv _ _ a.1 a.2 b.1 b.2
    refine ⟨_, rfl, ?_, ?_⟩ <;> push_cast <;> linarith
  · rintro c ⟨e, hc⟩
    rw [e, Option.bind_some, if_neg (by omega)]
    have en : ((n.toNat : ℕ) : ℝ) = ((n : ℤ) : ℝ) := by
      rw [← Int.cast_natCast, Int.toNat_of_nonneg (by omega)]
    rw [en] at hc
    have pos : (0 : ℝ) < ((n - 1 : ℤ) : ℝ) := by exact_mod_cast (by omega : 0 < n - 1)
    exact ⟨_, rfl, div_le_div_of_nonneg_right hc.1 pos.le, div_le_div_of_nonneg_right hc.2 pos.le⟩

/-- In a model of constant velocity the mean is larger than that velocity. -/
theorem cpAverage_constant (nx nz : ℤ) (c : ℝ) (hc : 0 < c) (sx sz rx rz : ℤ) (hs : 0 ≤ sx ∧ sx < nx ∧ 0 ≤ sz ∧ sz < nz)
    (hr : 0 ≤ rx ∧ rx < nx ∧ 0 ≤ rz ∧ rz < nz) (h2 : 2 ≤ |rx - sx| + |rz - sz|) :
    ∃ m, cpAverage nx nz (fun _ _ => c) sx sz rx rz = some m ∧ c < m := by
  obtain ⟨m, e, a, -⟩ := cpAverage_partial nx nz (fun _ _ => c) c c sx sz rx rz hs hr h2 (fun _ _ _ _ _ _ => ⟨le_refl _, le_refl _⟩)
  refine ⟨m, e, lt_of_lt_of_le ?_ a⟩
  have pos : (0 : ℝ) < ((|rx - sx| + |rz - sz| - 1 : ℤ) : ℝ) := by exact_mod_cast (by omega : 0 < |rx - sx| + |rz - sz| - 1)
  rw [lt_div_iff₀ pos]
  push_cast
  linarith

/-- Receiver next to the source: division by zero. -/
theorem cpAverage_next (nx nz : ℤ) (v : ℤ → ℤ → ℝ) (sx sz rx rz : ℤ) (h : |rx - sx| + |rz - sz| = 1) : cpAverage nx nz v sx sz rx rz = none := by
  unfold cpAverage
  dsimp only
  rw [h]
  cases forNM (1 : ℤ).toNat (fun ir c => (vget nx nz v (sx + (ir * (rx - sx)).tdiv 1) (sz + (ir * (rz - sz)).tdiv 1)).map (c + ·)) (0 : ℝ) with
  | none => rfl
  | some c => rfl

/-- Every receiver on the grid and at least two steps from the source gets a time and an amplitude: the time is positive. -/
theorem fdReceiver_ok (g : Grid) (v : ℤ → ℤ → ℝ) (s0 s1 c0 c1 : ℝ) (sx sz sbox mzrcv rx rz : ℤ) (M : Medium g s0 s1) (S : Src g sx sz) (ho : 1 ≤ sbox)
    (hm : mzrcv < g.nz) (hr : g.Has rx rz) (h2 : 2 ≤ |rx - sx| + |rz - sz|) (hc : 0 < c0)
    (hv : ∀ x z, 0 ≤ x → x < g.nx → 0 ≤ z → z < g.nz → c0 ≤ v x z ∧ v x z ≤ c1) :
    ∃ t m, fdReceiver g v sx sz sbox mzrcv rx rz = some (t, m) ∧ g.h * s0 ≤ t ∧ 0 < m := by
  obtain ⟨T, e, -, hT⟩ := vidale_all g s0 s1 sx sz sbox mzrcv M S ho hm
  obtain ⟨t, ht, a, -⟩ := hT rx rz hr (by
    by_contra h
    push Not at h
    rw [h.1, h.2] at h2
    simp at h2)
  obtain ⟨c, ec, b, -⟩ := cpAverage_partial g.nx g.nz v c0 c1 sx sz rx rz S.src hr h2 hv
  have tp : 0 < t := lt_of_lt_of_le (mul_pos M.step M.pos) a
  have pos : (0 : ℝ) < ((|rx - sx| + |rz - sz| - 1 : ℤ) : ℝ) := by exact_mod_cast (by omega : 0 < |rx - sx| + |rz - sz| - 1)
  have pos' : (0 : ℝ) < ((|rx - sx| + |rz - sz| : ℤ) : ℝ) := by exact_mod_cast (by omega : 0 < |rx - sx| + |rz - sz|)
  have cp : 0 < c := lt_of_lt_of_le (div_pos (mul_pos hc pos') pos) b
  unfold fdReceiver
  rw [e, Option.bind_some, tget_some hr ht, Option.bind_some, ec]
  exact ⟨t, _, rfl, a, Real.sqrt_pos.2 (mul_pos tp cp)⟩

/-! ## The hypotheses can be met -/

/-- Seven columns, five rows, spacing 10, two layers with velocities 1500 and 2000 and a slow column. -/
def exGrid : Grid := ⟨7, 5, 10, fun x z => if x = 6 then 1 / 1000 else if z < 3 then 1 / 1500 else 1 / 2000⟩

theorem exGrid_medium : Medium exGrid (1 / 2000) (1 / 1000) := by
  refine ⟨by norm_num [exGrid], by norm_num, fun x z _ => ?_, fun x z _ => ?_⟩ <;>
  · unfold exGrid
    dsimp only
    split
    · norm_num
    · split <;> norm_num

theorem exGrid_src : Src exGrid 2 2 := ⟨by norm_num [exGrid], by norm_num [exGrid], by norm_num [exGrid, Grid.Has]⟩

example : ∃ T, vidale exGrid 2 2 1 0 = some T ∧ T 2 2 = some 0 ∧ ∃ t, T 6 4 = some t ∧ 1 / 200 ≤ t ∧ t ≤ Real.sqrt 2 * 10 * (1 / 1000) * 4 := by
  obtain ⟨T, e, h0, h⟩ := vidale_all exGrid _ _ 2 2 1 0 exGrid_medium exGrid_src (by norm_num) (by norm_num [exGrid])
  obtain ⟨t, ht, a, b⟩ := h 6 4 (by norm_num [exGrid, Grid.Has]) (by norm_num)
  refine ⟨T, e, h0, t, ht, ?_, ?_⟩
  · have : exGrid.h = 10 := rfl
    rw [this] at a; norm_num at a ⊢; linarith
  · have : exGrid.h = 10 := rfl
    rw [this] at b
    norm_num at b ⊢; exact b

example : ∃ T s', vidale exGrid 2 2 1 0 = some T ∧ rmHead exGrid 2 2 0 = some s' ∧
    T 3 2 = some (Real.sqrt (((3 - 2 : ℤ) * 10) ^ 2 + ((2 - 2 : ℤ) * 10) ^ 2) * ((s' 3 2 + s' 2 2) / 2)) := by
  obtain ⟨T, s', e, e', h⟩ := vidale_near exGrid _ _ 2 2 1 0 exGrid_medium exGrid_src (by norm_num) (by norm_num [exGrid])
  exact ⟨T, s', e, e', h 3 2 (by norm_num [exGrid, Grid.Has]) (by norm_num) (by norm_num)⟩

/-- The layer below the source is replaced in its first row: row 3 gets the slowness of row 1. -/
example : ∃ s', rmHead exGrid 2 2 0 = some s' ∧ s' 2 3 = 1 / 1500 ∧ s' 2 4 = 1 / 2000 := by
  obtain ⟨l, a, s', e, h1, h2, h3, h4, h5, h6, h7, h8, R⟩ := rmHead_below exGrid 2 2 0 exGrid_src.src (by norm_num) (by norm_num)
  have l3 : l = 3 := by
    have nz : exGrid.nz = 5 := rfl
    rw [nz] at h2 h6
    by_contra hl
    rcases (by omega : l = 2 ∨ l = 4) with r | r
    · subst r
      rcases h6 with h | h
      · apply h; norm_num [exGrid]
      · omega
    · have := h5 3 (by norm_num) (by omega)
      norm_num [exGrid] at this
  subst l3
  have a3 : a = 3 := by
    by_contra ha
    obtain ⟨x, -, -, h⟩ := h7 2 (by omega) (by norm_num)
    unfold exGrid at h
    dsimp only at h
    split at h <;> norm_num at h
  subst a3
  refine ⟨s', e, ?_, ?_⟩
  · rw [R 2 3 (by norm_num [exGrid, Grid.Has])]; norm_num [exGrid]
  · rw [R 2 4 (by norm_num [exGrid, Grid.Has])]; norm_num [exGrid]

example : ∃ l b s', rmHead exGrid 2 3 4 = some s' ∧ 0 ≤ l ∧ l ≤ 3 ∧ Replaced exGrid l b (exGrid.slow 2 l) (exGrid.slow 2 4) s' := by
  obtain ⟨l, b, s', e, h1, h2, -, -, -, -, -, -, R⟩ :=
    rmHead_above exGrid 2 3 4 (by norm_num [exGrid, Grid.Has]) (by norm_num) (by norm_num) (by norm_num [exGrid])
  exact ⟨l, b, s', e, h1, h2, R⟩

example : ∃ t m, fdReceiver exGrid (fun _ _ => 1500) 2 2 1 4 6 4 = some (t, m) ∧ 0 < m := by
  obtain ⟨t, m, e, -, h⟩ := fdReceiver_ok exGrid (fun _ _ => 1500) _ _ 1500 1500 2 2 1 4 6 4 exGrid_medium exGrid_src (by norm_num)
    (by norm_num [exGrid]) (by norm_num [exGrid, Grid.Has]) (by norm_num) (by norm_num) (fun _ _ _ _ _ _ => by norm_num)
  exact ⟨t, m, e, h⟩

example : ∃ m, cpAverage 7 5 (fun _ _ => 1500) 2 2 6 4 = some m ∧ 1500 < m :=
  cpAverage_constant 7 5 1500 (by norm_num) 2 2 6 4 (by norm_num) (by norm_num) (by norm_num)

example : vidale { exGrid with h := 2 * exGrid.h, slow := fun x z => 3 * exGrid.slow x z } 2 2 1 0 =
    (vidale exGrid 2 2 1 0).map fun T x z => (T x z).map (2 * 3 * ·) := vidale_scaled exGrid (by norm_num) (by norm_num) 2 2 1 0

end

end Verif.Ray

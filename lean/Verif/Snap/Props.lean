import Verif.Snap.Model
import Verif.Recv.Props
import Mathlib.Tactic.Ring
import Mathlib.Tactic.Linarith
import Mathlib.Tactic.NormNum
import Mathlib.Tactic.FieldSimp
import Mathlib.Data.List.Sort

/-! # Snapshots: times and samples -/

namespace Verif.Snap

open Verif

/-! ## Loops -/

theorem loop_empty {lo hi step : ℤ} (h : hi < lo) : loop lo hi step = [] := by
  unfold loop; rw [dif_neg (by omega)]

theorem loop_eq (step : ℤ) (hs : 0 < step) (n : ℕ) : ∀ lo hi : ℤ, lo + (n - 1) * step ≤ hi → hi < lo + n * step →
    loop lo hi step = (List.range n).map fun k : ℕ => lo + k * step := by
  induction n with
  | zero => intro lo hi _ h2; rw [loop_empty (by simpa using h2)]; rfl
  | succ n ih =>
    intro lo hi h1 h2
    push_cast at h1 h2
    have h0 : (0 : ℤ) ≤ n * step := by positivity
    unfold loop
    rw [dif_pos ⟨by nlinarith, hs⟩, ih (lo + step) hi (by nlinarith) (by nlinarith), List.range_succ_eq_map, List.map_cons, List.map_map]
    simp only [Nat.cast_zero, zero_mul, add_zero, List.cons.injEq, true_and]
    refine List.map_congr_left fun k _ => ?_
    simp only [Function.comp]; push_cast; ring

/-- The loop runs over the points that fit. -/
theorem loop_count {lo hi step : ℤ} (hs : 0 < step) (h : lo ≤ hi) :
    loop lo hi step = (List.range (1 + (hi - lo).tdiv step).toNat).map fun k : ℕ => lo + k * step := by
  rw [Int.tdiv_eq_ediv_of_nonneg (by omega)]
  have q0 : 0 ≤ (hi - lo) / step := Int.ediv_nonneg (by omega) hs.le
  have e := Int.mul_ediv_add_emod (hi - lo) step
  have r0 := Int.emod_nonneg (hi - lo) hs.ne'
  have r1 := Int.emod_lt_of_pos (hi - lo) hs
  have c : ((1 + (hi - lo) / step).toNat : ℤ) = 1 + (hi - lo) / step := Int.toNat_of_nonneg (by omega)
  refine loop_eq step hs _ _ _ ?_ ?_
  · rw [c]; nlinarith
  · rw [c]; nlinarith

theorem mapM_some {α β : Type} {f : α → Option β} {g : α → β} : ∀ {l : List α}, (∀ x ∈ l, f x = some (g x)) → l.mapM f = some (l.map g)
  | [], _ => rfl
  | x :: l, h => by
    rw [List.mapM_cons, h x (by simp), mapM_some fun y hy => h y (by simp [hy])]; rfl

theorem mapM_none {α β : Type} {f : α → Option β} : ∀ {l : List α} {x : α}, x ∈ l → f x = none → l.mapM f = none
  | y :: l, x, h, hx => by
    rw [List.mapM_cons]
    rcases List.mem_cons.1 h with rfl | h
    · rw [hx]; rfl
    · rw [mapM_none h hx]; cases f y <;> rfl

theorem zipIdx_range_map {α : Type} (n : ℕ) (f : ℕ → α) : ((List.range n).map f).zipIdx = (List.range n).map fun k => (f k, k) := by
  apply List.ext_getElem <;> simp

/-! ## Times -/

theorem snapAt_iff {s : Sna} (hs : 0 < s.skipdt) (it k : ℤ) :
    snapAt s it = some k ↔ 0 ≤ k ∧ k < s.nsnap ∧ it = s.delay + k * s.skipdt := by
  unfold snapAt
  constructor
  · intro h
    split at h
    · rename_i c
      obtain ⟨c1, c2, c3⟩ := c
      rw [NINT_int] at h
      obtain rfl := Option.some.inj h
      have e := Int.mul_tdiv_add_tmod (it - s.delay) s.skipdt
      rw [c1, add_zero] at e
      refine ⟨Int.tdiv_nonneg (by omega) hs.le, ?_, by rw [mul_comm]; omega⟩
      by_contra hc
      have : s.nsnap ≤ (it - s.delay).tdiv s.skipdt := by omega
      nlinarith
    · cases h
  · rintro ⟨h1, h2, rfl⟩
    have e : s.delay + k * s.skipdt - s.delay = k * s.skipdt := by ring
    have a1 := mul_nonneg h1 hs.le
    have a2 := mul_le_mul_of_nonneg_right (show k ≤ s.nsnap - 1 by omega) hs.le
    rw [e, if_pos ⟨Int.mul_tmod_left _ _, by omega, by omega⟩, Int.mul_tdiv_cancel _ hs.ne', NINT_int]

/-- Which snapshots a shot writes: those with a number below `nsnap` and a time step that is reached. -/
theorem shotSnaps_mem (s : Sna) (hs : 0 < s.skipdt) (it1 : ℕ) (n it : ℤ) :
    (n, it) ∈ shotSnaps s it1 ↔ 0 ≤ n - 1 ∧ n - 1 < s.nsnap ∧ it = s.delay + (n - 1) * s.skipdt ∧ 0 ≤ it ∧ it < it1 := by
  unfold shotSnaps
  rw [List.mem_filterMap]
  constructor
  · rintro ⟨i, hi, h⟩
    obtain ⟨k, hk, h⟩ := Option.map_eq_some_iff.1 h
    cases h
    obtain ⟨h1, h2, h3⟩ := (snapAt_iff hs _ _).1 hk
    have := List.mem_range.1 hi
    rw [add_sub_cancel_right]
    exact ⟨h1, h2, h3, by omega, by omega⟩
  · rintro ⟨h1, h2, h3, h4, h5⟩
    refine ⟨it.toNat, List.mem_range.2 (by omega), ?_⟩
    have e : ((it.toNat : ℕ) : ℤ) = it := Int.toNat_of_nonneg h4
    rw [e, (snapAt_iff hs it (n - 1)).2 ⟨h1, h2, h3⟩]
    simp

/-- In the order of time, each time step at most once. -/
theorem shotSnaps_sorted (s : Sna) (it1 : ℕ) : (shotSnaps s it1).Pairwise fun a b => a.2 < b.2 := by
  unfold shotSnaps
  rw [List.pairwise_filterMap]
  refine List.pairwise_lt_range.imp ?_
  intro a b hab x hx y hy
  obtain ⟨k, -, rfl⟩ := Option.map_eq_some_iff.1 hx
  obtain ⟨l, -, rfl⟩ := Option.map_eq_some_iff.1 hy
  change (a : ℤ) < b
  exact_mod_cast hab

theorem eq_of_sorted {α : Type} {r : α → α → Prop} (irr : ∀ a, ¬ r a a) (asym : ∀ a b, r a b → ¬ r b a) :
    ∀ {l l' : List α}, l.Pairwise r → l'.Pairwise r → (∀ a, a ∈ l ↔ a ∈ l') → l = l'
  | [], [], _, _, _ => rfl
  | [], b :: l', _, _, h => absurd ((h b).2 (by simp)) (by simp)
  | a :: l, [], _, _, h => absurd ((h a).1 (by simp)) (by simp)
  | a :: l, b :: l', h1, h2, h => by
    have p1 := List.pairwise_cons.1 h1
    have p2 := List.pairwise_cons.1 h2
    have e : a = b := by
      by_contra ne
      have ha : a ∈ l' := by have := (h a).1 (by simp); simpa [ne] using this
      have hb : b ∈ l := by have := (h b).2 (by simp); simpa [Ne.symm ne] using this
      exact asym _ _ (p1.1 b hb) (p2.1 a ha)
    subst e
    rw [eq_of_sorted irr asym p1.2 p2.2 fun x => ?_]
    constructor
    · intro hx
      have := (h x).1 (by simp [hx])
      rcases List.mem_cons.1 this with rfl | h'
      · exact absurd (p1.1 x hx) (irr x)
      · exact h'
    · intro hx
      have := (h x).2 (by simp [hx])
      rcases List.mem_cons.1 this with rfl | h'
      · exact absurd (p2.1 x hx) (irr x)
      · exact h'

/-- When all of them are reached, all are written, with the numbers 1, 2, … and `skipdt` steps apart. -/
theorem shotSnaps_all (s : Sna) (hs : 0 < s.skipdt) (it1 : ℕ) (h0 : 0 ≤ s.delay) (h1 : s.delay + (s.nsnap - 1) * s.skipdt < it1) :
    shotSnaps s it1 = (List.range s.nsnap.toNat).map fun k : ℕ => ((k : ℤ) + 1, s.delay + k * s.skipdt) := by
  refine eq_of_sorted (r := fun a b : ℤ × ℤ => a.2 < b.2) (fun a => lt_irrefl _) (fun a b => lt_asymm) (shotSnaps_sorted s it1) ?_ ?_
  · rw [List.pairwise_map]
    refine List.pairwise_lt_range.imp fun {a b} hab => ?_
    have : (a : ℤ) < b := by exact_mod_cast hab
    dsimp only
    nlinarith
  · rintro ⟨n, it⟩
    rw [shotSnaps_mem s hs, List.mem_map]
    constructor
    · rintro ⟨a1, a2, a3, -, -⟩
      refine ⟨(n - 1).toNat, List.mem_range.2 (by omega), ?_⟩
      have e : (((n - 1).toNat : ℕ) : ℤ) = n - 1 := Int.toNat_of_nonneg a1
      rw [e, a3]; simp
    · rintro ⟨k, hk, h⟩
      have hk' := List.mem_range.1 hk
      have hk2 : (k : ℤ) < s.nsnap := by omega
      cases h
      rw [add_sub_cancel_right]
      have : 0 ≤ (k : ℤ) * s.skipdt := by positivity
      have : (k : ℤ) * s.skipdt ≤ (s.nsnap - 1) * s.skipdt := mul_le_mul_of_nonneg_right (by omega) hs.le
      exact ⟨by positivity, hk2, rfl, by omega, by omega⟩

/-- A whole run: the snapshots of all shots, one after the other, whatever was in the file before. -/
theorem file_all {S : Type} (old : List S) (ss : List S) (h : ss ≠ []) : (ss.foldl fileStep (true, old)) = (false, ss) := by
  obtain ⟨a, l, rfl⟩ := List.exists_cons_of_ne_nil h
  have key : ∀ (l acc : List S), l.foldl fileStep (false, acc) = (false, acc ++ l) := by
    intro l
    induction l with
    | nil => intro acc; simp
    | cons b l ih =>
      intro acc
      rw [List.foldl_cons]
      change l.foldl fileStep (false, acc ++ [b]) = _
      rw [ih]; simp
  rw [List.foldl_cons]
  change l.foldl fileStep (false, [a]) = _
  rw [key]; rfl

/-- Ask for snapshots from `tsnap1` to `tsnap2`, starting within the modelled time: the first is at the step next to `tsnap1`, and every snapshot
that is announced is reached.  If `tsnap2` is early enough there are as many as fit between `tsnap1` and `tsnap2`. -/
theorem snaPar_times (a : Ask) (hdt : 0 < a.dt) (hds : 0 < a.dtsnap) (h12 : a.tsnap1 ≤ a.tsnap2) (h0 : 0 ≤ a.tsnap1)
    (hn : NINT (a.tsnap1 / a.dt) < a.nt) :
    ∃ s, snaPar a = some s ∧ 0 < s.skipdt ∧ 0 ≤ s.delay ∧ |(s.delay : ℚ) * a.dt - a.tsnap1| ≤ a.dt / 2 ∧ 1 ≤ s.nsnap ∧
      s.delay + (s.nsnap - 1) * s.skipdt < a.nt ∧
      s.nsnap ≤ 1 + NINT ((a.tsnap2 - a.tsnap1) / a.dtsnap) ∧
      (s.nsnap = 1 + NINT ((a.tsnap2 - a.tsnap1) / a.dtsnap) ∨ a.nt ≤ s.delay + s.nsnap * s.skipdt) ∧
      (a.dt / 2 ≤ a.dtsnap → |(s.skipdt : ℚ) * a.dt - a.dtsnap| ≤ a.dt / 2) := by
  have near : ∀ q : ℚ, |(NINT (q / a.dt) : ℚ) * a.dt - q| ≤ a.dt / 2 := fun q => by
    have h := Recv.NINT_near (q / a.dt)
    have e : (NINT (q / a.dt) : ℚ) * a.dt - q = (NINT (q / a.dt) - q / a.dt) * a.dt := by field_simp
    rw [e, abs_mul, abs_of_pos hdt]
    nlinarith
  unfold snaPar
  rw [if_pos h12]
  refine ⟨_, rfl, ?_⟩
  dsimp only
  generalize hsk : max 1 (NINT (a.dtsnap / a.dt)) = sk
  have sk1 : 1 ≤ sk := by rw [← hsk]; exact le_max_left _ _
  have d0 : 0 ≤ NINT (a.tsnap1 / a.dt) := Recv.NINT_nonneg (div_nonneg h0 hdt.le)
  have r0 : 0 ≤ NINT ((a.tsnap2 - a.tsnap1) / a.dtsnap) := Recv.NINT_nonneg (div_nonneg (by linarith) hds.le)
  have near1 := near a.tsnap1
  generalize NINT (a.tsnap1 / a.dt) = d at d0 hn near1 ⊢
  generalize NINT ((a.tsnap2 - a.tsnap1) / a.dtsnap) = r at r0 ⊢
  rw [Int.tdiv_eq_ediv_of_nonneg (by omega : 0 ≤ a.nt - (d + 1))]
  have m0 : 0 ≤ (a.nt - (d + 1)) / sk := Int.ediv_nonneg (by omega) (by omega)
  have e := Int.mul_ediv_add_emod (a.nt - (d + 1)) sk
  have e0 := Int.emod_nonneg (a.nt - (d + 1)) (by omega : sk ≠ 0)
  have e1 := Int.emod_lt_of_pos (a.nt - (d + 1)) (by omega : 0 < sk)
  generalize (a.nt - (d + 1)) / sk = q at m0 e ⊢
  have em : d + 1 + min ((1 + r - 1) * sk) (q * sk) - (d + 1) = min r q * sk := by
    rw [add_sub_cancel_left, add_sub_cancel_left, min_mul_of_nonneg _ _ (by omega : 0 ≤ sk)]
  rw [em, Int.mul_tdiv_cancel _ (by omega : sk ≠ 0)]
  have mq : min r q ≤ q := min_le_right _ _
  have mr : min r q ≤ r := min_le_left _ _
  refine ⟨by omega, d0, near1, by omega, ?_, by omega, ?_, fun h => ?_⟩
  · rw [add_sub_cancel_right]
    have : min r q * sk ≤ q * sk := mul_le_mul_of_nonneg_right mq (by omega)
    rw [mul_comm sk q] at e
    omega
  · rcases min_choice r q with h | h
    · left; omega
    · right; rw [h]
      have : (q + 1) * sk = sk * q + sk := by ring
      omega
  · have : 1 ≤ NINT (a.dtsnap / a.dt) := by
      have h1 : 1 / 2 ≤ a.dtsnap / a.dt := by rw [le_div_iff₀ hdt]; linarith
      unfold NINT
      rw [if_pos (by linarith)]
      exact Int.le_floor.2 (by push_cast; linarith)
    rw [← hsk, max_eq_right this]
    exact near a.dtsnap

/-- The time of a snapshot differs from the time that was asked for by at most half a step for the first and half a step more for every
further one. -/
theorem snap_time_error {dt t1 ds : ℚ} {d sk : ℤ} (h1 : |(d : ℚ) * dt - t1| ≤ dt / 2) (h2 : |(sk : ℚ) * dt - ds| ≤ dt / 2) (k : ℕ) :
    |((d + k * sk : ℤ) : ℚ) * dt - (t1 + k * ds)| ≤ (k + 1) * (dt / 2) := by
  have e : ((d + k * sk : ℤ) : ℚ) * dt - (t1 + k * ds) = (d * dt - t1) + k * (sk * dt - ds) := by push_cast; ring
  rw [e]
  refine (abs_add_le _ _).trans ?_
  rw [abs_mul, abs_of_nonneg (by positivity : (0 : ℚ) ≤ k)]
  have := mul_le_mul_of_nonneg_left h2 (by positivity : (0 : ℚ) ≤ k)
  linarith

/-! ## Samples -/

section
variable {K : Type} [Field K]

/-- The field at column `gx` and row `gz` of the model, on the grid of readModel.c: `vx` half a cell to the right, `vz` half a cell down, `txz` both;
divergence and derivatives at the pressure point; rotation at the corner up and left of it. -/
def wanted (p : Med.Par) (f : Wave (K := K)) (sdx : K) (k : Kind) (gx gz : ℤ) : K :=
  let el (a : ℤ → K) (ix iz : ℤ) : K := a (ix * p.naz + iz)
  let x := p.rPx + gx
  let z := p.rPz + gz
  match k with
  | .vx => el f.vx (p.ioXx + gx) (p.ioXz + gz)
  | .vz => el f.vz (p.ioZx + gx) (p.ioZz + gz)
  | .p => el f.tzz x z
  | .tzz => el f.tzz x z
  | .txx => el f.txx x z
  | .txz => el f.txz (p.rTx + gx) (p.rTz + gz)
  | .pp => sdx * ((el f.vx (x + 1) z - el f.vx x z) + (el f.vz x (z + 1) - el f.vz x z))
  | .ss => sdx * ((el f.vx x z - el f.vx x (z - 1)) - (el f.vz x z - el f.vz (x - 1) z))
  | .dxvx => sdx * (9 / 8 * (el f.vx (x + 1) z - el f.vx x z) + -1 / 24 * (el f.vx (x + 2) z - el f.vx (x - 1) z))
  | .dzvz => sdx * (9 / 8 * (el f.vz x (z + 1) - el f.vz x z) + -1 / 24 * (el f.vz x (z + 2) - el f.vz x (z - 1)))

omit [Field K] in
theorem at_in {p : Med.Par} {a : ℤ → K} {ix iz : ℤ} (h : p.inG ix iz) : at_ p a ix iz = some (a (ix * p.naz + iz)) := by
  obtain ⟨⟨h1, h2⟩, h3, h4⟩ := h
  unfold at_
  have a1 : 0 ≤ ix * p.naz := mul_nonneg h1 (by omega)
  have a2 : (ix + 1) * p.naz ≤ p.nax * p.naz := mul_le_mul_of_nonneg_right (by omega) (by omega)
  rw [add_mul] at a2
  rw [if_pos ⟨by omega, by omega⟩]

/-- A model of order 4 or more. -/
structure Ok (p : Med.Par) : Prop where
  hx : 1 ≤ p.nx
  hz : 1 ≤ p.nz
  hn : 0 ≤ p.npml
  ht : 0 ≤ p.topadd
  even : p.iorder % 2 = 0
  ord : 4 ≤ p.iorder

theorem Ok.pad {p : Med.Par} (o : Ok p) (s : ℤ) : 0 ≤ p.pad s := by
  unfold Med.Par.pad; have := o.hn; split <;> omega

theorem Ok.add {p : Med.Par} (o : Ok p) : 0 ≤ p.add := by
  unfold Med.Par.add; have := o.ht; split <;> omega

theorem value_at {p : Med.Par} (f : Wave (K := K)) (sdx : K) (k : Kind) {gx gz : ℤ}
    (G : ∀ i j : ℤ, -1 ≤ i → i ≤ 2 → -1 ≤ j → j ≤ 2 → p.inG (p.rPx + gx + i) (p.rPz + gz + j)) :
    value p f sdx k (p.rPx + gx) (p.rPx + gx + 1) (p.rPz + gz) = some (wanted p f sdx k gx gz) := by
  have A : ∀ (a : ℤ → K) (i j : ℤ), -1 ≤ i → i ≤ 2 → -1 ≤ j → j ≤ 2 → at_ p a (p.rPx + gx + i) (p.rPz + gz + j) =
      some (a ((p.rPx + gx + i) * p.naz + (p.rPz + gz + j))) := fun a i j h1 h2 h3 h4 => at_in (G i j h1 h2 h3 h4)
  have A0 : ∀ (a : ℤ → K), at_ p a (p.rPx + gx) (p.rPz + gz) = some (a ((p.rPx + gx) * p.naz + (p.rPz + gz))) := fun a => by
    have := A a 0 0 (by omega) (by omega) (by omega) (by omega); simpa using this
  have AX : ∀ (a : ℤ → K) (i : ℤ), -1 ≤ i → i ≤ 2 → at_ p a (p.rPx + gx + i) (p.rPz + gz) = some (a ((p.rPx + gx + i) * p.naz + (p.rPz + gz))) :=
    fun a i h1 h2 => by have := A a i 0 h1 h2 (by omega) (by omega); simpa using this
  have AZ : ∀ (a : ℤ → K) (j : ℤ), -1 ≤ j → j ≤ 2 → at_ p a (p.rPx + gx) (p.rPz + gz + j) = some (a ((p.rPx + gx) * p.naz + (p.rPz + gz + j))) :=
    fun a j h1 h2 => by have := A a 0 j (by omega) (by omega) h1 h2; simpa using this
  have AXm : ∀ (a : ℤ → K), at_ p a (p.rPx + gx - 1) (p.rPz + gz) = some (a ((p.rPx + gx - 1) * p.naz + (p.rPz + gz))) := fun a =>
    AX a (-1) (by omega) (by omega)
  have AZm : ∀ (a : ℤ → K), at_ p a (p.rPx + gx) (p.rPz + gz - 1) = some (a ((p.rPx + gx) * p.naz + (p.rPz + gz - 1))) := fun a =>
    AZ a (-1) (by omega) (by omega)
  have ex : p.ioXx + gx = p.rPx + gx + 1 := by unfold Med.Par.ioXx Med.Par.rPx Med.Par.ioPx; omega
  have ex' : p.ioXz + gz = p.rPz + gz := by unfold Med.Par.ioXz Med.Par.rPz Med.Par.ioPz; omega
  have ez : p.ioZx + gx = p.rPx + gx := by unfold Med.Par.ioZx Med.Par.rPx Med.Par.ioPx; omega
  have ez' : p.ioZz + gz = p.rPz + gz + 1 := by unfold Med.Par.ioZz Med.Par.rPz Med.Par.ioPz; omega
  have et : p.rTx + gx = p.rPx + gx + 1 := by unfold Med.Par.rTx Med.Par.rPx Med.Par.ioPx Med.Par.ioTx; omega
  have et' : p.rTz + gz = p.rPz + gz + 1 := by unfold Med.Par.rTz Med.Par.rPz Med.Par.ioPz Med.Par.ioTz; omega
  unfold wanted
  dsimp only
  cases k <;> simp only [value]
  · rw [ex, ex', AX _ 1 (by omega) (by omega)]
  · rw [ez, ez', AZ _ 1 (by omega) (by omega)]
  · rw [A0]
  · rw [A0]
  · rw [A0]
  · rw [et, et', A _ 1 1 (by omega) (by omega) (by omega) (by omega)]
  · rw [A0, A0, AX _ 1 (by omega) (by omega), AZ _ 1 (by omega) (by omega)]; rfl
  · rw [A0, A0, AXm, AZm]; rfl
  · rw [A0, AX _ 1 (by omega) (by omega), AX _ 2 (by omega) (by omega), AXm]; rfl
  · rw [A0, AZ _ 1 (by omega) (by omega), AZ _ 2 (by omega) (by omega), AZm]; rfl

/-- The value at a pressure point of the model, or one column beyond its right side. -/
theorem value_wanted {p : Med.Par} (o : Ok p) (f : Wave (K := K)) (sdx : K) (k : Kind) {gx gz : ℤ} (hx : 0 ≤ gx) (hx' : gx ≤ p.nx) (hz : 0 ≤ gz)
    (hz' : gz < p.nz) : value p f sdx k (p.rPx + gx) (p.rPx + gx + 1) (p.rPz + gz) = some (wanted p f sdx k gx gz) := by
  have l := o.pad p.lef; have r := o.pad p.rig; have t := o.pad p.top; have b := o.pad p.bot; have ad := o.add
  have o1 := o.even; have o2 := o.ord
  refine value_at f sdx k ?_
  intro i j _ _ _ _
  unfold Med.Par.inG Med.Par.nax Med.Par.naz Med.Par.rPx Med.Par.rPz Med.Par.ioPx Med.Par.ioPz
  omega

/-- The range of a snapshot is in the model and `nx`, `nz` are as computed by getParameters.c:1078-1079. -/
structure Sna.Ok (p : Med.Par) (s : Sna) : Prop where
  x1 : 0 ≤ s.x1
  x12 : s.x1 ≤ s.x2
  x2 : s.x2 < p.nx
  z1 : 0 ≤ s.z1
  z12 : s.z1 ≤ s.z2
  z2 : s.z2 < p.nz
  skipx : 0 < s.skipdx
  skipz : 0 < s.skipdz
  nx : s.nx = 1 + (s.x2 - s.x1).tdiv s.skipdx
  nz : s.nz = 1 + (s.z2 - s.z1).tdiv s.skipdz

theorem count_bound {lo hi step : ℤ} (hs : 0 < step) (h : lo ≤ hi) {k : ℕ} (hk : k < (1 + (hi - lo).tdiv step).toNat) :
    lo ≤ lo + k * step ∧ lo + k * step ≤ hi := by
  rw [Int.tdiv_eq_ediv_of_nonneg (by omega)] at hk
  have e := Int.mul_ediv_add_emod (hi - lo) step
  have r0 := Int.emod_nonneg (hi - lo) hs.ne'
  have : (k : ℤ) ≤ (hi - lo) / step := by omega
  have := mul_le_mul_of_nonneg_right this hs.le
  have k0 : 0 ≤ (k : ℤ) * step := by positivity
  have : (hi - lo) / step * step = step * ((hi - lo) / step) := mul_comm _ _
  omega

/-- A snapshot without borders: `nx` traces of `nz` samples.  Trace `i` carries the position of column `x1+i*skipdx`, but its samples are those of
the column after it. -/
theorem snapshot_values_partial (p : Med.Par) (o : Ok p) (g : ℚ × ℚ) (s : Sna) (h : s.Ok p) (typ : Kind → Bool) (f : Wave (K := K)) (sdx : K)
    (isnap : ℤ) (k : Kind) :
    snapshot p g s false typ f sdx isnap k = some ((List.range s.nx.toNat).map fun i : ℕ =>
      ⟨i + 1, isnap * s.nx + i + 1, 1000 * (g.1 + ((s.x1 + i * s.skipdx : ℤ) : ℚ) * g.2),
        (List.range s.nz.toNat).map fun j : ℕ => wanted p f sdx k (s.x1 + i * s.skipdx + 1) (s.z1 + j * s.skipdz)⟩) := by
  have q1 := h.x1; have q2 := h.x2; have q3 := h.z1; have q4 := h.z2
  have ex : p.ioXx = p.rPx + 1 := by unfold Med.Par.ioXx Med.Par.rPx Med.Par.ioPx; omega
  have ez : p.ioXz = p.rPz := by unfold Med.Par.ioXz Med.Par.rPz Med.Par.ioPz; omega
  have nz0 : 0 ≤ s.nz := by
    rw [h.nz]; have := Int.tdiv_nonneg (by have := h.z12; omega : 0 ≤ s.z2 - s.z1) h.skipz.le; omega
  unfold snapshot withBorders
  simp only [Bool.false_eq_true, if_false, false_and]
  rw [loop_count h.skipx h.x12, ← h.nx, zipIdx_range_map, mapM_some (g := fun t : ℤ × ℕ => (⟨t.2 + 1, isnap * s.nx + t.2 + 1,
      1000 * (g.1 + (t.1 : ℚ) * g.2), (List.range s.nz.toNat).map fun j : ℕ => wanted p f sdx k (t.1 + 1) (s.z1 + j * s.skipdz)⟩ : Trace (K := K))),
    List.map_map]
  · rfl
  · intro t ht
    obtain ⟨i, hi, rfl⟩ := List.mem_map.1 ht
    rw [h.nx] at hi
    obtain ⟨i1, i2⟩ := count_bound h.skipx h.x12 (List.mem_range.1 hi)
    dsimp only
    have T : trace p f sdx k (s.x1 + i * s.skipdx + p.ioXx) (s.x1 + i * s.skipdx + p.ioXx + 1) (startRow p s false typ k) (s.z2 + p.ioXz) s.skipdz
        s.nz = some ((List.range s.nz.toNat).map fun j : ℕ => wanted p f sdx k (s.x1 + i * s.skipdx + 1) (s.z1 + j * s.skipdz)) := by
      unfold trace startRow
      simp only [Bool.false_eq_true, if_false]
      rw [loop_count h.skipz (by have := h.z12; omega), show s.z2 + p.ioXz - (s.z1 + p.ioXz) = s.z2 - s.z1 by ring, ← h.nz,
        mapM_some (g := fun iz : ℤ => wanted p f sdx k (s.x1 + i * s.skipdx + 1) (iz - p.ioXz)), List.map_map]
      · change (if _ then none else _) = _
        rw [List.length_map, List.length_range, if_neg (by omega), List.take_of_length_le (by simp)]
        congr 1
        refine List.map_congr_left fun j _ => ?_
        simp only [Function.comp]
        congr 1
        ring
      · intro iz hz
        obtain ⟨j, hj, rfl⟩ := List.mem_map.1 hz
        rw [h.nz] at hj
        obtain ⟨j1, j2⟩ := count_bound h.skipz h.z12 (List.mem_range.1 hj)
        have v := value_wanted o f sdx k (gx := s.x1 + i * s.skipdx + 1) (gz := s.z1 + j * s.skipdz) (by omega) (by omega) (by omega) (by omega)
        rw [ex, ez, show s.x1 + (i : ℤ) * s.skipdx + (p.rPx + 1) = p.rPx + (s.x1 + i * s.skipdx + 1) by ring,
          show s.z1 + p.rPz + (j : ℤ) * s.skipdz = p.rPz + (s.z1 + j * s.skipdz) by ring, v]
        congr 2
        ring
    rw [T]
    rfl

end

end Verif.Snap

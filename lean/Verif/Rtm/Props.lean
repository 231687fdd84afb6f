import Verif.Rtm.Image
import Mathlib.Algebra.Order.Ring.Rat
import Mathlib.Tactic.NormNum

/-!
# Properties of the reverse time migration image

C157 the conventional image is the zero-lag cross-correlation of the two wavefields, stacked over
the shots; C158 which samples the Poynting image correlates; C159 the sampling of the image.
-/

namespace Verif.Rtm
open Verif

variable {K : Type} [Field K] [LinearOrder K]

/-! ## Specification -/

namespace Spec

/-- Pressure at point `(cx,cz)` of the model (points of the model are counted from its upper left
corner). -/
def p (g : Grid) (w : Wav K) (cx cz : ℕ) : K :=
  w.tzz.val (((g.ioPx + cx) * g.naz + (g.ioPz + cz) : ℕ) : Int)

/-- Mean of the two horizontal velocities that lie half a grid step left and right of `(cx,cz)`. -/
def vx (g : Grid) (w : Wav K) (cx cz : ℕ) : K :=
  (w.vx.val (((g.ioPx + cx) * g.naz + (g.ioPz + cz) : ℕ) : Int) +
   w.vx.val (((g.ioPx + cx + 1) * g.naz + (g.ioPz + cz) : ℕ) : Int)) / 2

/-- Mean of the two vertical velocities that lie half a grid step above and below `(cx,cz)`. -/
def vz (g : Grid) (w : Wav K) (cx cz : ℕ) : K :=
  (w.vz.val (((g.ioPx + cx) * g.naz + (g.ioPz + cz) : ℕ) : Int) +
   w.vz.val (((g.ioPx + cx) * g.naz + (g.ioPz + cz + 1) : ℕ) : Int)) / 2

/-- The time steps that are imaged. -/
def steps (nt skip : ℕ) : Finset ℕ := (Finset.range nt).filter (skip ∣ ·)

end Spec

/-- The image points of `m` are points of a model of `nx` by `nz`. -/
def Mig.On (m : Mig K) (nx nz : ℕ) : Prop :=
  (∀ ix, ix < m.nx → m.x1 + ix * m.skipdx < nx) ∧ (∀ iz, iz < m.nz → m.z1 + iz * m.skipdz < nz)

/-- Every array of a shot has the size of the model. -/
def Shot.Sized (g : Grid) (h : Shot K) : Prop := ∀ it, it < h.nt → Rtm.Sized g (h.fw it) ∧ Rtm.Sized g (h.bw it)

/-! ## Bookkeeping of the snapshots -/

/-- Number of snapshots taken in the first `n` steps. -/
def cnt (s n : ℕ) : ℕ := (n + s - 1) / s

theorem cnt_zero {s : ℕ} (hs : 0 < s) : cnt s 0 = 0 := by
  unfold cnt; exact Nat.div_eq_of_lt (by omega)

theorem cnt_hit {s n : ℕ} (hs : 0 < s) (h : n % s = 0) : cnt s (n + 1) = cnt s n + 1 ∧ cnt s n * s = n := by
  obtain ⟨q, rfl⟩ := Nat.dvd_of_mod_eq_zero h
  have h1 : cnt s (s * q) = q := by
    unfold cnt
    rw [Nat.add_sub_assoc hs, Nat.mul_add_div hs, Nat.div_eq_of_lt (by omega), Nat.add_zero]
  have h2 : cnt s (s * q + 1) = q + 1 := by
    unfold cnt
    rw [show s * q + 1 + s - 1 = s * (q + 1) by rw [Nat.mul_add]; omega, Nat.mul_div_cancel_left _ hs]
  rw [h1, h2]
  exact ⟨rfl, Nat.mul_comm _ _⟩

theorem cnt_miss {s n : ℕ} (hs : 0 < s) (h : n % s ≠ 0) : cnt s (n + 1) = cnt s n := by
  have hd := Nat.div_add_mod n s
  have hl := Nat.mod_lt n hs
  generalize n / s = q at hd
  generalize n % s = r at *
  subst hd
  have h1 : cnt s (s * q + r) = q + 1 := by
    unfold cnt
    rw [show s * q + r + s - 1 = s * (q + 1) + (r - 1) by rw [Nat.mul_add]; omega, Nat.mul_add_div hs,
      Nat.div_eq_of_lt (by omega), Nat.add_zero]
  have h2 : cnt s (s * q + r + 1) = q + 1 := by
    unfold cnt
    rw [show s * q + r + 1 + s - 1 = s * (q + 1) + r by rw [Nat.mul_add]; omega, Nat.mul_add_div hs,
      Nat.div_eq_of_lt hl, Nat.add_zero]
  rw [h1, h2]

theorem cnt_mono {s a b : ℕ} (h : a ≤ b) : cnt s a ≤ cnt s b := by
  unfold cnt; exact Nat.div_le_div_right (by omega)

/-- `mig.wav` has room for the snapshots of a shot. -/
theorem cnt_le_migNt {s : ℕ} (hs : 0 < s) (nt : ℕ) : cnt s nt ≤ migNt nt s := by
  unfold migNt
  split_ifs with h
  · unfold cnt
    have hd := Nat.div_add_mod nt s
    have hl := Nat.mod_lt nt hs
    generalize nt / s = q at *
    generalize nt % s = r at *
    subst hd
    apply Nat.lt_succ_iff.mp
    rw [Nat.div_lt_iff_lt_mul hs]
    have : (q + 1).succ * s = s * q + 2 * s := by
      rw [Nat.succ_mul, Nat.add_mul, Nat.mul_comm q s]; omega
    omega
  · obtain rfl : s = 1 := by omega
    unfold cnt; simp

section
variable {g : Grid} {m : Mig K} (hin : Inside g m) (hmode : m.mode = 1 ∨ m.mode = 2 ∨ m.mode = 3)
  (hs : 0 < m.skipdt)
include hin hmode hs

/-- After `n` forward steps the snapshots of the steps `0, s, 2s, ..` are stored in this order. -/
theorem forward_spec {h : Shot K} (hh : h.Sized g) (s : St K) (h0 : s.it = 0) (hw : ∀ k, s.wav k = noSnap)
    (n : ℕ) (hn : n ≤ h.nt) :
    ∃ s', forward g m h n s = some s' ∧ s'.image = s.image ∧ s'.mig = s.mig ∧ s'.it = cnt m.skipdt n ∧
      (∀ k, k < cnt m.skipdt n → snapshot g m (h.fw (k * m.skipdt)) noSnap = some (s'.wav k)) ∧
      ∀ k, cnt m.skipdt n ≤ k → s'.wav k = noSnap := by
  induction n with
  | zero =>
    refine ⟨s, rfl, rfl, rfl, by rw [cnt_zero hs, h0], fun k hk => ?_, fun k _ => hw k⟩
    rw [cnt_zero hs] at hk; omega
  | succ n ih =>
    obtain ⟨s', e1, e2, e3, e4, e5, e6⟩ := ih (by omega)
    unfold forward at e1 ⊢
    rw [forNM_succ, e1]
    by_cases hm : n % m.skipdt = 0
    · obtain ⟨c1, c2⟩ := cnt_hit hs hm
      obtain ⟨e, f1, -⟩ := condition_spec hin (hh n (by omega)).1 (hh n (by omega)).1 ⟨m.nx * m.nz, fun _ => 0⟩ rfl hmode
      have hcap : s'.it < migNt h.nt m.skipdt := by
        rw [e4]
        exact lt_of_lt_of_le (by omega) (le_trans (cnt_mono (show n + 1 ≤ h.nt by omega)) (cnt_le_migNt hs h.nt))
      have hold : s'.wav s'.it = noSnap := e6 _ (by omega)
      refine ⟨{ s' with it := s'.it + 1, wav := fun k => if k = s'.it then e else s'.wav k }, ?_, e2, e3, ?_, ?_, ?_⟩
      · simp only [Option.bind_some, hm, if_true]
        unfold extract
        rw [if_neg (by simp [hcap]), hold, f1]; rfl
      · simp only [e4, c1]
      · intro k hk
        by_cases hk' : k = s'.it
        · subst hk'
          simp only [if_true]
          rw [e4, c2, f1]
        · simp only [if_neg hk']
          exact e5 k (by omega)
      · intro k hk
        simp only
        rw [if_neg (by omega)]
        exact e6 k (by omega)
    · have c := cnt_miss hs hm
      refine ⟨s', by simp [hm], e2, e3, by rw [c, e4], fun k hk => e5 k (by omega), fun k hk => e6 k (by omega)⟩

/-- The backward loop meets the snapshot of every imaged step at that step. -/
theorem backward_spec {h : Shot K} (hh : h.Sized g) (s : St K) (hi : s.it = cnt m.skipdt h.nt)
    (hsz : s.image.size = m.nx * m.nz)
    (hw : ∀ k, k < cnt m.skipdt h.nt → snapshot g m (h.fw (k * m.skipdt)) noSnap = some (s.wav k))
    (hw' : ∀ k, cnt m.skipdt h.nt ≤ k → s.wav k = noSnap) (n : ℕ) (hn : n ≤ h.nt) :
    ∃ s', backward g m h n s = some s' ∧ s'.mig = s.mig ∧ s'.it = cnt m.skipdt (h.nt - n) ∧
      (∀ k, k < cnt m.skipdt (h.nt - n) → snapshot g m (h.fw (k * m.skipdt)) noSnap = some (s'.wav k)) ∧
      (∀ k, cnt m.skipdt (h.nt - n) ≤ k → s'.wav k = noSnap) ∧ s'.image.size = m.nx * m.nz ∧
      ∀ ix, ix < m.nx → ∀ iz, iz < m.nz → s'.image.val (pt m ix iz) = s.image.val (pt m ix iz) +
        ∑ it ∈ (Finset.Ico (h.nt - n) h.nt).filter (m.skipdt ∣ ·), gain g m (h.fw it) (h.bw it) ix iz := by
  induction n with
  | zero =>
    refine ⟨s, rfl, rfl, hi, hw, hw', hsz, fun ix _ iz _ => ?_⟩
    simp
  | succ n ih =>
    obtain ⟨s', e1, e3, e4, e5, e6, e7, e8⟩ := ih (by omega)
    unfold backward at e1 ⊢
    rw [forNM_succ, e1]
    obtain ⟨t, ht⟩ : ∃ t, h.nt - n = t + 1 := ⟨h.nt - n - 1, by omega⟩
    have ht' : h.nt - 1 - n = t := by omega
    have ht'' : h.nt - (n + 1) = t := by omega
    have hico : Finset.Ico t h.nt = insert t (Finset.Ico (t + 1) h.nt) := by
      rw [Finset.insert_Ico_add_one_left_eq_Ico (by omega)]
    rw [ht] at e4 e5 e6 e8
    rw [ht'', hico, Finset.filter_insert]
    simp only [Option.bind_some, ht']
    by_cases hm : t % m.skipdt = 0
    · obtain ⟨c1, c2⟩ := cnt_hit hs hm
      obtain ⟨e, f1, d', f2, f3, f4⟩ :=
        condition_spec hin (hh t (by omega)).1 (hh t (by omega)).2 s'.image e7 hmode
      have hit : s'.it = cnt m.skipdt t + 1 := by omega
      have hslot : s'.wav (cnt m.skipdt t) = e := by
        have := e5 (cnt m.skipdt t) (by omega)
        rw [c2, f1] at this
        exact (Option.some_injective _ this).symm
      have hcap : s'.it - 1 < migNt h.nt m.skipdt := by
        rw [hit, Nat.add_sub_cancel]
        exact lt_of_lt_of_le (by omega) (le_trans (cnt_mono (show t + 1 ≤ h.nt by omega)) (cnt_le_migNt hs h.nt))
      refine ⟨{ s' with it := s'.it - 1, image := d', wav := fun k => if k = s'.it - 1 then noSnap else s'.wav k },
        ?_, e3, ?_, ?_, ?_, f3, ?_⟩
      · rw [if_pos hm]
        unfold imaging
        rw [if_neg (by omega), if_neg (by simp [hcap]), hit, Nat.add_sub_cancel, hslot, f2]; rfl
      · simp only [hit, Nat.add_sub_cancel]
      · intro k hk
        simp only [hit, Nat.add_sub_cancel]
        rw [if_neg (by omega)]
        exact e5 k (by omega)
      · intro k hk
        simp only [hit, Nat.add_sub_cancel]
        split_ifs with hk'
        · rfl
        · exact e6 k (by omega)
      · intro ix hx iz hz
        rw [if_pos (Nat.dvd_of_mod_eq_zero hm), Finset.sum_insert (by simp)]
        simp only
        rw [f4 ix hx iz hz, e8 ix hx iz hz]
        ring
    · have c := cnt_miss hs hm
      have hnd : ¬ m.skipdt ∣ t := fun hd => hm (Nat.mod_eq_zero_of_dvd hd)
      rw [c] at e4 e5 e6
      refine ⟨s', by rw [if_neg hm], e3, e4, e5, e6, e7, fun ix hx iz hz => ?_⟩
      rw [if_neg hnd, e8 ix hx iz hz]

omit hin hmode hs in
theorem stack_spec (image mig : Buf K) (h1 : image.size = m.nx * m.nz) (h2 : mig.size = m.nx * m.nz) :
    ∃ d, stack m image mig = some d ∧ d.size = m.nx * m.nz ∧
      ∀ ix, ix < m.nx → ∀ iz, iz < m.nz → d.val (pt m ix iz) = mig.val (pt m ix iz) + image.val (pt m ix iz) := by
  have key : PW (m.nx * m.nz) (fun d => stack m image d)
      (fun x v => forN (m.nx * m.nz) (fun k v => if x = (k : Int) then v + image.val k else v) v) := by
    refine PW.forNM (g := fun (k : ℕ) (x : Int) (v : K) => if x = (k : Int) then v + image.val k else v) fun k hk => ?_
    intro d hd
    rw [rd_at h1 (by omega) (by omega)]
    exact PW.upd (by omega) (fun v => v + image.val (k : Int)) d hd
  obtain ⟨d, e1, e2, e3⟩ := key mig h2
  refine ⟨d, e1, e2, fun ix hx iz hz => ?_⟩
  rw [e3]
  have hp := pt_ok (m := m) hx hz
  obtain ⟨i, hi⟩ : ∃ i : ℕ, pt m ix iz = i := ⟨ix * m.nz + iz, rfl⟩
  rw [hi] at hp ⊢
  show forN _ _ _ = _
  rw [forN_single i (by omega) (fun k _ hne v => by
    rw [if_neg (by omega)])]
  simp

/-- One shot. -/
theorem shot_spec {h : Shot K} (hh : h.Sized g) (s : St K) (hw : ∀ k, s.wav k = noSnap)
    (hsz : s.image.size = m.nx * m.nz) (hz0 : ∀ i, s.image.val i = 0) (hsz' : s.mig.size = m.nx * m.nz) :
    ∃ s', shot g m s h = some s' ∧ (∀ k, s'.wav k = noSnap) ∧ s'.image.size = m.nx * m.nz ∧
      (∀ i, s'.image.val i = 0) ∧ s'.mig.size = m.nx * m.nz ∧
      ∀ ix, ix < m.nx → ∀ iz, iz < m.nz → s'.mig.val (pt m ix iz) = s.mig.val (pt m ix iz) +
        ∑ it ∈ Spec.steps h.nt m.skipdt, gain g m (h.fw it) (h.bw it) ix iz := by
  obtain ⟨a, a1, a2, a3, a4, a5, a6⟩ := forward_spec hin hmode hs hh { s with it := 0 } rfl hw h.nt le_rfl
  obtain ⟨b, b1, b3, b4, b5, b6, b7, b8⟩ := backward_spec hin hmode hs hh a a4 (by rw [a2]; exact hsz) a5 a6 h.nt le_rfl
  obtain ⟨t, t1, t2, t3⟩ := stack_spec b.image b.mig b7 (by rw [b3, a3]; exact hsz')
  refine ⟨{ b with mig := t, image := { b.image with val := fun _ => 0 } }, ?_, ?_, b7, fun _ => rfl, t2, ?_⟩
  · simp [shot, a1, b1, t1]
  · intro k
    exact b6 k (by rw [Nat.sub_self, cnt_zero hs]; exact Nat.zero_le _)
  · intro ix hx iz hz
    simp only
    rw [t3 ix hx iz hz, b8 ix hx iz hz, b3, a3, a2]
    simp only
    rw [hz0, Nat.sub_self, zero_add, Spec.steps, Finset.range_eq_Ico]

/-- All shots. -/
theorem shots_spec (l : List (Shot K)) (hl : ∀ h ∈ l, h.Sized g) (s : St K) (hw : ∀ k, s.wav k = noSnap)
    (hsz : s.image.size = m.nx * m.nz) (hz0 : ∀ i, s.image.val i = 0) (hsz' : s.mig.size = m.nx * m.nz) :
    ∃ s', shots g m l s = some s' ∧ (∀ k, s'.wav k = noSnap) ∧ s'.mig.size = m.nx * m.nz ∧
      ∀ ix, ix < m.nx → ∀ iz, iz < m.nz → s'.mig.val (pt m ix iz) = s.mig.val (pt m ix iz) +
        (l.map fun h => ∑ it ∈ Spec.steps h.nt m.skipdt, gain g m (h.fw it) (h.bw it) ix iz).sum := by
  induction l generalizing s with
  | nil => exact ⟨s, rfl, hw, hsz', fun _ _ _ _ => by simp⟩
  | cons h l ih =>
    obtain ⟨t, t1, t2, t3, t4, t5, t6⟩ := shot_spec hin hmode hs (hl h (by simp)) s hw hsz hz0 hsz'
    obtain ⟨u, u1, u2, u3, u4⟩ := ih (fun x hx => hl x (by simp [hx])) t t2 t3 t4 t5
    refine ⟨u, ?_, u2, u3, fun ix hx iz hz => ?_⟩
    · unfold shots at u1 ⊢
      rw [List.foldlM_cons, t1]; exact u1
    · rw [u4 ix hx iz hz, t6 ix hx iz hz, List.map_cons, List.sum_cons, add_assoc]

end

/-! ## The grid of the program -/

section
variable {nx nz iorder ntap : ℕ} {top bot lef rig : Bool}

theorem cell_lt {a b c r : ℕ} (hc : c < a) (hr : r < b) : c * b + r < a * b := by
  have : (c + 1) * b ≤ a * b := Nat.mul_le_mul_right _ hc
  rw [Nat.add_mul] at this
  omega

theorem inside_grid {m : Mig K} (ho : 2 ≤ iorder) (hm : m.On nx nz) :
    Inside (grid nx nz iorder ntap top bot lef rig) m := by
  have ho' : 1 ≤ iorder / 2 := by omega
  constructor
  all_goals
    intro ix hx iz hz
    have h1 := hm.1 ix hx
    have h2 := hm.2 iz hz
    unfold pos
    simp only [grid]
    generalize (if lef then ntap else 0) = L
    generalize (if rig then ntap else 0) = R
    generalize (if top then ntap else 0) = T
    generalize (if bot then ntap else 0) = B
    generalize iorder / 2 = o at *
    generalize ix * m.skipdx = jx at *
    generalize iz * m.skipdz = jz at *
    generalize hN : nz + o + 1 + T + B = N
  · have := @cell_lt (nx + o + 1 + L + R) N (o - 1 + L + m.x1 + jx + 1)
      (o - 1 + T + m.z1 + jz + 1) (by omega) (by omega)
    rw [Nat.add_mul _ 1, Nat.one_mul] at this
    have h3 : (o - 1 + L + m.x1 + jx) * N + (o - 1 + T + m.z1 + jz) + N + 1 < (nx + o + 1 + L + R) * N := by omega
    exact_mod_cast h3
  · have := @cell_lt (nx + o + 1 + L + R) N (o + L + m.x1 + jx + 1)
      (o - 1 + T + m.z1 + jz) (by omega) (by omega)
    rw [Nat.add_mul _ 1, Nat.one_mul] at this
    have h3 : (o + L + m.x1 + jx) * N + (o - 1 + T + m.z1 + jz) + N < (nx + o + 1 + L + R) * N := by omega
    exact_mod_cast h3
  · have := @cell_lt (nx + o + 1 + L + R) N (o - 1 + L + m.x1 + jx)
      (o + T + m.z1 + jz + 1) (by omega) (by omega)
    have h3 : (o - 1 + L + m.x1 + jx) * N + (o + T + m.z1 + jz) + 1 < (nx + o + 1 + L + R) * N := by omega
    exact_mod_cast h3

theorem io_grid (ho : 2 ≤ iorder) :
    (grid nx nz iorder ntap top bot lef rig).ioXx = (grid nx nz iorder ntap top bot lef rig).ioPx + 1 ∧
    (grid nx nz iorder ntap top bot lef rig).ioXz = (grid nx nz iorder ntap top bot lef rig).ioPz ∧
    (grid nx nz iorder ntap top bot lef rig).ioZx = (grid nx nz iorder ntap top bot lef rig).ioPx ∧
    (grid nx nz iorder ntap top bot lef rig).ioZz = (grid nx nz iorder ntap top bot lef rig).ioPz + 1 := by
  have ho' : 1 ≤ iorder / 2 := by omega
  simp only [grid]
  refine ⟨by omega, trivial, trivial, by omega⟩

end

/-- The values that an imaging step uses, at the point of the model that belongs to the image point. -/
theorem gain_values {g : Grid} {m : Mig K} (a w : Wav K) (ix iz : ℕ)
    (h : g.ioXx = g.ioPx + 1 ∧ g.ioXz = g.ioPz ∧ g.ioZx = g.ioPx ∧ g.ioZz = g.ioPz + 1) :
    let cx := m.x1 + ix * m.skipdx
    let cz := m.z1 + iz * m.skipdz
    fxx g m a w ix iz = (Spec.p g a cx cz * Spec.vx g a (cx + 1) cz) * (Spec.p g w cx cz * Spec.vx g w cx cz) ∧
    fzz g m a w ix iz = (Spec.p g a cx cz * Spec.vz g a cx (cz + 1)) * (Spec.p g w cx cz * Spec.vz g w cx cz) ∧
    w.tzz.val (pos g m g.ioPx g.ioPz ix iz) = Spec.p g w cx cz ∧
    a.tzz.val (pos g m g.ioPx g.ioPz ix iz) = Spec.p g a cx cz := by
  obtain ⟨h1, h2, h3, h4⟩ := h
  intro cx cz
  have e0 : pos g m g.ioPx g.ioPz ix iz = (((g.ioPx + cx) * g.naz + (g.ioPz + cz) : ℕ) : Int) := by
    unfold pos; push_cast [cx, cz]; ring
  have e1 : pos g m g.ioPx g.ioPz ix iz + g.naz = (((g.ioPx + cx + 1) * g.naz + (g.ioPz + cz) : ℕ) : Int) := by
    unfold pos; push_cast [cx, cz]; ring
  have e2 : pos g m g.ioPx g.ioPz ix iz + 1 = (((g.ioPx + cx) * g.naz + (g.ioPz + cz + 1) : ℕ) : Int) := by
    unfold pos; push_cast [cx, cz]; ring
  have e3 : pos g m g.ioXx g.ioXz ix iz = (((g.ioPx + (cx + 1)) * g.naz + (g.ioPz + cz) : ℕ) : Int) := by
    rw [h1, h2]; unfold pos; push_cast [cx, cz]; ring
  have e4 : pos g m g.ioXx g.ioXz ix iz + g.naz = (((g.ioPx + (cx + 1) + 1) * g.naz + (g.ioPz + cz) : ℕ) : Int) := by
    rw [h1, h2]; unfold pos; push_cast [cx, cz]; ring
  have e5 : pos g m g.ioZx g.ioZz ix iz = (((g.ioPx + cx) * g.naz + (g.ioPz + (cz + 1)) : ℕ) : Int) := by
    rw [h3, h4]; unfold pos; push_cast [cx, cz]; ring
  have e6 : pos g m g.ioZx g.ioZz ix iz + 1 = (((g.ioPx + cx) * g.naz + (g.ioPz + (cz + 1) + 1) : ℕ) : Int) := by
    rw [h3, h4]; unfold pos; push_cast [cx, cz]; ring
  refine ⟨?_, ?_, ?_, ?_⟩
  · unfold fxx Spec.p Spec.vx; rw [e1, e4, e0, e3]; ring
  · unfold fzz Spec.p Spec.vz; rw [e2, e6, e0, e5]; ring
  · rw [e0]; rfl
  · rw [e0]; rfl

/-! ## The properties -/

section
variable {nx nz iorder ntap : ℕ} {top bot lef rig : Bool}

/-- **C157.** The conventional migration (mode 1).  For any model size, operator order, absorbing
edges, image grid inside the model, any image time step and any list of shots with any wavefields and
any (different) numbers of time steps, the program takes and uses its snapshots without ever leaving an
array or missing one, releases all of them, and the final image at every point is the sum over the
shots and over the imaged time steps of `dt` times source pressure times receiver pressure at that
point and at the same time step. -/
theorem rtm_conventional (ho : 2 ≤ iorder) (m : Mig K) (hmode : m.mode = 1) (hon : m.On nx nz)
    (hs : 0 < m.skipdt) (l : List (Shot K)) (hl : ∀ h ∈ l, h.Sized (grid nx nz iorder ntap top bot lef rig)) :
    ∃ s, shots (grid nx nz iorder ntap top bot lef rig) m l (start m) = some s ∧
      (∀ k, s.wav k = ⟨none, none, none⟩) ∧ s.mig.size = m.nx * m.nz ∧
      ∀ ix, ix < m.nx → ∀ iz, iz < m.nz → s.mig.val ((ix * m.nz + iz : ℕ) : Int) =
        (l.map fun h => ∑ it ∈ Spec.steps h.nt m.skipdt, m.dt *
          (Spec.p (grid nx nz iorder ntap top bot lef rig) (h.fw it) (m.x1 + ix * m.skipdx) (m.z1 + iz * m.skipdz) *
           Spec.p (grid nx nz iorder ntap top bot lef rig) (h.bw it) (m.x1 + ix * m.skipdx) (m.z1 + iz * m.skipdz))).sum := by
  obtain ⟨s, e1, e2, e3, e4⟩ := shots_spec (inside_grid ho hon) (Or.inl hmode) hs l hl (start m)
    (fun _ => rfl) rfl (fun _ => rfl) rfl
  refine ⟨s, e1, e2, e3, fun ix hx iz hz => ?_⟩
  rw [show (((ix * m.nz + iz : ℕ)) : Int) = pt m ix iz from rfl, e4 ix hx iz hz]
  simp only [start, zero_add]
  congr 1
  apply List.map_congr_left
  intro h _
  apply Finset.sum_congr rfl
  intro it _
  obtain ⟨-, -, g3, g4⟩ := gain_values (m := m) (h.fw it) (h.bw it) ix iz
    (io_grid (nx := nx) (nz := nz) (ntap := ntap) (top := top) (bot := bot) (lef := lef) (rig := rig) ho)
  unfold gain
  rw [if_pos (show passes m _ _ from Or.inl hmode), g3, g4, mul_comm (Spec.p _ (h.bw it) _ _)]

open Classical in
/-- **C158 (part).** The Poynting migration (mode 2): exactly which samples are correlated.  With `Sx`,
`Sz` the flux of the source field and `Rx`, `Rz` that of the receiver field, orientation 0 takes the
samples where both products are positive (`backscatter`) or where one is negative, orientation 1 those
with `Sz·Rz > 0` and orientation 2 those with `Sx·Rx < 0`.  What is missing: the source flux is the
pressure of the image point times the velocity of the *next* point; see `poynting_shift`. -/
theorem poynting_image_partial (ho : 2 ≤ iorder) (m : Mig K) (hmode : m.mode = 2)
    (hon : m.On nx nz) (hs : 0 < m.skipdt) (l : List (Shot K))
    (hl : ∀ h ∈ l, h.Sized (grid nx nz iorder ntap top bot lef rig)) :
    ∃ s, shots (grid nx nz iorder ntap top bot lef rig) m l (start m) = some s ∧
      (∀ k, s.wav k = ⟨none, none, none⟩) ∧ s.mig.size = m.nx * m.nz ∧
      ∀ ix, ix < m.nx → ∀ iz, iz < m.nz → s.mig.val ((ix * m.nz + iz : ℕ) : Int) =
        (l.map fun h => ∑ it ∈ Spec.steps h.nt m.skipdt,
          let g := grid nx nz iorder ntap top bot lef rig
          let cx := m.x1 + ix * m.skipdx
          let cz := m.z1 + iz * m.skipdz
          let S := h.fw it
          let R := h.bw it
          let Sx := Spec.p g S cx cz * Spec.vx g S (cx + 1) cz
          let Sz := Spec.p g S cx cz * Spec.vz g S cx (cz + 1)
          let Rx := Spec.p g R cx cz * Spec.vx g R cx cz
          let Rz := Spec.p g R cx cz * Spec.vz g R cx cz
          if (m.orient = 0 ∧ m.backscatter = true ∧ 0 < Sx * Rx ∧ 0 < Sz * Rz) ∨
             (m.orient = 0 ∧ m.backscatter = false ∧ (Sx * Rx < 0 ∨ Sz * Rz < 0)) ∨
             (m.orient = 1 ∧ 0 < Sz * Rz) ∨ (m.orient = 2 ∧ Sx * Rx < 0)
          then m.dt * (Spec.p g S cx cz * Spec.p g R cx cz) else 0).sum := by
  obtain ⟨s, e1, e2, e3, e4⟩ := shots_spec (inside_grid ho hon) (Or.inr (Or.inl hmode)) hs l hl (start m)
    (fun _ => rfl) rfl (fun _ => rfl) rfl
  refine ⟨s, e1, e2, e3, fun ix hx iz hz => ?_⟩
  rw [show (((ix * m.nz + iz : ℕ)) : Int) = pt m ix iz from rfl, e4 ix hx iz hz]
  simp only [start, zero_add]
  congr 1
  apply List.map_congr_left
  intro h _
  apply Finset.sum_congr rfl
  intro it _
  obtain ⟨g1, g2, g3, g4⟩ := gain_values (m := m) (h.fw it) (h.bw it) ix iz
    (io_grid (nx := nx) (nz := nz) (ntap := ntap) (top := top) (bot := bot) (lef := lef) (rig := rig) ho)
  unfold gain
  rw [g1, g2, g3, g4]
  refine if_congr ?_ (by rw [mul_comm (Spec.p _ (h.bw it) _ _)]) rfl
  unfold passes
  have h1 : ¬ m.mode = 1 := by omega
  cases hb : m.backscatter <;> simp [hmode]

/-- Mode 3 (decomposition) is accepted but images nothing: the result is zero for every input. -/
theorem decomposition_zero (ho : 2 ≤ iorder) (m : Mig K) (hmode : m.mode = 3) (hon : m.On nx nz)
    (hs : 0 < m.skipdt) (l : List (Shot K)) (hl : ∀ h ∈ l, h.Sized (grid nx nz iorder ntap top bot lef rig)) :
    ∃ s, shots (grid nx nz iorder ntap top bot lef rig) m l (start m) = some s ∧
      ∀ ix, ix < m.nx → ∀ iz, iz < m.nz → s.mig.val ((ix * m.nz + iz : ℕ) : Int) = 0 := by
  obtain ⟨s, e1, e2, e3, e4⟩ := shots_spec (inside_grid ho hon) (Or.inr (Or.inr hmode)) hs l hl (start m)
    (fun _ => rfl) rfl (fun _ => rfl) rfl
  refine ⟨s, e1, fun ix hx iz hz => ?_⟩
  rw [show (((ix * m.nz + iz : ℕ)) : Int) = pt m ix iz from rfl, e4 ix hx iz hz]
  have : ∀ h : Shot K, ∑ it ∈ Spec.steps h.nt m.skipdt,
      gain (grid nx nz iorder ntap top bot lef rig) m (h.fw it) (h.bw it) ix iz = 0 := by
    intro h
    apply Finset.sum_eq_zero
    intro it _
    simp [gain, passes, hmode]
  simp [start, this]

end

/-! ## C159: the sampling of the image -/

/-- **C159.** The image points along one axis from the first and last grid point: they start at the
first, lie a whole number of steps apart, none lies beyond the last, and one more would. -/
theorem axis_points {i1 i2 skip n : ℕ} (h : i1 ≤ i2) (ha : axis i1 i2 skip = some n) :
    0 < n ∧ (∀ i, i < n → i1 + i * skip ≤ i2) ∧ i2 < i1 + n * skip := by
  unfold axis at ha
  split_ifs at ha with hs
  obtain rfl := Option.some_injective _ ha
  have hs : 0 < skip := Nat.pos_of_ne_zero hs
  refine ⟨Nat.succ_pos _, fun i hi => ?_, ?_⟩
  · have h1 : i * skip ≤ (i2 - i1) / skip * skip := Nat.mul_le_mul_right _ (by omega)
    have h2 := Nat.div_mul_le_self (i2 - i1) skip
    omega
  · have := Nat.lt_div_mul_add (a := i2 - i1) hs
    rw [Nat.add_mul]
    omega

/-- An image grid made from corner points of the model satisfies the hypothesis of the theorems above. -/
theorem image_on_model {nx nz x2 z2 : ℕ} {m : Mig K} (hx : m.x1 ≤ x2) (hx2 : x2 < nx) (hz : m.z1 ≤ z2) (hz2 : z2 < nz)
    (ax : axis m.x1 x2 m.skipdx = some m.nx) (az : axis m.z1 z2 m.skipdz = some m.nz) : m.On nx nz :=
  ⟨fun ix h => lt_of_le_of_lt ((axis_points hx ax).2.1 ix h) hx2,
   fun iz h => lt_of_le_of_lt ((axis_points hz az).2.1 iz h) hz2⟩

/-- A spatial step of the image below half the grid step stops the program: integer division by zero
(the time step alone is tested for this, getParameters.c:583). -/
theorem axis_zero (i1 i2 : ℕ) : axis i1 i2 0 = none := rfl

/-! ## Witnesses -/

/-- A model of 3 by 3 points, fourth order, no absorbing edges. -/
def g3 : Grid := grid 3 3 4 0 false false false false

/-- An image of two by two points, every second grid point, every second time step. -/
def m3 (mode orient : ℕ) : Mig ℚ := ⟨mode, orient, false, 0, 0, 2, 2, 2, 2, 2, 1 / 2⟩

/-- A wavefield with pressure `a`, and velocities that change sign between neighbouring points. -/
def w3 (a : ℚ) : Wav ℚ where
  tzz := ⟨36, fun i => a + i⟩
  vx := ⟨36, fun i => if i < 14 then 1 else -2⟩
  vz := ⟨36, fun i => if i % 6 < 3 then 1 else -2⟩

/-- A shot of three steps. -/
def h3 : Shot ℚ := ⟨3, fun it => w3 it, fun it => w3 (10 + it)⟩

theorem h3_sized : h3.Sized g3 := fun _ _ => ⟨⟨rfl, rfl, rfl⟩, ⟨rfl, rfl, rfl⟩⟩

theorem m3_on (mode orient : ℕ) : (m3 mode orient).On 3 3 := by
  constructor <;> intro i hi <;> (have h : i < 2 := hi; show 0 + i * 2 < 3; omega)

example := rtm_conventional (nx := 3) (nz := 3) (ntap := 0) (top := false) (bot := false) (lef := false) (rig := false)
  (iorder := 4) (by norm_num) (m3 1 1) rfl (m3_on 1 1) (by simp [m3]) [h3, h3]
  (by intro h hh; simp only [List.mem_cons, List.not_mem_nil, or_false, or_self] at hh; subst hh; exact h3_sized)

example := poynting_image_partial (nx := 3) (nz := 3) (ntap := 0) (top := false) (bot := false) (lef := false)
  (rig := false) (iorder := 4) (by norm_num) (m3 2 0) rfl (m3_on 2 0) (by simp [m3]) [h3]
  (by intro h hh; simp only [List.mem_singleton] at hh; subst hh; exact h3_sized)

example := decomposition_zero (nx := 3) (nz := 3) (ntap := 0) (top := false) (bot := false) (lef := false)
  (rig := false) (iorder := 4) (by norm_num) (m3 3 1) rfl (m3_on 3 1) (by simp [m3]) [h3]
  (by intro h hh; simp only [List.mem_singleton] at hh; subst hh; exact h3_sized)

example : axis 3 10 2 = some 4 := by decide

/-- The image of two equal shots, computed by the program: not zero. -/
example : ((shots g3 (m3 1 1) [h3, h3] (start (m3 1 1))).map fun s => (List.range 4).map fun i => s.mig.val i)
    = some [290, 402, 1202, 1410] := by decide +kernel

/-- **C158 (defect).** The velocities of the source snapshots are taken one grid point too far
(`ioXx=ioPx+1`, `ioZz=ioPz+1`), the ones of the receiver field are not.  With the *same* wavefield on
both sides every flux product ought to be a square, so that left-right imaging (products below zero)
gives an image of zeros; the program's image is not zero. -/
theorem poynting_shift :
    ∃ (m : Mig ℚ) (w : Wav ℚ), m.mode = 2 ∧ m.orient = 2 ∧ m.On 3 3 ∧ Rtm.Sized g3 w ∧
      (∀ cx cz, ¬ (Spec.p g3 w cx cz * Spec.vx g3 w cx cz) * (Spec.p g3 w cx cz * Spec.vx g3 w cx cz) < 0) ∧
      ∃ s, shots g3 m [⟨1, fun _ => w, fun _ => w⟩] (start m) = some s ∧ s.mig.val 0 ≠ 0 := by
  refine ⟨m3 2 2, w3 1, rfl, rfl, m3_on 2 2, ⟨rfl, rfl, rfl⟩, fun cx cz => not_lt.mpr (mul_self_nonneg _), ?_⟩
  have hl : ∀ h ∈ [(⟨1, fun _ => w3 1, fun _ => w3 1⟩ : Shot ℚ)], h.Sized g3 := by
    intro h hh; simp only [List.mem_singleton] at hh; subst hh
    exact fun _ _ => ⟨⟨rfl, rfl, rfl⟩, ⟨rfl, rfl, rfl⟩⟩
  obtain ⟨s, e1, -, -, -⟩ := poynting_image_partial (nx := 3) (nz := 3) (ntap := 0) (top := false) (bot := false)
    (lef := false) (rig := false) (iorder := 4) (by norm_num) (m3 2 2) rfl (m3_on 2 2) (by simp [m3])
    _ hl
  refine ⟨s, e1, ?_⟩
  have : ((shots g3 (m3 2 2) [⟨1, fun _ => w3 1, fun _ => w3 1⟩] (start (m3 2 2))).map fun s => s.mig.val 0)
      = some 32 := by decide +kernel
  rw [show g3 = grid 3 3 4 0 false false false false from rfl, e1] at this
  have h := Option.some_injective _ this
  simp only at h
  rw [h]; norm_num

/-- The two orientations follow opposite rules: for the same flux products a sample that up-down imaging
takes is refused by left-right imaging and the other way round (all products different from zero). -/
theorem poynting_orient_opposite (m m' : Mig K) (h : m.mode = 2 ∧ m.orient = 1) (h' : m'.mode = 2 ∧ m'.orient = 2)
    (f : K) (hf : f ≠ 0) (x z : K) : passes m x f ↔ ¬ passes m' f z := by
  simp only [passes, h.1, h.2, h'.1, h'.2]
  constructor
  · intro hp hq
    simp at hp hq
    exact absurd hq (not_lt.mpr hp.le)
  · intro hq
    simp at hq ⊢
    exact lt_of_le_of_ne hq hf.symm

end Verif.Rtm

import Verif.Marchenko.FirstBreak
import Verif.Mute.Props

/-!
# Picked times of the focusing operators: `readTinvData`, and `findMax` of `fmute`

Amplitudes are rationals (in place of float).  The picks are indices that may leave the trace; they are mapped into it by `mapj`.
-/

namespace Verif.Picks
open Verif Verif.Marchenko

/-! ### Model -/

/-- `jmax=tstart; tmax=0.0; for (j=tstart; j<=tend; j++) { lmax = fabs(data[base+mapj(j,nt)]); if (lmax > tmax) {…} }`,
readTinvData.c:151-162, 166-177; fmute.c:471-483, 487-499. -/
def search (shot : Buf ℚ) (base nt tstart tend : ℤ) : Option Pick :=
  forIM tstart (tend + 1) (fun j p => (shot.rd (base + Mute.mapj j nt)).map fun v => if |v| > p.tmax then ⟨j, |v|⟩ else p) ⟨tstart, 0⟩

/-- The two loops over the other traces, readTinvData.c:149-178 and fmute.c:470-500; `step i prev` is the pick of trace `i` next to one with
pick `prev`. -/
def track (step : ℕ → ℤ → Option ℤ) (nx imax : ℕ) (mv : Buf ℤ) : Option (Buf ℤ) :=
  (forNM (nx - (imax + 1)) (fun k mv => (mv.rd (imax + k : ℕ)).bind fun prev => (step (imax + 1 + k) prev).bind fun j => mv.wr (imax + 1 + k : ℕ) j) mv).bind fun mv =>
  forNM imax (fun k mv => (mv.rd (imax - k : ℕ)).bind fun prev => (step (imax - 1 - k) prev).bind fun j => mv.wr (imax - 1 - k : ℕ) j) mv

/-- One trace from its neighbour. -/
def step (shot : Buf ℚ) (nt : ℕ) (hw : ℤ) (i : ℕ) (prev : ℤ) : Option ℤ :=
  (search shot (i * nt) nt (prev - hw) (prev + hw)).map Pick.jmax

/-- The picks of one gather in readTinvData.c:131-178: `n` samples are read for traces of `nt` samples; `imax` is the trace of the source, which is not
checked against the number of traces.  `shot` and `mv` start at this gather: a negative index is before the arrays for the first one. -/
def tinvPicks (shot : Buf ℚ) (nx n nt : ℕ) (imax hw : ℤ) (mv : Buf ℤ) : Option (Buf ℤ) :=
  (pickUp shot (imax * nt) 0 (n - 1)).bind fun p =>
  (mv.wr imax p.jmax).bind fun mv => track (step shot nt hw) nx imax.toNat mv

/-- The pick of the source trace, fmute.c:437-466: the largest sample, and with `itb` a search from the sample `itb`. -/
def seed (shot : Buf ℚ) (nt imax : ℕ) (hw itb : ℤ) : Option ℤ :=
  (pickUp shot (imax * nt) 0 (nt - 1)).bind fun p =>
  if itb = 0 then some p.jmax
  else (shot.rd (imax * nt + itb)).bind fun v =>
    (forIM (itb - hw) (itb + hw) (fun j p => (shot.rd (imax * nt + j)).map fun v => if |v| > p.tmax then ⟨j, |v|⟩ else p) ⟨p.jmax, |v|⟩).map Pick.jmax

/-- `findMax`, fmute.c:431-501; the source trace is put into the array in line 437. -/
def findMax (shot : Buf ℚ) (nx nt : ℕ) (hw imax itb : ℤ) (mv : Buf ℤ) : Option (Buf ℤ) :=
  let im := (min (max 0 imax) (nx - 1)).toNat
  (seed shot nt im hw itb).bind fun j =>
  (mv.wr im j).bind fun mv => track (step shot nt hw) nx im mv

/-! ### Specification -/

/-- Absolute amplitude of trace `i` at time `j`, where times wrap around: sample `j` modulo `nt`. -/
def wamp (shot : Buf ℚ) (nt : ℕ) (i : ℕ) (j : ℤ) : ℚ := |shot.val (i * nt + j % nt)|

/-- `t` is the first time of the window `[a,b]` at which the amplitude is largest. -/
def First (A : ℤ → ℚ) (a b t : ℤ) : Prop :=
  a ≤ t ∧ t ≤ b ∧ (∀ j, a ≤ j → j ≤ b → A j ≤ A t) ∧ ∀ j, a ≤ j → j < t → A j < A t

/-! ### The searches -/

theorem scan_spec (rd : ℤ → Option ℚ) (A : ℤ → ℚ) (a b : ℤ) (hab : a ≤ b) (hA : ∀ j, 0 ≤ A j)
    (hr : ∀ j, a ≤ j → j ≤ b → ∃ v, rd j = some v ∧ |v| = A j) :
    ∃ p, forIM a (b + 1) (fun j p => (rd j).map fun v => if |v| > p.tmax then (⟨j, |v|⟩ : Pick) else p) ⟨a, 0⟩ = some p ∧ First A a b p.jmax := by
  unfold forIM
  have key := forNM_inv (n := (b + 1 - a).toNat) (s := (⟨a, 0⟩ : Pick))
    (body := fun k => fun p => (rd (a + k)).map fun v => if |v| > p.tmax then (⟨a + k, |v|⟩ : Pick) else p)
    (fun m p => (m = 0 → p = ⟨a, 0⟩) ∧ a ≤ p.jmax ∧ p.jmax ≤ b ∧ (0 < m → p.jmax < a + m) ∧
      (0 < m → p.tmax = A p.jmax) ∧ (∀ j, a ≤ j → j < a + m → A j ≤ p.tmax) ∧ (∀ j, a ≤ j → j < p.jmax → A j < p.tmax))
    ⟨fun _ => rfl, le_refl _, hab, fun h => absurd h (lt_irrefl _),
      fun h => absurd h (lt_irrefl _), fun j h1 h2 => by push_cast at h2; omega, fun j h1 h2 => by dsimp only at h2; omega⟩ ?_
  · obtain ⟨p, h1, _, h2, h3, h4, h6, h7, h8⟩ := key
    have hm : 0 < (b + 1 - a).toNat := by omega
    refine ⟨p, h1, h2, h3, ?_, ?_⟩
    · intro j q1 q2
      rw [← h6 hm]; exact h7 j q1 (by omega)
    · intro j q1 q2
      rw [← h6 hm]; exact h8 j q1 q2
  · rintro m hm p ⟨p0, p1, p2, p3, p5, p6, p7⟩
    obtain ⟨v, hv, ha⟩ := hr (a + m) (by omega) (by omega)
    beta_reduce
    rw [hv]
    refine ⟨_, rfl, ?_⟩
    beta_reduce
    rw [ha]
    by_cases hc : A (a + m) > p.tmax
    · rw [if_pos hc]
      refine ⟨fun h => absurd h (Nat.succ_ne_zero m), by dsimp only; omega, by dsimp only; omega,
        fun _ => by dsimp only; push_cast; omega, fun _ => rfl, ?_, ?_⟩
      · intro j q1 q2
        dsimp only
        push_cast at q2
        by_cases hj : j = a + m
        · subst hj; exact le_refl _
        · exact le_of_lt (lt_of_le_of_lt (p6 j q1 (by omega)) hc)
      · intro j q1 q2
        dsimp only at q2 ⊢
        exact lt_of_le_of_lt (p6 j q1 (by omega)) hc
    · rw [if_neg hc]
      rw [gt_iff_lt, not_lt] at hc
      refine ⟨fun h => absurd h (Nat.succ_ne_zero m), p1, p2, ?_, ?_, ?_, p7⟩
      · intro _
        rcases Nat.eq_zero_or_pos m with h0 | h0
        · rw [p0 h0]; dsimp only; push_cast; omega
        · have := p3 h0; push_cast; omega
      · intro _
        rcases Nat.eq_zero_or_pos m with h0 | h0
        · rw [p0 h0] at hc ⊢
          subst h0
          dsimp only at hc ⊢
          rw [show a + ((0:Nat):Int) = a from by simp] at hc
          exact le_antisymm (hA _) hc
        · exact p5 h0
      · intro j q1 q2
        push_cast at q2
        by_cases hj : j = a + m
        · subst hj; exact hc
        · exact p6 j q1 (by omega)

theorem in_trace {shot : Buf ℚ} {nx nt : ℕ} (hs : nx * nt ≤ shot.size) {i : ℕ} {j : ℤ} (hi : i < nx)
    (hj : 0 ≤ j) (hj2 : j < nt) : shot.ok (i * nt + j) := shot_ok hs (by omega) (by omega) hj (by omega)

/-- One trace, as long as the window stays within one period around the trace. -/
theorem step_spec {shot : Buf ℚ} {nx nt : ℕ} (hs : nx * nt ≤ shot.size) {hw : ℤ} (hw0 : 0 ≤ hw) {i : ℕ} (hi : i < nx) {prev : ℤ}
    (h1 : -(nt : ℤ) ≤ prev - hw) (h2 : prev + hw < 2 * nt) (hnt : 0 < nt) :
    ∃ t, step shot nt hw i prev = some t ∧ First (wamp shot nt i) (prev - hw) (prev + hw) t := by
  unfold step search
  obtain ⟨p, e, hp⟩ := scan_spec (fun j => shot.rd (i * nt + Mute.mapj j nt)) (wamp shot nt i) (prev - hw) (prev + hw) (by omega)
    (fun _ => abs_nonneg _) (fun j a b => by
      obtain ⟨q1, q2, q3⟩ := Mute.mapj_periodic j nt (by omega) (by omega) (by omega)
      refine ⟨_, Buf.rd_ok (in_trace hs hi q1 q2), ?_⟩
      unfold wamp
      rw [q3])
  exact ⟨p.jmax, by rw [e]; rfl, hp⟩

/-- The loops over the traces, for any step: the trace of the source keeps its pick, and the others follow from their neighbours. -/
theorem track_spec (st : ℕ → ℤ → Option ℤ) (nx imax : ℕ) (mv : Buf ℤ) (hi : imax < nx) (hm : nx ≤ mv.size) (B : ℕ → ℤ → Prop) (Q : ℕ → ℤ → ℤ → Prop)
    (h0 : B 0 (mv.val imax)) (hst : ∀ i d prev, i < nx → d + 1 < nx → B d prev → ∃ t, st i prev = some t ∧ Q i prev t ∧ B (d + 1) t) :
    ∃ m, track st nx imax mv = some m ∧ m.size = mv.size ∧ m.val imax = mv.val imax ∧
      (∀ i : ℕ, imax < i → i < nx → Q i (m.val (i - 1 : ℕ)) (m.val i)) ∧ (∀ i : ℕ, i < imax → Q i (m.val (i + 1 : ℕ)) (m.val i)) ∧
      (∀ i : ℕ, imax ≤ i → i < nx → B (i - imax) (m.val i)) ∧ ∀ i : ℕ, i ≤ imax → B (imax - i) (m.val i) := by
  have fwd := forNM_inv (n := nx - (imax + 1)) (s := mv)
    (body := fun k mv => (mv.rd (imax + k : ℕ)).bind fun prev => (st (imax + 1 + k) prev).bind fun j => mv.wr (imax + 1 + k : ℕ) j)
    (fun m q => q.size = mv.size ∧ q.val imax = mv.val imax ∧ (∀ i : ℕ, imax ≤ i → i < imax + 1 + m → B (i - imax) (q.val i)) ∧
      (∀ i : ℕ, imax < i → i < imax + 1 + m → Q i (q.val (i - 1 : ℕ)) (q.val i)))
    ⟨rfl, rfl, fun i a b => by
      have : i = imax := by omega
      subst this; rw [Nat.sub_self]; exact h0, fun i a b => by omega⟩ ?_
  · obtain ⟨m1, e1, s1, v1, b1, f1⟩ := fwd
    have bwd := forNM_inv (n := imax) (s := m1)
      (body := fun k mv => (mv.rd (imax - k : ℕ)).bind fun prev => (st (imax - 1 - k) prev).bind fun j => mv.wr (imax - 1 - k : ℕ) j)
      (fun m q => q.size = mv.size ∧ (∀ i : ℕ, imax ≤ i → q.val i = m1.val i) ∧
        (∀ i : ℕ, imax ≤ i + m → i ≤ imax → B (imax - i) (q.val i)) ∧
        (∀ i : ℕ, imax ≤ i + m → i < imax → Q i (q.val (i + 1 : ℕ)) (q.val i)))
      ⟨s1, fun _ _ => rfl, fun i a b => by
        have : i = imax := by omega
        subst this; rw [Nat.sub_self, v1]; exact h0, fun i a b => by omega⟩ ?_
    · obtain ⟨m2, e2, s2, v2, b2, f2⟩ := bwd
      refine ⟨m2, by unfold track; rw [e1]; exact e2, s2, by rw [v2 _ (le_refl _), v1], ?_, fun i a => f2 i (by omega) a, ?_, fun i a => b2 i (by omega) a⟩
      · intro i q1 q2
        rw [v2 i (by omega), v2 (i - 1) (by omega)]
        exact f1 i q1 (by omega)
      · intro i q1 q2
        rw [v2 i q1]
        exact b1 i q1 (by omega)
    · rintro m hm2 q ⟨g1, g2, g3, g4⟩
      have hok : q.ok (imax - m : ℕ) := ⟨by omega, by omega⟩
      have hok2 : q.ok (imax - 1 - m : ℕ) := ⟨by omega, by omega⟩
      obtain ⟨t, ht1, ht2, ht3⟩ := hst (imax - 1 - m) (imax - (imax - m)) (q.val (imax - m : ℕ)) (by omega) (by omega) (g3 (imax - m) (by omega) (by omega))
      refine ⟨{ q with val := fun k => if k = ((imax - 1 - m : ℕ) : ℤ) then t else q.val k }, ?_, g1, ?_, ?_, ?_⟩
      · beta_reduce
        rw [Buf.rd_ok hok]
        simp only [Option.bind_some]
        rw [ht1]
        simp only [Option.bind_some]
        exact Buf.wr_ok hok2
      · intro i q1
        dsimp only
        rw [if_neg (by omega), g2 i q1]
      · intro i q1 q2
        dsimp only
        by_cases hc : (i : ℤ) = ((imax - 1 - m : ℕ) : ℤ)
        · rw [if_pos hc, show imax - i = imax - (imax - m) + 1 by omega]
          exact ht3
        · rw [if_neg hc]
          exact g3 i (by omega) q2
      · intro i q1 q2
        dsimp only
        rw [if_neg (by omega : ¬ ((i + 1 : ℕ) : ℤ) = ((imax - 1 - m : ℕ) : ℤ))]
        by_cases hc : (i : ℤ) = ((imax - 1 - m : ℕ) : ℤ)
        · rw [if_pos hc]
          have h1 : i = imax - 1 - m := by exact_mod_cast hc
          have h2 : i + 1 = imax - m := by omega
          rw [h2, h1]
          exact ht2
        · rw [if_neg hc]
          exact g4 i (by omega) q2
  · rintro m hm2 q ⟨g1, g2, g3, g4⟩
    have hok : q.ok (imax + m : ℕ) := ⟨by omega, by omega⟩
    have hok2 : q.ok (imax + 1 + m : ℕ) := ⟨by omega, by omega⟩
    obtain ⟨t, ht1, ht2, ht3⟩ := hst (imax + 1 + m) (imax + m - imax) (q.val (imax + m : ℕ)) (by omega) (by omega) (g3 (imax + m) (by omega) (by omega))
    refine ⟨{ q with val := fun k => if k = ((imax + 1 + m : ℕ) : ℤ) then t else q.val k }, ?_, g1, ?_, ?_, ?_⟩
    · beta_reduce
      rw [Buf.rd_ok hok]
      simp only [Option.bind_some]
      rw [ht1]
      simp only [Option.bind_some]
      exact Buf.wr_ok hok2
    · dsimp only
      rw [if_neg (by omega), g2]
    · intro i q1 q2
      dsimp only
      by_cases hc : (i : ℤ) = ((imax + 1 + m : ℕ) : ℤ)
      · rw [if_pos hc, show i - imax = imax + m - imax + 1 by omega]
        exact ht3
      · rw [if_neg hc]
        exact g3 i q1 (by omega)
    · intro i q1 q2
      dsimp only
      rw [if_neg (by omega : ¬ ((i - 1 : ℕ) : ℤ) = ((imax + 1 + m : ℕ) : ℤ))]
      by_cases hc : (i : ℤ) = ((imax + 1 + m : ℕ) : ℤ)
      · rw [if_pos hc]
        have h1 : i = imax + 1 + m := by exact_mod_cast hc
        have h2 : i - 1 = imax + m := by omega
        rw [h2, h1]
        exact ht2
      · rw [if_neg hc]
        exact g4 i q1 (by omega)

/-- What tracking means here: every other trace has the first maximum within `hw` samples of the pick of its neighbour on the side of the source, with
times wrapping around. -/
structure Tracked (shot : Buf ℚ) (nx nt imax : ℕ) (hw : ℤ) (t : ℕ → ℤ) : Prop where
  right : ∀ i, imax < i → i < nx → First (wamp shot nt i) (t (i - 1) - hw) (t (i - 1) + hw) (t i)
  left : ∀ i, i < imax → First (wamp shot nt i) (t (i + 1) - hw) (t (i + 1) + hw) (t i)

/-- From any pick inside the source trace. -/
theorem track_wraps (shot : Buf ℚ) (nx nt imax : ℕ) (hw : ℤ) (mv : Buf ℤ) (hs : nx * nt ≤ shot.size) (hw0 : 0 ≤ hw) (hi : imax < nx)
    (hm : nx ≤ mv.size) (h0 : 0 ≤ mv.val imax ∧ mv.val imax < nt) (hd : ((nx : ℤ) - 1) * hw ≤ nt) :
    ∃ m, track (step shot nt hw) nx imax mv = some m ∧ m.val imax = mv.val imax ∧ Tracked shot nx nt imax hw (fun i => m.val i) := by
  obtain ⟨m, e, _, e2, e3, e4, _⟩ := track_spec (step shot nt hw) nx imax mv hi hm (fun d t => -((d : ℤ) * hw) ≤ t ∧ t < nt + (d : ℤ) * hw)
    (fun i prev t => First (wamp shot nt i) (prev - hw) (prev + hw) t) ⟨by simp [h0.1], by simpa using h0.2⟩ (by
      rintro i d prev q1 q2 ⟨q3, q4⟩
      have h5 : ((d : ℤ) + 1) * hw ≤ nt := le_trans (mul_le_mul_of_nonneg_right (by omega) hw0) hd
      have h6 : ((d : ℤ) + 1) * hw = d * hw + hw := by ring
      obtain ⟨t, t1, t2⟩ := step_spec hs hw0 q1 (prev := prev) (by omega) (by omega) (by omega)
      refine ⟨t, t1, t2, ?_⟩
      obtain ⟨t3, t4, _⟩ := t2
      push_cast
      rw [h6]
      exact ⟨by omega, by omega⟩)
  exact ⟨m, e, e2, e3, e4⟩

/-! ### Properties -/

/-- **Picks of the focusing operators** (`readTinvData`).  When the source is inside the gather and `hw` samples per trace do not add up to more than the trace: the
pick of the source trace is its first largest sample, each other trace has the first maximum within `hw` of its neighbour. -/
theorem tinv_picks (shot : Buf ℚ) (nx n nt : ℕ) (imax : ℕ) (hw : ℤ) (mv : Buf ℤ) (hs : nx * nt ≤ shot.size) (hw0 : 0 ≤ hw) (hi : imax < nx)
    (hm : nx ≤ mv.size) (hn : 0 < n) (hnt : n ≤ nt) (hd : ((nx : ℤ) - 1) * hw ≤ nt) :
    ∃ m, tinvPicks shot nx n nt imax hw mv = some m ∧ FirstMax shot nt imax 0 (n - 1) (m.val imax) ∧ Tracked shot nx nt imax hw (fun i => m.val i) := by
  obtain ⟨p, p1, p2⟩ := pickUp_spec shot nt imax 0 (n - 1) (by omega) (fun j q1 q2 => in_trace hs hi q1 (by omega))
  have hok : mv.ok imax := ⟨by omega, by omega⟩
  obtain ⟨m, e, e2, e3⟩ := track_wraps shot nx nt imax hw { mv with val := fun k => if k = (imax : ℤ) then p.jmax else mv.val k } hs hw0 hi hm
    (by dsimp only; rw [if_pos rfl]; obtain ⟨q1, q2, _⟩ := p2; omega) hd
  dsimp only at e2
  rw [if_pos rfl] at e2
  refine ⟨m, ?_, by rw [e2]; exact p2, e3⟩
  unfold tinvPicks
  rw [p1]
  simp only [Option.bind_some, Buf.wr_ok hok, Int.toNat_natCast]
  exact e

/-- Neighbouring picks differ by at most `hw`. -/
theorem Tracked.smooth {shot : Buf ℚ} {nx nt imax : ℕ} {hw : ℤ} {t : ℕ → ℤ} (h : Tracked shot nx nt imax hw t) (i : ℕ) (hi1 : i + 1 < nx) :
    |t (i + 1) - t i| ≤ hw := by
  rw [abs_le]
  by_cases hc : i < imax
  · obtain ⟨h1, h2, _⟩ := h.left i hc
    omega
  · obtain ⟨h1, h2, _⟩ := h.right (i + 1) (by omega) hi1
    rw [Nat.add_sub_cancel] at h1 h2
    omega

/-- On traces without signal the picks run away: `hw` samples earlier with each trace. -/
theorem Tracked.drift {shot : Buf ℚ} {nx nt imax : ℕ} {hw : ℤ} {t : ℕ → ℤ} (h : Tracked shot nx nt imax hw t) (i : ℕ) (hi : imax ≤ i)
    (d : ℕ) (hd : i + d < nx) (hz : ∀ k, i < k → k ≤ i + d → ∀ j, wamp shot nt k j = 0) : t (i + d) = t i - d * hw := by
  induction d with
  | zero => simp
  | succ d ih =>
    obtain ⟨h1, h2, _, h4⟩ := h.right (i + (d + 1)) (by omega) hd
    rw [show i + (d + 1) - 1 = i + d by omega] at h1 h2 h4
    have ih := ih (by omega) (fun k a b => hz k a (by omega))
    by_contra hne
    have h5 : t (i + d) - hw < t (i + (d + 1)) := lt_of_le_of_ne h1 fun he => hne (by rw [← he, ih]; push_cast; ring)
    have := h4 _ (le_refl _) h5
    rw [hz _ (by omega) (le_refl _), hz _ (by omega) (le_refl _)] at this
    exact absurd this (lt_irrefl _)

/-- A source in front of the first trace of the first gather: the search reads before the data, whatever they are. -/
theorem tinv_picks_ub (shot : Buf ℚ) (nx n nt : ℕ) (imax hw : ℤ) (mv : Buf ℤ) (hn : 0 < n) (hnt : n ≤ nt) (hi : imax < 0) :
    tinvPicks shot nx n nt imax hw mv = none := by
  have : pickUp shot (imax * nt) 0 (n - 1) = none := by
    unfold pickUp forIM
    obtain ⟨m, hm⟩ : ∃ m, ((n : ℤ) - 1 + 1 - 0).toNat = m + 1 := ⟨n - 1, by omega⟩
    rw [hm]
    have key : ∀ k, forNM (k + 1) (fun k => pickStep shot (imax * nt) (0 + k)) ⟨0, 0⟩ = none := by
      intro k
      induction k with
      | zero =>
        have h1 : imax * nt ≤ -1 * nt := mul_le_mul_of_nonneg_right (by omega) (by omega)
        have : shot.rd (imax * nt + (0 + ((0 : ℕ) : ℤ))) = none := by
          unfold Buf.rd
          refine if_neg ?_
          unfold Buf.ok
          push_cast
          omega
        rw [forNM_succ, forNM_zero]
        show pickStep shot (imax * nt) (0 + ((0 : ℕ) : ℤ)) ⟨0, 0⟩ = none
        unfold pickStep
        rw [this]
        rfl
      | succ k ih => rw [forNM_succ, ih]; rfl
    exact key m
  unfold tinvPicks
  rw [this]
  rfl

/-- **Picks of `fmute`**, without `itb`: the same, with the source trace put into the gather. -/
theorem fmute_picks (shot : Buf ℚ) (nx nt : ℕ) (hw imax : ℤ) (mv : Buf ℤ) (hs : nx * nt ≤ shot.size) (hw0 : 0 ≤ hw) (hx : 0 < nx) (hnt : 0 < nt)
    (hm : nx ≤ mv.size) (hd : ((nx : ℤ) - 1) * hw ≤ nt) :
    ∃ im : ℕ, (im : ℤ) = min (max 0 imax) (nx - 1) ∧ ∃ m, findMax shot nx nt hw imax 0 mv = some m ∧
      FirstMax shot nt im 0 (nt - 1) (m.val im) ∧ Tracked shot nx nt im hw (fun i => m.val i) := by
  obtain ⟨im, him⟩ : ∃ im : ℕ, (im : ℤ) = min (max 0 imax) (nx - 1) := ⟨(min (max 0 imax) ((nx : ℤ) - 1)).toNat, by omega⟩
  refine ⟨im, him, ?_⟩
  have hi : im < nx := by omega
  obtain ⟨p, p1, p2⟩ := pickUp_spec shot nt im 0 (nt - 1) (by omega) (fun j q1 q2 => in_trace hs hi q1 (by omega))
  have hok : mv.ok im := ⟨by omega, by omega⟩
  obtain ⟨m, e, e2, e3⟩ := track_wraps shot nx nt im hw { mv with val := fun k => if k = (im : ℤ) then p.jmax else mv.val k } hs hw0 hi hm
    (by dsimp only; rw [if_pos rfl]; obtain ⟨q1, q2, _⟩ := p2; omega) hd
  dsimp only at e2
  rw [if_pos rfl] at e2
  refine ⟨m, ?_, by rw [e2]; exact p2, e3⟩
  unfold findMax seed
  dsimp only
  rw [← him, Int.toNat_natCast, p1]
  simp only [Option.bind_some, if_true, Buf.wr_ok hok]
  exact e

/-- `itb` when the largest sample of its neighbourhood is at `itb`: the pick is the largest sample of the trace instead, wherever it is. -/
theorem fmute_itb_ignored (shot : Buf ℚ) (nx nt im : ℕ) (hw itb : ℤ) (hs : nx * nt ≤ shot.size) (hi : im < nx) (hnt : 0 < nt) (h0 : itb ≠ 0) (hw0 : 0 ≤ hw)
    (h1 : hw ≤ itb) (h2 : itb + hw ≤ nt) (h3 : itb < nt) (hmax : ∀ j, itb - hw ≤ j → j < itb + hw → amp shot nt im j ≤ amp shot nt im itb) :
    ∃ j, seed shot nt im hw itb = some j ∧ FirstMax shot nt im 0 (nt - 1) j := by
  obtain ⟨p, p1, p2⟩ := pickUp_spec shot nt im 0 (nt - 1) (by omega) (fun j q1 q2 => in_trace hs hi q1 (by omega))
  refine ⟨p.jmax, ?_, p2⟩
  unfold seed
  rw [p1]
  simp only [Option.bind_some]
  rw [if_neg h0, Buf.rd_ok (in_trace hs hi (by omega) h3)]
  simp only [Option.bind_some]
  unfold forIM
  have key := forNM_inv (n := (itb + hw - (itb - hw)).toNat) (s := (⟨p.jmax, |shot.val (im * nt + itb)|⟩ : Pick))
    (body := fun k => fun p => (shot.rd (im * nt + (itb - hw + k))).map fun v => if |v| > p.tmax then (⟨itb - hw + k, |v|⟩ : Pick) else p)
    (fun m q => q = ⟨p.jmax, |shot.val (im * nt + itb)|⟩) rfl (by
      rintro m hm q rfl
      refine ⟨_, ?_, rfl⟩
      have hr : shot.rd (im * nt + (itb - hw + m)) = some (shot.val (im * nt + (itb - hw + m))) := Buf.rd_ok (in_trace hs hi (by omega) (by omega))
      beta_reduce
      rw [hr]
      have hn : ¬ |shot.val (im * nt + (itb - hw + m))| > |shot.val (im * nt + itb)| := not_lt.mpr (hmax (itb - hw + m) (by omega) (by omega))
      show some (if |shot.val (im * nt + (itb - hw + m))| > |shot.val (im * nt + itb)| then _ else _) = _
      rw [if_neg hn])
  obtain ⟨q, e, rfl⟩ := key
  rw [e]
  rfl

/-! ### The gathers of `fmute` -/

/-- How a run ends. -/
inductive End
  | ok
  | ub
  deriving DecidableEq

/-- The loop of fmute.c:301-421 without `file_mute`: gathers are read from `file_shot` (an input of `nx s` traces), muted with their own picks and written.  The
picks of a gather go to arrays with room for the number of traces of the first one (`cap`), fmute.c:200-203. -/
def selfLoop {G R : Type*} (nx : G → ℕ) (proc : G → G → Option R) (cap : ℕ) : List G → List R × End
  | [] => ([], .ok)
  | s :: rest =>
    if cap < nx s then ([], .ub)
    else match proc s s with
      | none => ([], .ub)
      | some r => let (rs, e) := selfLoop nx proc cap rest; (r :: rs, e)

/-- `fmute`, fmute.c:109-428, without `file_mutei`.  `proc m s` is the muted `s` with the picks of `m` (`none` for an access outside the arrays).  With `file_mute` the first gather of it is
read and the file closed (line 190); after the first gather is written, line 383 reads from the closed file. -/
def fmute {G R : Type*} (nx : G → ℕ) (proc : G → G → Option R) : Option (List G) → List G → List R × End
  | none, [] => ([], .ok)
  | none, s :: rest => selfLoop nx proc (nx s) (s :: rest)
  | some (m :: _), s :: _ => match proc m s with
    | none => ([], .ub)
    | some r => ([r], .ub)
  | some _, _ => ([], .ok)

/-- **Every gather is muted with its own picks**: without `file_mute`, when no gather has more traces than the first. -/
theorem fmute_each {G R : Type*} (nx : G → ℕ) (proc : G → G → Option R) (f : G → R) (s : G) (rest : List G)
    (hn : ∀ g ∈ rest, nx g ≤ nx s) (hp : ∀ g ∈ s :: rest, proc g g = some (f g)) : fmute nx proc none (s :: rest) = ((s :: rest).map f, .ok) := by
  have key : ∀ l : List G, (∀ g ∈ l, nx g ≤ nx s) → (∀ g ∈ l, proc g g = some (f g)) → selfLoop nx proc (nx s) l = (l.map f, .ok) := by
    intro l
    induction l with
    | nil => intro _ _; rfl
    | cons g l ih =>
      intro h1 h2
      have hg : ¬ nx s < nx g := not_lt.mpr (h1 g List.mem_cons_self)
      rw [selfLoop, if_neg hg, h2 g List.mem_cons_self]
      dsimp only
      rw [ih (fun g hg => h1 g (List.mem_cons_of_mem _ hg)) (fun g hg => h2 g (List.mem_cons_of_mem _ hg))]
      rfl
  refine key _ (fun g hg => ?_) hp
  rcases List.mem_cons.mp hg with h | h
  · rw [h]
  · exact hn g h

/-- With `file_mute` the program reads from a closed file, for all inputs with a gather in both files: no more than the first gather is ever written. -/
theorem fmute_file_ub {G R : Type*} (nx : G → ℕ) (proc : G → G → Option R) (m s : G) (ms ss : List G) :
    (fmute nx proc (some (m :: ms)) (s :: ss)).2 = .ub ∧ (fmute nx proc (some (m :: ms)) (s :: ss)).1.length ≤ 1 := by
  rw [fmute]
  cases proc m s with
  | none => exact ⟨rfl, Nat.zero_le _⟩
  | some r => exact ⟨rfl, le_refl _⟩

/-- A gather with more traces than the first makes the picks leave their array. -/
theorem fmute_wider_ub {G R : Type*} (nx : G → ℕ) (proc : G → G → Option R) (s g : G) (l r : List G) (h : nx s < nx g) :
    (fmute nx proc none (s :: l ++ g :: r)).2 = .ub := by
  rw [List.cons_append, fmute, ← List.cons_append]
  generalize s :: l = q
  induction q with
  | nil => rw [List.nil_append, selfLoop, if_pos h]
  | cons a q ih =>
    rw [List.cons_append, selfLoop]
    split
    · rfl
    · cases proc a a with
      | none => rfl
      | some r => exact ih

example : fmute (fun _ : ℕ => 2) (fun m s => some (m, s)) none [7, 8, 9] = ([(7, 7), (8, 8), (9, 9)], .ok) := by decide

/-! ### Cases -/

/-- Three traces of eight samples; the middle one has the source, the event wraps around on the first one. -/
example : (tinvPicks (Buf.ofList [0,0,0,0,0,0,0,4, 0,5,0,0,2,0,0,0, 0,0,3,0,0,0,0,0]) 3 8 8 1 2 ⟨3, fun _ => 0⟩).map
    (fun d => [d.val 0, d.val 1, d.val 2]) = some [-1, 1, 2] := by decide +kernel

/-- The largest sample near `itb=6` is at 6: the pick is 1. -/
example : seed (Buf.ofList [0,5,0,0,0,0,2,1,0,0,0,0]) 12 0 2 6 = some 1 := by decide +kernel

/-- It is at 7: the pick is 7. -/
example : seed (Buf.ofList [0,5,0,0,0,0,1,2,0,0,0,0]) 12 0 2 6 = some 7 := by decide +kernel

end Verif.Picks

import Verif.Base.Write
import Mathlib.Data.Rat.Init
import Mathlib.Algebra.Order.Ring.Rat
import Mathlib.Algebra.Order.Group.Unbundled.Abs
import Mathlib.Tactic.Linarith
import Mathlib.Tactic.Ring
import Mathlib.Tactic.Positivity

/-!
# C48: tracking the first arrival (marchenko/findFirstBreak.c)

Amplitudes are rationals (in place of float).  `maxval` is an array of `nx` floats in C; it only ever
holds integers.  The comparison with the uninitialised `xmax` (line 53) only changes `xmax` itself,
which is never used; it is left out.
-/

namespace Verif.Marchenko
open Verif

/-- State of a maximum search. -/
structure Pick where
  jmax : Int
  tmax : ℚ

/-- Body of the searches (findFirstBreak.c:49-52, 61-64, 81-85, 96-100):
`lmax = fabs(shot[i*nt+j]); if (lmax > tmax) { jmax = j; tmax = lmax; }`. -/
def pickStep (shot : Buf ℚ) (base j : Int) (p : Pick) : Option Pick :=
  (shot.rd (base + j)).map fun v => if |v| > p.tmax then ⟨j, |v|⟩ else p

/-- `jmax=tstart; tmax=0.0; for (j=tstart; j<=tend; j++) …` (findFirstBreak.c:78-86, 93-101, and 45-57 with
tstart=0, tend=nt-1). -/
def pickUp (shot : Buf ℚ) (base tstart tend : Int) : Option Pick :=
  forIM tstart (tend + 1) (pickStep shot base) ⟨tstart, 0⟩

/-- `tmax=0; jmax=0; for (j=nt-1; j>=0; j--) …` (findFirstBreak.c:45-46, 60-69). -/
def pickDown (shot : Buf ℚ) (base : Int) (nt : Nat) : Option Pick :=
  forNM nt (fun k => pickStep shot base ((nt:Int) - 1 - k)) ⟨0, 0⟩

/-- One tracking step: the window around the time `prev` of the neighbouring trace, findFirstBreak.c:76-87,
91-102. -/
def trackStep (shot : Buf ℚ) (nt : Nat) (hw : Int) (i : Int) (prev : Int) : Option Int :=
  (pickUp shot (i * nt) (max 0 (prev - hw)) (min (nt - 1) (prev + hw))).map Pick.jmax

/-- `findFirstBreak`, findFirstBreak.c:16-109.  Forward loop `for (i=ishot+1; i<nx; i++)` reading
`maxval[i-1]`, backward loop `for (i=ishot-1; i>=0; i--)` reading `maxval[i+1]`. -/
def findFirstBreak (shot : Buf ℚ) (nx nt : Nat) (ishot : Nat) (tr : Bool) (hw : Int) (maxval : Buf Int) :
    Option (Buf Int) :=
  (if tr then pickDown shot (ishot * nt) nt else pickUp shot (ishot * nt) 0 (nt - 1)).bind fun p =>
  (maxval.wr ishot p.jmax).bind fun maxval =>
  (forNM (nx - (ishot + 1)) (fun k maxval =>
    (maxval.rd ((ishot + 1 + k : Nat) - 1)).bind fun prev =>
    (trackStep shot nt hw (ishot + 1 + k : Nat) prev).bind fun j =>
    maxval.wr (ishot + 1 + k : Nat) j) maxval).bind fun maxval =>
  (forNM ishot (fun k maxval =>
    (maxval.rd ((ishot - 1 - k : Nat) + 1)).bind fun prev =>
    (trackStep shot nt hw (ishot - 1 - k : Nat) prev).bind fun j =>
    maxval.wr (ishot - 1 - k : Nat) j) maxval).bind fun maxval =>
  if tr then forNM nx (fun i maxval => (maxval.rd i).bind fun v => maxval.wr i (nt - 1 - v)) maxval
  else some maxval

/-! ### Specification -/

/-- Absolute amplitude of sample `j` of trace `i`. -/
def amp (shot : Buf ℚ) (nt : Nat) (i j : Int) : ℚ := |shot.val (i * nt + j)|

/-- `t` is the first sample of the window `[a,b]` at which the absolute amplitude of trace `i` is
largest. -/
def FirstMax (shot : Buf ℚ) (nt : Nat) (i a b t : Int) : Prop :=
  a ≤ t ∧ t ≤ b ∧ (∀ j, a ≤ j → j ≤ b → amp shot nt i j ≤ amp shot nt i t) ∧
    (∀ j, a ≤ j → j < t → amp shot nt i j < amp shot nt i t)

/-! ### The searches -/

theorem pickUp_spec (shot : Buf ℚ) (nt : Nat) (i a b : Int) (hab : a ≤ b)
    (hr : ∀ j, a ≤ j → j ≤ b → shot.ok (i * nt + j)) :
    ∃ p, pickUp shot (i * nt) a b = some p ∧ FirstMax shot nt i a b p.jmax := by
  unfold pickUp forIM
  have key := forNM_inv (n := (b + 1 - a).toNat) (s := (⟨a, 0⟩ : Pick))
    (body := fun k => pickStep shot (i * nt) (a + k))
    (fun m p => (m = 0 → p = ⟨a, 0⟩) ∧ a ≤ p.jmax ∧ p.jmax ≤ b ∧ (0 < m → p.jmax < a + m) ∧
      p.tmax ≥ 0 ∧ (0 < m → p.tmax = amp shot nt i p.jmax) ∧
      (∀ j, a ≤ j → j < a + m → amp shot nt i j ≤ p.tmax) ∧
      (∀ j, a ≤ j → j < p.jmax → amp shot nt i j < p.tmax))
    ⟨fun _ => rfl, le_refl _, hab, fun h => absurd h (lt_irrefl _), le_refl _,
      fun h => absurd h (lt_irrefl _), fun j h1 h2 => by push_cast at h2; omega, fun j h1 h2 => by dsimp only at h2; omega⟩ ?_
  · obtain ⟨p, h1, _, h2, h3, h4, h5, h6, h7, h8⟩ := key
    have hm : 0 < (b + 1 - a).toNat := by omega
    refine ⟨p, h1, h2, h3, ?_, ?_⟩
    · intro j q1 q2
      rw [← h6 hm]; exact h7 j q1 (by omega)
    · intro j q1 q2
      rw [← h6 hm]; exact h8 j q1 q2
  · rintro m hm p ⟨p0, p1, p2, p3, p4, p5, p6, p7⟩
    have hok : shot.ok (i * nt + (a + m)) := hr _ (by omega) (by omega)
    unfold pickStep
    rw [Buf.rd_ok hok]
    refine ⟨_, rfl, ?_⟩
    beta_reduce
    have ha : |shot.val (i * nt + (a + m))| = amp shot nt i (a + m) := rfl
    rw [ha]
    by_cases hc : amp shot nt i (a + m) > p.tmax
    · rw [if_pos hc]
      refine ⟨fun h => absurd h (Nat.succ_ne_zero m), by dsimp only; omega, by dsimp only; omega,
        fun _ => by dsimp only; push_cast; omega, abs_nonneg _, fun _ => rfl, ?_, ?_⟩
      · intro j q1 q2
        dsimp only
        push_cast at q2
        by_cases hj : j = a + m
        · subst hj; exact le_refl _
        · exact le_of_lt (lt_of_le_of_lt (p6 j q1 (by omega)) hc)
      · intro j q1 q2
        dsimp only at q2 ⊢
        exact lt_of_le_of_lt (p6 j q1 (by omega)) hc
    · rw [if_neg hc]
      rw [gt_iff_lt, not_lt] at hc
      refine ⟨fun h => absurd h (Nat.succ_ne_zero m), p1, p2, ?_, p4, ?_, ?_, p7⟩
      · intro _
        rcases Nat.eq_zero_or_pos m with h0 | h0
        · rw [p0 h0]; dsimp only; push_cast; omega
        · have := p3 h0; push_cast; omega
      · intro _
        rcases Nat.eq_zero_or_pos m with h0 | h0
        · rw [p0 h0] at hc ⊢
          subst h0
          dsimp only at hc ⊢
          rw [show a + ((0:Nat):Int) = a from by simp] at hc
          exact le_antisymm (abs_nonneg _) hc
        · exact p5 h0
      · intro j q1 q2
        push_cast at q2
        by_cases hj : j = a + m
        · subst hj; exact hc
        · exact p6 j q1 (by omega)

theorem pickDown_spec (shot : Buf ℚ) (nt : Nat) (hnt : 0 < nt) (i : Int)
    (hr : ∀ j, 0 ≤ j → j ≤ (nt:Int) - 1 → shot.ok (i * nt + j)) :
    ∃ p, pickDown shot (i * nt) nt = some p ∧ 0 ≤ p.jmax ∧ p.jmax < nt ∧
      (∀ j : Int, 0 ≤ j → j < nt → amp shot nt i j ≤ amp shot nt i p.jmax) ∧
      ((∃ j, 0 ≤ j ∧ j < (nt:Int) ∧ amp shot nt i j ≠ 0) →
        ∀ j, p.jmax < j → j < nt → amp shot nt i j < amp shot nt i p.jmax) := by
  unfold pickDown
  have key := forNM_inv (n := nt) (s := (⟨0, 0⟩ : Pick))
    (body := fun k => pickStep shot (i * nt) ((nt:Int) - 1 - k))
    (fun m p => 0 ≤ p.jmax ∧ p.jmax < nt ∧ 0 ≤ p.tmax ∧ p.tmax ≤ amp shot nt i p.jmax ∧
      (p.tmax = 0 ∧ p.jmax = 0 ∨ 0 < p.tmax ∧ (nt:Int) - m ≤ p.jmax ∧ p.tmax = amp shot nt i p.jmax ∧
        ∀ j, p.jmax < j → j < nt → amp shot nt i j < p.tmax) ∧
      (∀ j, (nt:Int) - m ≤ j → j < nt → amp shot nt i j ≤ p.tmax))
    ⟨le_refl _, by dsimp only; omega, le_refl _, abs_nonneg _, Or.inl ⟨rfl, rfl⟩,
      fun j h1 h2 => by push_cast at h1; omega⟩ ?_
  · obtain ⟨p, h1, h2, h3, h4, h5, h6, h7⟩ := key
    refine ⟨p, h1, h2, h3, ?_, ?_⟩
    · intro j q1 q2
      exact le_trans (h7 j (by omega) q2) h5
    · rintro ⟨j0, q1, q2, q3⟩ j q4 q5
      rcases h6 with ⟨r1, _⟩ | ⟨_, _, r3, r4⟩
      · have := h7 j0 (by omega) q2
        rw [r1] at this
        exact absurd (le_antisymm this (abs_nonneg _)) q3
      · rw [← r3]; exact r4 j q4 q5
  · rintro m hm p ⟨p1, p2, p3, p4, p5, p6⟩
    have hok : shot.ok (i * nt + ((nt:Int) - 1 - m)) := hr _ (by omega) (by omega)
    unfold pickStep
    rw [Buf.rd_ok hok]
    refine ⟨_, rfl, ?_⟩
    beta_reduce
    have ha : |shot.val (i * nt + ((nt:Int) - 1 - m))| = amp shot nt i ((nt:Int) - 1 - m) := rfl
    rw [ha]
    by_cases hc : amp shot nt i ((nt:Int) - 1 - m) > p.tmax
    · rw [if_pos hc]
      refine ⟨by dsimp only; omega, by dsimp only; omega, abs_nonneg _, le_refl _,
        Or.inr ⟨lt_of_le_of_lt p3 hc, by dsimp only; push_cast; omega, rfl, ?_⟩, ?_⟩
      · intro j q1 q2
        dsimp only at q1 ⊢
        exact lt_of_le_of_lt (p6 j (by omega) q2) hc
      · intro j q1 q2
        dsimp only
        push_cast at q1
        by_cases hj : j = (nt:Int) - 1 - m
        · subst hj; exact le_refl _
        · exact le_of_lt (lt_of_le_of_lt (p6 j (by omega) q2) hc)
    · rw [if_neg hc]
      rw [gt_iff_lt, not_lt] at hc
      refine ⟨p1, p2, p3, p4, ?_, ?_⟩
      · rcases p5 with h | ⟨r1, r2, r3⟩
        · exact Or.inl h
        · exact Or.inr ⟨r1, by push_cast; omega, r3⟩
      · intro j q1 q2
        push_cast at q1
        by_cases hj : j = (nt:Int) - 1 - m
        · subst hj; exact hc
        · exact p6 j (by omega) q2

/-! ### The whole function -/

/-- The shot has `nx` traces of `nt` samples. -/
theorem shot_ok {shot : Buf ℚ} {nx nt : Nat} (hs : nx * nt ≤ shot.size) {i j : Int} (hi : 0 ≤ i) (hi2 : i < nx)
    (hj : 0 ≤ j) (hj2 : j ≤ (nt:Int) - 1) : shot.ok (i * nt + j) := by
  have h1 : (i + 1) * nt ≤ nx * nt := Int.mul_le_mul_of_nonneg_right (by omega) (by omega)
  have h2 : (i + 1) * nt = i * nt + nt := by ring
  have h3 : 0 ≤ i * nt := mul_nonneg hi (by omega)
  have h4 : ((nx * nt : Nat) : Int) ≤ shot.size := by exact_mod_cast hs
  push_cast at h4
  exact ⟨by omega, by omega⟩

theorem trackStep_spec {shot : Buf ℚ} {nx nt : Nat} (hnt : 0 < nt) (hs : nx * nt ≤ shot.size) {hw : Int} (hw0 : 0 ≤ hw)
    {i prev : Int} (hi : 0 ≤ i) (hi2 : i < nx) (hp : 0 ≤ prev) (hp2 : prev < nt) :
    ∃ t, trackStep shot nt hw i prev = some t ∧
      FirstMax shot nt i (max 0 (prev - hw)) (min (nt - 1) (prev + hw)) t := by
  obtain ⟨p, h1, h2⟩ := pickUp_spec shot nt i (max 0 (prev - hw)) (min (nt - 1) (prev + hw)) (by omega)
    (fun j q1 q2 => shot_ok hs hi hi2 (by omega) (by omega))
  exact ⟨p.jmax, by unfold trackStep; rw [h1]; rfl, h2⟩

/-- What tracking means: every trace's time is the first maximum of the window around the time of its
neighbour on the side of the start trace. -/
structure Tracked (shot : Buf ℚ) (nx nt ishot : Nat) (hw : Int) (t : Nat → Int) : Prop where
  inside : ∀ i, i < nx → 0 ≤ t i ∧ t i < nt
  right : ∀ i, ishot < i → i < nx →
    FirstMax shot nt i (max 0 (t (i-1) - hw)) (min (nt - 1) (t (i-1) + hw)) (t i)
  left : ∀ i, i < ishot →
    FirstMax shot nt i (max 0 (t (i+1) - hw)) (min (nt - 1) (t (i+1) + hw)) (t i)

theorem FirstMax.range {shot : Buf ℚ} {nt : Nat} {i a b t : Int} (h : FirstMax shot nt i a b t)
    (ha : 0 ≤ a) (hb : b ≤ (nt:Int) - 1) : 0 ≤ t ∧ t < nt := by
  obtain ⟨h1, h2, _⟩ := h; omega

/-- The tracking loops started from any start time inside the trace. -/
theorem track_spec (shot : Buf ℚ) (nx nt ishot : Nat) (hw : Int) (maxval : Buf Int) (hnt : 0 < nt)
    (hs : nx * nt ≤ shot.size) (hw0 : 0 ≤ hw) (hi : ishot < nx) (hm : nx ≤ maxval.size)
    (h0 : 0 ≤ maxval.val ishot ∧ maxval.val ishot < nt) :
    ∃ mv, ((forNM (nx - (ishot + 1)) (fun k maxval =>
        (maxval.rd ((ishot + 1 + k : Nat) - 1)).bind fun prev =>
        (trackStep shot nt hw (ishot + 1 + k : Nat) prev).bind fun j =>
        maxval.wr (ishot + 1 + k : Nat) j) maxval).bind fun maxval =>
      forNM ishot (fun k maxval =>
        (maxval.rd ((ishot - 1 - k : Nat) + 1)).bind fun prev =>
        (trackStep shot nt hw (ishot - 1 - k : Nat) prev).bind fun j =>
        maxval.wr (ishot - 1 - k : Nat) j) maxval) = some mv ∧ mv.size = maxval.size ∧
      mv.val ishot = maxval.val ishot ∧ Tracked shot nx nt ishot hw (fun i => mv.val i) := by
  -- forward
  have fwd := forNM_inv (n := nx - (ishot + 1)) (s := maxval)
    (body := fun k maxval =>
        (maxval.rd ((ishot + 1 + k : Nat) - 1)).bind fun prev =>
        (trackStep shot nt hw (ishot + 1 + k : Nat) prev).bind fun j =>
        maxval.wr (ishot + 1 + k : Nat) j)
    (fun m mv => mv.size = maxval.size ∧ mv.val ishot = maxval.val ishot ∧
      (∀ i : Nat, ishot ≤ i → i < ishot + 1 + m → 0 ≤ mv.val i ∧ mv.val i < nt) ∧
      (∀ i : Nat, ishot < i → i < ishot + 1 + m →
        FirstMax shot nt i (max 0 (mv.val (i-1 : Nat) - hw)) (min (nt - 1) (mv.val (i-1 : Nat) + hw)) (mv.val i)))
    ⟨rfl, rfl, fun i h1 h2 => by have : i = ishot := by omega
                                 subst this; exact h0, fun i h1 h2 => by omega⟩ ?_
  · obtain ⟨mv1, e1, s1, v1, r1, f1⟩ := fwd
    have bwd := forNM_inv (n := ishot) (s := mv1)
      (body := fun k maxval =>
        (maxval.rd ((ishot - 1 - k : Nat) + 1)).bind fun prev =>
        (trackStep shot nt hw (ishot - 1 - k : Nat) prev).bind fun j =>
        maxval.wr (ishot - 1 - k : Nat) j)
      (fun m mv => mv.size = maxval.size ∧ (∀ i : Nat, ishot ≤ i → mv.val i = mv1.val i) ∧
        (∀ i : Nat, ishot ≤ i + m → i < nx → 0 ≤ mv.val i ∧ mv.val i < nt) ∧
        (∀ i : Nat, ishot ≤ i + m → i < ishot →
          FirstMax shot nt i (max 0 (mv.val (i+1 : Nat) - hw)) (min (nt - 1) (mv.val (i+1 : Nat) + hw)) (mv.val i)))
      ⟨s1, fun _ _ => rfl, fun i h1 h2 => r1 i (by omega) (by omega), fun i h1 h2 => by omega⟩ ?_
    · obtain ⟨mv2, e2, s2, v2, r2, f2⟩ := bwd
      refine ⟨mv2, by rw [e1]; exact e2, s2, by rw [v2 _ (le_refl _), v1], ?_, ?_, ?_⟩
      · intro i hi2; exact r2 i (by omega) hi2
      · intro i q1 q2
        rw [v2 i (by omega), v2 (i-1) (by omega)]
        exact f1 i q1 (by omega)
      · intro i q1
        exact f2 i (by omega) q1
    · rintro m hm2 mv ⟨g1, g2, g3, g4⟩
      have hok : mv.ok ((ishot - 1 - m : Nat) + 1) := ⟨by omega, by omega⟩
      have hok2 : mv.ok (ishot - 1 - m : Nat) := ⟨by omega, by omega⟩
      have hcast : (((ishot - 1 - m : Nat) : Int) + 1) = ((ishot - 1 - m + 1 : Nat) : Int) := by push_cast; rfl
      have hprev := g3 (ishot - 1 - m + 1) (by omega) (by omega)
      obtain ⟨t, ht1, ht2⟩ := trackStep_spec hnt hs hw0 (i := ((ishot - 1 - m : Nat) : Int))
        (prev := mv.val ((ishot - 1 - m + 1 : Nat))) (by omega) (by omega) hprev.1 hprev.2
      have htr := ht2.range (by omega) (by omega)
      refine ⟨{ mv with val := fun k => if k = ((ishot - 1 - m : Nat) : Int) then t else mv.val k }, ?_, g1, ?_, ?_, ?_⟩
      · rw [Buf.rd_ok hok]
        simp only [Option.bind_some]
        rw [hcast, ht1]
        simp only [Option.bind_some]
        exact Buf.wr_ok hok2
      · intro i q1
        dsimp only
        rw [if_neg (by omega), g2 i q1]
      · intro i q1 q2
        dsimp only
        split
        · exact htr
        · exact g3 i (by omega) q2
      · intro i q1 q2
        dsimp only
        rw [if_neg (by omega : ¬ ((i + 1 : Nat) : Int) = ((ishot - 1 - m : Nat) : Int))]
        by_cases hc : (i:Int) = ((ishot - 1 - m : Nat) : Int)
        · rw [if_pos hc]
          have : i = ishot - 1 - m := by exact_mod_cast hc
          subst this
          exact ht2
        · rw [if_neg hc]
          exact g4 i (by omega) q2
  · rintro m hm2 mv ⟨g1, g2, g3, g4⟩
    have hcast : (((ishot + 1 + m : Nat) : Int) - 1) = ((ishot + m : Nat) : Int) := by push_cast; ring
    have hok : mv.ok ((ishot + 1 + m : Nat) - 1) := ⟨by omega, by omega⟩
    have hok2 : mv.ok (ishot + 1 + m : Nat) := ⟨by omega, by omega⟩
    have hprev := g3 (ishot + m) (by omega) (by omega)
    obtain ⟨t, ht1, ht2⟩ := trackStep_spec hnt hs hw0 (i := ((ishot + 1 + m : Nat) : Int))
      (prev := mv.val ((ishot + m : Nat))) (by omega) (by omega) hprev.1 hprev.2
    have htr := ht2.range (by omega) (by omega)
    refine ⟨{ mv with val := fun k => if k = ((ishot + 1 + m : Nat) : Int) then t else mv.val k }, ?_, g1, ?_, ?_, ?_⟩
    · rw [Buf.rd_ok hok]
      simp only [Option.bind_some]
      rw [hcast, ht1]
      simp only [Option.bind_some]
      exact Buf.wr_ok hok2
    · dsimp only
      rw [if_neg (by omega), g2]
    · intro i q1 q2
      dsimp only
      split
      · exact htr
      · exact g3 i q1 (by omega)
    · intro i q1 q2
      dsimp only
      rw [if_neg (by omega : ¬ ((i - 1 : Nat) : Int) = ((ishot + 1 + m : Nat) : Int))]
      by_cases hc : (i:Int) = ((ishot + 1 + m : Nat) : Int)
      · rw [if_pos hc]
        have : i = ishot + 1 + m := by exact_mod_cast hc
        subst this
        rw [show ishot + 1 + m - 1 = ishot + m from by omega]
        exact ht2
      · rw [if_neg hc]
        exact g4 i q1 (by omega)

/-- **C48.** Without time reversal: the call succeeds (no access outside the arrays); the start trace
gets the first of its largest absolute samples; every other trace the first maximum within `hw` samples
of its neighbour; all times lie inside the trace. -/
theorem firstBreak_tracks (shot : Buf ℚ) (nx nt ishot : Nat) (hw : Int) (maxval : Buf Int) (hnt : 0 < nt)
    (hs : nx * nt ≤ shot.size) (hw0 : 0 ≤ hw) (hi : ishot < nx) (hm : nx ≤ maxval.size) :
    ∃ mv, findFirstBreak shot nx nt ishot false hw maxval = some mv ∧
      FirstMax shot nt ishot 0 (nt - 1) (mv.val ishot) ∧ Tracked shot nx nt ishot hw (fun i => mv.val i) := by
  obtain ⟨p, p1, p2⟩ := pickUp_spec shot nt ishot 0 (nt - 1) (by omega)
    (fun j q1 q2 => shot_ok hs (by omega) (by omega) q1 q2)
  have hok : maxval.ok ishot := ⟨by omega, by omega⟩
  have hr := p2.range (le_refl _) (le_refl _)
  obtain ⟨mv, t1, t2, t3, t4⟩ := track_spec shot nx nt ishot hw
    { maxval with val := fun k => if k = (ishot:Int) then p.jmax else maxval.val k } hnt hs hw0 hi hm
    (by dsimp only; rw [if_pos rfl]; exact hr)
  dsimp only at t3
  rw [if_pos rfl] at t3
  refine ⟨mv, ?_, by rw [t3]; exact p2, t4⟩
  unfold findFirstBreak
  simp only [Bool.false_eq_true, if_false, p1, Option.bind_some, Buf.wr_ok hok]
  rw [← Option.bind_assoc, t1]
  rfl

/-- **C48**, time-reversed option: the returned times are `nt-1-t` of times `t` tracked in the same way,
where the start trace gets its last largest sample. -/
theorem firstBreak_tracks_reversed (shot : Buf ℚ) (nx nt ishot : Nat) (hw : Int) (maxval : Buf Int) (hnt : 0 < nt)
    (hs : nx * nt ≤ shot.size) (hw0 : 0 ≤ hw) (hi : ishot < nx) (hm : nx ≤ maxval.size) :
    ∃ mv, findFirstBreak shot nx nt ishot true hw maxval = some mv ∧
      (∀ i : Nat, i < nx → 0 ≤ mv.val i ∧ mv.val i < nt) ∧
      (∀ j, 0 ≤ j → j < (nt:Int) → amp shot nt ishot j ≤ amp shot nt ishot (nt - 1 - mv.val ishot)) ∧
      Tracked shot nx nt ishot hw (fun i => nt - 1 - mv.val i) := by
  obtain ⟨p, p1, p2, p3, p4, _⟩ := pickDown_spec shot nt hnt ishot
    (fun j q1 q2 => shot_ok hs (by omega) (by omega) q1 q2)
  have hok : maxval.ok ishot := ⟨by omega, by omega⟩
  obtain ⟨mv, t1, t2, t3, t4⟩ := track_spec shot nx nt ishot hw
    { maxval with val := fun k => if k = (ishot:Int) then p.jmax else maxval.val k } hnt hs hw0 hi hm
    (by dsimp only; rw [if_pos rfl]; exact ⟨p2, p3⟩)
  dsimp only at t2 t3
  rw [if_pos rfl] at t3
  -- the final flip
  have flip := forNM_inv (n := nx) (s := mv)
    (body := fun i maxval => (maxval.rd i).bind fun v => maxval.wr i (nt - 1 - v))
    (fun m mv' => mv'.size = mv.size ∧ (∀ i : Nat, i < m → mv'.val i = nt - 1 - mv.val i) ∧
      (∀ i : Nat, m ≤ i → mv'.val i = mv.val i))
    ⟨rfl, fun i h => absurd h (Nat.not_lt_zero _), fun _ _ => rfl⟩ (by
      rintro m hm2 mv' ⟨g1, g2, g3⟩
      have hok : mv'.ok m := ⟨by omega, by omega⟩
      refine ⟨{ mv' with val := fun k => if k = (m:Int) then nt - 1 - mv'.val m else mv'.val k }, ?_, g1, ?_, ?_⟩
      · rw [Buf.rd_ok hok]; exact Buf.wr_ok hok
      · intro i q
        dsimp only
        by_cases hc : (i:Int) = m
        · have : i = m := by exact_mod_cast hc
          subst this
          rw [if_pos rfl, g3 _ (le_refl _)]
        · rw [if_neg hc, g2 i (by omega)]
      · intro i q
        dsimp only
        rw [if_neg (by omega), g3 i (by omega)])
  obtain ⟨mv', f1, f2, f3, _⟩ := flip
  refine ⟨mv', ?_, ?_, ?_, ?_⟩
  · unfold findFirstBreak
    simp only [if_true, p1, Option.bind_some, Buf.wr_ok hok]
    rw [← Option.bind_assoc, t1]
    exact f1
  · intro i hi2
    have := t4.inside i hi2
    rw [f3 i hi2]; omega
  · intro j q1 q2
    rw [f3 ishot hi, t3]
    have := p4 j q1 q2
    rwa [show (nt:Int) - 1 - (nt - 1 - p.jmax) = p.jmax from by ring]
  · have he : ∀ i, i < nx → (nt:Int) - 1 - mv'.val i = mv.val i := by
      intro i hi2; rw [f3 i hi2]; ring
    refine ⟨?_, ?_, ?_⟩
    · intro i q; rw [he i q]; exact t4.inside i q
    · intro i q1 q2
      rw [he i q2, he (i-1) (by omega)]
      exact t4.right i q1 q2
    · intro i q1
      rw [he i (by omega), he (i+1) (by omega)]
      exact t4.left i q1

/-- Consequence of tracking: neighbouring times differ by at most `hw`. -/
theorem Tracked.smooth {shot : Buf ℚ} {nx nt ishot : Nat} {hw : Int} {t : Nat → Int} (hi : ishot < nx)
    (h : Tracked shot nx nt ishot hw t) : ∀ i, i + 1 < nx → |t (i+1) - t i| ≤ hw := by
  intro i hi1
  rw [abs_le]
  by_cases hc : i < ishot
  · obtain ⟨h1, h2, _⟩ := h.left i hc
    omega
  · obtain ⟨h1, h2, _⟩ := h.right (i+1) (by omega) hi1
    rw [Nat.add_sub_cancel] at h1 h2
    omega

/-- A shot with three traces of four samples. -/
example : (findFirstBreak (Buf.ofList [0,0,5,0, 0,-3,0,1, 7,0,1,2]) 3 4 1 false 1 ⟨3, fun _ => 0⟩).map
    (fun d => [d.val 0, d.val 1, d.val 2]) = some [2, 1, 0] := by decide +kernel

end Verif.Marchenko

import Verif.Mute.Gates

/-!
# Properties of the muting windows (C12, C13, C14)

Sample `t` of trace `i` of focal point `isyn` is `data[(isyn*nxs+i)*nt+t]`.
`edge a isyn i = tmute - 2*ts - shift` is the sample at which the windows 0, 1 and 4 switch.
-/

namespace Verif.Mute
open Verif Spec

/-- Offset of a sample in the data cube. -/
def Args.at (a : Args) (isyn i t : Nat) : Int := ((isyn:Int)*a.nxs+i)*a.nt+t

/-- Mute time and time shift looked up for a trace. -/
def Args.tmute (a : Args) (isyn i : Nat) : Int := a.mute.val (isyn*a.nxs+a.ixpos.val i)
def Args.ts (a : Args) (isyn i : Nat) : Int := a.tsynW.val (isyn*a.nxs+a.ixpos.val i)
def Args.edge (a : Args) (isyn i : Nat) : Int := a.tmute isyn i - 2 * a.ts isyn i - a.shift

/-- The buffers are large enough and the trace table points into them. -/
structure Args.Ok (a : Args) (d : Buf ℝ) : Prop where
  npos_le : a.npos ≤ a.nxs
  data : a.Nfoc * a.nxs * a.nt ≤ d.size
  ixpos : a.npos ≤ a.ixpos.size
  ixpos_range : ∀ i : Nat, i < a.npos → 0 ≤ a.ixpos.val i ∧ a.ixpos.val i < a.nxs
  mute : a.Nfoc * a.nxs ≤ a.mute.size
  tsynW : a.Nfoc * a.nxs ≤ a.tsynW.size

/-- `d'` is `d` with every processed trace multiplied by the window `w`, all else untouched. -/
def Windowed (a : Args) (d d' : Buf ℝ) (w : Nat → Nat → Int → ℝ) : Prop :=
  (∀ isyn i t : Nat, isyn < a.Nfoc → i < a.npos → t < a.nt →
        d'.val (a.at isyn i t) = d.val (a.at isyn i t) * w isyn i t) ∧
  (∀ isyn i t : Nat, isyn < a.Nfoc → a.npos ≤ i → i < a.nxs → t < a.nt →
        d'.val (a.at isyn i t) = d.val (a.at isyn i t))

theorem windowed_of {a : Args} {d : Buf ℝ} (h : a.Ok d) (w : Nat → Nat → Int → ℝ)
    (hg : ∀ isyn i : Nat, isyn < a.Nfoc → i < a.npos → ∀ base : Int, 0 ≤ base →
      base + a.nt ≤ d.size →
      PW d.size (gate a.above a.smooth a.shift a.nt base (a.tmute isyn i) (a.ts isyn i))
        (wMap base a.nt (w isyn i))) :
    ∃ d', applyMute a d = some d' ∧ d'.size = d.size ∧ Windowed a d d' w := by
  obtain ⟨d', h1, h2, h3, h4⟩ := applyMute_windows a w d.size h.npos_le h.data h.ixpos
    h.ixpos_range h.mute h.tsynW hg d rfl
  exact ⟨d', h1, h2, h3, h4⟩

/-- The window condition used by gates 0 and 4: the switch sample lies in the first half of the
trace with room for the taper. -/
def Args.Centered (a : Args) : Prop :=
  ∀ isyn i : Nat, isyn < a.Nfoc → i < a.npos →
    a.smooth + 1 ≤ a.edge isyn i ∧ 2 * a.edge isyn i ≤ a.nt + 1

/-- The mute times of all processed traces lie in the first half of the trace. -/
def Args.EarlyMute (a : Args) : Prop :=
  ∀ isyn i : Nat, isyn < a.Nfoc → i < a.npos → a.tmute isyn i < a.nt / 2

/-- **C12.** Gate 0 and gate 4 are complementary: both calls succeed, and for every sample of
every processed trace the two results add up to the input. -/
theorem theta_psi_complementary (a : Args) (d : Buf ℝ) (h : a.Ok d) (hc : a.Centered)
    (he : a.EarlyMute) :
    ∃ d0 d4, applyMute { a with above := 0 } d = some d0 ∧
      applyMute { a with above := 4 } d = some d4 ∧
      ∀ isyn i t : Nat, isyn < a.Nfoc → i < a.npos → t < a.nt →
        d0.val (a.at isyn i t) + d4.val (a.at isyn i t) = d.val (a.at isyn i t) := by
  obtain ⟨d0, e0, -, w0, -⟩ := windowed_of (a := { a with above := 0 }) (d := d)
    ⟨h.1, h.2, h.3, h.4, h.5, h.6⟩ _
    (fun isyn i h1 h2 base hb hN => gate_0 a.smooth a.shift _ _ hb hN (he isyn i h1 h2)
      (hc isyn i h1 h2).1 (hc isyn i h1 h2).2)
  obtain ⟨d4, e4, -, w4, -⟩ := windowed_of (a := { a with above := 4 }) (d := d)
    ⟨h.1, h.2, h.3, h.4, h.5, h.6⟩ _
    (fun isyn i h1 h2 base hb hN => gate_4 4 (Or.inl rfl) a.smooth a.shift _ _ hb hN
      (hc isyn i h1 h2).1 (hc isyn i h1 h2).2)
  refine ⟨d0, d4, e0, e4, fun isyn i t h1 h2 h3 => ?_⟩
  have q0 := w0 isyn i t h1 h2 h3
  have q4 := w4 isyn i t h1 h2 h3
  have cc := hc isyn i h1 h2
  unfold Args.edge Args.tmute Args.ts at cc
  simp only [Args.at, Args.tmute, Args.ts] at q0 q4 ⊢
  rw [q0, q4, ← mul_add]
  set e := a.mute.val (isyn*a.nxs+a.ixpos.val i) - 2 * a.tsynW.val (isyn*a.nxs+a.ixpos.val i)
    - a.shift with he'
  have f1 := fall_add_rise a.smooth (e - a.smooth) t
  have f2 := fall_add_rise a.smooth (a.nt + 1 - e) t
  rw [show e - (a.smooth:Int) + a.smooth = e by omega] at f1
  by_cases ht : (t:Int) < a.nt + 1 - e
  · rw [fw1 (s := a.smooth) (b := a.nt + 1 - e) ht] at f2 ⊢
    rw [rw1 (s := a.smooth) (e := a.nt + 1 - e + a.smooth) (by omega)]
    rw [add_zero, mul_one, f1, mul_one]
  · rw [rw3 (s := a.smooth) (e := e) (t := t) (by omega)] at f1 ⊢
    have : fallW a.smooth (e - a.smooth) t = 0 := by linarith
    rw [this, zero_add, one_mul, add_comm (riseW _ _ _) (fallW _ _ _), f2, mul_one]

/-- Non-vacuity of `theta_psi_complementary`: two traces of 16 samples. -/
example : ∃ (a : Args) (d : Buf ℝ), a.Ok d ∧ a.Centered ∧ a.EarlyMute ∧ 0 < a.Nfoc ∧ 0 < a.npos := by
  refine ⟨⟨⟨2, fun _ => 6⟩, 2, 0, 1, 2, 16, ⟨2, fun i => i⟩, 2, 1, ⟨2, fun _ => 0⟩⟩, ⟨32, fun _ => 1⟩,
    ⟨by simp, by simp, by simp, ?_, by simp, by simp⟩, ?_, ?_, by simp, by simp⟩
  · intro i hi; simp at *; omega
  · intro isyn i _ _; simp [Args.edge, Args.tmute, Args.ts]
  · intro isyn i _ _; simp [Args.tmute]

/-- **C12, limit of validity.** If the mute time lies in the second half of the trace, gate 0
clears the trace whereas gate 4 still mutes sample 0, so the two results do *not* add up to the
input at sample 0, whatever non-zero value it has. -/
theorem theta_psi_not_complementary_late (a : Args) (d : Buf ℝ) (h : a.Ok d) (hc : a.Centered)
    (hl : ∀ isyn i : Nat, isyn < a.Nfoc → i < a.npos → a.nt / 2 ≤ a.tmute isyn i)
    (isyn i : Nat) (h1 : isyn < a.Nfoc) (h2 : i < a.npos) (hnt : 0 < a.nt)
    (hd : d.val (a.at isyn i 0) ≠ 0) :
    ∃ d0 d4, applyMute { a with above := 0 } d = some d0 ∧
      applyMute { a with above := 4 } d = some d4 ∧
      d0.val (a.at isyn i 0) + d4.val (a.at isyn i 0) ≠ d.val (a.at isyn i 0) := by
  obtain ⟨d0, e0, -, w0, -⟩ := windowed_of (a := { a with above := 0 }) (d := d)
    ⟨h.1, h.2, h.3, h.4, h.5, h.6⟩ _
    (fun isyn i h1 h2 base hb hN => gate_0_late a.smooth a.shift _ _ hb hN (hl isyn i h1 h2))
  obtain ⟨d4, e4, -, w4, -⟩ := windowed_of (a := { a with above := 4 }) (d := d)
    ⟨h.1, h.2, h.3, h.4, h.5, h.6⟩ _
    (fun isyn i h1 h2 base hb hN => gate_4 4 (Or.inl rfl) a.smooth a.shift _ _ hb hN
      (hc isyn i h1 h2).1 (hc isyn i h1 h2).2)
  refine ⟨d0, d4, e0, e4, ?_⟩
  have q0 := w0 isyn i 0 h1 h2 hnt
  have q4 := w4 isyn i 0 h1 h2 hnt
  have cc := hc isyn i h1 h2
  unfold Args.edge Args.tmute Args.ts at cc
  simp only [Args.at, Args.tmute, Args.ts] at q0 q4 hd ⊢
  rw [q0, q4, rw1 (by push_cast; omega)]
  simpa using hd.symm

/-- **C13, gate 1.** Everything earlier than the taper is zero, everything from the switch sample
on is unchanged, the taper samples are scaled by a factor strictly between 0 and 1, and traces
that are not processed are untouched. -/
theorem gate1_mutes_early (a : Args) (d : Buf ℝ) (h : a.Ok d) (ha : a.above = 1)
    (hw : ∀ isyn i : Nat, isyn < a.Nfoc → i < a.npos →
      a.smooth ≤ a.edge isyn i ∧ a.edge isyn i ≤ a.nt) :
    ∃ d', applyMute a d = some d' ∧
      (∀ isyn i t : Nat, isyn < a.Nfoc → i < a.npos → t < a.nt →
        ((t:Int) < a.edge isyn i - a.smooth → d'.val (a.at isyn i t) = 0) ∧
        (a.edge isyn i ≤ (t:Int) → d'.val (a.at isyn i t) = d.val (a.at isyn i t)) ∧
        (a.edge isyn i - a.smooth ≤ (t:Int) → (t:Int) < a.edge isyn i →
          ∃ c, 0 < c ∧ c < 1 ∧ d'.val (a.at isyn i t) = d.val (a.at isyn i t) * c)) ∧
      (∀ isyn i t : Nat, isyn < a.Nfoc → a.npos ≤ i → i < a.nxs → t < a.nt →
        d'.val (a.at isyn i t) = d.val (a.at isyn i t)) := by
  obtain ⟨d', e, -, w, u⟩ := windowed_of h _
    (fun isyn i h1 h2 base hb hN => by
      rw [ha]
      exact gate_1 a.smooth a.shift _ _ hb hN (hw isyn i h1 h2).1 (hw isyn i h1 h2).2)
  refine ⟨d', e, fun isyn i t h1 h2 h3 => ?_, u⟩
  have q := w isyn i t h1 h2 h3
  beta_reduce at q
  refine ⟨fun hlt => ?_, fun hge => ?_, fun g1 g2 => ?_⟩
  · rw [q, rw1 (by simpa only [Args.edge] using hlt), mul_zero]
  · rw [q, rw3 (by simpa only [Args.edge] using hge), mul_one]
  · exact ⟨_, (riseW_mem _ _ _ g1 g2).1, (riseW_mem _ _ _ g1 g2).2, q⟩

/-- **C13, gate -1.** Keeps everything before `tmute+ts-shift`, zeroes everything `smooth` samples
later, tapers in between. -/
theorem gateM1_mutes_late (a : Args) (d : Buf ℝ) (h : a.Ok d) (ha : a.above = -1)
    (hw : ∀ isyn i : Nat, isyn < a.Nfoc → i < a.npos →
      0 ≤ a.tmute isyn i + a.ts isyn i - a.shift ∧
      a.tmute isyn i + a.ts isyn i - a.shift + a.smooth ≤ a.nt) :
    ∃ d', applyMute a d = some d' ∧
      (∀ isyn i t : Nat, isyn < a.Nfoc → i < a.npos → t < a.nt →
        ((t:Int) < a.tmute isyn i + a.ts isyn i - a.shift →
          d'.val (a.at isyn i t) = d.val (a.at isyn i t)) ∧
        (a.tmute isyn i + a.ts isyn i - a.shift + a.smooth ≤ (t:Int) →
          d'.val (a.at isyn i t) = 0) ∧
        (a.tmute isyn i + a.ts isyn i - a.shift ≤ (t:Int) →
          (t:Int) < a.tmute isyn i + a.ts isyn i - a.shift + a.smooth →
          ∃ c, 0 < c ∧ c < 1 ∧ d'.val (a.at isyn i t) = d.val (a.at isyn i t) * c)) ∧
      (∀ isyn i t : Nat, isyn < a.Nfoc → a.npos ≤ i → i < a.nxs → t < a.nt →
        d'.val (a.at isyn i t) = d.val (a.at isyn i t)) := by
  obtain ⟨d', e, -, w, u⟩ := windowed_of h _
    (fun isyn i h1 h2 base hb hN => by
      rw [ha]
      exact gate_m1 a.smooth a.shift _ _ hb hN (hw isyn i h1 h2).1 (hw isyn i h1 h2).2)
  refine ⟨d', e, fun isyn i t h1 h2 h3 => ?_, u⟩
  have q := w isyn i t h1 h2 h3
  beta_reduce at q
  refine ⟨fun hlt => ?_, fun hge => ?_, fun g1 g2 => ?_⟩
  · rw [q, fw1 hlt, mul_one]
  · rw [q, fw3 hge, mul_zero]
  · exact ⟨_, (fallW_mem _ _ _ g1 g2).1, (fallW_mem _ _ _ g1 g2).2, q⟩

/-- **C13, gate 0.** Zero on `[edge, nt+1-edge)`, unchanged before `edge-smooth` and from
`nt+1-edge+smooth` on, other traces untouched. -/
theorem gate0_mutes_between (a : Args) (d : Buf ℝ) (h : a.Ok d) (ha : a.above = 0)
    (hc : a.Centered) (he : a.EarlyMute) :
    ∃ d', applyMute a d = some d' ∧
      (∀ isyn i t : Nat, isyn < a.Nfoc → i < a.npos → t < a.nt →
        (a.edge isyn i ≤ (t:Int) → (t:Int) < a.nt + 1 - a.edge isyn i →
          d'.val (a.at isyn i t) = 0) ∧
        ((t:Int) < a.edge isyn i - a.smooth ∨ a.nt + 1 - a.edge isyn i + a.smooth ≤ (t:Int) →
          d'.val (a.at isyn i t) = d.val (a.at isyn i t)) ∧
        (a.edge isyn i - a.smooth ≤ (t:Int) ∧ (t:Int) < a.edge isyn i ∨
         a.nt + 1 - a.edge isyn i ≤ (t:Int) ∧ (t:Int) < a.nt + 1 - a.edge isyn i + a.smooth →
          ∃ c, 0 < c ∧ c < 1 ∧ d'.val (a.at isyn i t) = d.val (a.at isyn i t) * c)) ∧
      (∀ isyn i t : Nat, isyn < a.Nfoc → a.npos ≤ i → i < a.nxs → t < a.nt →
        d'.val (a.at isyn i t) = d.val (a.at isyn i t)) := by
  obtain ⟨d', e, -, w, u⟩ := windowed_of h _
    (fun isyn i h1 h2 base hb hN => by
      rw [ha]
      exact gate_0 a.smooth a.shift _ _ hb hN (he isyn i h1 h2)
        (hc isyn i h1 h2).1 (hc isyn i h1 h2).2)
  refine ⟨d', e, fun isyn i t h1 h2 h3 => ?_, u⟩
  have q := w isyn i t h1 h2 h3
  beta_reduce at q
  have cc := hc isyn i h1 h2
  have ee : a.tmute isyn i - 2 * a.ts isyn i - a.shift = a.edge isyn i := rfl
  rw [ee] at q
  refine ⟨fun g1 g2 => ?_, fun g => ?_, fun g => ?_⟩
  · rw [q, fw3 (by omega), rw1 (by omega)]; ring
  · rcases g with g | g
    · rw [q, fw1 (by omega), rw1 (by omega)]; ring
    · rw [q, fw3 (by omega), rw3 (by omega)]; ring
  · rcases g with ⟨g1, g2⟩ | ⟨g1, g2⟩
    · rw [rw1 (by omega), add_zero] at q
      have := fallW_mem a.smooth (a.edge isyn i - a.smooth) t g1 (by omega)
      exact ⟨_, this.1, this.2, q⟩
    · rw [fw3 (by omega), zero_add] at q
      have := riseW_mem a.smooth (a.nt + 1 - a.edge isyn i + a.smooth) t (by omega) g2
      exact ⟨_, this.1, this.2, q⟩

/-- **C13, gate 4.** Keeps `[edge, nt+1-edge)`, zeroes everything before `edge-smooth` and from
`nt+1-edge+smooth` on, other traces untouched. -/
theorem gate4_keeps_between (a : Args) (d : Buf ℝ) (h : a.Ok d) (ha : a.above = 4 ∨ a.above = -4)
    (hc : a.Centered) :
    ∃ d', applyMute a d = some d' ∧
      (∀ isyn i t : Nat, isyn < a.Nfoc → i < a.npos → t < a.nt →
        (a.edge isyn i ≤ (t:Int) → (t:Int) < a.nt + 1 - a.edge isyn i →
          d'.val (a.at isyn i t) = d.val (a.at isyn i t)) ∧
        ((t:Int) < a.edge isyn i - a.smooth ∨ a.nt + 1 - a.edge isyn i + a.smooth ≤ (t:Int) →
          d'.val (a.at isyn i t) = 0) ∧
        (a.edge isyn i - a.smooth ≤ (t:Int) ∧ (t:Int) < a.edge isyn i ∨
         a.nt + 1 - a.edge isyn i ≤ (t:Int) ∧ (t:Int) < a.nt + 1 - a.edge isyn i + a.smooth →
          ∃ c, 0 < c ∧ c < 1 ∧ d'.val (a.at isyn i t) = d.val (a.at isyn i t) * c)) ∧
      (∀ isyn i t : Nat, isyn < a.Nfoc → a.npos ≤ i → i < a.nxs → t < a.nt →
        d'.val (a.at isyn i t) = d.val (a.at isyn i t)) := by
  obtain ⟨d', e, -, w, u⟩ := windowed_of h _
    (fun isyn i h1 h2 base hb hN => gate_4 a.above ha a.smooth a.shift _ _ hb hN
        (hc isyn i h1 h2).1 (hc isyn i h1 h2).2)
  refine ⟨d', e, fun isyn i t h1 h2 h3 => ?_, u⟩
  have q := w isyn i t h1 h2 h3
  beta_reduce at q
  have cc := hc isyn i h1 h2
  have ee : a.tmute isyn i - 2 * a.ts isyn i - a.shift = a.edge isyn i := rfl
  rw [ee] at q
  refine ⟨fun g1 g2 => ?_, fun g => ?_, fun g => ?_⟩
  · rw [q, fw1 (by omega), rw3 (by omega)]; ring
  · rcases g with g | g
    · rw [q, rw1 (by omega)]; ring
    · rw [q, fw3 (by omega)]; ring
  · rcases g with ⟨g1, g2⟩ | ⟨g1, g2⟩
    · rw [fw1 (by omega), mul_one] at q
      have := riseW_mem a.smooth (a.edge isyn i) t g1 (by omega)
      exact ⟨_, this.1, this.2, q⟩
    · rw [rw3 (by omega), one_mul] at q
      have := fallW_mem a.smooth (a.nt + 1 - a.edge isyn i) t (by omega) g2
      exact ⟨_, this.1, this.2, q⟩

/-- **C13 fails for gate -2.** Between its falling taper, which ends at sample
`p = tmute-2*ts+shift+smooth`, and the zeroed samples, which start at `p+1`, the sample `p` is
forgotten: it keeps its full amplitude although it lies on the muted side. -/
theorem gateM2_leaves_hole (a : Args) (d : Buf ℝ) (h : a.Ok d) (ha : a.above = -2)
    (he : a.EarlyMute)
    (hw : ∀ isyn i : Nat, isyn < a.Nfoc → i < a.npos →
      0 ≤ a.tmute isyn i - 2 * a.ts isyn i + a.shift ∧
      a.tmute isyn i - 2 * a.ts isyn i + a.shift + a.smooth + 1 ≤
        a.nt - a.tmute isyn i - a.shift - a.smooth ∧
      1 ≤ a.tmute isyn i + a.shift + a.smooth ∧ 0 ≤ a.tmute isyn i + a.shift) :
    ∃ d', applyMute a d = some d' ∧
      ∀ isyn i t : Nat, isyn < a.Nfoc → i < a.npos → t < a.nt →
        ((t:Int) = a.tmute isyn i - 2 * a.ts isyn i + a.shift + a.smooth →
          d'.val (a.at isyn i t) = d.val (a.at isyn i t)) ∧
        (a.tmute isyn i - 2 * a.ts isyn i + a.shift + a.smooth < (t:Int) →
          (t:Int) < a.nt - a.tmute isyn i - a.shift - a.smooth → d'.val (a.at isyn i t) = 0) := by
  obtain ⟨d', e, -, w, -⟩ := windowed_of h (fun isyn i t =>
      if t = a.tmute isyn i - 2 * a.ts isyn i + a.shift + a.smooth then 1
      else if a.tmute isyn i - 2 * a.ts isyn i + a.shift + a.smooth < t ∧
        t < a.nt - a.tmute isyn i - a.shift - a.smooth then 0
      else winMap 0 (a.nt - a.tmute isyn i - a.shift - a.smooth) (a.nt - a.tmute isyn i - a.shift)
        (fun l => riseW a.smooth (a.nt - a.tmute isyn i - a.shift)
          (a.nt - a.tmute isyn i - a.shift - a.smooth + l)) t
        (winMap 0 (a.tmute isyn i - 2 * a.ts isyn i + a.shift + a.smooth + 1)
          (a.nt + 1 - a.tmute isyn i - a.shift - a.smooth) (fun _ => 0) t
        (winMap 0 (a.tmute isyn i - 2 * a.ts isyn i + a.shift)
          (a.tmute isyn i - 2 * a.ts isyn i + a.shift + a.smooth)
          (fun l => fallW a.smooth (a.tmute isyn i - 2 * a.ts isyn i + a.shift)
          (a.tmute isyn i - 2 * a.ts isyn i + a.shift + l)) t 1)))
    (fun isyn i h1 h2 base hb hN => by
      rw [ha]
      have hh := hw isyn i h1 h2
      have hm := he isyn i h1 h2
      have hf := fallLoop_pw (N := d.size) a.smooth (a.tmute isyn i - 2 * a.ts isyn i + a.shift)
        hb hN hh.1 (by omega)
      have hz := zeroLoop_pw (N := d.size) (a.tmute isyn i - 2 * a.ts isyn i + a.shift + a.smooth + 1)
        (a.nt + 1 - a.tmute isyn i - a.shift - a.smooth) hb hN (by omega) (by omega)
      have hr := riseLoop_pw (N := d.size) a.smooth (a.nt - a.tmute isyn i - a.shift) hb hN (by omega)
        (by omega)
      intro d1 hd1
      have e1 : -2 * a.ts isyn i+a.tmute isyn i+a.shift
        = a.tmute isyn i - 2 * a.ts isyn i + a.shift := by omega
      unfold gate
      simp only []
      rw [if_neg (by omega), if_neg (by omega), if_neg (by omega), if_neg (by omega),
        if_neg (by omega), if_neg (by omega), if_pos (by trivial), if_neg (by omega), e1]
      refine PW.congr (PW.comp (PW.comp hf hz) hr) (fun x v => ?_) d1 hd1
      have shiftW : ∀ lo hi w v, winMap base lo hi w x v = v * winMap 0 lo hi w (x - base) 1 := by
        intro lo hi w v
        unfold winMap
        by_cases hc : base + lo ≤ x ∧ x < base + hi
        · rw [if_pos hc, if_pos (by omega)]; simp
        · rw [if_neg hc, if_neg (by omega)]; simp
      have scaleW : ∀ lo hi w u, winMap 0 lo hi w (x - base) u
          = u * winMap 0 lo hi w (x - base) 1 := by
        intro lo hi w u; unfold winMap; split <;> simp
      unfold wMap
      by_cases hx : base ≤ x ∧ x < base + a.nt
      · rw [if_pos hx]
        beta_reduce
        by_cases c1 : x - base = a.tmute isyn i - 2 * a.ts isyn i + a.shift + a.smooth
        · rw [if_pos c1]
          unfold winMap
          rw [if_neg (by omega), if_neg (by omega), if_neg (by omega), mul_one]
        · rw [if_neg c1]
          by_cases c2 : a.tmute isyn i - 2 * a.ts isyn i + a.shift + a.smooth < x - base ∧
              x - base < a.nt - a.tmute isyn i - a.shift - a.smooth
          · rw [if_pos c2]
            unfold winMap
            rw [if_neg (by omega), if_pos (by omega), mul_zero, mul_zero]
          · rw [if_neg c2]
            rw [shiftW, shiftW, shiftW]
            conv_rhs => rw [scaleW, scaleW (u := winMap _ _ _ _ _ 1)]
            ring
      · rw [if_neg hx]
        unfold winMap
        rw [if_neg (by omega), if_neg (by omega), if_neg (by omega)])
  refine ⟨d', e, fun isyn i t h1 h2 h3 => ?_⟩
  have q := w isyn i t h1 h2 h3
  beta_reduce at q
  refine ⟨fun g => ?_, fun g1 g2 => ?_⟩
  · rw [q, if_pos g, mul_one]
  · rw [q, if_neg (by omega), if_pos ⟨g1, g2⟩, mul_zero]

example : ∃ (a : Args) (d : Buf ℝ), a.Ok d ∧ a.above = -2 ∧ a.EarlyMute ∧ 0 < a.Nfoc ∧ 0 < a.npos ∧
    (∀ isyn i : Nat, isyn < a.Nfoc → i < a.npos →
      0 ≤ a.tmute isyn i - 2 * a.ts isyn i + a.shift ∧
      a.tmute isyn i - 2 * a.ts isyn i + a.shift + a.smooth + 1 ≤
        a.nt - a.tmute isyn i - a.shift - a.smooth ∧
      1 ≤ a.tmute isyn i + a.shift + a.smooth ∧ 0 ≤ a.tmute isyn i + a.shift) := by
  refine ⟨⟨⟨1, fun _ => 4⟩, 2, -2, 1, 1, 32, ⟨1, fun i => i⟩, 1, 1, ⟨1, fun _ => 0⟩⟩, ⟨32, fun _ => 1⟩,
    ⟨by simp, by simp, by simp, ?_, by simp, by simp⟩, rfl, ?_, by simp, by simp, ?_⟩
  · intro i hi; simp at *; omega
  · intro isyn i _ _; simp [Args.tmute]
  · intro isyn i _ _; simp [Args.tmute, Args.ts]

/-- Gate 0 treats `t` and `nt-t` alike: a time-symmetric trace stays time-symmetric. -/
theorem gate0_time_symmetric (a : Args) (d : Buf ℝ) (h : a.Ok d) (ha : a.above = 0)
    (hc : a.Centered) (he : a.EarlyMute) :
    ∃ d', applyMute a d = some d' ∧
      ∀ isyn i t : Nat, isyn < a.Nfoc → i < a.npos → 0 < t → t < a.nt →
        d.val (a.at isyn i t) = d.val (a.at isyn i (a.nt - t)) →
        d'.val (a.at isyn i t) = d'.val (a.at isyn i (a.nt - t)) := by
  obtain ⟨d', e, -, w, u⟩ := windowed_of h _
    (fun isyn i h1 h2 base hb hN => by
      rw [ha]
      exact gate_0 a.smooth a.shift _ _ hb hN (he isyn i h1 h2)
        (hc isyn i h1 h2).1 (hc isyn i h1 h2).2)
  refine ⟨d', e, fun isyn i t h1 h2 h3 h4 hs => ?_⟩
  have q := w isyn i t h1 h2 h4
  have q' := w isyn i (a.nt - t) h1 h2 (by omega)
  beta_reduce at q q'
  rw [q, q', hs]
  congr 1
  have ee : a.tmute isyn i - 2 * a.ts isyn i - a.shift = a.edge isyn i := rfl
  rw [ee]
  have refl : ∀ x : Int, 0 < x → x < a.nt →
      riseW a.smooth (a.nt + 1 - a.edge isyn i + a.smooth) (a.nt - x) =
      fallW a.smooth (a.edge isyn i - a.smooth) x := by
    intro x _ _
    by_cases c1 : x < a.edge isyn i - a.smooth
    · rw [fw1 c1, rw3 (by omega)]
    · by_cases c2 : x < a.edge isyn i
      · unfold riseW fallW
        rw [if_neg (by omega), if_pos (by omega), if_neg (by omega), if_pos (by omega)]
        have hs0 : (a.smooth:ℝ) + 1 ≠ 0 := by positivity
        have : Real.pi * (((a.nt - x - (a.nt + 1 - a.edge isyn i + a.smooth - a.smooth) : Int) : ℝ) + 1)
            / (a.smooth + 1) = Real.pi - Real.pi *
            (((x - (a.edge isyn i - a.smooth) : Int) : ℝ) + 1) / (a.smooth + 1) := by
          push_cast; field_simp; ring
        rw [this, Real.cos_pi_sub]; ring
      · rw [fw3 (by omega), rw1 (by omega)]
  have r1 := refl t (by omega) (by omega)
  have r2 := refl (a.nt - t) (by omega) (by omega)
  rw [show (a.nt:Int) - (a.nt - t) = t by omega] at r2
  rw [show ((a.nt - t : Nat) : Int) = a.nt - t by omega, r1, r2]
  ring

/-- **C12 for the pair 7 / -7** (pass / reject a band around the mute line). -/
theorem gate7_complementary (a : Args) (d : Buf ℝ) (h : a.Ok d) (hs : 0 ≤ a.shift)
    (hw : ∀ isyn i : Nat, isyn < a.Nfoc → i < a.npos →
      a.smooth ≤ a.tmute isyn i - a.shift ∧ a.tmute isyn i + a.shift + a.smooth ≤ a.nt) :
    ∃ d0 d4, applyMute { a with above := 7 } d = some d0 ∧
      applyMute { a with above := -7 } d = some d4 ∧
      ∀ isyn i t : Nat, isyn < a.Nfoc → i < a.npos → t < a.nt →
        d0.val (a.at isyn i t) + d4.val (a.at isyn i t) = d.val (a.at isyn i t) := by
  obtain ⟨d0, e0, -, w0, -⟩ := windowed_of (a := { a with above := 7 }) (d := d)
    ⟨h.1, h.2, h.3, h.4, h.5, h.6⟩ _
    (fun isyn i h1 h2 base hb hN => gate_7 7 (Or.inr rfl) a.smooth a.shift _ _ hb hN
      (hw isyn i h1 h2).1 hs (hw isyn i h1 h2).2)
  obtain ⟨d4, e4, -, w4, -⟩ := windowed_of (a := { a with above := -7 }) (d := d)
    ⟨h.1, h.2, h.3, h.4, h.5, h.6⟩ _
    (fun isyn i h1 h2 base hb hN => gate_m7 a.smooth a.shift _ _ hb hN
      (hw isyn i h1 h2).1 hs (hw isyn i h1 h2).2)
  refine ⟨d0, d4, e0, e4, fun isyn i t h1 h2 h3 => ?_⟩
  have q0 := w0 isyn i t h1 h2 h3
  have q4 := w4 isyn i t h1 h2 h3
  simp only [Args.at, Args.tmute, Args.ts] at q0 q4 ⊢
  rw [q0, q4, ← mul_add]
  set m := a.mute.val (isyn*a.nxs+a.ixpos.val i)
  have f1 := fall_add_rise a.smooth (m - a.shift - a.smooth) t
  have f2 := fall_add_rise a.smooth (m + a.shift) t
  rw [show m - a.shift - (a.smooth:Int) + a.smooth = m - a.shift by omega] at f1
  by_cases ht : (t:Int) < m + a.shift
  · rw [fw1 (s := a.smooth) (b := m + a.shift) ht] at f2 ⊢
    rw [rw1 (s := a.smooth) (e := m + a.shift + a.smooth) (by omega)]
    rw [add_zero, mul_one, add_comm (riseW _ _ _) (fallW _ _ _), f1, mul_one]
  · rw [rw3 (s := a.smooth) (e := m - a.shift) (t := t) (by omega)] at f1 ⊢
    have : fallW a.smooth (m - a.shift - a.smooth) t = 0 := by linarith
    rw [this, zero_add, one_mul, f2, mul_one]

example : ∃ (a : Args) (d : Buf ℝ), a.Ok d ∧ 0 ≤ a.shift ∧ 0 < a.npos ∧
    (∀ isyn i : Nat, isyn < a.Nfoc → i < a.npos →
      a.smooth ≤ a.tmute isyn i - a.shift ∧ a.tmute isyn i + a.shift + a.smooth ≤ a.nt) := by
  refine ⟨⟨⟨2, fun _ => 6⟩, 2, 0, 1, 2, 16, ⟨2, fun i => i⟩, 2, 1, ⟨2, fun _ => 0⟩⟩, ⟨32, fun _ => 1⟩,
    ⟨by simp, by simp, by simp, ?_, by simp, by simp⟩, by simp, by simp, ?_⟩
  · intro i hi; simp at *; omega
  · intro isyn i _ _; simp [Args.tmute]

/-- **C12 for the pair 6 / 10** when there is no plane-wave time shift (`ts = 0`). -/
theorem gate6_gate10_complementary (a : Args) (d : Buf ℝ) (h : a.Ok d) (he : a.EarlyMute)
    (hw : ∀ isyn i : Nat, isyn < a.Nfoc → i < a.npos →
      a.ts isyn i = 0 ∧ a.smooth ≤ a.tmute isyn i + a.shift ∧ a.shift + a.smooth ≤ a.tmute isyn i) :
    ∃ d0 d4, applyMute { a with above := 6 } d = some d0 ∧
      applyMute { a with above := 10 } d = some d4 ∧
      ∀ isyn i t : Nat, isyn < a.Nfoc → i < a.npos → t < a.nt →
        d0.val (a.at isyn i t) + d4.val (a.at isyn i t) = d.val (a.at isyn i t) := by
  have hhalf : ∀ isyn i : Nat, isyn < a.Nfoc → i < a.npos → 2 * a.tmute isyn i ≤ a.nt := by
    intro isyn i h1 h2; have := he isyn i h1 h2; omega
  obtain ⟨d0, e0, -, w0, -⟩ := windowed_of (a := { a with above := 6 }) (d := d)
    ⟨h.1, h.2, h.3, h.4, h.5, h.6⟩ _
    (fun isyn i h1 h2 base hb hN => gate_6 a.smooth a.shift (a.tmute isyn i) (a.ts isyn i) hb hN
      (he isyn i h1 h2)
      (by have := hw isyn i h1 h2; omega) (by have := hw isyn i h1 h2; have := hhalf isyn i h1 h2; dsimp only; omega)
      (hw isyn i h1 h2).2.2)
  obtain ⟨d4, e4, -, w4, -⟩ := windowed_of (a := { a with above := 10 }) (d := d)
    ⟨h.1, h.2, h.3, h.4, h.5, h.6⟩ _
    (fun isyn i h1 h2 base hb hN => gate_10 a.smooth a.shift (a.tmute isyn i) (a.ts isyn i) hb hN
      (hw isyn i h1 h2).2.1 (by have := hhalf isyn i h1 h2; dsimp only; omega) (hw isyn i h1 h2).2.2)
  refine ⟨d0, d4, e0, e4, fun isyn i t h1 h2 h3 => ?_⟩
  have q0 := w0 isyn i t h1 h2 h3
  have q4 := w4 isyn i t h1 h2 h3
  have hw' := hw isyn i h1 h2
  have hh := hhalf isyn i h1 h2
  simp only [Args.at] at q0 q4 ⊢
  rw [q0, q4, ← mul_add, hw'.1]
  set m := a.tmute isyn i
  have f1 := fall_add_rise a.smooth (m - 2 * 0 + a.shift - a.smooth) t
  have f2 := fall_add_rise a.smooth (a.nt - m + a.shift) t
  rw [show m - 2 * 0 + a.shift - (a.smooth:Int) + a.smooth = m + a.shift by omega] at f1
  by_cases ht : (t:Int) < a.nt - m + a.shift
  · rw [fw1 (s := a.smooth) (b := a.nt - m + a.shift) ht] at f2 ⊢
    rw [rw1 (s := a.smooth) (e := a.nt - m + a.shift + a.smooth) (by omega)]
    rw [add_zero, mul_one, f1, mul_one]
  · rw [rw3 (s := a.smooth) (e := m + a.shift) (t := t) (by omega)] at f1 ⊢
    have : fallW a.smooth (m - 2 * 0 + a.shift - a.smooth) t = 0 := by linarith
    rw [this, zero_add, one_mul, add_comm (riseW _ _ _) (fallW _ _ _), f2, mul_one]

/-- **C14.** For the indices one period around the trace, `mapj` is the index modulo `nt`. -/
theorem mapj_periodic (j nt : Int) (h1 : -nt ≤ j) (h2 : j < 2*nt) (hnt : 0 < nt) :
    0 ≤ mapj j nt ∧ mapj j nt < nt ∧ mapj j nt = j % nt := by
  have key : 0 ≤ mapj j nt ∧ mapj j nt < nt ∧ (mapj j nt - j) % nt = 0 := by
    unfold mapj
    split
    · refine ⟨by omega, by omega, ?_⟩
      rw [show j - nt - j = nt * (-1) by ring]; exact Int.mul_emod_right _ _
    · split
      · refine ⟨by omega, by omega, ?_⟩
        rw [show nt + j - j = nt by ring]; exact Int.emod_self
      · refine ⟨by omega, by omega, by simp⟩
  refine ⟨key.1, key.2.1, ?_⟩
  have h3 : mapj j nt % nt = j % nt := Int.emod_eq_emod_iff_emod_sub_eq_zero.mpr key.2.2
  rw [← h3, Int.emod_eq_of_lt key.1 key.2.1]

/-- **C14, limit of validity.** Outside that range (and only there) `mapj` leaves the trace. -/
theorem mapj_in_range_iff (j nt : Int) (hnt : 0 < nt) :
    (0 ≤ mapj j nt ∧ mapj j nt < nt) ↔ (-nt ≤ j ∧ j < 2*nt) := by
  unfold mapj; split
  · omega
  · split <;> omega

end Verif.Mute

import Verif.Mute.Plane

/-!
# Properties of the plane-wave windows (C154, C155, C156)

Times are signed: time `t` of a trace of `nt` samples is stored in sample `t mod nt`, so negative
times are at the end of the trace.  For a plane wave the window ends at `pos` on the positive time
axis and begins just after `-neg` on the negative axis; the two differ when the wave is dipping.
-/

namespace Verif.Mute
open Verif Spec

/-- Sample of trace `i` of focal point `isyn` that holds time `t`. -/
def PArgs.at (a : PArgs) (isyn i : Nat) (t : Int) : Int := ((isyn:Int)*a.nxs+i)*a.nt + t % a.nt

/-- The two mute times of a trace, less the `shift`. -/
def PArgs.p (a : PArgs) (isyn i : Nat) : Int := a.mute.val (isyn*a.nxs+a.ixpos.val i) - a.shift
def PArgs.q (a : PArgs) (isyn i : Nat) : Int := a.mutei.val (isyn*a.nxs+a.ixpos.val i) - a.shift

/-- In even iterations `mute` bounds the positive times and `mutei` the negative ones, in odd
iterations the two change places. -/
def PArgs.pos (a : PArgs) (isyn i : Nat) : Int := if a.iter.tmod 2 = 0 then a.p isyn i else a.q isyn i
def PArgs.neg (a : PArgs) (isyn i : Nat) : Int := if a.iter.tmod 2 = 0 then a.q isyn i else a.p isyn i

/-- The buffers are large enough and the trace table points into them. -/
structure PArgs.Ok (a : PArgs) (d : Buf ℝ) : Prop where
  npos_le : a.npos ≤ a.nxs
  data : a.Nfoc * a.nxs * a.nt ≤ d.size
  ixpos : a.npos ≤ a.ixpos.size
  ixpos_range : ∀ i : Nat, i < a.npos → 0 ≤ a.ixpos.val i ∧ a.ixpos.val i < a.nxs
  mute : a.Nfoc * a.nxs ≤ a.mute.size
  mutei : a.Nfoc * a.nxs ≤ a.mutei.size

/-- Both ends of the window are within one trace length of time zero. -/
def PArgs.Near (a : PArgs) : Prop :=
  ∀ isyn i : Nat, isyn < a.Nfoc → i < a.npos →
    a.smooth - a.nt < a.p isyn i ∧ a.p isyn i ≤ 2*a.nt ∧
    a.smooth - a.nt < a.q isyn i ∧ a.q isyn i ≤ 2*a.nt

/-- The window has room for its two tapers and fits in one period. -/
def PArgs.Room (a : PArgs) : Prop :=
  ∀ isyn i : Nat, isyn < a.Nfoc → i < a.npos →
    2*a.smooth + 1 ≤ a.p isyn i + a.q isyn i ∧ a.p isyn i + a.q isyn i + 2*a.smooth ≤ a.nt + 1

/-! ## Helper lemmas -/

theorem mapj_emod {j nt : Int} (h1 : -nt ≤ j) (h2 : j < 2*nt) : mapj j nt = j % nt := by
  unfold mapj
  split_ifs
  · rw [← Int.sub_emod_right, Int.emod_eq_of_lt (by omega) (by omega)]
  · rw [← Int.add_emod_left, Int.emod_eq_of_lt (by omega) (by omega)]
  · rw [Int.emod_eq_of_lt (by omega) (by omega)]

theorem emod_ne {t j nt : Int} (h1 : t < j) (h2 : j < t + nt) : j % nt ≠ t % nt := by
  intro h
  have h3 : nt ∣ j - t := Int.dvd_of_emod_eq_zero (Int.emod_eq_emod_iff_emod_sub_eq_zero.mp h)
  have := Int.le_of_dvd (by omega) h3
  omega

/-- No index of the loop falls on time `t`. -/
theorem hit_none {nt lo hi t : Int} {c : Int → ℝ} (h1 : lo < hi → -nt ≤ lo ∧ hi ≤ 2*nt)
    (h : lo < hi → ∃ k : Int, t + k*nt < lo ∧ hi ≤ t + k*nt + nt) : hit nt lo hi c (t % nt) = 1 := by
  refine Finset.prod_eq_one (fun j hj => ?_)
  rw [Finset.mem_Ico] at hj
  obtain ⟨k, h2, h3⟩ := h (by omega)
  have := h1 (by omega)
  rw [mapj_emod (by omega) (by omega), if_neg]
  have := emod_ne (t := t + k*nt) (j := j) (nt := nt) (by omega) (by omega)
  rwa [Int.add_mul_emod_self_right] at this

/-- Exactly one index of the loop falls on time `t`. -/
theorem hit_one {nt lo hi t : Int} {c : Int → ℝ} (j : Int) (h1 : -nt ≤ lo) (h1' : hi ≤ 2*nt)
    (hl : hi ≤ lo + nt) (h2 : lo ≤ j) (h3 : j < hi) (k : Int) (hk : j = t + k*nt) :
    hit nt lo hi c (t % nt) = c j := by
  have e : j % nt = t % nt := by rw [hk, Int.add_mul_emod_self_right]
  unfold hit
  rw [Finset.prod_eq_single j]
  · rw [mapj_emod (by omega) (by omega), if_pos e]
  · intro b hb hne
    rw [Finset.mem_Ico] at hb
    rw [mapj_emod (by omega) (by omega), if_neg]
    rw [← e]
    rcases lt_or_gt_of_ne hne with h | h
    · exact (emod_ne (t := b) (j := j) (by omega) (by omega)).symm
    · exact emod_ne (t := j) (j := b) (by omega) (by omega)
  · intro h
    rw [Finset.mem_Ico] at h
    omega

/-- A cleared sample is zero. -/
theorem hit_zero {nt lo hi t : Int} (j : Int) (h1 : -nt ≤ lo) (h1' : hi ≤ 2*nt)
    (h2 : lo ≤ j) (h3 : j < hi) (k : Int) (hk : j = t + k*nt) :
    hit nt lo hi (fun _ => 0) (t % nt) = 0 := by
  have e : j % nt = t % nt := by rw [hk, Int.add_mul_emod_self_right]
  unfold hit
  refine Finset.prod_eq_zero (Finset.mem_Ico.mpr ⟨h2, h3⟩) ?_
  rw [mapj_emod (by omega) (by omega), if_pos e]

theorem ctv_fall (s : Nat) (b t : Int) (h1 : b ≤ t) (h2 : t < b + s) :
    ctv s (t - b) = fallW s b t := by
  unfold ctv fallW
  rw [if_neg (by omega), if_pos h2]
  have e2 : ((t - b : Int) + 1 : ℝ) * (Real.pi / (s + 1)) =
      Real.pi * ((t - b : Int) + 1) / (s + 1) := by ring
  rw [e2]; ring

theorem ctv_rise (s : Nat) (e t : Int) (h1 : e - s ≤ t) (h2 : t < e) :
    ctv s (s - (t - (e - s)) - 1) = riseW s e t := by
  unfold ctv riseW
  rw [if_neg (by omega), if_pos h2]
  have hs : (s:ℝ) + 1 ≠ 0 := by positivity
  have e2 : (((s:Int) - (t - (e - s)) - 1 : Int) + 1 : ℝ) * (Real.pi / (s + 1)) =
      Real.pi - Real.pi * ((t - (e - s) : Int) + 1) / (s + 1) := by
    push_cast; field_simp; ring
  rw [e2, Real.cos_pi_sub]; ring

/-- Odd iterations use the even windows with the mute times exchanged. -/
theorem planeGate_swap (w : Int) (hw : w = 1 ∨ w = 4 ∨ w = 11 ∨ w = 44) (s : Nat)
    (shift nt x y : Int) : planeGate (-w) s shift nt x y = planeGate w s shift nt y x := by
  funext g
  rcases hw with h | h | h | h <;> subst h <;> rfl

/-- The factors of the three loops of the windows 1 and 4. -/
noncomputable def thetaH (s : Nat) (nt p q x : Int) : ℝ :=
  hit nt (p-s) p (fun j => ctv s (j - (p-s))) x * hit nt p (nt+1-q) (fun _ => 0) x *
    hit nt (nt+1-q) (nt+1-q+s) (fun j => ctv s (s - (j - (nt+1-q)) - 1)) x
noncomputable def psiH (s : Nat) (nt p q x : Int) : ℝ :=
  hit nt (1-q-s) (1-q) (fun j => ctv s (j - (1-q-s))) x * hit nt (1-q) (p-s) (fun _ => 0) x *
    hit nt (p-s) p (fun j => ctv s (s - (j - (p-s)) - 1)) x

theorem theta_pw (s nt : Nat) (shift x y : Int)
    (h1 : s - nt < x - shift ∧ x - shift ≤ 2*nt) (h2 : s - nt < y - shift ∧ y - shift ≤ 2*nt) :
    PW nt (planeGate 1 s shift nt x y) (fun t v => v * thetaH s nt (x-shift) (y-shift) t) := by
  have a1 := fallLoop_hit (nt := nt) s (x-shift-s) (x-shift) (by omega) (by omega)
  have a2 := zeroLoop_hit (nt := nt) (x-shift) (nt+1-y+shift) (by omega)
  have a3 := riseLoop_hit (nt := nt) s (nt+1-y+shift) (nt+1-y+shift+s) (by omega) (by omega)
  refine PW.congr (PW.comp (PW.comp a1 a2) a3) (fun t v => ?_)
  unfold thetaH
  have e : (nt:Int)+1-(y-shift) = nt+1-y+shift := by omega
  rw [e]; ring

theorem psi_pw (s nt : Nat) (shift x y : Int)
    (h1 : s - nt < x - shift ∧ x - shift ≤ 2*nt) (h2 : s - nt < y - shift ∧ y - shift + s ≤ nt + 1)  :
    PW nt (planeGate 4 s shift nt x y) (fun t v => v * psiH s nt (x-shift) (y-shift) t) := by
  have a1 := fallLoop_hit (nt := nt) s (1-y+shift-s) (1-y+shift) (by omega) (by omega)
  have a2 := zeroLoop_hit (nt := nt) (1-y+shift) (x-shift-s) (by omega)
  have a3 := riseLoop_hit (nt := nt) s (x-shift-s) (x-shift) (by omega) (by omega)
  refine PW.congr (PW.comp (PW.comp a1 a2) a3) (fun t v => ?_)
  unfold psiH
  have e : 1-(y-shift) = 1-y+shift := by omega
  rw [e]; ring

theorem one_theta_pw (s nt : Nat) (shift x y : Int) (h1 : s ≤ x - shift ∧ x - shift ≤ nt) :
    PW nt (planeGate 11 s shift nt x y) (fun t v => v *
      (hit nt (x-shift-s) (x-shift) (fun j => ctv s (j - (x-shift-s))) t *
        hit nt (x-shift) nt (fun _ => 0) t)) := by
  have a1 := fallLoop_hit (nt := nt) s (x-shift-s) (x-shift) (by omega) (by omega)
  have a2 := zeroLoop_hit (nt := nt) (x-shift) nt (by omega)
  exact PW.congr (PW.comp a1 a2) (fun t v => by ring)

theorem one_psi_pw (s nt : Nat) (shift x y : Int) (h1 : s ≤ x - shift ∧ x - shift ≤ nt) :
    PW nt (planeGate 44 s shift nt x y) (fun t v => v *
      (hit nt 0 (x-shift-s) (fun _ => 0) t *
        hit nt (x-shift-s) (x-shift) (fun j => ctv s (s - (j - (x-shift-s)) - 1)) t)) := by
  have a1 := zeroLoop_hit (nt := nt) 0 (x-shift-s) (by omega)
  have a2 := riseLoop_hit (nt := nt) s (x-shift-s) (x-shift) (by omega) (by omega)
  exact PW.congr (PW.comp a1 a2) (fun t v => by ring)

/-- The whole call, given the window of every trace. -/
theorem plane_windows (a : PArgs) (d : Buf ℝ) (h : a.Ok d) (w : Nat → Nat → Int → ℝ)
    (hg : ∀ isyn i : Nat, isyn < a.Nfoc → i < a.npos →
      PW a.nt (planeGate a.window a.smooth a.shift a.nt (a.mute.val (isyn*a.nxs+a.ixpos.val i))
        (a.mutei.val (isyn*a.nxs+a.ixpos.val i))) (fun t v => v * w isyn i t)) :
    ∃ d', applyMutePlane a d = some d' ∧ d'.size = d.size ∧
      (∀ isyn i : Nat, isyn < a.Nfoc → i < a.npos → 0 < a.nt → ∀ t : Int,
        d'.val (a.at isyn i t) = d.val (a.at isyn i t) * w isyn i (t % a.nt)) ∧
      (∀ isyn i : Nat, isyn < a.Nfoc → a.npos ≤ i → i < a.nxs → 0 < a.nt → ∀ t : Int,
        d'.val (a.at isyn i t) = d.val (a.at isyn i t)) := by
  have base_le : ∀ isyn i : Nat, isyn < a.Nfoc → i < a.npos →
      (isyn*a.nxs+i)*a.nt + a.nt ≤ d.size := by
    intro isyn i h1 h2
    have h3 : isyn*a.nxs+i + 1 ≤ a.Nfoc * a.nxs := by
      have : (isyn+1)*a.nxs ≤ a.Nfoc*a.nxs := Nat.mul_le_mul_right _ h1
      have := h.npos_le
      have e : (isyn+1)*a.nxs = isyn*a.nxs + a.nxs := by ring
      omega
    have h4 := Nat.mul_le_mul_right a.nt h3
    have := h.data
    have e : (isyn*a.nxs+i+1)*a.nt = (isyn*a.nxs+i)*a.nt + a.nt := by ring
    omega
  have ebase : ∀ isyn i : Nat, (isyn:Int)*a.nxs*a.nt+i*a.nt = (((isyn*a.nxs+i)*a.nt : Nat) : Int) := by
    intro isyn i; push_cast; ring
  obtain ⟨d', e1, e2, e3, e4⟩ := cube_windows a.Nfoc a.npos a.nxs a.nt d.size (planeBody a) w h.npos_le
    (by
      intro isyn h1 i h2
      have hidx : isyn*a.nxs + (a.ixpos.val i).toNat < a.Nfoc*a.nxs := by
        have : (isyn+1)*a.nxs ≤ a.Nfoc*a.nxs := Nat.mul_le_mul_right _ h1
        rw [Nat.add_mul] at this
        have := h.ixpos_range i h2; omega
      have hidx' : (isyn:Int)*a.nxs + a.ixpos.val i = ((isyn*a.nxs + (a.ixpos.val i).toNat : Nat) : Int) := by
        have := h.ixpos_range i h2
        push_cast; omega
      have hm := h.mute
      have hmi := h.mutei
      have hx := h.ixpos
      have o1 : a.ixpos.ok i := ⟨by omega, by omega⟩
      have o2 : a.mute.ok (isyn*a.nxs + a.ixpos.val i) := by
        rw [hidx']; exact ⟨by omega, by omega⟩
      have o3 : a.mutei.ok (isyn*a.nxs + a.ixpos.val i) := by
        rw [hidx']; exact ⟨by omega, by omega⟩
      have := traceRun_pw (N := d.size) (hg isyn i h1 h2) (base := (((isyn*a.nxs+i)*a.nt : Nat) : Int))
        (by omega) (by have := base_le isyn i h1 h2; omega)
      unfold planeBody
      simp only [Buf.rd_ok o1, Buf.rd_ok o2, Buf.rd_ok o3, Option.bind_some]
      rw [ebase]; exact this) d rfl
  have eat : ∀ isyn i (t : Int), 0 < a.nt → a.at isyn i t =
      (((isyn*a.nxs+i)*a.nt + (t % a.nt).toNat : Nat) : Int) := by
    intro isyn i t h0
    have := Int.emod_nonneg t (b := a.nt) (by omega)
    unfold PArgs.at; push_cast; rw [Int.toNat_of_nonneg this]
  refine ⟨d', e1, e2, ?_, ?_⟩
  · intro isyn i h1 h2 h0 t
    have hn := Int.emod_nonneg t (b := a.nt) (by omega)
    have hl := Int.emod_lt_of_pos t (b := a.nt) (by omega)
    rw [eat _ _ _ h0, e3 _ _ _ h1 h2 (by omega), Int.toNat_of_nonneg hn]
  · intro isyn i h1 h2 h3 h0 t
    have hl := Int.emod_lt_of_pos t (b := a.nt) (by omega)
    have hn := Int.emod_nonneg t (b := a.nt) (by omega)
    rw [eat _ _ _ h0, e4 _ _ _ h1 h2 h3 (by omega)]

/-- The gate of a call as the even gate of its `pos` and `neg` times. -/
theorem plane_window_gate (a : PArgs) (w : Int) (hw : w = 1 ∨ w = 4 ∨ w = 11 ∨ w = 44)
    (ha : a.above = w) (isyn i : Nat) :
    planeGate a.window a.smooth a.shift a.nt (a.mute.val (isyn*a.nxs+a.ixpos.val i))
        (a.mutei.val (isyn*a.nxs+a.ixpos.val i)) =
      planeGate w a.smooth a.shift a.nt (a.pos isyn i + a.shift) (a.neg isyn i + a.shift) := by
  unfold PArgs.window PArgs.pos PArgs.neg PArgs.p PArgs.q
  by_cases h : a.iter.tmod 2 = 0
  · rw [if_neg (not_not.mpr h), if_pos h, if_pos h, ha]; congr 1 <;> omega
  · rw [if_pos h, if_neg h, if_neg h, ha]
    have : w * -1 = -w := by ring
    rw [this, planeGate_swap w hw]; congr 1 <;> omega

theorem PArgs.Near.pn {a : PArgs} (h : a.Near) {isyn i : Nat} (h1 : isyn < a.Nfoc) (h2 : i < a.npos) :
    (a.smooth - a.nt < a.pos isyn i ∧ a.pos isyn i ≤ 2*a.nt) ∧
    (a.smooth - a.nt < a.neg isyn i ∧ a.neg isyn i ≤ 2*a.nt) := by
  have := h isyn i h1 h2
  unfold PArgs.pos PArgs.neg
  split_ifs <;> omega

theorem PArgs.Room.pn {a : PArgs} (h : a.Room) {isyn i : Nat} (h1 : isyn < a.Nfoc) (h2 : i < a.npos) :
    2*a.smooth + 1 ≤ a.pos isyn i + a.neg isyn i ∧ a.pos isyn i + a.neg isyn i + 2*a.smooth ≤ a.nt + 1 := by
  have := h isyn i h1 h2
  unfold PArgs.pos PArgs.neg
  split_ifs <;> omega

theorem theta_run (a : PArgs) (d : Buf ℝ) (h : a.Ok d) (ha : a.above = 1) (hn : a.Near) :
    ∃ d', applyMutePlane a d = some d' ∧ d'.size = d.size ∧
      (∀ isyn i : Nat, isyn < a.Nfoc → i < a.npos → 0 < a.nt → ∀ t : Int,
        d'.val (a.at isyn i t) = d.val (a.at isyn i t) *
          thetaH a.smooth a.nt (a.pos isyn i) (a.neg isyn i) (t % a.nt)) ∧
      (∀ isyn i : Nat, isyn < a.Nfoc → a.npos ≤ i → i < a.nxs → 0 < a.nt → ∀ t : Int,
        d'.val (a.at isyn i t) = d.val (a.at isyn i t)) := by
  refine plane_windows a d h (fun isyn i => thetaH a.smooth a.nt (a.pos isyn i) (a.neg isyn i))
    (fun isyn i h1 h2 => ?_)
  rw [plane_window_gate a 1 (by simp) ha]
  have := hn.pn h1 h2
  have := theta_pw a.smooth a.nt a.shift (a.pos isyn i + a.shift) (a.neg isyn i + a.shift)
    (by omega) (by omega)
  simpa using this

theorem psi_run (a : PArgs) (d : Buf ℝ) (h : a.Ok d) (ha : a.above = 4) (hn : a.Near)
    (hr : ∀ isyn i : Nat, isyn < a.Nfoc → i < a.npos → a.neg isyn i + a.smooth ≤ a.nt + 1) :
    ∃ d', applyMutePlane a d = some d' ∧ d'.size = d.size ∧
      (∀ isyn i : Nat, isyn < a.Nfoc → i < a.npos → 0 < a.nt → ∀ t : Int,
        d'.val (a.at isyn i t) = d.val (a.at isyn i t) *
          psiH a.smooth a.nt (a.pos isyn i) (a.neg isyn i) (t % a.nt)) ∧
      (∀ isyn i : Nat, isyn < a.Nfoc → a.npos ≤ i → i < a.nxs → 0 < a.nt → ∀ t : Int,
        d'.val (a.at isyn i t) = d.val (a.at isyn i t)) := by
  refine plane_windows a d h (fun isyn i => psiH a.smooth a.nt (a.pos isyn i) (a.neg isyn i))
    (fun isyn i h1 h2 => ?_)
  rw [plane_window_gate a 4 (by simp) ha]
  have h3 := hn.pn h1 h2
  have h4 := hr isyn i h1 h2
  have := psi_pw a.smooth a.nt a.shift (a.pos isyn i + a.shift) (a.neg isyn i + a.shift)
    (by omega) (by omega)
  simpa using this

/-- Value of the window 1 over one period. -/
theorem thetaH_eq {s : Nat} {nt p q t : Int} (hp : s - nt < p) (hp' : p ≤ 2*nt) (hq : s - nt < q)
    (hq' : q ≤ 2*nt)
    (h1 : 2*s + 1 ≤ p + q) (h2 : p + q ≤ nt + 1) (ht : p - nt ≤ t) (ht' : t < p) :
    thetaH s nt p q (t % nt) = riseW s (1-q+s) t * fallW s (p-s) t := by
  unfold thetaH
  have a1 : hit nt (p-s) p (fun j => ctv s (j - (p-s))) (t % nt) = fallW s (p-s) t := by
    by_cases hc : p - s ≤ t
    · rw [hit_one t (by omega) (by omega) (by omega) hc ht' 0 (by omega)]
      exact ctv_fall s (p-s) t hc (by omega)
    · rw [fw1 (by omega)]
      exact hit_none (by omega) (fun _ => ⟨0, by omega, by omega⟩)
  have a2 : hit nt p (nt+1-q) (fun _ => 0) (t % nt) = if t < 1 - q then 0 else 1 := by
    by_cases hc : t < 1 - q
    · rw [if_pos hc]
      exact hit_zero (t+nt) (by omega) (by omega) (by omega) (by omega) 1 (by ring)
    · rw [if_neg hc]
      exact hit_none (by omega) (fun _ => ⟨0, by omega, by omega⟩)
  have a3 : hit nt (nt+1-q) (nt+1-q+s) (fun j => ctv s (s - (j - (nt+1-q)) - 1)) (t % nt) =
      if t < 1 - q then 1 else riseW s (1-q+s) t := by
    by_cases hc : t < 1 - q
    · rw [if_pos hc]
      exact hit_none (by omega) (fun _ => ⟨1, by omega, by omega⟩)
    · rw [if_neg hc]
      by_cases hc2 : t < 1 - q + s
      · rw [hit_one (t+nt) (by omega) (by omega) (by omega) (by omega) (by omega) 1 (by ring)]
        rw [← ctv_rise s (1-q+s) t (by omega) hc2]
        congr 1; omega
      · rw [rw3 (by omega)]
        exact hit_none (by omega) (fun _ => ⟨0, by omega, by omega⟩)
  rw [a1, a2, a3]
  by_cases hc : t < 1 - q
  · rw [if_pos hc, if_pos hc, rw1 (by omega)]; ring
  · rw [if_neg hc, if_neg hc]; ring

/-- Value of the window 4 over one period. -/
theorem psiH_eq {s : Nat} {nt p q t : Int} (hp : s - nt < p) (hp' : p ≤ 2*nt) (hq : s - nt < q)
    (hq' : q + s ≤ nt + 1)
    (h1 : s + 1 ≤ p + q) (h2 : p + q + s ≤ nt + 1) (ht : 1 - q - s ≤ t) (ht' : t < 1 - q - s + nt) :
    psiH s nt p q (t % nt) = fallW s (1-q-s) t + riseW s p t := by
  unfold psiH
  have a1 : hit nt (1-q-s) (1-q) (fun j => ctv s (j - (1-q-s))) (t % nt) =
      if t < 1 - q then fallW s (1-q-s) t else 1 := by
    by_cases hc : t < 1 - q
    · rw [if_pos hc, hit_one t (by omega) (by omega) (by omega) ht hc 0 (by omega)]
      exact ctv_fall s (1-q-s) t ht (by omega)
    · rw [if_neg hc]
      exact hit_none (by omega) (fun _ => ⟨-1, by omega, by omega⟩)
  have a2 : hit nt (1-q) (p-s) (fun _ => 0) (t % nt) = if 1 - q ≤ t ∧ t < p - s then 0 else 1 := by
    by_cases hc : 1 - q ≤ t ∧ t < p - s
    · rw [if_pos hc]
      exact hit_zero t (by omega) (by omega) (by omega) (by omega) 0 (by ring)
    · rw [if_neg hc]
      by_cases hc2 : t < 1 - q
      · exact hit_none (by omega) (fun _ => ⟨0, by omega, by omega⟩)
      · exact hit_none (by omega) (fun _ => ⟨-1, by omega, by omega⟩)
  have a3 : hit nt (p-s) p (fun j => ctv s (s - (j - (p-s)) - 1)) (t % nt) =
      if t < p - s then 1 else riseW s p t := by
    by_cases hc : t < p - s
    · rw [if_pos hc]
      exact hit_none (by omega) (fun _ => ⟨0, by omega, by omega⟩)
    · rw [if_neg hc]
      by_cases hc2 : t < p
      · rw [hit_one t (by omega) (by omega) (by omega) (by omega) hc2 0 (by ring)]
        exact ctv_rise s p t (by omega) hc2
      · rw [rw3 (by omega)]
        exact hit_none (by omega) (fun _ => ⟨-1, by omega, by omega⟩)
  rw [a1, a2, a3]
  by_cases hc : t < 1 - q
  · rw [if_pos hc, if_neg (by omega), if_pos (by omega), rw1 (by omega)]; ring
  · rw [if_neg hc, fw3 (by omega)]
    by_cases hc2 : t < p - s
    · rw [if_pos (by omega), if_pos hc2, rw1 (by omega)]; ring
    · rw [if_neg (by omega), if_neg hc2]; ring

/-! ## The properties -/

/-- **C154.** The plane-wave window: the call succeeds; sample of time `t`, over the period that
ends at `pos`, is multiplied by a window that is zero up to time `-neg`, rises over `smooth`
samples, is one, falls over the `smooth` samples before `pos` and is zero from there on.  The other
traces are not touched. -/
theorem plane_theta_window (a : PArgs) (d : Buf ℝ) (h : a.Ok d) (ha : a.above = 1) (hn : a.Near)
    (hr : a.Room) (hnt : 0 < a.nt) :
    ∃ d', applyMutePlane a d = some d' ∧ d'.size = d.size ∧
      (∀ isyn i : Nat, isyn < a.Nfoc → i < a.npos → ∀ t : Int,
        a.pos isyn i - a.nt ≤ t → t < a.pos isyn i →
        d'.val (a.at isyn i t) = d.val (a.at isyn i t) *
          (riseW a.smooth (1 - a.neg isyn i + a.smooth) t *
            fallW a.smooth (a.pos isyn i - a.smooth) t)) ∧
      (∀ isyn i : Nat, isyn < a.Nfoc → a.npos ≤ i → i < a.nxs → ∀ t : Int,
        d'.val (a.at isyn i t) = d.val (a.at isyn i t)) := by
  obtain ⟨d', e1, e2, e3, e4⟩ := theta_run a d h ha hn
  refine ⟨d', e1, e2, ?_, fun isyn i h1 h2 h3 t => e4 isyn i h1 h2 h3 hnt t⟩
  intro isyn i h1 h2 t ht ht'
  have := hn.pn h1 h2
  have := hr.pn h1 h2
  rw [e3 _ _ h1 h2 hnt, thetaH_eq (by omega) (by omega) (by omega) (by omega) (by omega) (by omega)
    ht ht']

/-- The loops of the window reflected in time zero. -/
theorem hit_reflect {nt lo hi : Int} (c : Int → ℝ) (h : lo < hi → -nt < lo ∧ hi ≤ 2*nt) (t : Int) :
    hit nt lo hi c (t % nt) = hit nt (nt+1-hi) (nt+1-lo) (fun j => c (nt - j)) ((-t) % nt) := by
  unfold hit
  refine Finset.prod_bij' (fun j _ => nt - j) (fun j _ => nt - j) ?_ ?_ ?_ ?_ ?_
  · intro j hj; rw [Finset.mem_Ico] at *; omega
  · intro j hj; rw [Finset.mem_Ico] at *; omega
  · intro j hj; omega
  · intro j hj; omega
  · intro j hj
    rw [Finset.mem_Ico] at hj
    have := h (by omega)
    rw [mapj_emod (by omega) (by omega), mapj_emod (by omega) (by omega)]
    have e : nt - (nt - j) = j := by omega
    have e2 : (nt - j) % nt = (-t) % nt ↔ j % nt = t % nt := by
      rw [Int.emod_eq_emod_iff_emod_sub_eq_zero, Int.emod_eq_emod_iff_emod_sub_eq_zero,
        ← Int.dvd_iff_emod_eq_zero, ← Int.dvd_iff_emod_eq_zero]
      constructor
      · intro hd
        have : j - t = nt - (nt - j - -t) := by ring
        rw [this]; exact Int.dvd_sub (Int.dvd_refl _) hd
      · intro hd
        have : nt - j - -t = nt - (j - t) := by ring
        rw [this]; exact Int.dvd_sub (Int.dvd_refl _) hd
    by_cases hc : j % nt = t % nt
    · rw [if_pos hc, if_pos (e2.mpr hc)]; show c j = c (nt - (nt - j)); rw [e]
    · rw [if_neg hc, if_neg (fun h => hc (e2.mp h))]

theorem thetaH_reflect {s : Nat} {nt p q : Int} (hp : s - nt < p) (hp' : p ≤ 2*nt) (hq : s - nt < q)
    (hq' : q ≤ 2*nt) (t : Int) : thetaH s nt p q (t % nt) = thetaH s nt q p ((-t) % nt) := by
  unfold thetaH
  rw [hit_reflect _ (lo := p-s) (by omega), hit_reflect _ (lo := p) (by omega),
    hit_reflect _ (lo := nt+1-q) (by omega)]
  have e1 : nt + 1 - (p - s) = nt + 1 - p + s := by omega
  have e2 : nt + 1 - (nt + 1 - q + s) = q - s := by omega
  have e3 : nt + 1 - (nt + 1 - q) = q := by omega
  rw [e1, e2, e3]
  have f1 : (fun j => ctv s (nt - j - (p - s))) = fun j : Int => ctv s (s - (j - (nt+1-p)) - 1) := by
    funext j; congr 1; omega
  have f2 : (fun j => ctv s (s - (nt - j - (nt + 1 - q)) - 1)) = fun j : Int => ctv s (j - (q - s)) := by
    funext j; congr 1; omega
  rw [f1, f2]; ring

/-- **C155.** Time reversal: muting the time-reversed data in an odd iteration gives the
time-reversed result of muting the data in an even iteration, for all mute times, tapers and
shifts. -/
theorem plane_odd_reverses_even (a : PArgs) (d dr : Buf ℝ) (h : a.Ok d) (hr : a.Ok dr)
    (ha : a.above = 1) (hn : a.Near) (hnt : 0 < a.nt) (even : a.iter.tmod 2 = 0) (k : Int)
    (odd : k.tmod 2 ≠ 0)
    (hrev : ∀ isyn i : Nat, isyn < a.Nfoc → i < a.npos → ∀ t : Int,
      dr.val (a.at isyn i (-t)) = d.val (a.at isyn i t)) :
    ∃ e er, applyMutePlane a d = some e ∧ applyMutePlane { a with iter := k } dr = some er ∧
      ∀ isyn i : Nat, isyn < a.Nfoc → i < a.npos → ∀ t : Int,
        er.val (a.at isyn i (-t)) = e.val (a.at isyn i t) := by
  obtain ⟨e, e1, -, e3, -⟩ := theta_run a d h ha hn
  obtain ⟨er, f1, -, f3, -⟩ := theta_run { a with iter := k } dr
    ⟨hr.npos_le, hr.data, hr.ixpos, hr.ixpos_range, hr.mute, hr.mutei⟩ ha hn
  refine ⟨e, er, e1, f1, fun isyn i h1 h2 t => ?_⟩
  have := hn isyn i h1 h2
  have p1 : a.pos isyn i = a.p isyn i := if_pos even
  have p2 : a.neg isyn i = a.q isyn i := if_pos even
  have p3 : ({ a with iter := k } : PArgs).pos isyn i = a.q isyn i := if_neg odd
  have p4 : ({ a with iter := k } : PArgs).neg isyn i = a.p isyn i := if_neg odd
  have g : er.val (a.at isyn i (-t)) = dr.val (a.at isyn i (-t)) *
      thetaH a.smooth a.nt (a.q isyn i) (a.p isyn i) ((-t) % a.nt) := by
    have := f3 isyn i h1 h2 hnt (-t)
    rw [p3, p4] at this
    exact this
  rw [g, e3 isyn i h1 h2 hnt, p1, p2,
    thetaH_reflect (p := a.p isyn i) (q := a.q isyn i) (by omega) (by omega) (by omega) (by omega)]
  exact congrArg (· * _) (hrev isyn i h1 h2 t)

/-- **C156 (partial).** Theta and Psi: both calls succeed and their results add up to the input at
all times of a period except the `2*smooth` samples around `-neg`; without taper everywhere. -/
theorem plane_theta_psi_partial (a : PArgs) (d : Buf ℝ) (h : a.Ok d) (ha : a.above = 1)
    (hn : a.Near) (hr : a.Room) (hnt : 0 < a.nt)
    (hl : ∀ isyn i : Nat, isyn < a.Nfoc → i < a.npos → a.neg isyn i + a.smooth ≤ a.nt + 1) :
    ∃ dt dp, applyMutePlane a d = some dt ∧ applyMutePlane { a with above := 4 } d = some dp ∧
      ∀ isyn i : Nat, isyn < a.Nfoc → i < a.npos → ∀ t : Int,
        1 - a.neg isyn i + a.smooth ≤ t → t < 1 - a.neg isyn i - a.smooth + a.nt →
        dt.val (a.at isyn i t) + dp.val (a.at isyn i t) = d.val (a.at isyn i t) := by
  obtain ⟨dt, e1, -, e3, -⟩ := theta_run a d h ha hn
  obtain ⟨dp, f1, -, f3, -⟩ := psi_run { a with above := 4 } d
    ⟨h.npos_le, h.data, h.ixpos, h.ixpos_range, h.mute, h.mutei⟩ rfl hn hl
  refine ⟨dt, dp, e1, f1, fun isyn i h1 h2 t ht ht' => ?_⟩
  have hnn := hn.pn h1 h2
  have hrr := hr.pn h1 h2
  have hll := hl isyn i h1 h2
  have g := f3 isyn i h1 h2 hnt t
  have g' : dp.val (a.at isyn i t) = d.val (a.at isyn i t) *
    psiH a.smooth a.nt (a.pos isyn i) (a.neg isyn i) (t % a.nt) := g
  rw [g', e3 isyn i h1 h2 hnt t, psiH_eq (by omega) (by omega) (by omega) (by omega) (by omega)
    (by omega) (by omega) (by omega)]
  have hf := fall_add_rise a.smooth (a.pos isyn i - a.smooth) t
  have e : a.pos isyn i - a.smooth + a.smooth = a.pos isyn i := by omega
  rw [e] at hf
  by_cases hc : t < a.pos isyn i
  · rw [thetaH_eq (by omega) (by omega) (by omega) (by omega) (by omega) (by omega) (by omega) hc,
      rw3 (by omega), fw3 (t := t) (b := 1 - a.neg isyn i - a.smooth) (by omega), one_mul, zero_add, ← mul_add, hf, mul_one]
  · have q : t % (a.nt:Int) = (t - a.nt) % a.nt := (Int.sub_emod_right t a.nt).symm
    rw [q, thetaH_eq (by omega) (by omega) (by omega) (by omega) (by omega) (by omega) (by omega)
      (by omega), rw1 (by omega), fw3 (t := t) (by omega), rw3 (by omega)]
    ring

/-- **C156 (defect).** In the `2*smooth` samples around `-neg` the two windows do not add up: the
tapers of Theta and Psi lie on different sides of the cut, and the sum of the results is the input
times a factor strictly between zero and one. -/
theorem plane_theta_psi_lose (a : PArgs) (d : Buf ℝ) (h : a.Ok d) (ha : a.above = 1)
    (hn : a.Near) (hr : a.Room) (hnt : 0 < a.nt)
    (hl : ∀ isyn i : Nat, isyn < a.Nfoc → i < a.npos → a.neg isyn i + a.smooth ≤ a.nt + 1) :
    ∃ dt dp, applyMutePlane a d = some dt ∧ applyMutePlane { a with above := 4 } d = some dp ∧
      ∀ isyn i : Nat, isyn < a.Nfoc → i < a.npos → ∀ t : Int,
        1 - a.neg isyn i - a.smooth ≤ t → t < 1 - a.neg isyn i + a.smooth →
        ∃ c : ℝ, 0 < c ∧ c < 1 ∧
          dt.val (a.at isyn i t) + dp.val (a.at isyn i t) = c * d.val (a.at isyn i t) := by
  obtain ⟨dt, e1, -, e3, -⟩ := theta_run a d h ha hn
  obtain ⟨dp, f1, -, f3, -⟩ := psi_run { a with above := 4 } d
    ⟨h.npos_le, h.data, h.ixpos, h.ixpos_range, h.mute, h.mutei⟩ rfl hn hl
  refine ⟨dt, dp, e1, f1, fun isyn i h1 h2 t ht ht' => ?_⟩
  have hnn := hn.pn h1 h2
  have hrr := hr.pn h1 h2
  have hll := hl isyn i h1 h2
  have g' : dp.val (a.at isyn i t) = d.val (a.at isyn i t) *
    psiH a.smooth a.nt (a.pos isyn i) (a.neg isyn i) (t % a.nt) := f3 isyn i h1 h2 hnt t
  rw [g', e3 isyn i h1 h2 hnt t, psiH_eq (by omega) (by omega) (by omega) (by omega) (by omega)
    (by omega) (by omega) (by omega), thetaH_eq (by omega) (by omega) (by omega) (by omega) (by omega)
    (by omega) (by omega) (by omega), rw1 (t := t) (e := a.pos isyn i) (by omega),
    fw1 (t := t) (b := a.pos isyn i - a.smooth) (by omega)]
  by_cases hc : t < 1 - a.neg isyn i
  · have m := fallW_mem a.smooth (1 - a.neg isyn i - a.smooth) t (by omega) (by omega)
    refine ⟨_, m.1, m.2, ?_⟩
    rw [rw1 (by omega)]; ring
  · have m := riseW_mem a.smooth (1 - a.neg isyn i + a.smooth) t (by omega) (by omega)
    refine ⟨_, m.1, m.2, ?_⟩
    rw [fw3 (t := t) (b := 1 - a.neg isyn i - a.smooth) (by omega)]; ring

/-- **C156.** The one-sided windows 11 and 44 add up at all samples, in even and odd iterations. -/
theorem plane_one_sided_complementary (a : PArgs) (d : Buf ℝ) (h : a.Ok d) (ha : a.above = 11)
    (hnt : 0 < a.nt)
    (hn : ∀ isyn i : Nat, isyn < a.Nfoc → i < a.npos →
      a.smooth ≤ a.pos isyn i ∧ a.pos isyn i ≤ a.nt) :
    ∃ dt dp, applyMutePlane a d = some dt ∧ applyMutePlane { a with above := 44 } d = some dp ∧
      ∀ isyn i : Nat, isyn < a.Nfoc → i < a.npos → ∀ t : Nat, t < a.nt →
        dt.val (a.at isyn i t) = d.val (a.at isyn i t) *
          fallW a.smooth (a.pos isyn i - a.smooth) t ∧
        dt.val (a.at isyn i t) + dp.val (a.at isyn i t) = d.val (a.at isyn i t) := by
  obtain ⟨dt, e1, -, e3, -⟩ := plane_windows a d h (fun isyn i x =>
      hit a.nt (a.pos isyn i - a.smooth) (a.pos isyn i)
        (fun j => ctv a.smooth (j - (a.pos isyn i - a.smooth))) x *
      hit a.nt (a.pos isyn i) a.nt (fun _ => 0) x) (by
    intro isyn i h1 h2
    have := hn isyn i h1 h2
    rw [plane_window_gate a 11 (by simp) ha]
    have := one_theta_pw a.smooth a.nt a.shift (a.pos isyn i + a.shift) (a.neg isyn i + a.shift)
      (by omega)
    rwa [add_sub_cancel_right] at this)
  obtain ⟨dp, f1, -, f3, -⟩ := plane_windows { a with above := 44 } d
    ⟨h.npos_le, h.data, h.ixpos, h.ixpos_range, h.mute, h.mutei⟩ (fun isyn i x =>
      hit a.nt 0 (a.pos isyn i - a.smooth) (fun _ => 0) x *
      hit a.nt (a.pos isyn i - a.smooth) (a.pos isyn i)
        (fun j => ctv a.smooth (a.smooth - (j - (a.pos isyn i - a.smooth)) - 1)) x) (by
    intro isyn i h1 h2
    have := hn isyn i h1 h2
    rw [plane_window_gate { a with above := 44 } 44 (by simp) rfl]
    have := one_psi_pw a.smooth a.nt a.shift (a.pos isyn i + a.shift) (a.neg isyn i + a.shift)
      (by omega)
    rw [add_sub_cancel_right] at this
    exact this)
  refine ⟨dt, dp, e1, f1, fun isyn i h1 h2 t ht => ?_⟩
  have hb := hn isyn i h1 h2
  have g' : dp.val (a.at isyn i t) = d.val (a.at isyn i t) *
      (hit a.nt 0 (a.pos isyn i - a.smooth) (fun _ => 0) (t % a.nt) *
      hit a.nt (a.pos isyn i - a.smooth) (a.pos isyn i)
        (fun j => ctv a.smooth (a.smooth - (j - (a.pos isyn i - a.smooth)) - 1)) (t % a.nt)) :=
    f3 isyn i h1 h2 hnt t
  have hw : hit a.nt (a.pos isyn i - a.smooth) (a.pos isyn i)
        (fun j => ctv a.smooth (j - (a.pos isyn i - a.smooth))) (t % a.nt) *
      hit a.nt (a.pos isyn i) a.nt (fun _ => 0) (t % a.nt) =
      fallW a.smooth (a.pos isyn i - a.smooth) t := by
    by_cases hc : (t:Int) < a.pos isyn i - a.smooth
    · rw [hit_none (by omega) (fun _ => ⟨0, by omega, by omega⟩),
        hit_none (by omega) (fun _ => ⟨0, by omega, by omega⟩), fw1 hc]; ring
    · by_cases hc2 : (t:Int) < a.pos isyn i
      · rw [hit_one t (by omega) (by omega) (by omega) (by omega) hc2 0 (by omega),
          hit_none (by omega) (fun _ => ⟨0, by omega, by omega⟩), mul_one]
        exact ctv_fall _ _ _ (by omega) (by omega)
      · rw [hit_zero t (by omega) (by omega) (by omega) (by omega) 0 (by omega), fw3 (by omega)]
        ring
  have hw2 : hit a.nt 0 (a.pos isyn i - a.smooth) (fun _ => 0) (t % a.nt) *
      hit a.nt (a.pos isyn i - a.smooth) (a.pos isyn i)
        (fun j => ctv a.smooth (a.smooth - (j - (a.pos isyn i - a.smooth)) - 1)) (t % a.nt) =
      riseW a.smooth (a.pos isyn i) t := by
    by_cases hc : (t:Int) < a.pos isyn i - a.smooth
    · rw [hit_zero t (by omega) (by omega) (by omega) (by omega) 0 (by omega), rw1 hc]; ring
    · by_cases hc2 : (t:Int) < a.pos isyn i
      · rw [hit_one t (by omega) (by omega) (by omega) (by omega) hc2 0 (by omega),
          hit_none (by omega) (fun _ => ⟨-1, by omega, by omega⟩), one_mul]
        exact ctv_rise _ _ _ (by omega) (by omega)
      · rw [hit_none (by omega) (fun _ => ⟨-1, by omega, by omega⟩),
          hit_none (by omega) (fun _ => ⟨-1, by omega, by omega⟩), rw3 (by omega)]; ring
  have g : dt.val (a.at isyn i t) = d.val (a.at isyn i t) *
      fallW a.smooth (a.pos isyn i - a.smooth) t := by
    rw [← hw]; exact e3 isyn i h1 h2 hnt t
  refine ⟨g, ?_⟩
  rw [g, g', hw2, ← mul_add]
  have hf := fall_add_rise a.smooth (a.pos isyn i - a.smooth) t
  have e : a.pos isyn i - a.smooth + a.smooth = a.pos isyn i := by omega
  rw [e] at hf
  rw [hf, mul_one]

/-- The plane-wave call with the mute times that `applyMute_tshift` uses: `mute` itself and
`mute - 2*tsynW`. -/
def Args.asPlane (a : Args) (above iter : Int) : PArgs where
  mute := a.mute
  mutei := ⟨a.tsynW.size, fun x => a.mute.val x - 2 * a.tsynW.val x⟩
  smooth := a.smooth
  above := above
  Nfoc := a.Nfoc
  nxs := a.nxs
  nt := a.nt
  ixpos := a.ixpos
  npos := a.npos
  shift := a.shift
  iter := iter

/-- Two loops that run in step. -/
theorem forNM_sim {σ τ : Type} (R : σ → τ → Prop) {n : Nat} {f : Nat → σ → Option σ}
    {g : Nat → τ → Option τ} {s : σ} {t : τ} (h0 : R s t)
    (h : ∀ k, k < n → ∀ s t, R s t →
      (f k s = none ∧ g k t = none) ∨ ∃ s' t', f k s = some s' ∧ g k t = some t' ∧ R s' t') :
    (forNM n f s = none ∧ forNM n g t = none) ∨
      ∃ s' t', forNM n f s = some s' ∧ forNM n g t = some t' ∧ R s' t' := by
  induction n with
  | zero => exact Or.inr ⟨s, t, rfl, rfl, h0⟩
  | succ n ih =>
    rcases ih (fun k hk => h k (by omega)) with ⟨h1, h2⟩ | ⟨s', t', h1, h2, h3⟩
    · left; simp [forNM_succ, h1, h2]
    · rw [forNM_succ, forNM_succ, h1, h2]
      exact h n (by omega) s' t' h3

theorem tshift_gate (above pw : Int) (hw : (above = 0 ∧ pw = 1) ∨ (above = 4 ∧ pw = 4)) (iter : Int)
    (b : Int) (hb : b = above ∨ b = tshiftAbove iter above) (s : Nat) (shift nt tmute ts : Int) :
    tshiftGate (tshiftAbove iter b) s shift nt (tshiftTime iter tmute ts) ts =
      planeGate (if iter.tmod 2 ≠ 0 then pw * -1 else pw) s shift nt tmute (tmute - 2*ts) ∧
    tshiftAbove iter b = tshiftAbove iter above := by
  by_cases h : iter.tmod 2 = 0
  · have hA : tshiftAbove iter b = above := by
      unfold tshiftAbove at *
      rw [if_pos h] at hb ⊢
      split_ifs at * <;> omega
    have hA' : tshiftAbove iter above = above := by
      unfold tshiftAbove
      rw [if_pos h]; split_ifs <;> omega
    rw [hA, hA', if_neg (not_not.mpr h)]
    refine ⟨?_, rfl⟩
    unfold tshiftTime
    rw [if_pos h]
    rcases hw with ⟨h1, h2⟩ | ⟨h1, h2⟩
    · subst h1; subst h2
      have q1 : nt + 1 - tmute + shift + 2*ts = nt + 1 - (tmute - 2*ts) + shift := by ring
      have q2 : nt + 1 - tmute + 2*ts + shift = nt + 1 - (tmute - 2*ts) + shift := by ring
      show (fun g => ((fallLoop _ 0 nt _ _ g).bind (zeroLoop 0 nt (tmute-shift)
        (nt + 1 - tmute + shift + 2*ts))).bind (riseLoop _ _ 0 nt (nt + 1 - tmute + 2*ts + shift)
        (nt + 1 - tmute + 2*ts + shift + s))) = _
      rw [q1, q2]; rfl
    · subst h1; subst h2
      have q1 : 1 - tmute + 2*ts + shift = 1 - (tmute - 2*ts) + shift := by ring
      show (fun g => ((fallLoop _ 0 nt (1 - tmute + 2*ts + shift - s) (1 - tmute + 2*ts + shift) g).bind
        (zeroLoop 0 nt (1 - tmute + 2*ts + shift) _)).bind (riseLoop _ _ 0 nt _ _)) = _
      rw [q1]; rfl
  · have hA : tshiftAbove iter b = -pw := by
      rcases hw with ⟨h1, h2⟩ | ⟨h1, h2⟩ <;> subst h1 <;> subst h2 <;>
        rcases hb with rfl | rfl <;> simp [tshiftAbove, h]
    have hA' : tshiftAbove iter above = -pw := by
      rcases hw with ⟨h1, h2⟩ | ⟨h1, h2⟩ <;> subst h1 <;> subst h2 <;> simp [tshiftAbove, h]
    rw [hA, hA', if_pos h]
    refine ⟨?_, rfl⟩
    unfold tshiftTime
    rw [if_neg h]
    rcases hw with ⟨h1, h2⟩ | ⟨h1, h2⟩
    · subst h1; subst h2
      have q1 : nt + 1 - (tmute - 2*ts) + shift - 2*ts = nt + 1 - tmute + shift := by ring
      have q2 : nt + 1 - (tmute - 2*ts + 2*ts) + shift = nt + 1 - tmute + shift := by ring
      show (fun g => ((fallLoop _ 0 nt _ _ g).bind (zeroLoop 0 nt (tmute-2*ts-shift)
        (nt + 1 - (tmute - 2*ts) + shift - 2*ts))).bind (riseLoop _ _ 0 nt
        (nt + 1 - (tmute - 2*ts + 2*ts) + shift) (nt + 1 - (tmute - 2*ts + 2*ts) + shift + s))) = _
      rw [q1, q2]; rfl
    · subst h1; subst h2
      have q1 : 1 - (tmute - 2*ts + 2*ts) + shift = 1 - tmute + shift := by ring
      show (fun g => ((fallLoop _ 0 nt (1 - (tmute - 2*ts + 2*ts) + shift - s)
        (1 - (tmute - 2*ts + 2*ts) + shift) g).bind
        (zeroLoop 0 nt (1 - (tmute - 2*ts + 2*ts) + shift) _)).bind (riseLoop _ _ 0 nt _ _)) = _
      rw [q1]; rfl

/-- **C155.** `applyMute_tshift` is `applyMute_plane` with the second mute time `mute - 2*tsynW`:
the same result, or the same stray access, for all arguments, traces and iterations; its window 0
is the plane-wave window 1, its window 4 the plane-wave window 4. -/
theorem tshift_is_plane (a : Args) (pw : Int) (hw : (a.above = 0 ∧ pw = 1) ∨ (a.above = 4 ∧ pw = 4))
    (iter : Int) (d : Buf ℝ) : applyMuteTshift a iter d = applyMutePlane (a.asPlane pw iter) d := by
  have sim := forNM_sim (fun (s : Int × Buf ℝ) (d : Buf ℝ) =>
      (s.1 = a.above ∨ s.1 = tshiftAbove iter a.above) ∧ s.2 = d) (n := a.Nfoc)
    (f := fun isyn st => forNM a.npos (fun i st => tshiftBody a iter isyn i st) st)
    (g := fun isyn d => forNM a.npos (fun i d => planeBody (a.asPlane pw iter) isyn i d) d)
    (s := (a.above, d)) (t := d) ⟨Or.inl rfl, rfl⟩
    (by
      intro isyn _ s t hst
      refine forNM_sim (fun (s : Int × Buf ℝ) (d : Buf ℝ) =>
        (s.1 = a.above ∨ s.1 = tshiftAbove iter a.above) ∧ s.2 = d) hst ?_
      rintro i - ⟨b, d1⟩ d2 ⟨hb, rfl⟩
      unfold tshiftBody planeBody
      show (_ ∧ ((a.ixpos.rd i).bind _) = none) ∨ _
      cases hx : a.ixpos.rd i with
      | none => left; simp [Args.asPlane]
      | some im =>
        cases hm : a.mute.rd (isyn*a.nxs+im) with
        | none => left; simp [Args.asPlane, hm]
        | some tm =>
          have em : tm = a.mute.val (isyn*a.nxs+im) := by
            unfold Buf.rd at hm; split_ifs at hm; simpa using hm.symm
          cases ht : a.tsynW.rd (isyn*a.nxs+im) with
          | none =>
            have : (a.asPlane pw iter).mutei.rd (isyn*a.nxs+im) = none := by
              unfold Buf.rd at *
              split_ifs at ht with hc
              exact if_neg hc
            left
            have this' : Buf.rd ⟨a.tsynW.size, fun x => a.mute.val x - 2 * a.tsynW.val x⟩
              ((isyn:Int)*a.nxs+im) = none := this
            simp [Args.asPlane, hm, ht, this']
          | some ts =>
            have es : ts = a.tsynW.val (isyn*a.nxs+im) := by
              unfold Buf.rd at ht; split_ifs at ht; simpa using ht.symm
            have this' : Buf.rd ⟨a.tsynW.size, fun x => a.mute.val x - 2 * a.tsynW.val x⟩
              ((isyn:Int)*a.nxs+im) = some (tm - 2*ts) := by
              unfold Buf.rd at *
              split_ifs at ht with hc
              rw [em, es]; exact if_pos hc
            obtain ⟨g1, g2⟩ := tshift_gate a.above pw hw iter b hb a.smooth a.shift a.nt tm ts
            simp only [Args.asPlane, hx, hm, ht, this', Option.bind_some, PArgs.window]
            rw [g1, g2]
            cases hr : traceRun (planeGate (if iter.tmod 2 ≠ 0 then pw * -1 else pw) a.smooth a.shift
              a.nt tm (tm - 2*ts)) (isyn*a.nxs*a.nt+i*a.nt) a.nt d1 with
            | none => left; exact ⟨rfl, hr⟩
            | some d' => right; exact ⟨_, d', rfl, hr, Or.inr rfl, rfl⟩)
  unfold applyMuteTshift applyMutePlane
  rcases sim with ⟨h1, h2⟩ | ⟨s', t', h1, h2, h3⟩
  · rw [h1]; exact h2.symm
  · rw [h1]
    show some s'.2 = _
    rw [h3.2]; exact h2.symm

/-! ## Concrete cases -/

/-- A dipping plane wave on one trace of 40 samples: mute times 12 and 5, taper 2, shift 1. -/
def dip : PArgs where
  mute := ⟨1, fun _ => 12⟩
  mutei := ⟨1, fun _ => 5⟩
  smooth := 2
  above := 1
  Nfoc := 1
  nxs := 1
  nt := 40
  ixpos := ⟨1, fun _ => 0⟩
  npos := 1
  shift := 1
  iter := 0

theorem dip_ok (d : Buf ℝ) (hd : 40 ≤ d.size) : dip.Ok d :=
  ⟨le_refl 1, by show 1*1*40 ≤ d.size; omega, le_refl 1, fun _ _ => ⟨le_refl 0, Int.zero_lt_one⟩, le_refl 1, le_refl 1⟩

theorem dip_near : dip.Near := fun _ _ _ _ => by
  show ((2:Nat):Int) - ((40:Nat):Int) < 12 - 1 ∧ (12:Int) - 1 ≤ 2 * ((40:Nat):Int) ∧
    ((2:Nat):Int) - ((40:Nat):Int) < 5 - 1 ∧ (5:Int) - 1 ≤ 2 * ((40:Nat):Int)
  omega

theorem dip_room : dip.Room := fun _ _ _ _ => by
  show 2*((2:Nat):Int) + 1 ≤ 12 - 1 + (5 - 1) ∧ (12:Int) - 1 + (5 - 1) + 2*((2:Nat):Int) ≤ ((40:Nat):Int) + 1
  omega

example : ∃ d', applyMutePlane dip ⟨40, fun _ => 1⟩ = some d' ∧
    d'.val (dip.at 0 0 (-4)) = 0 ∧ d'.val (dip.at 0 0 0) = 1 ∧ d'.val (dip.at 0 0 8) = 1 := by
  obtain ⟨d', e, -, h, -⟩ := plane_theta_window dip ⟨40, fun _ => 1⟩ (dip_ok _ (le_refl 40)) rfl dip_near dip_room
    (by decide)
  have p : dip.pos 0 0 = 11 := rfl
  have q : dip.neg 0 0 = 4 := rfl
  have s : dip.smooth = 2 := rfl
  have n : dip.nt = 40 := rfl
  have h := h 0 0 (by decide) (by decide)
  rw [p, q, s, n] at h
  refine ⟨d', e, ?_, ?_, ?_⟩
  · rw [h (-4) (by decide) (by decide), rw1 (by decide)]; ring
  · rw [h 0 (by decide) (by decide), rw3 (by decide), fw1 (by decide)]; ring
  · rw [h 8 (by decide) (by decide), rw3 (by decide), fw1 (by decide)]; ring

example (d : Buf ℝ) (hd : 40 ≤ d.size) := plane_theta_psi_partial dip d (dip_ok d hd) rfl dip_near
  dip_room (by decide) (fun _ _ _ _ => by show (5:Int) - 1 + ((2:Nat):Int) ≤ ((40:Nat):Int) + 1; omega)
example (d : Buf ℝ) (hd : 40 ≤ d.size) := plane_theta_psi_lose dip d (dip_ok d hd) rfl dip_near
  dip_room (by decide) (fun _ _ _ _ => by show (5:Int) - 1 + ((2:Nat):Int) ≤ ((40:Nat):Int) + 1; omega)
example :=
  plane_odd_reverses_even dip ⟨40, fun t => t⟩ ⟨40, fun t => (((-t) % 40 : Int) : ℝ)⟩
    (dip_ok _ (le_refl 40)) (dip_ok _ (le_refl 40)) rfl dip_near (by decide) rfl 1 (by decide)
    (fun isyn i h1 h2 t => by
      have h1 : isyn = 0 := by have : isyn < 1 := h1; omega
      have h2 : i = 0 := by have : i < 1 := h2; omega
      subst h1; subst h2
      have e : ∀ t : Int, dip.at 0 0 t = t % 40 := fun t => by
        show (((0:Nat):Int) * ((1:Nat):Int) + ((0:Nat):Int)) * ((40:Nat):Int) + t % ((40:Nat):Int) = _
        omega
      rw [e, e]
      have : (-(-t % 40)) % 40 = t % 40 := by omega
      exact congrArg (fun z : Int => (z : ℝ)) this)

/-- One-sided windows: the mute times 12 and 5 with taper 2. -/
example (d : Buf ℝ) (hd : 40 ≤ d.size) := plane_one_sided_complementary { dip with above := 11 } d
  ⟨le_refl 1, by show 1*1*40 ≤ d.size; omega, le_refl 1, fun _ _ => ⟨le_refl 0, Int.zero_lt_one⟩,
    le_refl 1, le_refl 1⟩ rfl (by decide)
  (fun _ _ _ _ => by show ((2:Nat):Int) ≤ 12 - 1 ∧ (12:Int) - 1 ≤ ((40:Nat):Int); omega)

end Verif.Mute

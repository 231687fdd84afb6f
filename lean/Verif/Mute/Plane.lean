import Verif.Mute.Gates
import Mathlib.Algebra.BigOperators.Intervals
import Mathlib.Algebra.Order.BigOperators.Group.Finset
import Mathlib.Data.Int.Interval

/-!
# Model of `marchenko/applyMute_plane.c` and of `applyMute_tshift` (`marchenko/applyMute_tshift.c`)

The windows for plane waves.  Each trace is copied to a work array `Nig` of `nt` samples, muted
there through `mapj`, and copied back; an index that `mapj` does not bring into `[0,nt)` is an
access outside `Nig` and makes the call `none`.  Samples are exact reals, `int`s are unbounded.
-/

namespace Verif.Mute
open Verif Spec

/-- The copy to `Nig`, the muting and the copy back: applyMute_plane.c:47-49 and 128-130,
applyMute_tshift.c:46-48 and 101-103.  `malloc` leaves `Nig` undefined, every cell is written
before it is read; the model starts from zeros.  Simplification: one `Nig` per trace instead of
one for the whole call. -/
noncomputable def traceRun (f : Buf ℝ → Option (Buf ℝ)) (base : Int) (nt : Nat) (d : Buf ℝ) :
    Option (Buf ℝ) :=
  (forNM nt (fun j g => (d.rd (base + j)).bind fun v => g.wr j v) ⟨nt, fun _ => 0⟩).bind fun g =>
  (f g).bind fun g =>
  forNM nt (fun j d => (g.rd j).bind fun v => d.wr (base + j) v) d

/-- The branches of `applyMute_plane`, applyMute_plane.c:51-126, for one trace with the two mute
times `tmute` and `tmutei`. -/
noncomputable def planeGate (above : Int) (smooth : Nat) (shift nt tmute tmutei : Int) (g : Buf ℝ) :
    Option (Buf ℝ) :=
  let s : Int := smooth
  let ct := costaper smooth
  if above = -1 then            -- applyMute_plane.c:51-62
    ((fallLoop ct 0 nt (tmutei-shift-s) (tmutei-shift) g).bind
      (zeroLoop 0 nt (tmutei-shift) (nt+1-tmute+shift))).bind
      (riseLoop ct s 0 nt (nt+1-tmute+shift) (nt+1-tmute+shift+s))
  else if above = 1 then        -- applyMute_plane.c:63-73
    ((fallLoop ct 0 nt (tmute-shift-s) (tmute-shift) g).bind
      (zeroLoop 0 nt (tmute-shift) (nt+1-tmutei+shift))).bind
      (riseLoop ct s 0 nt (nt+1-tmutei+shift) (nt+1-tmutei+shift+s))
  else if above = 4 then        -- applyMute_plane.c:74-84
    ((fallLoop ct 0 nt (1-tmutei+shift-s) (1-tmutei+shift) g).bind
      (zeroLoop 0 nt (1-tmutei+shift) (tmute-shift-s))).bind
      (riseLoop ct s 0 nt (tmute-shift-s) (tmute-shift))
  else if above = -4 then       -- applyMute_plane.c:85-95
    ((fallLoop ct 0 nt (1-tmute+shift-s) (1-tmute+shift) g).bind
      (zeroLoop 0 nt (1-tmute+shift) (tmutei-shift-s))).bind
      (riseLoop ct s 0 nt (tmutei-shift-s) (tmutei-shift))
  else if above = -11 then      -- applyMute_plane.c:96-103
    (fallLoop ct 0 nt (tmutei-shift-s) (tmutei-shift) g).bind
      (zeroLoop 0 nt (tmutei-shift) nt)
  else if above = 11 then       -- applyMute_plane.c:104-111
    (fallLoop ct 0 nt (tmute-shift-s) (tmute-shift) g).bind
      (zeroLoop 0 nt (tmute-shift) nt)
  else if above = 44 then       -- applyMute_plane.c:112-119
    (zeroLoop 0 nt 0 (tmute-shift-s) g).bind
      (riseLoop ct s 0 nt (tmute-shift-s) (tmute-shift))
  else if above = -44 then      -- applyMute_plane.c:120-126
    (zeroLoop 0 nt 0 (tmutei-shift-s) g).bind
      (riseLoop ct s 0 nt (tmutei-shift-s) (tmutei-shift))
  else some g

/-- Arguments of `applyMute_plane` (applyMute_plane.c:24). -/
structure PArgs where
  mute : Buf Int
  mutei : Buf Int
  smooth : Nat
  above : Int
  Nfoc : Nat
  nxs : Nat
  nt : Nat
  ixpos : Buf Int
  npos : Nat
  shift : Int
  iter : Int

/-- `if (iter % 2 != 0) above*=-1;` (applyMute_plane.c:37-39). -/
def PArgs.window (a : PArgs) : Int := if a.iter.tmod 2 ≠ 0 then a.above * -1 else a.above

/-- Body of the trace loop, applyMute_plane.c:44-130. -/
noncomputable def planeBody (a : PArgs) (isyn i : Nat) (d : Buf ℝ) : Option (Buf ℝ) :=
  (a.ixpos.rd i).bind fun imute =>
  (a.mute.rd (isyn*a.nxs+imute)).bind fun tmute =>
  (a.mutei.rd (isyn*a.nxs+imute)).bind fun tmutei =>
  traceRun (planeGate a.window a.smooth a.shift a.nt tmute tmutei)
    (isyn*a.nxs*a.nt+i*a.nt) a.nt d

/-- applyMute_plane.c:24-138 -/
noncomputable def applyMutePlane (a : PArgs) (d : Buf ℝ) : Option (Buf ℝ) :=
  forNM a.Nfoc (fun isyn d => forNM a.npos (fun i d => planeBody a isyn i d) d) d

/-- The branches of `applyMute_tshift`, applyMute_tshift.c:57-99, for one trace. -/
noncomputable def tshiftGate (above : Int) (smooth : Nat) (shift nt tmute ts : Int) (g : Buf ℝ) :
    Option (Buf ℝ) :=
  let s : Int := smooth
  let ct := costaper smooth
  if above = -1 then            -- applyMute_tshift.c:57-68
    ((fallLoop ct 0 nt (tmute-shift-s) (tmute-shift) g).bind
      (zeroLoop 0 nt (tmute-shift) (nt+1-tmute+shift-2*ts))).bind
      (riseLoop ct s 0 nt (nt+1-(tmute+2*ts)+shift) (nt+1-(tmute+2*ts)+shift+s))
  else if above = 0 then        -- applyMute_tshift.c:69-79
    ((fallLoop ct 0 nt (tmute-shift-s) (tmute-shift) g).bind
      (zeroLoop 0 nt (tmute-shift) (nt+1-tmute+shift+2*ts))).bind
      (riseLoop ct s 0 nt (nt+1-tmute+2*ts+shift) (nt+1-tmute+2*ts+shift+s))
  else if above = 4 then        -- applyMute_tshift.c:80-90
    ((fallLoop ct 0 nt (1-tmute+2*ts+shift-s) (1-tmute+2*ts+shift) g).bind
      (zeroLoop 0 nt (1-tmute+2*ts+shift) (tmute-shift-s))).bind
      (riseLoop ct s 0 nt (tmute-shift-s) (tmute-shift))
  else if above = -4 then       -- applyMute_tshift.c:91-99
    ((fallLoop ct 0 nt (1-(tmute+2*ts)+shift-s) (1-(tmute+2*ts)+shift) g).bind
      (zeroLoop 0 nt (1-(tmute+2*ts)+shift) (tmute-shift-s))).bind
      (riseLoop ct s 0 nt (tmute-shift-s) (tmute-shift))
  else some g

/-- The change of `above` in the trace loop, applyMute_tshift.c:49-55.  The variable is the
argument itself, so the change is seen by all following traces. -/
def tshiftAbove (iter above : Int) : Int :=
  if iter.tmod 2 = 0 then (if above = 0 then 0 else above)
  else
    let a := if above = 0 then -1 else above
    if a = 4 then -4 else a

/-- The mute time of a trace, applyMute_tshift.c:44 and 54. -/
def tshiftTime (iter tmute ts : Int) : Int :=
  if iter.tmod 2 = 0 then tmute else tmute - 2*ts

/-- Body of the trace loop of `applyMute_tshift`, applyMute_tshift.c:42-104; the state is `above`
and the data.  The argument record is that of `applyMute` with `iter` added. -/
noncomputable def tshiftBody (a : Args) (iter : Int) (isyn i : Nat) (st : Int × Buf ℝ) :
    Option (Int × Buf ℝ) :=
  (a.ixpos.rd i).bind fun imute =>
  (a.mute.rd (isyn*a.nxs+imute)).bind fun tmute =>
  (a.tsynW.rd (isyn*a.nxs+imute)).bind fun ts =>
  (traceRun (tshiftGate (tshiftAbove iter st.1) a.smooth a.shift a.nt (tshiftTime iter tmute ts) ts)
    (isyn*a.nxs*a.nt+i*a.nt) a.nt st.2).bind fun d => some (tshiftAbove iter st.1, d)

/-- applyMute_tshift.c:24-112 -/
noncomputable def applyMuteTshift (a : Args) (iter : Int) (d : Buf ℝ) : Option (Buf ℝ) :=
  (forNM a.Nfoc (fun isyn st => forNM a.npos (fun i st => tshiftBody a iter isyn i st) st)
    (a.above, d)).map Prod.snd

/-! ## Loops through `mapj` as multiplications -/

/-- The factor that cell `x` receives from a loop over `j = lo … hi-1` that multiplies cell
`mapj j` by `c j`. -/
noncomputable def hit (nt lo hi : Int) (c : Int → ℝ) (x : Int) : ℝ :=
  ∏ j ∈ Finset.Ico lo hi, if mapj j nt = x then c j else 1

theorem forI_hit (nt lo hi : Int) (c : Int → ℝ) (x : Int) (v : ℝ) :
    forI lo hi (fun j v => if x = mapj j nt then v * c j else v) v = v * hit nt lo hi c x := by
  unfold forI hit
  have key : ∀ n : Nat, forN n (fun (k : Nat) v => if x = mapj (lo + k) nt then v * c (lo + k) else v) v
      = v * ∏ j ∈ Finset.Ico lo (lo + n), if mapj j nt = x then c j else 1 := by
    intro n
    induction n with
    | zero => simp
    | succ n ih =>
      rw [forN_succ, ih]
      have e : Finset.Ico lo (lo + ((n+1 : Nat) : Int)) = insert (lo + n) (Finset.Ico lo (lo + n)) := by
        ext j; simp only [Finset.mem_Ico, Finset.mem_insert]; push_cast; omega
      rw [e, Finset.prod_insert (by simp)]
      by_cases h : x = mapj (lo + n) nt
      · rw [if_pos h, if_pos h.symm]; ring
      · rw [if_neg h, if_neg (fun h' => h h'.symm)]; ring
  rw [key]
  by_cases h : lo ≤ hi
  · congr 2; congr 1; omega
  · rw [Finset.Ico_eq_empty (by omega), Finset.Ico_eq_empty (by omega)]

/-- `mapj` brings `j` into the trace. -/
theorem mapj_range {j nt : Int} (h1 : -nt ≤ j) (h2 : j < 2*nt) : 0 ≤ mapj j nt ∧ mapj j nt < nt := by
  unfold mapj; split_ifs <;> omega

theorem zeroLoop_hit {nt : Nat} (lo hi : Int) (h : lo < hi → -(nt:Int) ≤ lo ∧ hi ≤ 2*nt) :
    PW nt (zeroLoop 0 nt lo hi) (fun x v => v * hit nt lo hi (fun _ => 0) x) := by
  have := PW.forIM (N := nt) (lo := lo) (hi := hi)
    (f := fun j d => d.wr (0 + mapj j nt) (0:ℝ))
    (g := fun j x v => if x = mapj j nt then v * 0 else v)
    (fun j hj1 hj2 => by
      have hr := h (by omega)
      have := PW.set (α := ℝ) (N := nt) (i := 0 + mapj j nt)
        (by have := mapj_range (nt := nt) (j := j) (by omega) (by omega); omega) 0
      refine PW.congr this (fun x v => ?_)
      simp)
  exact PW.congr this (fun x v => forI_hit nt lo hi (fun _ => 0) x v)

theorem taperLoop_hit {nt : Nat} (lo hi : Int) (ct : Buf ℝ) (ix : Int → Int)
    (hix : ∀ l, 0 ≤ l → l < hi - lo → 0 ≤ ix l ∧ ix l < ct.size)
    (h : lo < hi → -(nt:Int) ≤ lo ∧ hi ≤ 2*nt) :
    PW nt (fun d => forIM lo hi (fun j d => (ct.rd (ix (j - lo))).bind fun c =>
    (d.rd (0 + mapj j nt)).bind fun v => d.wr (0 + mapj j nt) (v * c)) d)
     (fun x v => v * hit nt lo hi (fun j => ct.val (ix (j - lo))) x) := by
  have := PW.forIM (N := nt) (lo := lo) (hi := hi)
    (f := fun j d => (ct.rd (ix (j - lo))).bind fun c =>
      (d.rd (0 + mapj j nt)).bind fun v => d.wr (0 + mapj j nt) (v * c))
    (g := fun j x v => if x = mapj j nt then v * ct.val (ix (j - lo)) else v)
    (fun j hj1 hj2 => by
      have hr := h (by omega)
      have hok : ct.ok (ix (j-lo)) := hix _ (by omega) (by omega)
      have := PW.upd (α := ℝ) (N := nt) (i := 0 + mapj j nt)
        (by have := mapj_range (nt := nt) (j := j) (by omega) (by omega); omega)
        (fun v => v * ct.val (ix (j - lo)))
      simp only [Buf.rd_ok hok, Option.bind_some]
      simpa using this)
  exact PW.congr this (fun x v => forI_hit nt lo hi (fun j => ct.val (ix (j - lo))) x v)

/-- The taper table as a function of the index. -/
noncomputable def ctv (s : Nat) (l : Int) : ℝ :=
  1 / 2 * (1 + Real.cos ((l + 1) * (Real.pi / ((s : ℝ) + 1))))

theorem fallLoop_hit {nt : Nat} (s : Nat) (lo hi : Int) (hhi : hi = lo + s)
    (h : lo < hi → -(nt:Int) ≤ lo ∧ hi ≤ 2*nt) :
    PW nt (fallLoop (costaper s) 0 nt lo hi)
      (fun x v => v * hit nt lo hi (fun j => ctv s (j - lo)) x) :=
  taperLoop_hit lo hi (costaper s) (fun l => l)
    (fun l h h' => ⟨h, by show l < ((s:Nat):Int); omega⟩) h

theorem riseLoop_hit {nt : Nat} (s : Nat) (lo hi : Int) (hhi : hi = lo + s)
    (h : lo < hi → -(nt:Int) ≤ lo ∧ hi ≤ 2*nt) :
    PW nt (riseLoop (costaper s) s 0 nt lo hi)
      (fun x v => v * hit nt lo hi (fun j => ctv s (s - (j - lo) - 1)) x) :=
  taperLoop_hit lo hi (costaper s) (fun l => s - l - 1)
    (fun l h h' => ⟨by omega, by show s - l - 1 < ((s:Nat):Int); omega⟩) h

/-- Muting the copy of a trace multiplies the trace. -/
theorem traceRun_pw {nt N : Nat} {f : Buf ℝ → Option (Buf ℝ)} {w : Int → ℝ}
    (hf : PW nt f (fun x v => v * w x)) {base : Int} (hb : 0 ≤ base) (hN : base + nt ≤ N) :
    PW N (traceRun f base nt) (wMap base nt w) := by
  intro d hd
  have l1 : ∃ g, forNM nt (fun j (g : Buf ℝ) => (d.rd (base + j)).bind fun v => g.wr j v)
      ⟨nt, fun _ => 0⟩ = some g ∧ (g.size = nt ∧ ∀ x : Int, 0 ≤ x → x < nt → g.val x = d.val (base + x)) := by
    obtain ⟨g, e, h1, h2⟩ := forNM_inv (n := nt)
      (body := fun j (g : Buf ℝ) => (d.rd (base + j)).bind fun v => g.wr j v)
      (s := (⟨nt, fun _ => 0⟩ : Buf ℝ))
      (P := fun k g => g.size = nt ∧ ∀ x : Int, 0 ≤ x → x < k → g.val x = d.val (base + x))
      ⟨rfl, fun x h h' => absurd h' (by push_cast; omega)⟩
      (by
        rintro k hk g ⟨h1, h2⟩
        have o1 : d.ok (base + k) := ⟨by omega, by omega⟩
        have o2 : g.ok k := ⟨by omega, by omega⟩
        refine ⟨{ g with val := fun x => if x = (k:Int) then d.val (base + k) else g.val x },
          by rw [Buf.rd_ok o1, Option.bind_some, Buf.wr_ok o2], h1, ?_⟩
        intro x hx0 hx1
        show (if x = (k:Int) then d.val (base + k) else g.val x) = _
        by_cases hx : x = k
        · rw [if_pos hx, hx]
        · rw [if_neg hx]; exact h2 x hx0 (by push_cast at hx1; omega))
    exact ⟨g, e, h1, h2⟩
  obtain ⟨g, e1, g1, g2⟩ := l1
  obtain ⟨g', e2, g1', g2'⟩ := hf g g1
  obtain ⟨d', e3, h1, h2⟩ := forNM_inv (n := nt)
    (body := fun j (d : Buf ℝ) => (g'.rd j).bind fun v => d.wr (base + j) v) (s := d)
    (P := fun k d' => d'.size = N ∧ ∀ x : Int, d'.val x =
      if base ≤ x ∧ x < base + k then g'.val (x - base) else d.val x)
    ⟨hd, fun x => by rw [if_neg (by push_cast; omega)]⟩
    (by
      rintro k hk g ⟨h1, h2⟩
      have o1 : g'.ok k := ⟨by omega, by omega⟩
      have o2 : g.ok (base + k) := ⟨by omega, by omega⟩
      refine ⟨{ g with val := fun x => if x = base + (k:Int) then g'.val k else g.val x },
        by rw [Buf.rd_ok o1, Option.bind_some, Buf.wr_ok o2], h1, ?_⟩
      intro x
      show (if x = base + (k:Int) then g'.val k else g.val x) = _
      by_cases hx : x = base + k
      · rw [if_pos hx, if_pos (by push_cast; omega), hx]; congr 1; omega
      · rw [if_neg hx, h2]
        by_cases hc : base ≤ x ∧ x < base + k
        · rw [if_pos hc, if_pos (by push_cast; omega)]
        · rw [if_neg hc, if_neg (by push_cast; omega)])
  refine ⟨d', ?_, h1, ?_⟩
  · unfold traceRun
    rw [e1, Option.bind_some, e2, Option.bind_some, e3]
  · intro x
    rw [h2]
    unfold wMap
    by_cases hc : base ≤ x ∧ x < base + nt
    · rw [if_pos hc, if_pos hc, g2', g2 _ (by omega) (by omega)]
      congr 2; omega
    · rw [if_neg hc, if_neg hc]

/-- A call that multiplies every trace of the cube by its own window. -/
theorem cube_windows (Nfoc npos nxs nt N : Nat) (body : Nat → Nat → Buf ℝ → Option (Buf ℝ))
    (w : Nat → Nat → Int → ℝ) (hnpos : npos ≤ nxs)
    (hbody : ∀ isyn, isyn < Nfoc → ∀ i, i < npos →
      PW N (body isyn i) (wMap (((isyn*nxs+i)*nt : Nat) : Int) nt (w isyn i)))
    (d : Buf ℝ) (hd : d.size = N) :
    ∃ d', forNM Nfoc (fun isyn d => forNM npos (fun i d => body isyn i d) d) d = some d' ∧
      d'.size = N ∧
      (∀ isyn i t : Nat, isyn < Nfoc → i < npos → t < nt →
        d'.val (((isyn*nxs+i)*nt+t : Nat)) = d.val (((isyn*nxs+i)*nt+t : Nat)) * w isyn i t) ∧
      (∀ isyn i t : Nat, isyn < Nfoc → npos ≤ i → i < nxs → t < nt →
        d'.val (((isyn*nxs+i)*nt+t : Nat)) = d.val (((isyn*nxs+i)*nt+t : Nat))) := by
  have hall := PW.forNM (N := N) (n := Nfoc)
    (f := fun isyn d => forNM npos (fun i d => body isyn i d) d)
    (g := fun isyn x v => forN npos
      (fun i v => wMap (((isyn*nxs+i)*nt : Nat) : Int) nt (w isyn i) x v) v)
    (fun isyn h1 => PW.forNM (fun i h2 => hbody isyn h1 i h2))
  obtain ⟨d', e1, e2, e3⟩ := hall d hd
  have sep : ∀ isyn i isyn' i' t: Nat, i < nxs → i' < nxs → t < nt →
      (isyn ≠ isyn' ∨ i ≠ i') →
      ∀ v, wMap (((isyn'*nxs+i')*nt : Nat) : Int) nt (w isyn' i')
        (((isyn*nxs+i)*nt+t : Nat) : Int) v = v := by
    intro isyn i isyn' i' t hi hi' ht hne v
    refine wMap_out ?_
    intro hc
    have h1 : (isyn'*nxs+i')*nt ≤ (isyn*nxs+i)*nt+t := by omega
    have h2 : (isyn*nxs+i)*nt+t < (isyn'*nxs+i')*nt + nt := by omega
    have hlin : isyn'*nxs+i' = isyn*nxs+i := by
      have q1 : ((isyn*nxs+i)*nt+t) / nt = isyn*nxs+i := by
        rw [Nat.mul_comm, Nat.mul_add_div (by omega), Nat.div_eq_of_lt ht]; rfl
      have q2 : ((isyn*nxs+i)*nt+t) / nt = isyn'*nxs+i' := by
        apply Nat.div_eq_of_lt_le
        · exact h1
        · have := Nat.succ_mul (isyn'*nxs+i') nt
          show _ < (isyn'*nxs+i').succ * nt
          omega
      omega
    have r1 : (isyn*nxs+i) / nxs = isyn := by
      rw [Nat.mul_comm, Nat.mul_add_div (by omega), Nat.div_eq_of_lt hi]; rfl
    have r2 : (isyn'*nxs+i') / nxs = isyn' := by
      rw [Nat.mul_comm, Nat.mul_add_div (by omega), Nat.div_eq_of_lt hi']; rfl
    rw [hlin, r1] at r2
    subst r2
    omega
  refine ⟨d', e1, e2, ?_, ?_⟩
  · intro isyn i t h1 h2 h3
    rw [e3]
    beta_reduce
    rw [forN_single isyn h1 (fun k hk hne v => forN_noop (fun i' hi' v =>
      sep isyn i k i' t (by omega) (by omega) h3 (Or.inl (Ne.symm hne)) v))]
    rw [forN_single i h2 (fun k hk hne v =>
      sep isyn i isyn k t (by omega) (by omega) h3 (Or.inr (Ne.symm hne)) v)]
    unfold wMap
    rw [if_pos (by omega)]
    congr 2; push_cast; ring
  · intro isyn i t h1 h2 h3 h4
    rw [e3]
    exact forN_noop (fun k hk v => forN_noop (fun i' hi' v =>
      sep isyn i k i' t (by omega) (by omega) h4 (Or.inr (by omega)) v))

end Verif.Mute

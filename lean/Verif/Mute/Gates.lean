import Verif.Mute.Lemmas

/-! # Every gate, in its regular regime, is multiplication by an explicit window -/

namespace Verif.Mute
open Verif Spec

variable {N : Nat} {base nt : Int}

theorem wMap_out {w : Int → ℝ} {x : Int} {v : ℝ} (h : ¬ (base ≤ x ∧ x < base + nt)) :
    wMap base nt w x v = v := if_neg h

theorem rw1 {s : Nat} {e t : Int} (h : t < e - s) : riseW s e t = 0 := by
  unfold riseW; rw [if_pos h]
theorem rw3 {s : Nat} {e t : Int} (h : e ≤ t) : riseW s e t = 1 := by
  unfold riseW; rw [if_neg (by omega), if_neg (by omega)]
theorem fw1 {s : Nat} {b t : Int} (h : t < b) : fallW s b t = 1 := by
  unfold fallW; rw [if_pos h]
theorem fw3 {s : Nat} {b t : Int} (h : b + s ≤ t) : fallW s b t = 0 := by
  unfold fallW; rw [if_neg (by omega), if_neg (by omega)]

/-- zero before the edge, taper, keep. -/
theorem high_pw (s : Nat) (e : Int) (hb : 0 ≤ base) (hN : base + nt ≤ N) (h0 : 0 ≤ e - s)
    (h1 : e ≤ nt) : PW N (fun d => (zeroLoop base nt 0 (e-s) d).bind
      (riseLoop (costaper s) s base nt (e-s) e)) (wMap base nt (riseW s e)) := by
  refine PW.congr (PW.comp (zeroLoop_pw (N := N) 0 (e-s) hb hN (le_refl 0) (by omega))
    (riseLoop_pw s e hb hN h0 h1)) (fun x v => ?_)
  simp only [winMap, wMap]
  by_cases hx : base ≤ x ∧ x < base + nt
  · rw [if_pos hx]
    by_cases c1 : x < base + (e - s)
    · rw [if_neg (by omega), if_pos (by omega), rw1 (by omega)]
    · by_cases c2 : x < base + e
      · rw [if_pos (by omega), if_neg (by omega)]
        congr 2; omega
      · rw [if_neg (by omega), if_neg (by omega), rw3 (by omega)]; ring
  · rw [if_neg hx, if_neg (by omega), if_neg (by omega)]

/-- keep, taper, zero until the end. -/
theorem low_pw (s : Nat) (b : Int) (hb : 0 ≤ base) (hN : base + nt ≤ N) (h0 : 0 ≤ b)
    (h1 : b + s ≤ nt) : PW N (fun d => (fallLoop (costaper s) base nt b (b+s) d).bind
      (zeroLoop base nt (b+s) nt)) (wMap base nt (fallW s b)) := by
  refine PW.congr (PW.comp (fallLoop_pw (N := N) s b hb hN h0 h1)
    (zeroLoop_pw (b+s) nt hb hN (by omega) (le_refl nt))) (fun x v => ?_)
  simp only [winMap, wMap]
  by_cases hx : base ≤ x ∧ x < base + nt
  · rw [if_pos hx]
    by_cases c1 : x < base + b
    · rw [if_neg (by omega), if_neg (by omega), fw1 (by omega)]; ring
    · by_cases c2 : x < base + (b + s)
      · rw [if_neg (by omega), if_pos (by omega)]
        congr 2; omega
      · rw [if_pos (by omega), fw3 (t := x - base) (by omega)]; ring
  · rw [if_neg hx, if_neg (by omega), if_neg (by omega)]

/-- keep outside, zero inside `[a,c)`, tapers on the outer sides. -/
theorem stop_pw (s : Nat) (a c : Int) (hb : 0 ≤ base) (hN : base + nt ≤ N) (h0 : 0 ≤ a - s)
    (hac : a ≤ c) (h1 : c + s ≤ nt) :
    PW N (fun d => ((fallLoop (costaper s) base nt (a-s) a d).bind
      (zeroLoop base nt a c)).bind (riseLoop (costaper s) s base nt c (c+s)))
      (wMap base nt (fun t => fallW s (a-s) t + riseW s (c+s) t)) := by
  have hf := fallLoop_pw (N := N) s (a-s) hb hN h0 (by omega)
  have hr := riseLoop_pw (N := N) s (c+s) hb hN (by omega) h1
  rw [show a - (s:Int) + s = a by omega] at hf
  rw [show c + (s:Int) - s = c by omega] at hr
  refine PW.congr (PW.comp (PW.comp hf (zeroLoop_pw a c hb hN (by omega) (by omega))) hr)
    (fun x v => ?_)
  simp only [winMap, wMap]
  by_cases hx : base ≤ x ∧ x < base + nt
  · rw [if_pos hx]
    by_cases c1 : x < base + (a - s)
    · rw [if_neg (by omega), if_neg (by omega), if_neg (by omega), fw1 (by omega), rw1 (by omega)]
      ring
    · by_cases c2 : x < base + a
      · rw [if_neg (by omega), if_neg (by omega), if_pos (by omega), rw1 (t := x - base) (by omega)]
        rw [add_zero]; congr 2; omega
      · by_cases c3 : x < base + c
        · rw [if_neg (by omega), if_pos (by omega), fw3 (t := x - base) (by omega), rw1 (t := x - base) (by omega)]
          ring
        · by_cases c4 : x < base + (c + s)
          · rw [if_pos (by omega), if_neg (by omega), if_neg (by omega), fw3 (t := x - base) (by omega)]
            rw [zero_add]; congr 2; omega
          · rw [if_neg (by omega), if_neg (by omega), if_neg (by omega), fw3 (by omega),
              rw3 (by omega)]
            ring
  · rw [if_neg hx, if_neg (by omega), if_neg (by omega), if_neg (by omega)]

/-- zero outside, keep inside `[a,c)`, tapers on the outer sides. -/
theorem pass_pw (s : Nat) (a c : Int) (hb : 0 ≤ base) (hN : base + nt ≤ N) (h0 : 0 ≤ a - s)
    (hac : a ≤ c) (h1 : c + s ≤ nt) :
    PW N (fun d => (((zeroLoop base nt 0 (a-s) d).bind
      (riseLoop (costaper s) s base nt (a-s) a)).bind
      (fallLoop (costaper s) base nt c (c+s))).bind (zeroLoop base nt (c+s) nt))
      (wMap base nt (fun t => riseW s a t * fallW s c t)) := by
  have hh := high_pw (N := N) s a hb hN h0 (by omega)
  have hl := fallLoop_pw (N := N) s c hb hN (by omega) h1
  refine PW.congr (PW.comp (PW.comp hh hl) (zeroLoop_pw (c+s) nt hb hN (by omega) (le_refl nt)))
    (fun x v => ?_)
  simp only [winMap, wMap]
  by_cases hx : base ≤ x ∧ x < base + nt
  · rw [if_pos hx, if_pos hx]
    by_cases c1 : x < base + c
    · rw [if_neg (by omega), if_neg (by omega), fw1 (by omega)]
      ring
    · by_cases c4 : x < base + (c + s)
      · rw [if_neg (by omega), if_pos (by omega), rw3 (t := x - base) (by omega)]
        rw [mul_one, one_mul]; congr 2; omega
      · rw [if_pos (by omega), fw3 (t := x - base) (by omega)]
        ring
  · rw [if_neg hx, if_neg hx, if_neg (by omega), if_neg (by omega)]

/-! ## The gates of `applyMute` -/

/-- gate 1 -/
theorem gate_1 (s : Nat) (shift tmute ts : Int) (hb : 0 ≤ base) (hN : base + nt ≤ N)
    (h0 : s ≤ tmute - 2*ts - shift) (h1 : tmute - 2*ts - shift ≤ nt) :
    PW N (gate 1 s shift nt base tmute ts) (wMap base nt (riseW s (tmute - 2*ts - shift))) := by
  have h := high_pw (N := N) s (tmute - 2*ts - shift) hb hN (by omega) h1
  have e1 : -2*ts+tmute-shift = tmute - 2*ts - shift := by omega
  intro d hd
  unfold gate
  simp only []
  rw [if_pos (by trivial)]
  rw [e1]; exact h d hd

/-- gate 0 -/
theorem gate_0 (s : Nat) (shift tmute ts : Int) (hb : 0 ≤ base) (hN : base + nt ≤ N)
    (hm : tmute < nt / 2)
    (h0 : s + 1 ≤ tmute - 2*ts - shift) (h1 : 2 * (tmute - 2*ts - shift) ≤ nt + 1) :
    PW N (gate 0 s shift nt base tmute ts)
      (wMap base nt (fun t => fallW s (tmute - 2*ts - shift - s) t +
        riseW s (nt + 1 - (tmute - 2*ts - shift) + s) t)) := by
  have h := stop_pw (N := N) s (tmute - 2*ts - shift) (nt + 1 - (tmute - 2*ts - shift)) hb hN
    (by omega) (by omega) (by omega)
  have e1 : -2*ts+tmute-shift = tmute - 2*ts - shift := by omega
  have e2 : nt+1-tmute+shift+2*ts = nt + 1 - (tmute - 2*ts - shift) := by omega
  intro d hd
  unfold gate
  simp only []
  rw [if_neg (by omega), if_pos (by trivial), if_neg (by omega), e1, e2]; exact h d hd

theorem gate_0_late (s : Nat) (shift tmute ts : Int) (hb : 0 ≤ base) (hN : base + nt ≤ N)
    (hm : nt / 2 ≤ tmute) :
    PW N (gate 0 s shift nt base tmute ts) (wMap base nt (fun _ => 0)) := by
  intro d hd
  unfold gate
  simp only []
  rw [if_neg (by omega), if_pos (by trivial), if_pos hm]
  refine PW.congr (clearTrace_pw hb hN) (fun x v => ?_) d hd
  simp [winMap, wMap]

/-- gate 4 -/
theorem gate_4 (above : Int) (ha : above = 4 ∨ above = -4)
    (s : Nat) (shift tmute ts : Int) (hb : 0 ≤ base) (hN : base + nt ≤ N)
    (h0 : s + 1 ≤ tmute - 2*ts - shift) (h1 : 2 * (tmute - 2*ts - shift) ≤ nt + 1) :
    PW N (gate above s shift nt base tmute ts)
      (wMap base nt (fun t => riseW s (tmute - 2*ts - shift) t *
        fallW s (nt + 1 - (tmute - 2*ts - shift)) t)) := by
  have h := pass_pw (N := N) s (tmute - 2*ts - shift) (nt + 1 - (tmute - 2*ts - shift)) hb hN
    (by omega) (by omega) (by omega)
  have e1 : -2*ts+tmute-shift = tmute - 2*ts - shift := by omega
  have e2 : nt+1-tmute+shift+2*ts = nt + 1 - (tmute - 2*ts - shift) := by omega
  intro d hd
  unfold gate
  simp only []
  rw [if_neg (by omega), if_neg (by omega), if_pos ha, e1, e2]; exact h d hd

/-- gate 6 -/
theorem gate_6 (s : Nat) (shift tmute ts : Int) (hb : 0 ≤ base) (hN : base + nt ≤ N)
    (hm : tmute < nt / 2) (h0 : s ≤ tmute - 2*ts + shift)
    (h1 : tmute - 2*ts + shift ≤ nt - tmute + shift) (h2 : shift + s ≤ tmute) :
    PW N (gate 6 s shift nt base tmute ts)
      (wMap base nt (fun t => fallW s (tmute - 2*ts + shift - s) t +
        riseW s (nt - tmute + shift + s) t)) := by
  have h := stop_pw (N := N) s (tmute - 2*ts + shift) (nt - tmute + shift) hb hN
    (by omega) (by omega) (by omega)
  have e1 : -2*ts+tmute+shift = tmute - 2*ts + shift := by omega
  intro d hd
  unfold gate
  simp only []
  rw [if_neg (by omega), if_neg (by omega), if_neg (by omega), if_pos (by trivial), if_neg (by omega), e1]
  exact h d hd

/-- gate -6 -/
theorem gate_m6 (s : Nat) (shift tmute ts : Int) (hb : 0 ≤ base) (hN : base + nt ≤ N)
    (hm : tmute < nt / 2) (h0 : s ≤ tmute - 2*ts - shift)
    (h1 : tmute - 2*ts - shift ≤ nt - tmute - shift) (h2 : s ≤ tmute + shift) :
    PW N (gate (-6) s shift nt base tmute ts)
      (wMap base nt (fun t => fallW s (tmute - 2*ts - shift - s) t +
        riseW s (nt - tmute - shift + s) t)) := by
  have h := stop_pw (N := N) s (tmute - 2*ts - shift) (nt - tmute - shift) hb hN
    (by omega) (by omega) (by omega)
  have e1 : -2*ts+tmute-shift = tmute - 2*ts - shift := by omega
  intro d hd
  unfold gate
  simp only []
  rw [if_neg (by omega), if_neg (by omega), if_neg (by omega), if_neg (by omega), if_pos (by trivial),
    if_neg (by omega), e1]
  exact h d hd

/-- gate 10 -/
theorem gate_10 (s : Nat) (shift tmute ts : Int) (hb : 0 ≤ base) (hN : base + nt ≤ N)
    (h0 : s ≤ tmute + shift)
    (h1 : tmute + shift ≤ nt - tmute + shift) (h2 : shift + s ≤ tmute) :
    PW N (gate 10 s shift nt base tmute ts)
      (wMap base nt (fun t => riseW s (tmute + shift) t * fallW s (nt - tmute + shift) t)) := by
  have h := pass_pw (N := N) s (tmute + shift) (nt - tmute + shift) hb hN
    (by omega) (by omega) (by omega)
  intro d hd
  unfold gate
  simp only []
  rw [if_neg (by omega), if_neg (by omega), if_neg (by omega), if_neg (by omega), if_neg (by omega),
    if_pos (by trivial)]
  exact h d hd

/-- gate -1 -/
theorem gate_m1 (s : Nat) (shift tmute ts : Int) (hb : 0 ≤ base) (hN : base + nt ≤ N)
    (h0 : 0 ≤ tmute + ts - shift) (h1 : tmute + ts - shift + s ≤ nt) :
    PW N (gate (-1) s shift nt base tmute ts)
      (wMap base nt (fallW s (tmute + ts - shift))) := by
  have h := low_pw (N := N) s (tmute + ts - shift) hb hN h0 h1
  have e1 : ts+tmute-shift = tmute + ts - shift := by omega
  intro d hd
  unfold gate
  simp only []
  rw [if_neg (by omega), if_neg (by omega), if_neg (by omega), if_neg (by omega), if_neg (by omega),
    if_neg (by omega), if_neg (by omega), if_pos (by trivial), e1]
  exact h d hd

/-- gates 2 and 7 -/
theorem gate_7 (above : Int) (ha : above = 2 ∨ above = 7)
    (s : Nat) (shift tmute ts : Int) (hb : 0 ≤ base) (hN : base + nt ≤ N)
    (h0 : s ≤ tmute - shift) (hs : 0 ≤ shift) (h1 : tmute + shift + s ≤ nt) :
    PW N (gate above s shift nt base tmute ts)
      (wMap base nt (fun t => riseW s (tmute - shift) t * fallW s (tmute + shift) t)) := by
  have h := pass_pw (N := N) s (tmute - shift) (tmute + shift) hb hN
    (by omega) (by omega) (by omega)
  intro d hd
  unfold gate
  simp only []
  rw [if_neg (by omega), if_neg (by omega), if_neg (by omega), if_neg (by omega), if_neg (by omega),
    if_neg (by omega), if_neg (by omega), if_neg (by omega), if_pos ha]
  exact h d hd

/-- gate -7 -/
theorem gate_m7 (s : Nat) (shift tmute ts : Int) (hb : 0 ≤ base) (hN : base + nt ≤ N)
    (h0 : s ≤ tmute - shift) (hs : 0 ≤ shift) (h1 : tmute + shift + s ≤ nt) :
    PW N (gate (-7) s shift nt base tmute ts)
      (wMap base nt (fun t => fallW s (tmute - shift - s) t + riseW s (tmute + shift + s) t)) := by
  have h := stop_pw (N := N) s (tmute - shift) (tmute + shift) hb hN
    (by omega) (by omega) (by omega)
  intro d hd
  unfold gate
  simp only []
  rw [if_neg (by omega), if_neg (by omega), if_neg (by omega), if_neg (by omega), if_neg (by omega),
    if_neg (by omega), if_neg (by omega), if_neg (by omega), if_neg (by omega), if_pos (by trivial)]
  exact h d hd

/-- The whole call: if each trace's gate is multiplication by a window then so is the call. -/
theorem applyMute_windows (a : Args) (w : Nat → Nat → Int → ℝ) (N : Nat)
    (hnpos : a.npos ≤ a.nxs) (hN : a.Nfoc * a.nxs * a.nt ≤ N)
    (hix : a.npos ≤ a.ixpos.size)
    (hixr : ∀ i : Nat, i < a.npos → 0 ≤ a.ixpos.val i ∧ a.ixpos.val i < a.nxs)
    (hmu : a.Nfoc * a.nxs ≤ a.mute.size) (hts : a.Nfoc * a.nxs ≤ a.tsynW.size)
    (hg : ∀ isyn i : Nat, isyn < a.Nfoc → i < a.npos → ∀ base : Int, 0 ≤ base → base + a.nt ≤ N →
      PW N (gate a.above a.smooth a.shift a.nt base (a.mute.val (isyn*a.nxs+a.ixpos.val i))
        (a.tsynW.val (isyn*a.nxs+a.ixpos.val i))) (wMap base a.nt (w isyn i)))
    (d : Buf ℝ) (hd : d.size = N) :
    ∃ d', applyMute a d = some d' ∧ d'.size = N ∧
      (∀ isyn i t : Nat, isyn < a.Nfoc → i < a.npos → t < a.nt →
        d'.val ((isyn*a.nxs+i)*a.nt+t) = d.val ((isyn*a.nxs+i)*a.nt+t) * w isyn i t) ∧
      (∀ isyn i t : Nat, isyn < a.Nfoc → a.npos ≤ i → i < a.nxs → t < a.nt →
        d'.val ((isyn*a.nxs+i)*a.nt+t) = d.val ((isyn*a.nxs+i)*a.nt+t)) := by
  have base_le : ∀ isyn i : Nat, isyn < a.Nfoc → i < a.npos →
      (isyn*a.nxs+i)*a.nt + a.nt ≤ N := by
    intro isyn i h1 h2
    have h3 : isyn*a.nxs+i + 1 ≤ a.Nfoc * a.nxs := by
      have : (isyn+1)*a.nxs ≤ a.Nfoc*a.nxs := Nat.mul_le_mul_right _ h1
      rw [Nat.add_mul] at this; omega
    have := Nat.mul_le_mul_right a.nt h3
    rw [Nat.add_mul] at this; omega
  have ebase : ∀ isyn i : Nat, (isyn:Int)*a.nxs*a.nt+i*a.nt = (((isyn*a.nxs+i)*a.nt : Nat) : Int) := by
    intro isyn i; push_cast; ring
  have hbody : ∀ isyn, isyn < a.Nfoc → ∀ i, i < a.npos →
      PW N (traceBody a isyn i) (wMap (((isyn*a.nxs+i)*a.nt : Nat) : Int) a.nt (w isyn i)) := by
    intro isyn h1 i h2
    have hidx : isyn*a.nxs + (a.ixpos.val i).toNat < a.Nfoc*a.nxs := by
      have : (isyn+1)*a.nxs ≤ a.Nfoc*a.nxs := Nat.mul_le_mul_right _ h1
      rw [Nat.add_mul] at this
      have := hixr i h2; omega
    have hidx' : (isyn:Int)*a.nxs + a.ixpos.val i = ((isyn*a.nxs + (a.ixpos.val i).toNat : Nat) : Int) := by
      have := hixr i h2
      push_cast; omega
    have o1 : a.ixpos.ok i := ⟨by omega, by omega⟩
    have o2 : a.mute.ok (isyn*a.nxs + a.ixpos.val i) := by
      rw [hidx']; exact ⟨by omega, by omega⟩
    have o3 : a.tsynW.ok (isyn*a.nxs + a.ixpos.val i) := by
      rw [hidx']; exact ⟨by omega, by omega⟩
    have := hg isyn i h1 h2 (((isyn*a.nxs+i)*a.nt : Nat) : Int) (by omega)
      (by have := base_le isyn i h1 h2; omega)
    unfold traceBody
    simp only [Buf.rd_ok o1, Buf.rd_ok o2, Buf.rd_ok o3, Option.bind_some]
    rw [ebase]; exact this
  have hall := PW.forNM (N := N) (n := a.Nfoc)
    (f := fun isyn d => forNM a.npos (fun i d => traceBody a isyn i d) d)
    (g := fun isyn x v => forN a.npos
      (fun i v => wMap (((isyn*a.nxs+i)*a.nt : Nat) : Int) a.nt (w isyn i) x v) v)
    (fun isyn h1 => PW.forNM (fun i h2 => hbody isyn h1 i h2))
  obtain ⟨d', e1, e2, e3⟩ := hall d hd
  have sep : ∀ isyn i isyn' i' t: Nat, i < a.nxs → i' < a.nxs → t < a.nt →
      (isyn ≠ isyn' ∨ i ≠ i') →
      ∀ v, wMap (((isyn'*a.nxs+i')*a.nt : Nat) : Int) a.nt (w isyn' i')
        (((isyn*a.nxs+i)*a.nt+t : Nat) : Int) v = v := by
    intro isyn i isyn' i' t hi hi' ht hne v
    refine wMap_out ?_
    intro hc
    have h1 : (isyn'*a.nxs+i')*a.nt ≤ (isyn*a.nxs+i)*a.nt+t := by omega
    have h2 : (isyn*a.nxs+i)*a.nt+t < (isyn'*a.nxs+i')*a.nt + a.nt := by omega
    have hlin : isyn'*a.nxs+i' = isyn*a.nxs+i := by
      have q1 : ((isyn*a.nxs+i)*a.nt+t) / a.nt = isyn*a.nxs+i := by
        rw [Nat.mul_comm, Nat.mul_add_div (by omega), Nat.div_eq_of_lt ht]; rfl
      have q2 : ((isyn*a.nxs+i)*a.nt+t) / a.nt = isyn'*a.nxs+i' := by
        apply Nat.div_eq_of_lt_le
        · exact h1
        · have := Nat.succ_mul (isyn'*a.nxs+i') a.nt
          show _ < (isyn'*a.nxs+i').succ * a.nt
          omega
      omega
    have r1 : (isyn*a.nxs+i) / a.nxs = isyn := by
      rw [Nat.mul_comm, Nat.mul_add_div (by omega), Nat.div_eq_of_lt hi]; rfl
    have r2 : (isyn'*a.nxs+i') / a.nxs = isyn' := by
      rw [Nat.mul_comm, Nat.mul_add_div (by omega), Nat.div_eq_of_lt hi']; rfl
    rw [hlin, r1] at r2
    subst r2
    omega
  have enat : ∀ isyn i t : Nat, (((isyn:Int)*a.nxs+i)*a.nt+t) = (((isyn*a.nxs+i)*a.nt+t : Nat) : Int) := by
    intro isyn i t; push_cast; ring
  refine ⟨d', e1, e2, ?_, ?_⟩
  · intro isyn i t h1 h2 h3
    rw [enat, e3]
    beta_reduce
    rw [forN_single isyn h1 (fun k hk hne v => forN_noop (fun i' hi' v =>
      sep isyn i k i' t (by omega) (by omega) h3 (Or.inl (Ne.symm hne)) v))]
    rw [forN_single i h2 (fun k hk hne v =>
      sep isyn i isyn k t (by omega) (by omega) h3 (Or.inr (Ne.symm hne)) v)]
    unfold wMap
    rw [if_pos (by omega)]
    congr 2; omega
  · intro isyn i t h1 h2 h3 h4
    rw [enat, e3]
    exact forN_noop (fun k hk v => forN_noop (fun i' hi' v =>
      sep isyn i k i' t (by omega) (by omega) h4 (Or.inr (by omega)) v))

end Verif.Mute

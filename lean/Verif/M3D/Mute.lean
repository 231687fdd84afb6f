import Verif.Mute.Gates

/-!
# The mute windows of the 3D program (marchenko3D/applyMute3D.c: applyMute3D)

The data cube is a `Buf ℝ` (exact reals in place of `float`), the index tables are `Buf Int`; every access is
checked, an access outside an array makes the call `none`.
-/

namespace Verif.M3D
open Verif Verif.Mute

noncomputable section

/-- The taper table, applyMute3D.c:31-37 (of size 0 for `smooth = 0`, where nothing is allocated). -/
def costaper (smooth : Nat) : Buf ℝ :=
  ⟨smooth, fun i => 1 / 2 * (1 + Real.cos ((i + 1) * (Real.pi / (smooth : ℝ))))⟩

/-- `for (j=lo; j<hi; j++) data[base+j] = 0.0;` (e.g. lines 45-47). -/
def zeroLoop (base lo hi : Int) (d : Buf ℝ) : Option (Buf ℝ) := forIM lo hi (fun j d => d.wr (base + j) 0) d

/-- `for (j=lo,l=0; j<hi; j++,l++) data[base+j] *= costaper[l];` (e.g. lines 62-64). -/
def fallLoop (ct : Buf ℝ) (base lo hi : Int) (d : Buf ℝ) : Option (Buf ℝ) :=
  forIM lo hi (fun j d => (ct.rd (j - lo)).bind fun c => (d.rd (base + j)).bind fun v => d.wr (base + j) (v * c)) d

/-- `for (j=lo,l=0; j<hi; j++,l++) data[base+j] *= costaper[smooth-l-1];` (e.g. lines 48-50). -/
def riseLoop (ct : Buf ℝ) (smooth : Int) (base lo hi : Int) (d : Buf ℝ) : Option (Buf ℝ) :=
  forIM lo hi (fun j d => (ct.rd (smooth - (j - lo) - 1)).bind fun c =>
    (d.rd (base + j)).bind fun v => d.wr (base + j) (v * c)) d

/-- The bodies of the `above` branches, applyMute3D.c:40-148, for the trace at `base`.  A value of `above` that is
not listed leaves the data alone. -/
def gate (above : Int) (smooth : Nat) (shift nt base tmute ts : Int) (d : Buf ℝ) : Option (Buf ℝ) :=
  let s : Int := smooth
  let ct := costaper smooth
  if above = 1 then            -- lines 40-52
    (zeroLoop base 0 (max 0 (-2*ts+tmute-shift-s)) d).bind
    (riseLoop ct s base (max 0 (-2*ts+tmute-shift-s)) (max 0 (-2*ts+tmute-shift)))
  else if above = 0 then       -- lines 53-72
    if nt / 2 ≤ tmute then clearTrace base nt d
    else ((fallLoop ct base (max 0 (-2*ts+tmute-shift)) (max 0 (-2*ts+tmute-shift+s)) d).bind
      (zeroLoop base (max 0 (-2*ts+tmute-shift+s) + 1) (min nt (nt+1-tmute+shift-s)))).bind
      (riseLoop ct s base (min nt (nt-tmute+shift-s)) (min nt (nt-tmute+shift)))
  else if above = -2 then      -- lines 73-92
    if nt / 2 ≤ tmute then clearTrace base nt d
    else ((fallLoop ct base (max 0 (-2*ts+tmute+shift)) (max 0 (-2*ts+tmute+shift+s)) d).bind
      (zeroLoop base (max 0 (-2*ts+tmute+shift+s) + 1) (min nt (nt+1-tmute-shift-s)))).bind
      (riseLoop ct s base (min nt (nt-tmute-shift-s)) (min nt (nt-tmute-shift)))
  else if above = -1 then      -- lines 93-105
    (fallLoop ct base (max 0 (ts+tmute-shift)) (max 0 (ts+tmute-shift+s)) d).bind
    (zeroLoop base (max 0 (ts+tmute-shift+s)) nt)
  else if above = 4 then       -- lines 106-124
    (((riseLoop ct s base (max 0 (tmute-shift-s)) (max 0 (tmute-shift)) d).bind
      (zeroLoop base 0 (max 0 (tmute-shift-s-1)))).bind
      (zeroLoop base (min nt (nt+1-tmute+shift+s)) nt)).bind
      (fallLoop ct base (min nt (nt-tmute+shift)) (min nt (nt-tmute+shift+s)))
  else if above = 2 then       -- lines 125-143
    (((zeroLoop base 0 (max 0 (tmute-shift-s)) d).bind
      (riseLoop ct s base (max 0 (tmute-shift-s)) (max 0 (tmute-shift)))).bind
      (fallLoop ct base (max 0 (tmute+shift)) (max 0 (tmute+shift+s)))).bind
      (zeroLoop base (max 0 (tmute+shift+s)) nt)
  else some d

/-- Parameters of a call (line 22). -/
structure MArgs where
  mute : Buf Int
  smooth : Nat
  above : Int
  Nfoc : Nat
  nxs : Nat
  nys : Nat
  nt : Nat
  ixpos : Buf Int
  iypos : Buf Int
  npos : Nat
  shift : Int
  tsynW : Buf Int

/-- Body of the trace loop: `imute = iypos[i]*nxs+ixpos[i]` (lines 42-44), then the gate at
`isyn*nxys*nt+i*nt`. -/
def traceBody (a : MArgs) (isyn i : Nat) (d : Buf ℝ) : Option (Buf ℝ) :=
  (a.iypos.rd i).bind fun iy => (a.ixpos.rd i).bind fun ix =>
  (a.mute.rd (isyn*(a.nxs*a.nys)+(iy*a.nxs+ix))).bind fun tmute =>
  (a.tsynW.rd (isyn*(a.nxs*a.nys)+(iy*a.nxs+ix))).bind fun ts =>
  gate a.above a.smooth a.shift a.nt (isyn*(a.nxs*a.nys)*a.nt+i*a.nt) tmute ts d

/-- `applyMute3D`, applyMute3D.c:22-151. -/
def applyMute3D (a : MArgs) (d : Buf ℝ) : Option (Buf ℝ) :=
  forNM a.Nfoc (fun isyn d => forNM a.npos (fun i d => traceBody a isyn i d) d) d

/-! ## Specification -/

namespace Spec

/-- Falling cosine edge of width `s` from time `b` on, zero from `b+s` on. -/
def fall (s : Nat) (b t : Int) : ℝ :=
  if t < b then 1 else if t < b + s then (1 + Real.cos (Real.pi * ((t - b : Int) + 1) / s)) / 2 else 0

/-- Rising cosine edge of width `s`: zero before `e-s`, one from `e` on. -/
def rise (s : Nat) (e t : Int) : ℝ :=
  if t < e - s then 0 else if t < e then (1 - Real.cos (Real.pi * ((t - (e - s) : Int)) / s)) / 2 else 1

end Spec

/-- Mute time and time shift of listed trace `i`: those of its position. -/
def MArgs.tmute (a : MArgs) (isyn i : Nat) : Int := a.mute.val (isyn*(a.nxs*a.nys)+(a.iypos.val i*a.nxs+a.ixpos.val i))
def MArgs.ts (a : MArgs) (isyn i : Nat) : Int := a.tsynW.val (isyn*(a.nxs*a.nys)+(a.iypos.val i*a.nxs+a.ixpos.val i))

/-- Offset of a sample in the data cube. -/
def MArgs.at (a : MArgs) (isyn i t : Nat) : Int := (isyn*(a.nxs*a.nys)+i)*a.nt+t

/-- The arrays have their sizes and the listed positions lie on the grid. -/
structure MArgs.Ok (a : MArgs) (d : Buf ℝ) : Prop where
  npos_le : a.npos ≤ a.nxs * a.nys
  data : a.Nfoc * (a.nxs * a.nys) * a.nt ≤ d.size
  ixpos : a.npos ≤ a.ixpos.size
  iypos : a.npos ≤ a.iypos.size
  xrange : ∀ i : Nat, i < a.npos → 0 ≤ a.ixpos.val i ∧ a.ixpos.val i < a.nxs
  yrange : ∀ i : Nat, i < a.npos → 0 ≤ a.iypos.val i ∧ a.iypos.val i < a.nys
  mute : a.Nfoc * (a.nxs * a.nys) ≤ a.mute.size
  tsynW : a.Nfoc * (a.nxs * a.nys) ≤ a.tsynW.size

/-! ## Lemmas -/

variable {N : Nat} {base nt : Int}

theorem pw_ext {f f' : Buf ℝ → Option (Buf ℝ)} {g : Int → ℝ → ℝ} (h : PW N f g) (he : ∀ d, f' d = f d) :
    PW N f' g := by rw [show f' = f from funext he]; exact h

theorem zeroLoop_pw (lo hi : Int) (h0 : 0 ≤ base + lo) (h1 : base + hi ≤ N) :
    PW N (zeroLoop base lo hi) (winMap base lo hi (fun _ => 0)) := by
  have := PW.forIM (N := N) (lo := lo) (hi := hi) (f := fun j d => d.wr (base + j) (0:ℝ))
    (g := fun j x v => if x = base + j then 0 else v)
    (fun j hj1 hj2 => PW.set (α := ℝ) (N := N) (i := base + j) (by omega) 0)
  refine PW.congr this (fun x v => ?_)
  unfold forI winMap
  have h := forN_cells (hi-lo).toNat (base+lo) x (fun _ _ => (0:ℝ)) v
  simp only [Int.add_assoc] at h ⊢
  rw [h]
  by_cases hc : base + lo ≤ x ∧ x < base + hi
  · rw [if_pos hc, if_pos (by omega)]; simp
  · rw [if_neg hc, if_neg (by omega)]

theorem taper_pw (lo hi : Int) (ct : Buf ℝ) (ix : Int → Int)
    (hix : ∀ l, 0 ≤ l → l < hi - lo → 0 ≤ ix l ∧ ix l < ct.size) (h0 : 0 ≤ base + lo) (h1 : base + hi ≤ N) :
    PW N (fun d => forIM lo hi (fun j d => (ct.rd (ix (j - lo))).bind fun c =>
    (d.rd (base + j)).bind fun v => d.wr (base + j) (v * c)) d) (winMap base lo hi (fun l => ct.val (ix l))) := by
  have := PW.forIM (N := N) (lo := lo) (hi := hi)
    (f := fun j d => (ct.rd (ix (j - lo))).bind fun c => (d.rd (base + j)).bind fun v => d.wr (base + j) (v * c))
    (g := fun j x v => if x = base + j then v * ct.val (ix (j - lo)) else v)
    (fun j hj1 hj2 => by
      have hok : ct.ok (ix (j-lo)) := hix _ (by omega) (by omega)
      have := PW.upd (α := ℝ) (N := N) (i := base + j) (by omega) (fun v => v * ct.val (ix (j - lo)))
      simp only [Buf.rd_ok hok, Option.bind_some]
      exact this)
  refine PW.congr this (fun x v => ?_)
  unfold forI winMap
  have h := forN_cells (hi-lo).toNat (base+lo) x (fun k v => v * ct.val (ix k)) v
  simp only [Int.add_assoc] at h ⊢
  have e : ∀ k : Nat, lo + (k:Int) - lo = k := fun k => by omega
  simp only [e]
  rw [h]
  by_cases hc : base + lo ≤ x ∧ x < base + hi
  · rw [if_pos hc, if_pos (by omega)]
    congr 3; omega
  · rw [if_neg hc, if_neg (by omega)]

theorem fallLoop_pw (s : Nat) (b : Int) (h0 : 0 ≤ base + b) (h1 : base + (b + s) ≤ N) :
    PW N (fallLoop (costaper s) base b (b+s)) (winMap base b (b+s) (fun l => Spec.fall s b (b + l))) := by
  have := taper_pw (N := N) (base := base) b (b+s) (costaper s) (fun l => l)
    (fun l h h' => ⟨h, by show l < ((s:Nat):Int); omega⟩) h0 h1
  refine PW.congr this (fun x v => ?_)
  unfold winMap
  by_cases hc : base + b ≤ x ∧ x < base + (b + s)
  · rw [if_pos hc, if_pos hc]
    unfold Spec.fall costaper
    beta_reduce
    rw [if_neg (by omega), if_pos (by omega), show b + (x - base - b) - b = x - base - b by omega]
    simp only []
    have e2 : ((x - base - b : Int) + 1 : ℝ) * (Real.pi / s) = Real.pi * ((x - base - b : Int) + 1) / s := by ring
    rw [e2]; ring
  · rw [if_neg hc, if_neg hc]

theorem riseLoop_pw (s : Nat) (e : Int) (h0 : 0 ≤ base + (e - s)) (h1 : base + e ≤ N) :
    PW N (riseLoop (costaper s) s base (e-s) e) (winMap base (e-s) e (fun l => Spec.rise s e (e - s + l))) := by
  have := taper_pw (N := N) (base := base) (e-s) e (costaper s) (fun l => s - l - 1)
    (fun l h h' => ⟨by omega, by show s - l - 1 < ((s:Nat):Int); omega⟩) h0 h1
  refine PW.congr this (fun x v => ?_)
  unfold winMap
  by_cases hc : base + (e - s) ≤ x ∧ x < base + e
  · rw [if_pos hc, if_pos hc]
    unfold Spec.rise costaper
    beta_reduce
    rw [if_neg (by omega), if_pos (by omega), show e - s + (x - base - (e - s)) - (e - s) = x - base - (e - s) by omega]
    simp only []
    have hs : (s:ℝ) ≠ 0 := by
      have : s ≠ 0 := by rintro rfl; omega
      exact_mod_cast this
    have e2 : (((s:Int) - (x - base - (e - s)) - 1 : Int) + 1 : ℝ) * (Real.pi / s) =
      Real.pi - Real.pi * ((x - base - (e - s) : Int)) / s := by
      push_cast; field_simp; ring
    rw [e2, Real.cos_pi_sub]; ring
  · rw [if_neg hc, if_neg hc]

/-- The call: if each trace's gate is multiplication by a window, then so is the call. -/
theorem applyMute3D_windows {a : MArgs} {d : Buf ℝ} (h : a.Ok d) (w : Nat → Nat → Int → ℝ)
    (hg : ∀ isyn i : Nat, isyn < a.Nfoc → i < a.npos → ∀ base : Int, 0 ≤ base → base + a.nt ≤ d.size →
      PW d.size (gate a.above a.smooth a.shift a.nt base (a.tmute isyn i) (a.ts isyn i)) (wMap base a.nt (w isyn i))) :
    ∃ d', applyMute3D a d = some d' ∧ d'.size = d.size ∧
      (∀ isyn i t : Nat, isyn < a.Nfoc → i < a.npos → t < a.nt →
        d'.val (a.at isyn i t) = d.val (a.at isyn i t) * w isyn i t) ∧
      (∀ isyn i t : Nat, isyn < a.Nfoc → a.npos ≤ i → i < a.nxs * a.nys → t < a.nt →
        d'.val (a.at isyn i t) = d.val (a.at isyn i t)) := by
  obtain ⟨n, hn⟩ : ∃ n, n = a.nxs * a.nys := ⟨_, rfl⟩
  have hnpos := h.npos_le
  have hdata := h.data
  have hmu := h.mute
  have hts := h.tsynW
  unfold MArgs.at
  have ecast : ((a.nxs : Int) * a.nys) = ((n : Nat) : Int) := by rw [hn]; push_cast; ring
  rw [← hn] at hnpos hdata hmu hts
  simp only [ecast, ← hn]
  have base_le : ∀ isyn i : Nat, isyn < a.Nfoc → i < a.npos → (isyn*n+i)*a.nt + a.nt ≤ d.size := by
    intro isyn i h1 h2
    have h3 : isyn*n+i + 1 ≤ a.Nfoc * n := by
      have : (isyn+1)*n ≤ a.Nfoc*n := Nat.mul_le_mul_right _ h1
      rw [Nat.add_mul] at this; omega
    have := Nat.mul_le_mul_right a.nt h3
    rw [Nat.add_mul] at this; omega
  have ebase : ∀ isyn i : Nat, (isyn:Int)*n*a.nt+i*a.nt = (((isyn*n+i)*a.nt : Nat) : Int) := by
    intro isyn i; push_cast; ring
  have hbody : ∀ isyn, isyn < a.Nfoc → ∀ i, i < a.npos →
      PW d.size (traceBody a isyn i) (wMap (((isyn*n+i)*a.nt : Nat) : Int) a.nt (w isyn i)) := by
    intro isyn h1 i h2
    obtain ⟨x0, x1⟩ := h.xrange i h2
    obtain ⟨y0, y1⟩ := h.yrange i h2
    have hq : 0 ≤ a.iypos.val i*a.nxs+a.ixpos.val i ∧ a.iypos.val i*a.nxs+a.ixpos.val i < n := by
      have g1 : 0 ≤ a.iypos.val i * a.nxs := mul_nonneg y0 (by omega)
      have g2 : (a.iypos.val i + 1) * a.nxs ≤ a.nys * a.nxs := mul_le_mul_of_nonneg_right (by omega) (by omega)
      have g3 : (a.iypos.val i + 1) * (a.nxs : Int) = a.iypos.val i * a.nxs + a.nxs := by ring
      rw [← ecast, mul_comm (a.nxs : Int)]
      omega
    have hidx : 0 ≤ (isyn:Int)*n + (a.iypos.val i*a.nxs+a.ixpos.val i) ∧
        (isyn:Int)*n + (a.iypos.val i*a.nxs+a.ixpos.val i) < (a.Nfoc * n : Nat) := by
      have g1 : (isyn+1)*n ≤ a.Nfoc*n := Nat.mul_le_mul_right _ h1
      rw [Nat.add_mul] at g1
      have g2 : ((isyn*n : Nat) : Int) = (isyn:Int)*n := by push_cast; ring
      constructor <;> omega
    have o1 : a.ixpos.ok i := ⟨by omega, by have := h.ixpos; omega⟩
    have o1' : a.iypos.ok i := ⟨by omega, by have := h.iypos; omega⟩
    have o2 : a.mute.ok (isyn*n + (a.iypos.val i*a.nxs+a.ixpos.val i)) := ⟨hidx.1, by omega⟩
    have o3 : a.tsynW.ok (isyn*n + (a.iypos.val i*a.nxs+a.ixpos.val i)) := ⟨hidx.1, by omega⟩
    have := hg isyn i h1 h2 (((isyn*n+i)*a.nt : Nat) : Int) (by omega)
      (by have := base_le isyn i h1 h2; omega)
    unfold MArgs.tmute MArgs.ts at this
    rw [ecast] at this
    unfold traceBody
    simp only [ecast, Buf.rd_ok o1, Buf.rd_ok o1', Buf.rd_ok o2, Buf.rd_ok o3, Option.bind_some]
    rw [ebase]; exact this
  have hall := PW.forNM (N := d.size) (n := a.Nfoc)
    (f := fun isyn d => forNM a.npos (fun i d => traceBody a isyn i d) d)
    (g := fun isyn x v => forN a.npos
      (fun i v => wMap (((isyn*n+i)*a.nt : Nat) : Int) a.nt (w isyn i) x v) v)
    (fun isyn h1 => PW.forNM (fun i h2 => hbody isyn h1 i h2))
  obtain ⟨d', e1, e2, e3⟩ := hall d rfl
  have sep : ∀ isyn i isyn' i' t: Nat, i < n → i' < n → t < a.nt →
      (isyn ≠ isyn' ∨ i ≠ i') →
      ∀ v, wMap (((isyn'*n+i')*a.nt : Nat) : Int) a.nt (w isyn' i')
        (((isyn*n+i)*a.nt+t : Nat) : Int) v = v := by
    intro isyn i isyn' i' t hi hi' ht hne v
    refine wMap_out ?_
    intro hc
    have h1 : (isyn'*n+i')*a.nt ≤ (isyn*n+i)*a.nt+t := by omega
    have h2 : (isyn*n+i)*a.nt+t < (isyn'*n+i')*a.nt + a.nt := by omega
    have hlin : isyn'*n+i' = isyn*n+i := by
      have q1 : ((isyn*n+i)*a.nt+t) / a.nt = isyn*n+i := by
        rw [Nat.mul_comm, Nat.mul_add_div (by omega), Nat.div_eq_of_lt ht]; rfl
      have q2 : ((isyn*n+i)*a.nt+t) / a.nt = isyn'*n+i' := by
        apply Nat.div_eq_of_lt_le
        · exact h1
        · have := Nat.succ_mul (isyn'*n+i') a.nt
          show _ < (isyn'*n+i').succ * a.nt
          omega
      omega
    have r1 : (isyn*n+i) / n = isyn := by
      rw [Nat.mul_comm, Nat.mul_add_div (by omega), Nat.div_eq_of_lt hi]; rfl
    have r2 : (isyn'*n+i') / n = isyn' := by
      rw [Nat.mul_comm, Nat.mul_add_div (by omega), Nat.div_eq_of_lt hi']; rfl
    rw [hlin, r1] at r2
    subst r2
    omega
  have enat : ∀ isyn i t : Nat, (((isyn:Int)*n+i)*a.nt+t) = (((isyn*n+i)*a.nt+t : Nat) : Int) := by
    intro isyn i t; push_cast; ring
  refine ⟨d', e1, e2, ?_, ?_⟩
  · intro isyn i t h1 h2 h3
    rw [enat, e3]
    beta_reduce
    rw [forN_single isyn h1 (fun k hk hne v => forN_noop (fun i' hi' v =>
      sep isyn i k i' t (by omega) (by omega) h3 (Or.inl (Ne.symm hne)) v))]
    rw [forN_single i h2 (fun k hk hne v =>
      sep isyn i isyn k t (by omega) (by omega) h3 (Or.inr (Ne.symm hne)) v)]
    unfold wMap
    rw [if_pos (by omega)]
    congr 2; omega
  · intro isyn i t h1 h2 h3 h4
    rw [enat, e3]
    exact forN_noop (fun k hk v => forN_noop (fun i' hi' v =>
      sep isyn i k i' t (by omega) (by omega) h4 (Or.inr (by omega)) v))

theorem fall_one {s : Nat} {b t : Int} (h : t < b) : Spec.fall s b t = 1 := if_pos h
theorem fall_zero {s : Nat} {b t : Int} (h : b + s ≤ t) : Spec.fall s b t = 0 := by
  unfold Spec.fall; rw [if_neg (by omega), if_neg (by omega)]
theorem rise_zero {s : Nat} {e t : Int} (h : t < e - s) : Spec.rise s e t = 0 := if_pos h
theorem rise_one {s : Nat} {e t : Int} (h : e ≤ t) : Spec.rise s e t = 1 := by
  unfold Spec.rise; rw [if_neg (by omega), if_neg (by omega)]
theorem rise_start {s : Nat} {e t : Int} (hs : 0 < s) (h : t = e - s) : Spec.rise s e t = 0 := by
  unfold Spec.rise; rw [if_neg (by omega), if_pos (by omega), h]; simp

/-- The gate for `above` 0 and -2 with edges `A` and `E`: everything but sample `A+s` is as it should be. -/
theorem gate_theta (s : Nat) (hs : 0 < s) (A E : Int) (hb : 0 ≤ base) (hN : base + nt ≤ N) (hA : 0 ≤ A)
    (hAE : A + s < E - s) (hE : E ≤ nt) :
    PW N (fun d => ((fallLoop (costaper s) base A (A+s) d).bind (zeroLoop base (A+s+1) (E-s+1))).bind
      (riseLoop (costaper s) s base (E-s) E))
      (wMap base nt (fun t => if t = A + s then 1 else Spec.fall s A t + Spec.rise s E t)) := by
  have := PW.comp (PW.comp (fallLoop_pw (N := N) (base := base) s A (by omega) (by omega))
    (zeroLoop_pw (N := N) (base := base) (A+s+1) (E-s+1) (by omega) (by omega)))
    (riseLoop_pw (N := N) (base := base) s E (by omega) (by omega))
  refine PW.congr this (fun x v => ?_)
  unfold winMap wMap
  beta_reduce
  by_cases hx : base ≤ x ∧ x < base + nt
  · rw [if_pos hx]
    obtain ⟨t, rfl⟩ : ∃ t, x = base + t := ⟨x - base, by omega⟩
    rw [show base + t - base = t by omega, show A + (t - A) = t by omega, show E - s + (t - (E - s)) = t by omega]
    rcases lt_trichotomy t (A + s) with h | h | h
    · rcases lt_or_ge t A with h' | h'
      · rw [fall_one h', rise_zero (by omega)]; split_ifs <;> first | (exfalso; omega) | ring
      · rw [rise_zero (by omega)]; split_ifs <;> first | (exfalso; omega) | ring
    · split_ifs <;> first | (exfalso; omega) | ring
    · rw [fall_zero (by omega)]
      rcases lt_trichotomy t (E - s) with h' | h' | h'
      · rw [rise_zero h']; split_ifs <;> first | (exfalso; omega) | ring
      · rw [rise_start hs h']; split_ifs <;> first | (exfalso; omega) | ring
      · have := h'
        rcases lt_or_ge t E with h'' | h''
        · split_ifs <;> first | (exfalso; omega) | ring
        · rw [rise_one h'']; split_ifs <;> first | (exfalso; omega) | ring
  · split_ifs <;> first | (exfalso; omega) | rfl

theorem gate_psi (s : Nat) (B F : Int) (hb : 0 ≤ base) (hN : base + nt ≤ N) (hB : 0 ≤ B - s - 1)
    (hBF : B ≤ F) (hF : F + s < nt) :
    PW N (fun d => (((riseLoop (costaper s) s base (B-s) B d).bind (zeroLoop base 0 (B-s-1))).bind
      (zeroLoop base (F+s+1) nt)).bind (fallLoop (costaper s) base F (F+s)))
      (wMap base nt (fun t => if t = B - s - 1 ∨ t = F + s then 1 else Spec.rise s B t * Spec.fall s F t)) := by
  have := PW.comp (PW.comp (PW.comp (riseLoop_pw (N := N) (base := base) s B (by omega) (by omega))
    (zeroLoop_pw (N := N) (base := base) 0 (B-s-1) (by omega) (by omega)))
    (zeroLoop_pw (N := N) (base := base) (F+s+1) nt (by omega) (by omega)))
    (fallLoop_pw (N := N) (base := base) s F (by omega) (by omega))
  refine PW.congr this (fun x v => ?_)
  unfold winMap wMap
  beta_reduce
  by_cases hx : base ≤ x ∧ x < base + nt
  · rw [if_pos hx]
    obtain ⟨t, rfl⟩ : ∃ t, x = base + t := ⟨x - base, by omega⟩
    rw [show base + t - base = t by omega, show F + (t - F) = t by omega, show B - s + (t - (B - s)) = t by omega]
    rcases lt_or_ge t F with h | h
    · rw [fall_one h]
      rcases lt_trichotomy t (B - s - 1) with h' | h' | h'
      · rw [rise_zero (by omega)]; split_ifs <;> first | (exfalso; omega) | ring
      · split_ifs <;> first | (exfalso; omega) | ring
      · have := h'
        rcases lt_or_ge t B with h'' | h''
        · split_ifs <;> first | (exfalso; omega) | ring
        · rw [rise_one h'']; split_ifs <;> first | (exfalso; omega) | ring
    · rw [rise_one (by omega)]
      rcases lt_trichotomy t (F + s) with h' | h' | h'
      · split_ifs <;> first | (exfalso; omega) | ring
      · split_ifs <;> first | (exfalso; omega) | ring
      · rw [fall_zero (by omega)]; split_ifs <;> first | (exfalso; omega) | ring
  · split_ifs <;> first | (exfalso; omega) | rfl

theorem gate_early (s : Nat) (A : Int) (hb : 0 ≤ base) (hN : base + nt ≤ N) (hA : 0 ≤ A - s) (hE : A ≤ nt) :
    PW N (fun d => (zeroLoop base 0 (A-s) d).bind (riseLoop (costaper s) s base (A-s) A))
      (wMap base nt (Spec.rise s A)) := by
  have := PW.comp (zeroLoop_pw (N := N) (base := base) 0 (A-s) (by omega) (by omega))
    (riseLoop_pw (N := N) (base := base) s A (by omega) (by omega))
  refine PW.congr this (fun x v => ?_)
  unfold winMap wMap
  beta_reduce
  by_cases hx : base ≤ x ∧ x < base + nt
  · rw [if_pos hx]
    obtain ⟨t, rfl⟩ : ∃ t, x = base + t := ⟨x - base, by omega⟩
    rw [show base + t - base = t by omega, show A - s + (t - (A - s)) = t by omega]
    rcases lt_or_ge t (A - s) with h | h
    · rw [rise_zero h]; split_ifs <;> first | (exfalso; omega) | ring
    · rcases lt_or_ge t A with h' | h'
      · split_ifs <;> first | (exfalso; omega) | ring
      · rw [rise_one h']; split_ifs <;> first | (exfalso; omega) | ring
  · split_ifs <;> first | (exfalso; omega) | rfl

theorem gate_late (s : Nat) (A : Int) (hb : 0 ≤ base) (hN : base + nt ≤ N) (hA : 0 ≤ A) (hE : A + s ≤ nt) :
    PW N (fun d => (fallLoop (costaper s) base A (A+s) d).bind (zeroLoop base (A+s) nt))
      (wMap base nt (Spec.fall s A)) := by
  have := PW.comp (fallLoop_pw (N := N) (base := base) s A (by omega) (by omega))
    (zeroLoop_pw (N := N) (base := base) (A+s) nt (by omega) (by omega))
  refine PW.congr this (fun x v => ?_)
  unfold winMap wMap
  beta_reduce
  by_cases hx : base ≤ x ∧ x < base + nt
  · rw [if_pos hx]
    obtain ⟨t, rfl⟩ : ∃ t, x = base + t := ⟨x - base, by omega⟩
    rw [show base + t - base = t by omega, show A + (t - A) = t by omega]
    rcases lt_or_ge t A with h | h
    · rw [fall_one h]; split_ifs <;> first | (exfalso; omega) | ring
    · rcases lt_or_ge t (A + s) with h' | h'
      · split_ifs <;> first | (exfalso; omega) | ring
      · rw [fall_zero h']; split_ifs <;> first | (exfalso; omega) | ring
  · split_ifs <;> first | (exfalso; omega) | rfl

theorem wMap_comp (w w' : Int → ℝ) (x : Int) (v : ℝ) :
    wMap base nt w' x (wMap base nt w x v) = wMap base nt (fun t => w t * w' t) x v := by
  unfold wMap
  split_ifs <;> ring

/-! ## C168 -/

/-- `tmute-2*ts-shift` and `nt-tmute+shift`: the times where the window `above=0` starts to fall and has
risen again; for `above=-2` the shift counts the other way. -/
def MArgs.fallAt (a : MArgs) (sh : Int) (isyn i : Nat) : Int := a.tmute isyn i - 2 * a.ts isyn i - sh
def MArgs.backAt (a : MArgs) (sh : Int) (isyn i : Nat) : Int := a.nt - a.tmute isyn i + sh

/-- The mute times leave room for the edges of the window. -/
def MArgs.Room (a : MArgs) (sh : Int) : Prop := 0 < a.smooth ∧ ∀ isyn i, isyn < a.Nfoc → i < a.npos →
  a.tmute isyn i < a.nt / 2 ∧ 0 ≤ a.fallAt sh isyn i ∧
  a.fallAt sh isyn i + a.smooth < a.backAt sh isyn i - a.smooth ∧ a.backAt sh isyn i ≤ a.nt

/-- **C168 (part).** The window `above=0` (or `above=-2`, with the shift reversed), which keeps what is before the
direct arrival and, at the end of the trace, the corresponding negative times: every sample but one is multiplied
with the falling edge at `tmute-2*ts-shift` plus the rising edge at `nt-tmute+shift` of its own position.  What is
missing is the one sample at the end of the falling edge, which keeps its full value. -/
theorem theta3D_partial (a : MArgs) (d : Buf ℝ) (h : a.Ok d) (sh : Int)
    (ha : a.above = 0 ∧ sh = a.shift ∨ a.above = -2 ∧ sh = -a.shift) (hr : a.Room sh) :
    ∃ d', applyMute3D a d = some d' ∧
      (∀ isyn i t : Nat, isyn < a.Nfoc → i < a.npos → t < a.nt →
        ((t:Int) ≠ a.fallAt sh isyn i + a.smooth → d'.val (a.at isyn i t) = d.val (a.at isyn i t) *
          (Spec.fall a.smooth (a.fallAt sh isyn i) t + Spec.rise a.smooth (a.backAt sh isyn i) t)) ∧
        ((t:Int) = a.fallAt sh isyn i + a.smooth → d'.val (a.at isyn i t) = d.val (a.at isyn i t))) ∧
      (∀ isyn i t : Nat, isyn < a.Nfoc → a.npos ≤ i → i < a.nxs * a.nys → t < a.nt →
        d'.val (a.at isyn i t) = d.val (a.at isyn i t)) := by
  obtain ⟨d', e1, -, e2, e3⟩ := applyMute3D_windows h (fun isyn i t => if t = a.fallAt sh isyn i + a.smooth then 1 else
      Spec.fall a.smooth (a.fallAt sh isyn i) t + Spec.rise a.smooth (a.backAt sh isyn i) t) (by
    intro isyn i h1 h2 base hb hN
    have hs := hr.1
    obtain ⟨g1, g2, g3, g4⟩ := hr.2 isyn i h1 h2
    have := gate_theta (N := d.size) (base := base) (nt := a.nt) a.smooth hr.1 (a.fallAt sh isyn i) (a.backAt sh isyn i) hb hN g2 g3 g4
    unfold MArgs.fallAt at g2
    unfold MArgs.fallAt MArgs.backAt at g3
    unfold MArgs.backAt at g4
    generalize hA : a.fallAt sh isyn i = A at *
    generalize hE : a.backAt sh isyn i = E at *
    unfold MArgs.fallAt at hA
    unfold MArgs.backAt at hE
    refine PW.congr (pw_ext this (fun d => ?_)) (fun _ _ => rfl)
    unfold gate
    rcases ha with ⟨ha, rfl⟩ | ⟨ha, rfl⟩ <;> rw [ha]
    · rw [if_neg (by decide), if_pos rfl, if_neg (by omega)]
      rw [show max 0 (-2 * a.ts isyn i + a.tmute isyn i - a.shift) = A by omega,
        show max 0 (-2 * a.ts isyn i + a.tmute isyn i - a.shift + a.smooth) = A + a.smooth by omega,
        show min (a.nt:Int) (a.nt + 1 - a.tmute isyn i + a.shift - a.smooth) = E - a.smooth + 1 by omega,
        show min (a.nt:Int) (a.nt - a.tmute isyn i + a.shift - a.smooth) = E - a.smooth by omega,
        show min (a.nt:Int) (a.nt - a.tmute isyn i + a.shift) = E by omega]
    · rw [if_neg (by decide), if_neg (by decide), if_pos rfl, if_neg (by omega)]
      rw [show max 0 (-2 * a.ts isyn i + a.tmute isyn i + a.shift) = A by omega,
        show max 0 (-2 * a.ts isyn i + a.tmute isyn i + a.shift + a.smooth) = A + a.smooth by omega,
        show min (a.nt:Int) (a.nt + 1 - a.tmute isyn i - a.shift - a.smooth) = E - a.smooth + 1 by omega,
        show min (a.nt:Int) (a.nt - a.tmute isyn i - a.shift - a.smooth) = E - a.smooth by omega,
        show min (a.nt:Int) (a.nt - a.tmute isyn i - a.shift) = E by omega])
  refine ⟨d', e1, fun isyn i t h1 h2 h3 => ⟨fun hne => ?_, fun he => ?_⟩, e3⟩
  · rw [e2 isyn i t h1 h2 h3, if_neg hne]
  · rw [e2 isyn i t h1 h2 h3, if_pos he, mul_one]

/-- **C168, part that fails.** The window `above=0` lets the sample at the end of its falling edge through: with any
data the sample at `tmute-2*ts-shift+smooth`, which lies in the muted zone, comes out unchanged.  The 2D program has
no such sample. -/
theorem theta3D_leak (a : MArgs) (d : Buf ℝ) (h : a.Ok d) (ha : a.above = 0) (hr : a.Room a.shift)
    (isyn i t : Nat) (h1 : isyn < a.Nfoc) (h2 : i < a.npos) (h3 : t < a.nt)
    (ht : (t:Int) = a.fallAt a.shift isyn i + a.smooth) :
    Spec.fall a.smooth (a.fallAt a.shift isyn i) t + Spec.rise a.smooth (a.backAt a.shift isyn i) t = 0 ∧
    ∃ d', applyMute3D a d = some d' ∧ d'.val (a.at isyn i t) = d.val (a.at isyn i t) := by
  obtain ⟨d', e1, e2, -⟩ := theta3D_partial a d h a.shift (Or.inl ⟨ha, rfl⟩) hr
  obtain ⟨g1, g2, g3, g4⟩ := hr.2 isyn i h1 h2
  refine ⟨?_, d', e1, (e2 isyn i t h1 h2 h3).2 ht⟩
  rw [fall_zero (by omega), rise_zero (by omega), add_zero]

/-- When the mute time is in the second half of the trace, `above=0` clears the trace. -/
theorem theta3D_late (a : MArgs) (d : Buf ℝ) (h : a.Ok d) (ha : a.above = 0 ∨ a.above = -2)
    (hr : ∀ isyn i, isyn < a.Nfoc → i < a.npos → (a.nt:Int) / 2 ≤ a.tmute isyn i) :
    ∃ d', applyMute3D a d = some d' ∧
      (∀ isyn i t : Nat, isyn < a.Nfoc → i < a.npos → t < a.nt → d'.val (a.at isyn i t) = 0) := by
  obtain ⟨d', e1, -, e2, -⟩ := applyMute3D_windows h (fun isyn i t => 0) (by
    intro isyn i h1 h2 base hb hN
    have hc := clearTrace_pw (N := d.size) (base := base) (nt := a.nt) hb hN
    refine PW.congr (pw_ext hc (fun d => ?_)) (fun x v => ?_)
    · unfold gate
      rcases ha with ha | ha <;> rw [ha]
      · rw [if_neg (by decide), if_pos rfl, if_pos (hr isyn i h1 h2)]
      · rw [if_neg (by decide), if_neg (by decide), if_pos rfl, if_pos (hr isyn i h1 h2)]
    · unfold winMap wMap; split_ifs <;> first | (exfalso; omega) | simp)
  exact ⟨d', e1, fun isyn i t h1 h2 h3 => by rw [e2 isyn i t h1 h2 h3, mul_zero]⟩

/-- **C168 (part).** The window `above=4` (keeps what is between the direct arrival and its negative): all but two
samples are multiplied with the rising edge at `tmute-shift` and the falling edge at `nt-tmute+shift`.  What is
missing are the sample just before the rising edge and the one at the end of the falling edge, which keep their
full values although they lie in the muted zones. -/
theorem psi3D_partial (a : MArgs) (d : Buf ℝ) (h : a.Ok d) (ha : a.above = 4)
    (hr : ∀ isyn i, isyn < a.Nfoc → i < a.npos → (a.smooth:Int) + 1 ≤ a.tmute isyn i - a.shift ∧
      a.tmute isyn i - a.shift ≤ a.nt - a.tmute isyn i + a.shift) :
    ∃ d', applyMute3D a d = some d' ∧
      (∀ isyn i t : Nat, isyn < a.Nfoc → i < a.npos → t < a.nt →
        ((t:Int) ≠ a.tmute isyn i - a.shift - a.smooth - 1 → (t:Int) ≠ a.nt - a.tmute isyn i + a.shift + a.smooth →
          d'.val (a.at isyn i t) = d.val (a.at isyn i t) *
          (Spec.rise a.smooth (a.tmute isyn i - a.shift) t * Spec.fall a.smooth (a.nt - a.tmute isyn i + a.shift) t)) ∧
        ((t:Int) = a.tmute isyn i - a.shift - a.smooth - 1 ∨ (t:Int) = a.nt - a.tmute isyn i + a.shift + a.smooth →
          d'.val (a.at isyn i t) = d.val (a.at isyn i t))) ∧
      (∀ isyn i t : Nat, isyn < a.Nfoc → a.npos ≤ i → i < a.nxs * a.nys → t < a.nt →
        d'.val (a.at isyn i t) = d.val (a.at isyn i t)) := by
  obtain ⟨d', e1, -, e2, e3⟩ := applyMute3D_windows h (fun isyn i t =>
      if t = a.tmute isyn i - a.shift - a.smooth - 1 ∨ t = a.nt - a.tmute isyn i + a.shift + a.smooth then 1 else
      Spec.rise a.smooth (a.tmute isyn i - a.shift) t * Spec.fall a.smooth (a.nt - a.tmute isyn i + a.shift) t) (by
    intro isyn i h1 h2 base hb hN
    obtain ⟨g1, g2⟩ := hr isyn i h1 h2
    have := gate_psi (N := d.size) (base := base) (nt := a.nt) a.smooth (a.tmute isyn i - a.shift) (a.nt - a.tmute isyn i + a.shift)
      hb hN (by omega) (by omega) (by omega)
    refine PW.congr (pw_ext this (fun d => ?_)) (fun _ _ => rfl)
    unfold gate
    rw [ha]
    rw [if_neg (by decide), if_neg (by decide), if_neg (by decide), if_neg (by decide), if_pos rfl]
    rw [show max 0 (a.tmute isyn i - a.shift) = a.tmute isyn i - a.shift by omega,
      show max 0 (a.tmute isyn i - a.shift - a.smooth) = a.tmute isyn i - a.shift - a.smooth by omega,
      show max 0 (a.tmute isyn i - a.shift - a.smooth - 1) = a.tmute isyn i - a.shift - a.smooth - 1 by omega,
      show min (a.nt:Int) (a.nt + 1 - a.tmute isyn i + a.shift + a.smooth) = a.nt - a.tmute isyn i + a.shift + a.smooth + 1 by omega,
      show min (a.nt:Int) (a.nt - a.tmute isyn i + a.shift + a.smooth) = a.nt - a.tmute isyn i + a.shift + a.smooth by omega,
      show min (a.nt:Int) (a.nt - a.tmute isyn i + a.shift) = a.nt - a.tmute isyn i + a.shift by omega])
  refine ⟨d', e1, fun isyn i t h1 h2 h3 => ⟨fun hne hne' => ?_, fun he => ?_⟩, e3⟩
  · rw [e2 isyn i t h1 h2 h3, if_neg (by tauto)]
  · rw [e2 isyn i t h1 h2 h3, if_pos he, mul_one]

/-- **C168.** The windows on one side of the direct arrival: `above=1` mutes everything before `tmute-2*ts-shift`,
`above=-1` everything after `tmute+ts-shift`, with a smooth edge, and nothing else changes. -/
theorem oneSided3D (a : MArgs) (d : Buf ℝ) (h : a.Ok d) (w : Nat → Nat → Int → ℝ)
    (ha : (a.above = 1 ∧ (∀ isyn i, isyn < a.Nfoc → i < a.npos →
        (a.smooth:Int) ≤ a.tmute isyn i - 2 * a.ts isyn i - a.shift ∧ a.tmute isyn i - 2 * a.ts isyn i - a.shift ≤ a.nt) ∧
        w = fun isyn i t => Spec.rise a.smooth (a.tmute isyn i - 2 * a.ts isyn i - a.shift) t) ∨
      (a.above = -1 ∧ (∀ isyn i, isyn < a.Nfoc → i < a.npos →
        0 ≤ a.tmute isyn i + a.ts isyn i - a.shift ∧ a.tmute isyn i + a.ts isyn i - a.shift + a.smooth ≤ a.nt) ∧
        w = fun isyn i t => Spec.fall a.smooth (a.tmute isyn i + a.ts isyn i - a.shift) t)) :
    ∃ d', applyMute3D a d = some d' ∧
      (∀ isyn i t : Nat, isyn < a.Nfoc → i < a.npos → t < a.nt →
        d'.val (a.at isyn i t) = d.val (a.at isyn i t) * w isyn i t) ∧
      (∀ isyn i t : Nat, isyn < a.Nfoc → a.npos ≤ i → i < a.nxs * a.nys → t < a.nt →
        d'.val (a.at isyn i t) = d.val (a.at isyn i t)) := by
  obtain ⟨d', e1, -, e2, e3⟩ := applyMute3D_windows h w (by
    intro isyn i h1 h2 base hb hN
    rcases ha with ⟨ha, hr, rfl⟩ | ⟨ha, hr, rfl⟩
    · obtain ⟨g1, g2⟩ := hr isyn i h1 h2
      have := gate_early (N := d.size) (base := base) (nt := a.nt) a.smooth (a.tmute isyn i - 2 * a.ts isyn i - a.shift)
        hb hN (by omega) (by omega)
      refine pw_ext this (fun d => ?_)
      unfold gate
      rw [ha, if_pos rfl, show max 0 (-2 * a.ts isyn i + a.tmute isyn i - a.shift - a.smooth) =
          a.tmute isyn i - 2 * a.ts isyn i - a.shift - a.smooth by omega,
        show max 0 (-2 * a.ts isyn i + a.tmute isyn i - a.shift) = a.tmute isyn i - 2 * a.ts isyn i - a.shift by omega]
    · obtain ⟨g1, g2⟩ := hr isyn i h1 h2
      have := gate_late (N := d.size) (base := base) (nt := a.nt) a.smooth (a.tmute isyn i + a.ts isyn i - a.shift)
        hb hN (by omega) (by omega)
      refine pw_ext this (fun d => ?_)
      unfold gate
      rw [ha, if_neg (by decide), if_neg (by decide), if_neg (by decide), if_pos rfl,
        show max 0 (a.ts isyn i + a.tmute isyn i - a.shift + a.smooth) =
          a.tmute isyn i + a.ts isyn i - a.shift + a.smooth by omega,
        show max 0 (a.ts isyn i + a.tmute isyn i - a.shift) = a.tmute isyn i + a.ts isyn i - a.shift by omega])
  exact ⟨d', e1, e2, e3⟩

/-- **C168.** The window `above=2` keeps what is within `shift` of the direct arrival. -/
theorem band3D (a : MArgs) (d : Buf ℝ) (h : a.Ok d) (ha : a.above = 2) (hsh : 0 ≤ a.shift)
    (hr : ∀ isyn i, isyn < a.Nfoc → i < a.npos → (a.smooth:Int) ≤ a.tmute isyn i - a.shift ∧
      a.tmute isyn i + a.shift + a.smooth ≤ a.nt) :
    ∃ d', applyMute3D a d = some d' ∧
      (∀ isyn i t : Nat, isyn < a.Nfoc → i < a.npos → t < a.nt →
        d'.val (a.at isyn i t) = d.val (a.at isyn i t) *
          (Spec.rise a.smooth (a.tmute isyn i - a.shift) t * Spec.fall a.smooth (a.tmute isyn i + a.shift) t)) ∧
      (∀ isyn i t : Nat, isyn < a.Nfoc → a.npos ≤ i → i < a.nxs * a.nys → t < a.nt →
        d'.val (a.at isyn i t) = d.val (a.at isyn i t)) := by
  obtain ⟨d', e1, -, e2, e3⟩ := applyMute3D_windows h (fun isyn i t =>
      Spec.rise a.smooth (a.tmute isyn i - a.shift) t * Spec.fall a.smooth (a.tmute isyn i + a.shift) t) (by
    intro isyn i h1 h2 base hb hN
    obtain ⟨g1, g2⟩ := hr isyn i h1 h2
    have := PW.comp (gate_early (N := d.size) (base := base) (nt := a.nt) a.smooth (a.tmute isyn i - a.shift)
        hb hN (by omega) (by omega))
      (gate_late (N := d.size) (base := base) (nt := a.nt) a.smooth (a.tmute isyn i + a.shift)
        hb hN (by omega) (by omega))
    refine PW.congr (pw_ext this (fun d => ?_)) (fun x v => wMap_comp _ _ x v)
    unfold gate
    rw [ha, if_neg (by decide), if_neg (by decide), if_neg (by decide), if_neg (by decide), if_neg (by decide), if_pos rfl]
    rw [show max 0 (a.tmute isyn i - a.shift) = a.tmute isyn i - a.shift by omega,
      show max 0 (a.tmute isyn i - a.shift - a.smooth) = a.tmute isyn i - a.shift - a.smooth by omega,
      show max 0 (a.tmute isyn i + a.shift + a.smooth) = a.tmute isyn i + a.shift + a.smooth by omega,
      show max 0 (a.tmute isyn i + a.shift) = a.tmute isyn i + a.shift by omega]
    rw [Option.bind_assoc])
  exact ⟨d', e1, e2, e3⟩

/-- One trace of twenty samples with the direct arrival at sample 6 and edges of two samples. -/
def oneTrace (above : Int) : MArgs where
  mute := ⟨1, fun _ => 6⟩
  smooth := 2
  above := above
  Nfoc := 1
  nxs := 1
  nys := 1
  nt := 20
  ixpos := ⟨1, fun _ => 0⟩
  iypos := ⟨1, fun _ => 0⟩
  npos := 1
  shift := 0
  tsynW := ⟨1, fun _ => 0⟩

theorem oneTrace_ok (above : Int) : (oneTrace above).Ok ⟨20, fun _ => 1⟩ where
  npos_le := le_rfl
  data := le_rfl
  ixpos := le_rfl
  iypos := le_rfl
  xrange := fun _ _ => ⟨le_rfl, by norm_num [oneTrace, MArgs.tmute, MArgs.ts, MArgs.fallAt, MArgs.backAt]⟩
  yrange := fun _ _ => ⟨le_rfl, by norm_num [oneTrace, MArgs.tmute, MArgs.ts, MArgs.fallAt, MArgs.backAt]⟩
  mute := le_rfl
  tsynW := le_rfl

theorem oneTrace_room (above : Int) : (oneTrace above).Room 0 :=
  ⟨two_pos, fun _ _ _ _ => ⟨by norm_num [oneTrace, MArgs.tmute, MArgs.ts, MArgs.fallAt, MArgs.backAt], by norm_num [oneTrace, MArgs.tmute, MArgs.ts, MArgs.fallAt, MArgs.backAt], by norm_num [oneTrace, MArgs.tmute, MArgs.ts, MArgs.fallAt, MArgs.backAt], by norm_num [oneTrace, MArgs.tmute, MArgs.ts, MArgs.fallAt, MArgs.backAt]⟩⟩

/-- Sample 3 is kept, sample 9 is cleared, sample 8 leaks. -/
example : ∃ d', applyMute3D (oneTrace 0) ⟨20, fun _ => 1⟩ = some d' ∧ d'.val 3 = 1 ∧ d'.val 9 = 0 ∧ d'.val 8 = 1 := by
  obtain ⟨d', e, h, -⟩ := theta3D_partial (oneTrace 0) ⟨20, fun _ => 1⟩ (oneTrace_ok 0) 0 (Or.inl ⟨rfl, rfl⟩) (oneTrace_room 0)
  refine ⟨d', e, ?_, ?_, ?_⟩
  · have := (h 0 0 3 (by decide) (by decide) (by decide)).1 (by decide)
    rw [fall_one (by decide), rise_zero (by decide)] at this
    change d'.val 3 = _ at this
    rw [this]; norm_num
  · have := (h 0 0 9 (by decide) (by decide) (by decide)).1 (by decide)
    rw [fall_zero (by decide), rise_zero (by decide)] at this
    change d'.val 9 = _ at this
    rw [this]; norm_num
  · exact (h 0 0 8 (by decide) (by decide) (by decide)).2 (by decide)

/-- Sample 3 leaks, sample 2 is cleared, sample 10 is kept. -/
example : ∃ d', applyMute3D (oneTrace 4) ⟨20, fun _ => 1⟩ = some d' ∧ d'.val 3 = 1 ∧ d'.val 2 = 0 ∧ d'.val 10 = 1 := by
  obtain ⟨d', e, h, -⟩ := psi3D_partial (oneTrace 4) ⟨20, fun _ => 1⟩ (oneTrace_ok 4) rfl (fun _ _ _ _ => ⟨by norm_num [oneTrace, MArgs.tmute, MArgs.ts, MArgs.fallAt, MArgs.backAt], by norm_num [oneTrace, MArgs.tmute, MArgs.ts, MArgs.fallAt, MArgs.backAt]⟩)
  refine ⟨d', e, (h 0 0 3 (by decide) (by decide) (by decide)).2 (Or.inl (by decide)), ?_, ?_⟩
  · have := (h 0 0 2 (by decide) (by decide) (by decide)).1 (by decide) (by decide)
    rw [rise_zero (by decide), zero_mul, mul_zero] at this
    exact this
  · have := (h 0 0 10 (by decide) (by decide) (by decide)).1 (by decide) (by decide)
    rw [rise_one (by decide), fall_one (by decide)] at this
    change d'.val 10 = _ at this
    rw [this]; norm_num

example : ∃ d', applyMute3D (oneTrace 1) ⟨20, fun _ => 1⟩ = some d' ∧ d'.val 3 = 0 ∧ d'.val 6 = 1 := by
  obtain ⟨d', e, h, -⟩ := oneSided3D (oneTrace 1) ⟨20, fun _ => 1⟩ (oneTrace_ok 1) _ (Or.inl ⟨rfl, fun _ _ _ _ => ⟨by norm_num [oneTrace, MArgs.tmute, MArgs.ts, MArgs.fallAt, MArgs.backAt], by norm_num [oneTrace, MArgs.tmute, MArgs.ts, MArgs.fallAt, MArgs.backAt]⟩, rfl⟩)
  refine ⟨d', e, ?_, ?_⟩
  · have := h 0 0 3 (by decide) (by decide) (by decide)
    rw [rise_zero (by decide), mul_zero] at this
    exact this
  · have := h 0 0 6 (by decide) (by decide) (by decide)
    rw [rise_one (by decide), mul_one] at this
    exact this

example : ∃ d', applyMute3D (oneTrace 2) ⟨20, fun _ => 1⟩ = some d' ∧ d'.val 3 = 0 ∧ d'.val 12 = 0 := by
  obtain ⟨d', e, h, -⟩ := band3D (oneTrace 2) ⟨20, fun _ => 1⟩ (oneTrace_ok 2) rfl le_rfl (fun _ _ _ _ => ⟨by norm_num [oneTrace, MArgs.tmute, MArgs.ts, MArgs.fallAt, MArgs.backAt], by norm_num [oneTrace, MArgs.tmute, MArgs.ts, MArgs.fallAt, MArgs.backAt]⟩)
  refine ⟨d', e, ?_, ?_⟩
  · have := h 0 0 3 (by decide) (by decide) (by decide)
    rw [rise_zero (by decide), zero_mul, mul_zero] at this
    exact this
  · have := h 0 0 12 (by decide) (by decide) (by decide)
    rw [fall_zero (by decide), mul_zero, mul_zero] at this
    exact this

end

end Verif.M3D

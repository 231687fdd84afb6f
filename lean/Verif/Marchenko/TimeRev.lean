import Verif.Base.Write
import Verif.Fft.OptN
import Mathlib.Tactic.Ring
import Mathlib.Data.Int.ModEq

/-!
# C15, C16, C17: time reversal, rotation and zero padding of traces in the Marchenko programs
-/

namespace Verif.Marchenko
open Verif
universe u
variable {α : Type u}

/-! ## C15: time reversal -/

/-- Time reversal of one trace starting at `base`, marchenko/readTinvData.c:190-193:
`memcpy(trace,&tinv[base],ntfft)`; `tinv[base] = trace[0]`;
`for (j=1; j<ntfft; j++) tinv[base+ntfft-j] = trace[j]`. -/
def reverseTrace (base : Int) (ntfft : Nat) (tinv : Buf α) : Option (Buf α) :=
  let trace := fun j : Int => tinv.val (base + j)      -- memcpy
  (tinv.wr base (trace 0)).bind fun tinv =>
  forNM (ntfft - 1) (fun k tinv => tinv.wr (base + ntfft - (k + 1 : Nat)) (trace (k + 1 : Nat))) tinv

/-- The loop over the traces of a shot for `mode == -1`, marchenko/readTinvData.c:188-195
(`ig` is the offset of the shot). -/
def reverseShot (ig : Int) (nx1 ntfft : Nat) (tinv : Buf α) : Option (Buf α) :=
  forNM nx1 (fun i tinv => reverseTrace (ig + i * ntfft) ntfft tinv) tinv

/-- Specification: the sample index of time `-t` on a periodic trace of `nt` samples. -/
def negTime (nt j : Nat) : Nat := (nt - j) % nt

theorem negTime_zero (nt : Nat) : negTime nt 0 = 0 := by simp [negTime]

theorem negTime_lt {nt j : Nat} (h : j < nt) : negTime nt j < nt := Nat.mod_lt _ (by omega)

theorem negTime_pos {nt j : Nat} (h0 : 0 < j) (h : j < nt) : negTime nt j = nt - j :=
  Nat.mod_eq_of_lt (by omega)

theorem negTime_negTime {nt j : Nat} (h : j < nt) : negTime nt (negTime nt j) = j := by
  rcases Nat.eq_zero_or_pos j with rfl | h0
  · simp [negTime_zero]
  · rw [negTime_pos h0 h, negTime_pos (by omega) (by omega)]; omega

theorem reverseTrace_spec (base : Int) (nt : Nat) (d : Buf α) (hnt : 0 < nt) (hb : 0 ≤ base)
    (hN : base + nt ≤ d.size) :
    ∃ d', reverseTrace base nt d = some d' ∧ d'.size = d.size ∧
      (∀ j : Nat, j < nt → d'.val (base + j) = d.val (base + (negTime nt j : Nat))) ∧
      (∀ x, x < base ∨ base + nt ≤ x → d'.val x = d.val x) := by
  unfold reverseTrace
  dsimp only
  have hok : d.ok base := ⟨hb, by omega⟩
  rw [Buf.wr_ok hok]
  simp only [Option.bind_some]
  obtain ⟨d', h1, h2, h3, h4⟩ := writes_spec (nt - 1) (fun k => base + nt - (k + 1 : Nat))
    (fun k => d.val (base + (k + 1 : Nat)))
    { d with val := fun k => if k = base then d.val (base + 0) else d.val k }
    (fun k hk => by dsimp only; omega) (fun k l hk hl h => by omega)
  refine ⟨d', h1, h2, ?_, ?_⟩
  · intro j hj
    rcases Nat.eq_zero_or_pos j with rfl | h0
    · rw [h4 _ (fun k hk => by push_cast; omega)]
      simp [negTime_zero]
    · have := h3 (nt - j - 1) (by omega)
      rw [negTime_pos h0 hj]
      rw [show (base + (j:Int)) = base + nt - ((nt - j - 1 + 1 : Nat) : Int) from by omega, this]
      congr 2; omega
  · intro x hx
    rw [h4 x (fun k hk => by omega)]
    exact if_neg (by omega)

theorem reverseShot_spec (ig : Int) (nx1 nt : Nat) (d : Buf α) (hnt : 0 < nt) (hb : 0 ≤ ig)
    (hN : ig + nx1 * nt ≤ d.size) :
    ∃ d', reverseShot ig nx1 nt d = some d' ∧ d'.size = d.size ∧
      (∀ i j : Nat, i < nx1 → j < nt →
        d'.val (ig + i * nt + j) = d.val (ig + i * nt + (negTime nt j : Nat))) ∧
      (∀ x, x < ig ∨ ig + nx1 * nt ≤ x → d'.val x = d.val x) := by
  have key := forNM_inv (n := nx1) (s := d)
    (body := fun i tinv => reverseTrace (ig + i * nt) nt tinv)
    (fun a d' => d'.size = d.size ∧
      (∀ i j : Nat, i < a → j < nt → d'.val (ig + i * nt + j) = d.val (ig + i * nt + (negTime nt j : Nat))) ∧
      (∀ x, x < ig ∨ ig + a * nt ≤ x → d'.val x = d.val x))
    ⟨rfl, fun i j h => absurd h (Nat.not_lt_zero _), fun x _ => rfl⟩ ?_
  · obtain ⟨d', h1, h2, h3, h4⟩ := key
    exact ⟨d', h1, h2, h3, h4⟩
  · rintro a ha d1 ⟨s1, s2, s3⟩
    have hle : (a * nt + nt : Int) ≤ nx1 * nt := by
      have : (a + 1) * nt ≤ nx1 * nt := Nat.mul_le_mul_right _ ha
      have h2 : a * nt + nt ≤ nx1 * nt := by rw [Nat.add_mul] at this; omega
      exact_mod_cast h2
    have hnn : (0:Int) ≤ a * nt := by positivity
    obtain ⟨d2, e1, e2, e3, e4⟩ := reverseTrace_spec (ig + a * nt) nt d1 hnt (by omega) (by omega)
    refine ⟨d2, e1, by omega, ?_, ?_⟩
    · intro i j hi hj
      rcases Nat.lt_succ_iff_lt_or_eq.mp hi with h | h
      · have : (i * nt + nt : Int) ≤ a * nt := by
          have : (i + 1) * nt ≤ a * nt := Nat.mul_le_mul_right _ h
          have h2 : i * nt + nt ≤ a * nt := by rw [Nat.add_mul] at this; omega
          exact_mod_cast h2
        rw [e4 _ (by omega), s2 i j h hj]
      · subst h
        rw [e3 j hj, s3 _ (by omega)]
    · intro x hx
      have : ((a+1 : Nat) * nt : Int) = a * nt + nt := by push_cast; ring
      rw [e4 x (by omega), s3 x (by omega)]

/-- **C15.** Time reversal: sample 0 of every trace is fixed, sample `j` becomes sample `nt-j`, and
nothing outside the shot is touched. -/
theorem reverseShot_reverses (ig : Int) (nx1 nt : Nat) (d : Buf α) (hnt : 0 < nt) (hb : 0 ≤ ig)
    (hN : ig + nx1 * nt ≤ d.size) :
    ∃ d', reverseShot ig nx1 nt d = some d' ∧
      (∀ i, i < nx1 → d'.val (ig + i * nt) = d.val (ig + i * nt)) ∧
      (∀ i j : Nat, i < nx1 → 0 < j → j < nt →
        d'.val (ig + i * nt + j) = d.val (ig + i * nt + (nt - j : Nat))) ∧
      (∀ x, x < ig ∨ ig + nx1 * nt ≤ x → d'.val x = d.val x) := by
  obtain ⟨d', h1, _, h3, h4⟩ := reverseShot_spec ig nx1 nt d hnt hb hN
  refine ⟨d', h1, ?_, ?_, h4⟩
  · intro i hi
    have := h3 i 0 hi hnt
    simpa [negTime_zero] using this
  · intro i j hi h0 hj
    rw [h3 i j hi hj, negTime_pos h0 hj]

/-- **C15.** Reversing all traces of a shot twice returns the original array, for every array,
shot offset, number of traces and trace length. -/
theorem reverseShot_involutive (ig : Int) (nx1 nt : Nat) (d : Buf α) (hnt : 0 < nt) (hb : 0 ≤ ig)
    (hN : ig + nx1 * nt ≤ d.size) :
    ∃ d', reverseShot ig nx1 nt d = some d' ∧ reverseShot ig nx1 nt d' = some d := by
  obtain ⟨d1, a1, a2, a3, a4⟩ := reverseShot_spec ig nx1 nt d hnt hb hN
  obtain ⟨d2, b1, b2, b3, b4⟩ := reverseShot_spec ig nx1 nt d1 hnt hb (by omega)
  refine ⟨d1, a1, ?_⟩
  rw [b1]
  have hv : d2.val = d.val := by
    funext x
    by_cases hx : x < ig ∨ ig + nx1 * nt ≤ x
    · rw [b4 x hx, a4 x hx]
    · obtain ⟨y, hy⟩ : ∃ y : Nat, x = ig + y := ⟨(x - ig).toNat, by omega⟩
      have hy2 : y < nx1 * nt := by
        have : (y:Int) < nx1 * nt := by omega
        exact_mod_cast this
      have hi : y / nt < nx1 := Nat.div_lt_of_lt_mul (by rw [Nat.mul_comm]; exact hy2)
      have hj : y % nt < nt := Nat.mod_lt _ hnt
      have hdm : y / nt * nt + y % nt = y := by rw [Nat.mul_comm]; exact Nat.div_add_mod y nt
      have hx2 : x = ig + (y / nt : Nat) * nt + (y % nt : Nat) := by
        rw [hy, add_assoc]; congr 1; exact_mod_cast hdm.symm
      rw [hx2, b3 _ _ hi hj, a3 _ _ hi (negTime_lt hj), negTime_negTime hj]
  have hs : d2.size = d.size := by omega
  cases d2; cases d; simp_all

/-- Two traces of four samples at offset 1 in a buffer of ten. -/
example : (reverseShot 1 2 4 (Buf.ofList [9,0,1,2,3,10,11,12,13,9])).map
    (fun d => (List.range 10).map fun k => d.val (k:Nat)) = some [9,0,3,2,1,10,13,12,11,9] := by decide

/-! ## C16: rotation of the output -/

/-- Rotation of one output trace, marchenko/marchenko.c:753-759 (f1plus; the same statements for
Gmin 711-717, Gplus 728-734, f1min 770-776): `memcpy(trace, &f[base], nts)`;
`for (j=0; j<n1/2; j++) f[base+n1/2+j] = trace[j]`;
`for (j=n1/2; j<n1; j++) f[base+j-n1/2] = trace[j]`. -/
def rotateTrace (base : Int) (n1 : Nat) (f : Buf α) : Option (Buf α) :=
  let trace := fun j : Int => f.val (base + j)
  (forNM (n1/2) (fun j f => f.wr (base + (n1/2 : Nat) + j) (trace j)) f).bind fun f =>
  forNM (n1 - n1/2) (fun k f => f.wr (base + (n1/2 + k : Nat) - (n1/2 : Nat)) (trace (n1/2 + k : Nat))) f

/-- What the rotation does, for even and odd lengths. -/
theorem rotateTrace_spec (base : Int) (n1 : Nat) (d : Buf α) (hb : 0 ≤ base)
    (hN : base + n1 ≤ d.size) :
    ∃ d', rotateTrace base n1 d = some d' ∧ d'.size = d.size ∧
      (∀ j : Nat, j < n1 - n1/2 → d'.val (base + j) = d.val (base + (n1/2 + j : Nat))) ∧
      (∀ j : Nat, n1 - n1/2 ≤ j → j < 2 * (n1/2) → d'.val (base + j) = d.val (base + (j - n1/2 : Nat))) ∧
      (∀ x, x < base ∨ base + (2 * (n1/2) : Nat) ≤ x → (n1 % 2 = 0 ∨ x ≠ base + (n1/2 : Nat)) →
        (x < base ∨ base + (n1 - n1/2 : Nat) ≤ x) → d'.val x = d.val x) := by
  unfold rotateTrace
  dsimp only
  obtain ⟨d1, h1, h2, h3, h4⟩ := writes_spec (n1/2) (fun j => base + (n1/2 : Nat) + j)
    (fun j => d.val (base + j)) d (fun k hk => by omega) (fun k l _ _ h => by omega)
  obtain ⟨d2, g1, g2, g3, g4⟩ := writes_spec (n1 - n1/2)
    (fun k => base + (n1/2 + k : Nat) - (n1/2 : Nat)) (fun k => d.val (base + (n1/2 + k : Nat))) d1
    (fun k hk => by omega) (fun k l _ _ h => by omega)
  refine ⟨d2, by rw [h1]; exact g1, by omega, ?_, ?_, ?_⟩
  · intro j hj
    rw [← g3 j hj]
    congr 1; omega
  · intro j hj1 hj2
    rw [g4 _ (fun k hk => by omega), ← h3 (j - n1/2) (by omega)]
    congr 1; omega
  · intro x hx _ hx3
    rw [g4 _ (fun k hk => by omega), h4 _ (fun k hk => by omega)]

/-- **C16.** For an even number of samples the written trace is the computed one shifted circularly
by half its length: sample `j` holds the old sample `j + n1/2` modulo `n1`. -/
theorem rotate_is_circular_shift (base : Int) (n1 : Nat) (d : Buf α) (hb : 0 ≤ base)
    (hN : base + n1 ≤ d.size) (he : n1 % 2 = 0) :
    ∃ d', rotateTrace base n1 d = some d' ∧
      (∀ j : Nat, j < n1 → d'.val (base + j) = d.val (base + ((j + n1/2) % n1 : Nat))) ∧
      (∀ x, x < base ∨ base + n1 ≤ x → d'.val x = d.val x) := by
  obtain ⟨d', h1, _, h3, h4, h5⟩ := rotateTrace_spec base n1 d hb hN
  refine ⟨d', h1, ?_, ?_⟩
  · intro j hj
    by_cases hc : j < n1/2
    · rw [h3 j (by omega), Nat.mod_eq_of_lt (by omega), Nat.add_comm]
    · rw [h4 j (by omega) (by omega)]
      congr 2
      rw [show j + n1/2 = (j - n1/2) + n1 from by omega, Nat.add_mod_right, Nat.mod_eq_of_lt (by omega)]
  · intro x hx
    exact h5 x (by omega) (Or.inl he) (by omega)

/-- **C16.** No sample is lost and none is duplicated: every old sample is found at exactly one place
(even length). -/
theorem rotate_loses_nothing (base : Int) (n1 : Nat) (d : Buf α) (hb : 0 ≤ base)
    (hN : base + n1 ≤ d.size) (he : n1 % 2 = 0) :
    ∃ (d' : Buf α) (σ : Nat → Nat), rotateTrace base n1 d = some d' ∧
      (∀ j, j < n1 → σ j < n1) ∧ (∀ k, k < n1 → ∃ j, j < n1 ∧ σ j = k ∧ ∀ j', j' < n1 → σ j' = k → j' = j) ∧
      (∀ j : Nat, j < n1 → d'.val (base + j) = d.val (base + (σ j : Nat))) := by
  obtain ⟨d', h1, h2, _⟩ := rotate_is_circular_shift base n1 d hb hN he
  have hm : ∀ j, j < n1 → (j + n1/2) % n1 = if j < n1/2 then j + n1/2 else j - n1/2 := by
    intro j hj
    split
    · exact Nat.mod_eq_of_lt (by omega)
    · rw [show j + n1/2 = (j - n1/2) + n1 from by omega, Nat.add_mod_right, Nat.mod_eq_of_lt (by omega)]
  refine ⟨d', fun j => (j + n1/2) % n1, h1, fun j hj => Nat.mod_lt _ (by omega), ?_, h2⟩
  intro k hk
  refine ⟨if k < n1/2 then k + n1/2 else k - n1/2, by split <;> omega, ?_, ?_⟩
  · dsimp only
    rw [hm _ (by split <;> omega)]
    split <;> split <;> omega
  · intro j' hj' h
    dsimp only at h
    rw [hm j' hj'] at h
    split at h <;> split <;> omega

/-- The time-zero sample (old sample 0) ends up in the middle, at `n1/2`, as announced in the
parameter documentation (marchenko.c:110). -/
theorem rotate_t0_in_middle (base : Int) (n1 : Nat) (d : Buf α) (hb : 0 ≤ base)
    (hN : base + n1 ≤ d.size) (he : n1 % 2 = 0) (h0 : 0 < n1) :
    ∃ d', rotateTrace base n1 d = some d' ∧ d'.val (base + (n1/2 : Nat)) = d.val base := by
  obtain ⟨d', h1, h2, _⟩ := rotate_is_circular_shift base n1 d hb hN he
  refine ⟨d', h1, ?_⟩
  rw [h2 _ (by omega), show n1/2 + n1/2 = n1 from by omega, Nat.mod_self]
  simp

/-- For odd lengths the sample at time zero would be lost and the last sample appear twice. -/
theorem rotate_odd_loses_t0 (base : Int) (m : Nat) (d : Buf α) (hb : 0 ≤ base)
    (hN : base + (2*m+1 : Nat) ≤ d.size) :
    ∃ d', rotateTrace base (2*m+1) d = some d' ∧
      d'.val (base + m) = d.val (base + (2*m : Nat)) ∧ d'.val (base + (2*m : Nat)) = d.val (base + (2*m : Nat)) := by
  obtain ⟨d', h1, _, h3, h4, h5⟩ := rotateTrace_spec base (2*m+1) d hb hN
  refine ⟨d', h1, ?_, ?_⟩
  · rw [h3 m (by omega)]; congr 2; omega
  · by_cases hm : m = 0
    · subst hm
      have := h3 0 (by omega)
      simpa using this
    · exact h5 _ (by omega) (by omega) (by omega)

example : (rotateTrace 1 6 (Buf.ofList [9,0,1,2,3,4,5,9])).map
    (fun d => (List.range 8).map fun k => d.val (k:Nat)) = some [9,3,4,5,0,1,2,9] := by decide

/-- The length used by the program, `nts = ntfft = optncr(n)` (marchenko.c:207, 263, 422), is even
for every `n ≥ 2`, so the even-length theorems apply. -/
theorem nts_even (n : Nat) (hn : 2 ≤ n) : Fft.optncr n % 2 = 0 := by
  have hp : 2 ≤ Fft.pow2Len n := by
    have := Fft.le_pow2Len (n := n) (k := 1) (by
      have := Fft.le_logb_of_le (n := n) (k := 1) (by omega) (by omega)
      push_cast at this ⊢; linarith)
    omega
  have he : Fft.pow2Len n % 2 = 0 := by
    unfold Fft.pow2Len at hp ⊢
    generalize (⌊Real.logb 2 n + 9999/10000⌋).toNat = k at *
    cases k with
    | zero => norm_num at hp
    | succ k => rw [pow_succ]; omega
  unfold Fft.optncr
  dsimp only
  split
  · split
    · unfold Fft.npfar; omega
    · exact he
  · next h => rw [← not_not.mp h]; exact he

/-! ## C17: zero padding of a shot trace -/

/-- The time-domain part of the trace loop of readShotData for one trace: `fread` of `nt` samples into
the buffer of `ntfft` floats (marchenko/readShotData.c:96), then
`if (ntfft > hdr.ns) memset(&trace[nt-1], 0, sizeof(float)*(ntfft-nt))` (114-115).  The buffer that
goes into rc1fft is returned.  Not modelled here: the optional gain (tsq, Q), which multiplies the
samples read. -/
def padTrace [Zero α] (nt ntfft : Nat) (samples : Nat → α) (trace : Buf α) : Option (Buf α) :=
  (forNM nt (fun k trace => trace.wr k (samples k)) trace).bind fun trace =>
  if ntfft > nt then forNM (ntfft - nt) (fun k trace => trace.wr ((nt:Int) - 1 + k) 0) trace else some trace

/-- The buffer after reading a sequence of traces, starting from `calloc` (readShotData.c:57); the list
of buffers handed to the transform. -/
def padTraces [Zero α] (nt ntfft : Nat) : List (Nat → α) → Buf α → Option (List (Buf α))
  | [], _ => some []
  | s :: rest, trace => (padTrace nt ntfft s trace).bind fun t =>
      (padTraces nt ntfft rest t).map fun ts => t :: ts

/-- The trace handed to the transform: all samples but the last one, then zeros. -/
theorem padTrace_spec [Zero α] (nt ntfft : Nat) (hnt : 0 < nt) (h : nt < ntfft) (s : Nat → α) (t : Buf α)
    (hs : t.size = ntfft) (hz : t.val (ntfft - 1 : Nat) = 0) :
    ∃ t', padTrace nt ntfft s t = some t' ∧ t'.size = ntfft ∧ (∀ j : Nat, j < nt - 1 → t'.val j = s j) ∧
      (∀ j : Nat, nt - 1 ≤ j → j < ntfft → t'.val j = 0) := by
  unfold padTrace
  obtain ⟨t1, h1, h2, h3, h4⟩ := writes_spec nt (fun k => (k:Int)) s t
    (fun k hk => by omega) (fun k l _ _ h => by exact_mod_cast h)
  obtain ⟨t2, g1, g2, g3, g4⟩ := writes_spec (ntfft - nt) (fun k => (nt:Int) - 1 + k) (fun _ => (0:α)) t1
    (fun k hk => by omega) (fun k l _ _ h => by omega)
  refine ⟨t2, by rw [h1]; simp only [Option.bind_some]; rw [if_pos h]; exact g1, by omega, ?_, ?_⟩
  · intro j hj
    rw [g4 _ (fun k hk => by omega), h3 j (by omega)]
  · intro j hj1 hj2
    by_cases hc : j = ntfft - 1
    · rw [g4 _ (fun k hk => by omega), h4 _ (fun k hk => by omega), hc, hz]
    · have := g3 (j + 1 - nt) (by omega)
      rw [← this]; congr 1; omega

/-- What every transform of the run gets, for all numbers and contents of traces. -/
theorem padTraces_spec [Zero α] (nt ntfft : Nat) (hnt : 0 < nt) (h : nt < ntfft) (l : List (Nat → α)) :
    ∀ (t : Buf α), t.size = ntfft → t.val (ntfft - 1 : Nat) = 0 →
    ∃ ts, padTraces nt ntfft l t = some ts ∧ List.Forall₂ (fun (s : Nat → α) (t' : Buf α) =>
      ∀ j : Nat, j < ntfft → t'.val j = if j < nt - 1 then s j else 0) l ts := by
  induction l with
  | nil => intro t _ _; exact ⟨[], rfl, List.Forall₂.nil⟩
  | cons s l ih =>
    intro t hs hz
    obtain ⟨t', h1, h2, h3, h4⟩ := padTrace_spec nt ntfft hnt h s t hs hz
    obtain ⟨ts, g1, g2⟩ := ih t' h2 (h4 _ (by omega) (by omega))
    refine ⟨t' :: ts, by simp [padTraces, h1, g1], List.Forall₂.cons ?_ g2⟩
    intro j hj
    split
    · exact h3 j (by assumption)
    · exact h4 j (by omega) hj

/-- **C17 is false**: when the transform is longer than the trace, the last recorded sample of every
trace is replaced by zero, whatever it was. -/
theorem last_sample_lost [Zero α] (nt ntfft : Nat) (hnt : 0 < nt) (h : nt < ntfft) (l : List (Nat → α)) :
    ∃ ts, padTraces nt ntfft l ⟨ntfft, fun _ => 0⟩ = some ts ∧ ts.length = l.length ∧
      ∀ t ∈ ts, t.val (nt - 1 : Nat) = 0 := by
  obtain ⟨ts, g1, g2⟩ := padTraces_spec nt ntfft hnt h l ⟨ntfft, fun _ => 0⟩ rfl rfl
  refine ⟨ts, g1, g2.length_eq.symm, ?_⟩
  intro t ht
  obtain ⟨k, hk, rfl⟩ := List.mem_iff_getElem.mp ht
  have := g2.get (i := k) (by rw [g2.length_eq]; exact hk) hk
  have := this (nt - 1) (by omega)
  simpa using this

/-- **C17 (partial).** If the last sample of every trace is zero (or no padding is needed, see
`no_padding_partial`) each transform gets the recorded samples followed by zeros.  Missing: traces whose
last sample is not zero, for which the claim is false. -/
theorem all_samples_used_partial [Zero α] (nt ntfft : Nat) (hnt : 0 < nt) (h : nt < ntfft)
    (l : List (Nat → α)) (hl : ∀ s ∈ l, s (nt - 1) = 0) :
    ∃ ts, padTraces nt ntfft l ⟨ntfft, fun _ => 0⟩ = some ts ∧
      List.Forall₂ (fun (s : Nat → α) (t : Buf α) =>
        ∀ j : Nat, j < ntfft → t.val j = if j < nt then s j else 0) l ts := by
  obtain ⟨ts, g1, g2⟩ := padTraces_spec nt ntfft hnt h l ⟨ntfft, fun _ => 0⟩ rfl rfl
  refine ⟨ts, g1, ?_⟩
  rw [List.forall₂_iff_get] at g2 ⊢
  refine ⟨g2.1, fun i h1 h2 j hj => ?_⟩
  rw [g2.2 i h1 h2 j hj]
  by_cases c1 : j < nt - 1
  · rw [if_pos c1, if_pos (by omega)]
  · rw [if_neg c1]
    by_cases c2 : j < nt
    · have : j = nt - 1 := by omega
      rw [if_pos c2, this, hl _ (List.get_mem l ⟨i, h1⟩)]
    · rw [if_neg c2]

example : ∀ s ∈ [fun k : Nat => if k < 3 then (k:Int) + 1 else 0, fun _ => 0], s (4 - 1) = 0 := by decide

/-- **C17 (partial).** Without padding all samples are used. -/
theorem no_padding_partial [Zero α] (nt : Nat) (s : Nat → α) (t : Buf α) (hs : t.size = nt) :
    ∃ t', padTrace nt nt s t = some t' ∧ ∀ j : Nat, j < nt → t'.val j = s j := by
  unfold padTrace
  obtain ⟨t1, h1, _, h3, _⟩ := writes_spec nt (fun k => (k:Int)) s t
    (fun k hk => by omega) (fun k l _ _ h => by exact_mod_cast h)
  exact ⟨t1, by rw [h1]; simp, h3⟩

/-- If the chosen transform length is too short (possible, see `Fft.optn_too_short`) reading a trace writes
outside the buffer. -/
theorem short_transform_overflows [Zero α] (nt ntfft : Nat) (h : ntfft < nt) (s : Nat → α) (t : Buf α)
    (hs : t.size = ntfft) : padTrace nt ntfft s t = none := by
  have key : ∀ m, forNM (ntfft + 1 + m) (fun k (trace : Buf α) => trace.wr k (s k)) t = none := by
    intro m
    induction m with
    | zero =>
      obtain ⟨t1, h1, h2, _⟩ := writes_spec ntfft (fun k => (k:Int)) s t
        (fun k hk => by omega) (fun k l _ _ h => by exact_mod_cast h)
      have hnok : ¬ t1.ok (ntfft : Nat) := by unfold Buf.ok; omega
      show forNM (ntfft + 1) _ t = none
      rw [forNM_succ, h1]
      show Buf.wr t1 _ _ = none
      unfold Buf.wr
      rw [if_neg hnok]
    | succ m ih => rw [← Nat.add_assoc, forNM_succ, ih]; rfl
  unfold padTrace
  rw [show nt = ntfft + 1 + (nt - ntfft - 1) from by omega, key]
  rfl

example : padTrace 16385 (Fft.optncr 16385) (fun _ => (1:Int)) ⟨Fft.optncr 16385, fun _ => 0⟩ = none :=
  short_transform_overflows _ _ (by rw [Fft.optn_too_short.2]; decide) _ _ rfl

end Verif.Marchenko

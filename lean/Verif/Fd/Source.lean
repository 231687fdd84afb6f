import Mathlib.Data.Rat.Floor
import Mathlib.Tactic.Ring
import Mathlib.Tactic.Linarith
import Mathlib.Tactic.NormNum
import Mathlib.Tactic.FieldSimp
import Mathlib.Tactic.Positivity

/-! # C30: the source amplitude read from the wavelet

Exact rational arithmetic in place of `float`. -/

namespace Verif.Fd.Source

/-- Start and end time of a source (`src.tbeg[isrc]`, `src.tend[isrc]`). -/
structure Src where
  tbeg : Rat
  tend : Rat

/-- Outcome of the amplitude computation: the source is silent, or it has an amplitude. -/
inductive Amp
  | silent
  | value (a : Rat)
deriving DecidableEq

/-- Amplitude of a source at time step `itime` (applySource.c:104-121): `nt` is `wav.nt`, `w` the samples that were allocated for
the wavelet of this source. `none` when an element outside them is read. -/
def amplitude (dt t0 : Rat) (nt : Nat) (w : List Rat) (s : Src) (itime : Int) : Option Amp :=
  let time := itime * dt - s.tbeg + t0
  let id1 := ⌊time / dt⌋
  let id2 := id1 + 1
  if time < 0 ∨ itime * dt + t0 ≥ s.tend ∨ id2 > nt then some .silent
  else
    match w[id1.toNat]?, w[id2.toNat]? with
    | some a, some b => some (.value (a * (id2 - time / dt) + b * (time / dt - id1)))
    | _, _ => none

/-- `NINT` (fdelmodc.h / par.h: `(int)((x)>0.0?(x)+0.5:(x)-0.5)`) of a non-negative number. -/
def nint (x : Rat) : Int := ⌊x + 1 / 2⌋

/-- A source with the wavelet of the source file: point, array and plane-wave sources (getParameters.c:818-819, 880-882, 914-919;
`wav.dt` and `mod.dt` agree there, getParameters.c:158-170). -/
def fileSrc (dt : Rat) (nt : Nat) (tbeg : Rat) : Src := ⟨tbeg, tbeg + (nt - 1) * dt⟩

/-- Random source positions with the wavelet of the file end at the latest with the modelling (getParameters.c:744). -/
def fileSrcCut (dt : Rat) (nt : Nat) (tbeg tmod : Rat) : Src := ⟨tbeg, min (tbeg + (nt - 1) * dt) tmod⟩

/-- Number of samples allocated for a random signal (getParameters.c:741, 834, 935; fdelmodc.c:389-396). -/
def randomLen (dt : Rat) (s : Src) : Int := nint ((s.tend - s.tbeg) / dt) + 1

/-! ## Property theorems -/

/-- Linear interpolation of the samples `w` at the position `x`. -/
def interp (w : Int → Rat) (x : Rat) : Rat := w ⌊x⌋ * (1 - Int.fract x) + w (⌊x⌋ + 1) * Int.fract x

/-- Samples as a function on the integers. -/
def smp (w : List Rat) (i : Int) : Rat := w.getD i.toNat 0

theorem amplitude_active {dt t0 : Rat} (hdt : 0 < dt) {nt : Nat} {w : List Rat} {s : Src} {itime : Int}
    (hb : s.tbeg ≤ itime * dt + t0) (he : itime * dt + t0 < s.tend) (hlen : s.tend - s.tbeg ≤ (w.length - 1) * dt)
    (hnt : w.length ≤ nt) :
    amplitude dt t0 nt w s itime = some (.value (interp (smp w) ((itime * dt + t0 - s.tbeg) / dt))) := by
  obtain ⟨x, hx⟩ : ∃ x, x = (itime * dt + t0 - s.tbeg) / dt := ⟨_, rfl⟩
  have ht : itime * dt - s.tbeg + t0 = x * dt := by rw [hx]; field_simp; ring
  have hx0 : 0 ≤ x := by rw [hx]; apply div_nonneg <;> linarith
  have hx1 : x < w.length - 1 := by
    rw [hx, div_lt_iff₀ hdt]; linarith
  have hf0 : 0 ≤ ⌊x⌋ := Int.floor_nonneg.mpr hx0
  have hf1 : ⌊x⌋ + 1 < (w.length : Int) := by
    have : ⌊x⌋ < (w.length : Int) - 1 := Int.floor_lt.mpr (by push_cast; exact hx1)
    omega
  unfold amplitude
  simp only [ht, mul_div_cancel_right₀ x hdt.ne']
  rw [if_neg]
  · have e1 : w[⌊x⌋.toNat]? = some (smp w ⌊x⌋) := by
      rw [List.getElem?_eq_getElem (by omega)]
      simp [smp, List.getElem?_eq_getElem (show ⌊x⌋.toNat < w.length by omega)]
    have e2 : w[(⌊x⌋ + 1).toNat]? = some (smp w (⌊x⌋ + 1)) := by
      rw [List.getElem?_eq_getElem (by omega)]
      simp [smp, List.getElem?_eq_getElem (show (⌊x⌋ + 1).toNat < w.length by omega)]
    rw [e1, e2, ← hx]
    simp only [interp, Int.fract]
    push_cast
    ring_nf
  · rintro (h | h | h)
    · have : 0 ≤ x * dt := mul_nonneg hx0 hdt.le
      linarith
    · linarith
    · have : (w.length : Int) ≤ nt := by exact_mod_cast hnt
      omega

theorem amplitude_silent {dt t0 : Rat} {nt : Nat} {w : List Rat} {s : Src} {itime : Int}
    (h : itime * dt + t0 < s.tbeg ∨ s.tend ≤ itime * dt + t0) : amplitude dt t0 nt w s itime = some .silent := by
  unfold amplitude
  rw [if_pos]
  rcases h with h | h
  · exact .inl (by linarith)
  · exact .inr (.inl h)

/-- C30 (partial: wavelets read from a file). At every time step, for every start time: the source is silent before its start and
from its end on, and in between its amplitude is the linear interpolation of the `nt` samples of its wavelet, all of which
are inside the array. -/
theorem file_wavelet_interpolated_partial {dt : Rat} (hdt : 0 < dt) (t0 tbeg tmod : Rat) {nt : Nat} {w : List Rat}
    (hw : w.length = nt) (itime : Int) (s : Src) (hs : s = fileSrc dt nt tbeg ∨ s = fileSrcCut dt nt tbeg tmod) :
    amplitude dt t0 nt w s itime =
      some (if tbeg ≤ itime * dt + t0 ∧ itime * dt + t0 < s.tend
        then .value (interp (smp w) ((itime * dt + t0 - tbeg) / dt)) else .silent) := by
  have hb : s.tbeg = tbeg := by rcases hs with rfl | rfl <;> rfl
  have hl : s.tend - s.tbeg ≤ ((w.length : Rat) - 1) * dt := by
    rw [hw]
    rcases hs with rfl | rfl
    · simp only [fileSrc]; linarith
    · simp only [fileSrcCut]
      have := min_le_left (tbeg + ((nt : Rat) - 1) * dt) tmod
      linarith
  split
  · rename_i h
    rw [← hb] at h ⊢
    exact amplitude_active hdt h.1 h.2 hl hw.le
  · rename_i h
    refine amplitude_silent ?_
    rw [hb]
    by_contra hc
    push Not at hc
    exact h hc

/-- C30: interpolation reproduces the samples at the sample times. -/
theorem interp_at_samples (w : Int → Rat) (j : Int) : interp w j = w j := by
  unfold interp
  rw [Int.floor_intCast, Int.fract_intCast]
  ring

/-- C30: between two samples the interpolated value lies between them. -/
theorem interp_between (w : Int → Rat) (x lo hi : Rat) (h0 : lo ≤ w ⌊x⌋ ∧ w ⌊x⌋ ≤ hi)
    (h1 : lo ≤ w (⌊x⌋ + 1) ∧ w (⌊x⌋ + 1) ≤ hi) : lo ≤ interp w x ∧ interp w x ≤ hi := by
  unfold interp
  have f0 := Int.fract_nonneg x
  have f1 := Int.fract_lt_one x
  constructor <;> nlinarith [h0.1, h0.2, h1.1, h1.2]

/-- A point source at time zero: at time step `j` the amplitude is sample `j` of the wavelet, for every sample except the last. -/
theorem point_source_sample {dt : Rat} (hdt : 0 < dt) {w : List Rat} (j : Nat) (hj : j + 1 < w.length) :
    amplitude dt 0 w.length w (fileSrc dt w.length 0) j = some (.value (smp w j)) := by
  rw [file_wavelet_interpolated_partial hdt 0 0 0 rfl j _ (.inl rfl), if_pos]
  · rw [show ((j : Int) * dt + 0 - 0) / dt = ((j : Int) : Rat) by push_cast; field_simp; ring, interp_at_samples]
  · have hj' : (j : Rat) + 1 < w.length := by exact_mod_cast hj
    have : (0 : Rat) ≤ j := Nat.cast_nonneg j
    simp only [fileSrc]
    push_cast
    constructor <;> nlinarith

/-- C30 is false of the last sample: at its own time the source is already silent, so it is never applied. -/
theorem last_sample_silent {dt : Rat} {w : List Rat} (j : Int) (hj : (w.length : Int) - 1 ≤ j) (hdt : 0 < dt) :
    amplitude dt 0 w.length w (fileSrc dt w.length 0) j = some .silent := by
  refine amplitude_silent (.inr ?_)
  have : ((w.length : Rat) - 1) ≤ j := by exact_mod_cast hj
  simp only [fileSrc]
  nlinarith

/-- Random signals (partial): when the duration is a whole number of samples, or its fraction is at least one half, no time step
reads outside the samples allocated for the signal. -/
theorem random_in_bounds_partial {dt : Rat} (hdt : 0 < dt) (t0 : Rat) {nt : Nat} {w : List Rat} (s : Src)
    (hw : (w.length : Int) = randomLen dt s) (hnt : w.length ≤ nt)
    (hfr : Int.fract ((s.tend - s.tbeg) / dt) = 0 ∨ 1 / 2 ≤ Int.fract ((s.tend - s.tbeg) / dt)) (itime : Int) :
    amplitude dt t0 nt w s itime ≠ none := by
  by_cases h : s.tbeg ≤ itime * dt + t0 ∧ itime * dt + t0 < s.tend
  · rw [amplitude_active hdt h.1 h.2 ?_ hnt]
    · simp
    · obtain ⟨y, hy⟩ : ∃ y, y = (s.tend - s.tbeg) / dt := ⟨_, rfl⟩
      have he : s.tend - s.tbeg = y * dt := by rw [hy]; field_simp
      rw [he]
      refine mul_le_mul_of_nonneg_right ?_ hdt.le
      have hl : ((w.length : Rat) - 1) = (nint y : Rat) := by
        have : ((w.length : Int) : Rat) = ((randomLen dt s : Int) : Rat) := by rw [hw]
        unfold randomLen at this
        rw [← hy] at this
        push_cast at this
        rw [this]; ring
      rw [hl]
      rw [← hy] at hfr
      unfold nint
      have hfl := Int.floor_add_fract y
      rcases hfr with hf | hf
      · have : ⌊y⌋ ≤ ⌊y + 1 / 2⌋ := Int.floor_mono (by linarith)
        have : (⌊y⌋ : Rat) ≤ (⌊y + 1 / 2⌋ : Rat) := by exact_mod_cast this
        linarith
      · have : ⌊y⌋ + 1 ≤ ⌊y + 1 / 2⌋ := Int.le_floor.mpr (by push_cast; linarith)
        have : (⌊y⌋ : Rat) + 1 ≤ (⌊y + 1 / 2⌋ : Rat) := by exact_mod_cast this
        have := Int.fract_lt_one y
        linarith
  · rw [amplitude_silent]
    · simp
    · by_contra hc
      push Not at hc
      exact h hc

/-- C30 is false of random signals: a signal of 2.25 samples duration is given 3 samples, and at the third time step elements 2
and 3 are read. -/
theorem random_overrun : ∃ (dt : Rat) (s : Src) (w : List Rat) (nt : Nat) (itime : Int), 0 < dt ∧ (w.length : Int) = randomLen dt s ∧
    w.length ≤ nt ∧ amplitude dt 0 nt w s itime = none := by
  have f1 : ⌊(9 / 4 + 1 / 2 : Rat)⌋ = 2 := by rw [Int.floor_eq_iff]; norm_num
  refine ⟨1, ⟨0, 9 / 4⟩, [0, 0, 0], 10, 2, by norm_num, ?_, by norm_num, ?_⟩
  · rw [randomLen, nint, show ((9 / 4 : Rat) - 0) / 1 = 9 / 4 by norm_num, f1]; rfl
  · have f2 : ⌊(2 : Rat)⌋ = 2 := by rw [Int.floor_eq_iff]; norm_num
    unfold amplitude
    norm_num [f2]

/-- The hypotheses are met by a wavelet of three samples. -/
example : amplitude (1 / 2) 0 3 [1, 4, 9] (fileSrc (1 / 2) 3 0) 1 = some (.value 4) :=
  point_source_sample (by norm_num) (w := [1, 4, 9]) 1 (by norm_num)

example : ∃ (s : Src) (w : List Rat), (w.length : Int) = randomLen 1 s ∧ Int.fract ((s.tend - s.tbeg) / 1) = 0 ∧ 1 < w.length :=
  ⟨⟨0, 2⟩, [0, 1, 0], by
    have : ⌊(2 + 1 / 2 : Rat)⌋ = 2 := by rw [Int.floor_eq_iff]; norm_num
    rw [randomLen, nint, show ((2 : Rat) - 0) / 1 = 2 by norm_num, this]; rfl, by
    rw [show ((2 : Rat) - 0) / 1 = ((2 : Int) : Rat) by norm_num]; exact Int.fract_intCast 2, by norm_num⟩

end Verif.Fd.Source

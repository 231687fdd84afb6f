import Verif.Fd.Recording
import Mathlib.Data.List.Nodup
import Mathlib.Tactic.Linarith

/-!
# C23: the recording step stores every sample once, at a valid position

All statements are for `mod.t0 = 0` (no negative start time): a modelling time of `T` steps, a
recording delay of `D` steps and a sampling ratio of `S` steps.
-/

namespace Verif.Fd
open Verif

/-- Every store position lies inside the trace of `nt` samples. -/
def InRange (r : RecPar) : Prop := ∀ s ∈ (recRun r).stores, 0 ≤ s.isam ∧ s.isam < r.nt

/-- The steps at which the receivers are read are exactly the multiples of `S` after the delay,
each once and in order — for every trace length. -/
theorem recorded_steps (R S D T : Nat) (hR : 0 < R) (hS : 0 < S) :
    ((recRun ⟨R, S, D, T, 0⟩).stores.map Store.it).Pairwise (· < ·) ∧
    ∀ it : Int, it ∈ (recRun ⟨R, S, D, T, 0⟩).stores.map Store.it ↔
      ∃ k : Nat, it = D + k * S ∧ D + k * S < T := by
  rw [recRun_hist R S D T hR hS]
  have hm : (histAt R S D T (nRec S (T - D))).stores.map Store.it =
      (List.range (nRec S (T - D))).map fun k => ((D + k * S : Nat) : Int) := by
    simp [histAt, Function.comp_def]
  rw [hm]
  constructor
  · rw [List.pairwise_map]
    refine List.Pairwise.imp ?_ List.pairwise_lt_range
    intro a b hab
    have : a * S < b * S := Nat.mul_lt_mul_of_pos_right hab hS
    omega
  · intro it
    simp only [List.mem_map, List.mem_range, lt_nRec hS]
    constructor
    · rintro ⟨k, h1, h2⟩; exact ⟨k, by rw [← h2]; push_cast; rfl, by omega⟩
    · rintro ⟨k, h1, h2⟩; exact ⟨k, by omega, by rw [h1]; push_cast; rfl⟩

example : (recRun ⟨5, 2, 1, 8, 0⟩).stores = [⟨1,1⟩, ⟨3,2⟩, ⟨5,3⟩, ⟨7,4⟩] := by decide

/-- All samples fall inside their trace exactly when there are fewer samples than `R`:
a trace of `R` positions never has room for `R` samples, because position 0 is never used. -/
theorem inRange_iff (R S D T : Nat) (hR : 0 < R) (hS : 0 < S) :
    InRange ⟨R, S, D, T, 0⟩ ↔ T ≤ D + (R - 1) * S := by
  unfold InRange
  rw [recRun_hist R S D T hR hS]
  simp only [histAt, List.mem_map, List.mem_range, lt_nRec hS]
  constructor
  · intro h
    by_contra hc
    have := h ⟨((D + (R-1) * S : Nat):Int), (((R-1) % R + 1 : Nat) : Int)⟩ ⟨R-1, by omega, rfl⟩
    rw [Nat.mod_eq_of_lt (by omega : R - 1 < R)] at this
    simp only [] at this
    omega
  · rintro h s ⟨k, hk, rfl⟩
    have hk1 : k < R - 1 := by
      by_contra hc
      have : (R-1) * S ≤ k * S := Nat.mul_le_mul_right _ (by omega)
      omega
    have : k % R ≤ k := Nat.mod_le _ _
    simp only []
    omega

/-- **C23, as documented, is false in general.**  With the default trace length
(no `rec_ntsam`), every sample is stored inside its trace if and only if the recording interval
is a whole number of receiver samples. -/
theorem default_inRange_iff (T D S : Nat) (dt : ℚ) (hdt : 0 < dt) (hS : 0 < S) (hD : D ≤ T) :
    InRange (recPar (T * dt) (D * dt) dt S none) ↔ S ∣ T - D := by
  have hT : NINT ((T:ℚ) * dt / dt) = T := by
    rw [mul_div_assoc, div_self hdt.ne', mul_one]; exact NINT_int T
  have hDe : NINT ((D:ℚ) * dt / dt) = D := by
    rw [mul_div_assoc, div_self hdt.ne', mul_one]; exact NINT_int D
  have hr : recPar (T * dt) (D * dt) dt S none = ⟨((T - D) / S + 1 : Nat), S, D, T, 0⟩ := by
    unfold recPar
    rw [recNt_default T D S dt hdt hS hD, hT, hDe]
  rw [hr, inRange_iff ((T - D) / S + 1) S D T (Nat.succ_pos _) hS, Nat.add_sub_cancel]
  have h1 := Nat.div_add_mod (T - D) S
  rw [Nat.mul_comm] at h1
  constructor
  · intro h; exact Nat.dvd_of_mod_eq_zero (by omega)
  · intro h; have := Nat.mod_eq_zero_of_dvd h; omega

/-- Both directions are inhabited: 0.5 ms steps sampled at 2 ms. -/
example : InRange (recPar (100 * (1/2000)) (20 * (1/2000)) (1/2000) 4 none) := by
  have := (default_inRange_iff 100 20 4 (1/2000) (by norm_num) (by decide) (by decide)).mpr (by decide)
  simpa using this
example : ¬ InRange (recPar (101 * (1/2000)) (20 * (1/2000)) (1/2000) 4 none) := by
  have := (default_inRange_iff 101 20 4 (1/2000) (by norm_num) (by decide) (by decide)).not.mpr (by decide)
  simpa using this

/-- If the user splits the record over several files with `rec_ntsam` (that is, `R` samples fit in
the modelling time), the last sample of the first file is always stored outside its trace. -/
theorem split_out_of_range (R S D T : Nat) (hR : 0 < R) (hS : 0 < S) (hT : D + (R - 1) * S < T) :
    ¬ InRange ⟨R, S, D, T, 0⟩ := by
  rw [inRange_iff R S D T hR hS]; omega

example : ¬ InRange ⟨4, 2, 0, 100, 0⟩ := split_out_of_range 4 2 0 100 (by decide) (by decide) (by decide)

/-! ### Contents of the receiver array -/

theorem recArray_inner (R : Int) (nrec : Nat) (p : Nat → ℚ) (isam : Int) (hR : 0 < R)
    (arr : Int → ℚ) (c : Int) :
    (forN nrec (fun irec arr => fun c => if c = irec * R + isam then arr c + p irec else arr c)
      arr) c = arr c + (if c % R = isam % R ∧ 0 ≤ (c - isam) / R ∧ (c - isam) / R < nrec
        then p ((c - isam) / R).toNat else 0) := by
  have hiff : ∀ i : Nat, c = i * R + isam ↔ (c % R = isam % R ∧ (c - isam) / R = i) := by
    intro i
    constructor
    · intro h
      subst h
      refine ⟨by rw [Int.add_comm, Int.add_mul_emod_self_right], ?_⟩
      rw [Int.add_sub_cancel, Int.mul_ediv_cancel _ (by omega)]
    · rintro ⟨h1, h2⟩
      have h3 : R ∣ c - isam := Int.dvd_of_emod_eq_zero (Int.emod_eq_emod_iff_emod_sub_eq_zero.mp h1)
      have h4 := Int.ediv_mul_cancel h3
      rw [h2] at h4
      omega
  induction nrec with
  | zero =>
    rw [forN_zero, if_neg (by rintro ⟨_, h1, h2⟩; omega), add_zero]
  | succ n ih =>
    rw [forN_succ]
    rw [ih]
    by_cases h : c = n * R + isam
    · obtain ⟨h1, h2⟩ := (hiff n).mp h
      rw [if_pos h, if_neg (by rintro ⟨_, _, h5⟩; omega), if_pos ⟨h1, by omega, by push_cast; omega⟩, h2,
        Int.toNat_natCast, add_zero]
    · rw [if_neg h]
      congr 1
      by_cases hc : c % R = isam % R
      · have : (c - isam) / R ≠ n := fun h2 => h ((hiff n).mpr ⟨hc, h2⟩)
        by_cases h0 : 0 ≤ (c - isam) / R ∧ (c - isam) / R < n
        · rw [if_pos ⟨hc, h0.1, h0.2⟩, if_pos ⟨hc, h0.1, by push_cast; omega⟩]
        · rw [if_neg (fun h => h0 h.2), if_neg (by rintro ⟨_, h5, h6⟩; push_cast at h6; exact h0 ⟨h5, by omega⟩)]
      · rw [if_neg (fun h => hc h.1), if_neg (fun h => hc h.1)]

/-- Value of a cell after `K` stores with sample indices `k+1`. -/
theorem recArray_hist (R S D T : Nat) (hR : 0 < R) (nrec : Nat) (p : Nat → Int → ℚ) (K : Nat)
    (irec j : Nat) (hj : j < R) (hK : K < R) (hi : irec < nrec) :
    recArray ⟨R, S, D, T, 0⟩ nrec p
      ((List.range K).map fun k => ⟨(D + k * S : Nat), (k % R + 1 : Nat)⟩) (irec * R + j) =
      if 1 ≤ j ∧ j ≤ K then p irec (D + (j - 1 : Nat) * S : Nat) else 0 := by
  induction K with
  | zero => simp [recArray]; omega
  | succ K ih =>
    have ih := ih (by omega)
    unfold recArray at ih ⊢
    rw [List.range_succ, List.map_append, List.foldl_append]
    simp only [List.map_cons, List.map_nil, List.foldl_cons, List.foldl_nil]
    rw [recArray_inner (R:Int) nrec (fun i => p i _) _ (by omega), ih]
    rw [Nat.mod_eq_of_lt (by omega : K < R)]
    have hjm : ((irec:Int) * R + j) % R = j := by
      rw [Int.add_comm, Int.add_mul_emod_self_right]; exact Int.emod_eq_of_lt (by omega) (by omega)
    have hkm : (((K+1 : Nat)):Int) % R = (K+1 : Nat) := Int.emod_eq_of_lt (by omega) (by omega)
    rw [hjm, hkm]
    by_cases hjk : j = K + 1
    · subst hjk
      have : ((irec:Int) * R + ((K+1 : Nat) : Int) - ((K+1 : Nat):Int)) / R = irec := by
        rw [Int.add_sub_cancel, Int.mul_ediv_cancel _ (by omega)]
      rw [this, if_neg (by omega), if_pos ⟨rfl, by omega, by omega⟩, if_pos (by omega), zero_add]
      simp
    · rw [if_neg (c := _ ∧ _ ∧ _) (by rintro ⟨h, _⟩; omega), add_zero]
      by_cases h1 : 1 ≤ j ∧ j ≤ K
      · rw [if_pos h1, if_pos (by omega)]
      · rw [if_neg h1, if_neg (by omega)]

/-- **C23 (partial).**  When the samples fit, the trace of receiver `irec` holds at position
`j ≥ 1` the field at step `D+(j-1)S`, and position 0 is never written.  Missing from the full
property: the case in which `T-D` is not a multiple of `S` (refuted by `default_inRange_iff`),
records split over files (refuted by `split_out_of_range`) and negative start times. -/
theorem recorded_trace_partial (R S D T : Nat) (hR : 0 < R) (hS : 0 < S)
    (hfit : T ≤ D + (R - 1) * S) (nrec : Nat) (p : Nat → Int → ℚ) (irec j : Nat)
    (hi : irec < nrec) (hj : j < R) :
    recArray ⟨R, S, D, T, 0⟩ nrec p (recRun ⟨R, S, D, T, 0⟩).stores (irec * R + j) =
      if 1 ≤ j ∧ D + (j - 1) * S < T then p irec (D + (j - 1 : Nat) * S : Nat) else 0 := by
  rw [recRun_hist R S D T hR hS]
  have hK : nRec S (T - D) < R := by
    by_contra hc
    have := (lt_nRec (k := R - 1) (x := T - D) hS).mp (by omega)
    omega
  have := recArray_hist R S D T hR nrec p (nRec S (T - D)) irec j hj hK hi
  simp only [histAt]
  rw [this]
  have h2 := lt_nRec (k := j - 1) (x := T - D) hS
  by_cases h1 : 1 ≤ j
  · by_cases h3 : D + (j-1) * S < T
    · rw [if_pos ⟨h1, by have := h2.mpr (by omega); omega⟩, if_pos ⟨h1, h3⟩]
    · rw [if_neg (by rintro ⟨_, h⟩; have := h2.mp (by omega); omega), if_neg (fun h => h3 h.2)]
  · rw [if_neg (fun h => h1 h.1), if_neg (fun h => h1 h.1)]

example : recArray ⟨4, 2, 1, 7, 0⟩ 2 (fun i it => 10 * i + it) (recRun ⟨4, 2, 1, 7, 0⟩).stores 6 = 13 := by
  have := recorded_trace_partial 4 2 1 7 (by decide) (by decide) (by decide) 2
    (fun i it => 10 * i + it) 1 2 (by decide) (by decide)
  norm_num at this ⊢
  exact this

/-- What happens to the overflowing sample: with room for `R` positions and exactly `R` samples
the last sample of receiver 0 is found at position 0 of receiver 1, whose own position-0 sample
should be empty. -/
theorem spill_into_next_trace :
    recArray ⟨3, 2, 0, 5, 0⟩ 2 (fun i it => 10 * i + it) (recRun ⟨3, 2, 0, 5, 0⟩).stores (1 * 3 + 0) = 4 := by
  decide +kernel

end Verif.Fd

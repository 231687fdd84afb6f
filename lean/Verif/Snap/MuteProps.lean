import Verif.Snap.Mute
import Mathlib.Tactic.NormNum

/-!
# What mutesnap guarantees
-/

namespace Verif.Snap.Mute

universe u
variable {K : Type u}

/-- Weight the documentation promises for a sample `k` samples inside the muted zone: the taper over the first `smooth` samples,
zero beyond. -/
def weight [Zero K] (smooth : Int) (tap : Int → K) (k : Int) : K := if k < smooth then tap k else 0

theorem step_spec [CommRing K] {nth smooth : Int} (tap : Int → K) (a : Int) (x : Int → K) (it : Int) (h1 : a ≤ it)
    (h0 : 0 < it) (h2 : it < nth) :
    centreStep nth smooth tap a x it = some (fun i =>
      x i * (if i = it then weight smooth tap (it - a) else 1) * (if i = nth - it then weight smooth tap (it - a) else 1)) := by
  unfold centreStep weight taper set
  by_cases hs : it - a < smooth
  · rw [if_pos hs, if_pos (by omega), if_pos hs]
    simp only [Option.bind_eq_bind, Option.bind_some]
    rw [if_pos (by omega)]
    simp only [Option.bind_some]
    rw [if_pos (by omega)]
    congr 1
    funext i
    by_cases e1 : i = nth - it <;> by_cases e2 : i = it
    · subst e2
      rw [if_pos e1, if_pos e1.symm, if_pos rfl, if_pos e1]
    · subst e1
      rw [if_pos rfl, if_neg e2, if_neg e2, if_pos rfl, mul_one]
    · subst e2
      rw [if_neg e1, if_pos rfl, if_pos rfl, if_neg e1, mul_one]
    · rw [if_neg e1, if_neg e2, if_neg e2, if_neg e1, mul_one, mul_one]
  · rw [if_neg hs, if_neg hs, if_pos (by omega)]
    simp only [Option.bind_eq_bind, Option.bind_some]
    rw [if_pos (by omega)]
    congr 1
    funext i
    split_ifs <;> simp

/-- C187: muting around the centre never leaves the snapshots or the taper (shift and smooth not negative), and it multiplies the
sample at `it` by the weight of its depth `it - a` inside the zone, on both sides of the centre; samples outside are kept.
(`a = nth/2 - rmt + 1` is the first sample muted.)  At the centre of an even number of snapshots both factors apply. -/
theorem centre_weights [CommRing K] (nth indrcv shift smooth : Int) (tap x : Int → K) (hn : 1 ≤ nth) (hs : 0 ≤ shift)
    (hm : 0 ≤ smooth) :
    let a := nth / 2 - rmt nth indrcv shift smooth + 1
    ∃ y, centre nth indrcv shift smooth tap x = some y ∧ ∀ i,
      y i = x i * (if a ≤ i ∧ i ≤ nth / 2 then weight smooth tap (i - a) else 1) *
        (if a ≤ nth - i ∧ nth - i ≤ nth / 2 then weight smooth tap (nth - i - a) else 1) := by
  intro a
  have hr : rmt nth indrcv shift smooth ≤ nth / 2 := by unfold rmt; omega
  have hr0 : 0 ≤ rmt nth indrcv shift smooth := by unfold rmt; omega
  have key : ∀ n : Nat, (n : Int) ≤ rmt nth indrcv shift smooth →
      ∃ y, (List.range n).foldlM (fun y j => centreStep nth smooth tap a y (a + (j : Nat))) x = some y ∧ ∀ i,
        y i = x i * (if a ≤ i ∧ i < a + n then weight smooth tap (i - a) else 1) *
          (if a ≤ nth - i ∧ nth - i < a + n then weight smooth tap (nth - i - a) else 1) := by
    intro n
    induction n with
    | zero =>
      intro _
      refine ⟨x, rfl, fun i => ?_⟩
      rw [if_neg (by omega), if_neg (by omega), mul_one, mul_one]
    | succ n ih =>
      intro hle
      obtain ⟨y, h1, h2⟩ := ih (by omega)
      refine ⟨fun i => y i * (if i = a + n then weight smooth tap (a + n - a) else 1) *
        (if i = nth - (a + n) then weight smooth tap (a + n - a) else 1), ?_, ?_⟩
      · rw [List.range_succ, List.foldlM_append, h1]
        simp only [Option.bind_eq_bind, Option.bind_some, List.foldlM_cons, List.foldlM_nil]
        rw [step_spec tap a y (a + n) (by omega) (by omega) (by omega)]
        rfl
      · intro i
        beta_reduce
        rw [h2 i, show a + (n : Int) - a = n by ring]
        have A : (if a ≤ i ∧ i < a + ((n + 1 : Nat) : Int) then weight smooth tap (i - a) else 1) =
            (if a ≤ i ∧ i < a + n then weight smooth tap (i - a) else 1) * (if i = a + n then weight smooth tap n else 1) := by
          by_cases e : i = a + n
          · rw [if_pos (by omega), if_neg (by omega), if_pos e, one_mul, show i - a = n by omega]
          · rw [if_neg e, mul_one]
            by_cases q : a ≤ i ∧ i < a + n
            · rw [if_pos q, if_pos (by omega)]
            · rw [if_neg q, if_neg (by omega)]
        have B : (if a ≤ nth - i ∧ nth - i < a + ((n + 1 : Nat) : Int) then weight smooth tap (nth - i - a) else 1) =
            (if a ≤ nth - i ∧ nth - i < a + n then weight smooth tap (nth - i - a) else 1) *
              (if i = nth - (a + n) then weight smooth tap n else 1) := by
          by_cases e : i = nth - (a + n)
          · rw [if_pos (by omega), if_neg (by omega), if_pos e, one_mul, show nth - i - a = n by omega]
          · rw [if_neg e, mul_one]
            by_cases q : a ≤ nth - i ∧ nth - i < a + n
            · rw [if_pos q, if_pos (by omega)]
            · rw [if_neg q, if_neg (by omega)]
        rw [A, B]
        ring
  obtain ⟨y, h1, h2⟩ := key (rmt nth indrcv shift smooth).toNat (by omega)
  refine ⟨y, h1, fun i => ?_⟩
  rw [h2 i]
  have e : a + ((rmt nth indrcv shift smooth).toNat : Int) = nth / 2 + 1 := by
    rw [Int.toNat_of_nonneg hr0]; omega
  rw [e]
  congr 1
  · congr 1
    by_cases q : a ≤ i ∧ i ≤ nth / 2
    · rw [if_pos q, if_pos (by omega)]
    · rw [if_neg q, if_neg (by omega)]
  · by_cases q : a ≤ nth - i ∧ nth - i ≤ nth / 2
    · rw [if_pos q, if_pos (by omega)]
    · rw [if_neg q, if_neg (by omega)]

/-- C187: a field symmetric in time around the centre stays symmetric. -/
theorem centre_symmetric [CommRing K] (nth indrcv shift smooth : Int) (tap x y : Int → K) (hn : 1 ≤ nth) (hs : 0 ≤ shift)
    (hm : 0 ≤ smooth) (h : centre nth indrcv shift smooth tap x = some y) (hx : ∀ i, x (nth - i) = x i) (i : Int) :
    y (nth - i) = y i := by
  obtain ⟨z, h1, h2⟩ := centre_weights nth indrcv shift smooth tap x hn hs hm
  rw [h, Option.some.injEq] at h1
  subst h1
  rw [h2, h2, hx, show nth - (nth - i) = i by ring]
  ring

/-- C187: everything closer to the centre than the arrival minus `shift` and minus the taper's two widths is zero, everything at
least `arrival - shift - smooth` away from the centre is unchanged. -/
theorem centre_zone [CommRing K] (nth indrcv shift smooth : Int) (tap x y : Int → K) (hn : 1 ≤ nth) (hs : 0 ≤ shift)
    (hm : 0 ≤ smooth) (hi : 2 * indrcv ≤ nth) (h : centre nth indrcv shift smooth tap x = some y) (d : Int) (hd : 0 ≤ d) :
    (d < indrcv - shift - 2 * smooth → y (nth / 2 - d) = 0) ∧
    (max (indrcv - shift - smooth) 0 < d + (if nth % 2 = 0 then 1 else 0) → 0 < d → y (nth / 2 - d) = x (nth / 2 - d)) := by
  obtain ⟨z, h1, h2⟩ := centre_weights nth indrcv shift smooth tap x hn hs hm
  rw [h, Option.some.injEq] at h1
  subst h1
  have e : rmt nth indrcv shift smooth = max (indrcv - shift - smooth) 0 := by
    unfold rmt; omega
  constructor
  · intro hlt
    rw [h2, if_pos (by omega)]
    unfold weight
    rw [if_neg (by omega)]
    ring
  · intro hge hp
    rw [h2, if_neg, if_neg, mul_one, mul_one]
    · split_ifs at hge <;> omega
    · split_ifs at hge <;> omega

/-- Eleven snapshots, arrival five samples from the centre, shift one, a taper of two samples `1/2, 0`. -/
example : ((centre 11 5 1 2 (fun k => if k = 0 then (1 / 2 : Rat) else 0) (fun _ => 1)).map
    (fun y => (List.range 11).map fun i => y i)) = some [1, 1, 1, 1, 1 / 2, 0, 0, 1 / 2, 1, 1, 1] := by decide +kernel

/-- C187 (quirk): with an even number of snapshots a taper that reaches the centre is applied to it twice. -/
theorem centre_twice : ((centre 8 4 1 2 (fun _ => (1 / 2 : Rat)) (fun _ => 1)).map
    (fun y => (List.range 8).map fun i => y i)) = some [1, 1, 1, 1, 1 / 4, 1, 1, 1] := by decide +kernel

/-- C188 (violation): muting at the start reads before the beginning of the taper for every trace whose arrival is later than
`shift` samples, whatever the width of the taper. -/
theorem start_outside [CommRing K] (nth indrcv shift smooth : Int) (tap x : Int → K) (hm : 1 ≤ smooth) (ha : shift < indrcv) :
    start nth indrcv shift smooth tap x = none := by
  unfold start
  obtain ⟨n, hn⟩ : ∃ n, (max (indrcv - shift) 0 - max (indrcv - shift - smooth) 0).toNat = n + 1 :=
    ⟨(max (indrcv - shift) 0 - max (indrcv - shift - smooth) 0).toNat - 1, by omega⟩
  dsimp only
  rw [hn, List.range_succ_eq_map, List.foldlM_cons]
  unfold taper
  rw [if_neg (by omega)]
  rfl

/-- The loop that clears the samples. -/
theorem clear_spec [CommRing K] {nth : Int} (b : Nat) (x : Int → K) (hb : (b : Int) ≤ nth) :
    (List.range b).foldlM (fun (y : Int → K) (j : Nat) => set nth y j 0) x =
      some (fun i => if 0 ≤ i ∧ i < (b : Int) then 0 else x i) := by
  induction b with
  | zero =>
    show some x = _
    congr 1
    funext i
    rw [if_neg (by omega)]
  | succ n ih =>
    rw [List.range_succ, List.foldlM_append, ih (by omega)]
    simp only [Option.bind_eq_bind, Option.bind_some, List.foldlM_cons, List.foldlM_nil]
    unfold set
    rw [if_pos (by omega)]
    simp only [Option.bind_some, Option.pure_def]
    congr 1
    funext i
    by_cases e : i = n
    · rw [if_pos e, if_pos (by omega)]
    · rw [if_neg e]
      by_cases q : 0 ≤ i ∧ i < (n : Int)
      · rw [if_pos q, if_pos (by omega)]
      · rw [if_neg q, if_neg (by omega)]

/-- C188: without a taper the samples before `arrival - shift` are cleared and the others kept. -/
theorem start_clear_partial [CommRing K] (nth indrcv shift : Int) (tap x : Int → K) (hi : indrcv - shift ≤ nth) (hn : 0 ≤ nth) :
    start nth indrcv shift 0 tap x = some (fun i => if 0 ≤ i ∧ i < indrcv - shift then 0 else x i) := by
  unfold start
  dsimp only
  rw [sub_zero, sub_self]
  simp only [Int.toNat_zero, List.range_zero, List.foldlM_nil, Option.pure_def, Option.bind_eq_bind, Option.bind_some]
  rw [clear_spec _ _ (by omega)]
  congr 1
  funext i
  by_cases q : 0 ≤ i ∧ i < indrcv - shift
  · rw [if_pos q, if_pos (by omega)]
  · rw [if_neg q, if_neg (by omega)]

example : ((start 6 4 1 0 (fun _ => (7 : Int)) (fun i => i + 1)).map (fun y => (List.range 6).map fun i => y i)) =
    some [0, 0, 0, 4, 5, 6] := by decide +kernel
/-- The default values shift=5, smooth=5, arrival at sample 20 of 64. -/
example : start 64 20 5 5 (fun _ => (1 : Int)) (fun i => i) = none := start_outside _ _ _ _ _ _ (by decide) (by decide)

/-- C189: the arrival determined by the maximum is the first sample, in the first half of the trace, where the absolute value is
largest. -/
theorem topdet_first_max [LinearOrder K] [AddGroup K] (x : Nat → K) (nt : Nat) (hn : 2 ≤ nt) :
    topdet x nt < nt / 2 ∧ (∀ i < nt / 2, |x i| ≤ |x (topdet x nt)|) ∧ ∀ i < topdet x nt, |x i| < |x (topdet x nt)| := by
  unfold topdet
  have key : ∀ n, (topLoop x n).1 < n + 1 ∧ (topLoop x n).2 = |x (topLoop x n).1| ∧
      (∀ i < n + 1, |x i| ≤ |x (topLoop x n).1|) ∧ ∀ i < (topLoop x n).1, |x i| < |x (topLoop x n).1| := by
    intro n
    induction n with
    | zero =>
      refine ⟨by simp [topLoop], rfl, ?_, ?_⟩ <;> intro i hi
      · obtain rfl : i = 0 := by omega
        exact le_refl _
      · simp [topLoop] at hi
    | succ n ih =>
      obtain ⟨h1, h2, h3, h4⟩ := ih
      have hs : topLoop x (n + 1) =
          if |x (n + 1)| > (topLoop x n).2 then (n + 1, |x (n + 1)|) else topLoop x n := by
        unfold topLoop
        rw [List.range_succ, List.foldl_append]
        rfl
      rw [hs]
      generalize topLoop x n = t at *
      by_cases c : |x (n + 1)| > t.2
      · rw [if_pos c]
        rw [h2] at c
        refine ⟨by dsimp only; omega, rfl, ?_, ?_⟩ <;> intro i hi
        · by_cases e : i = n + 1
          · rw [e]
          · exact le_of_lt (lt_of_le_of_lt (h3 i (by omega)) c)
        · exact lt_of_le_of_lt (h3 i (by dsimp only at hi; omega)) c
      · rw [if_neg c]
        rw [h2, gt_iff_lt, not_lt] at c
        refine ⟨by omega, h2, ?_, h4⟩
        intro i hi
        by_cases e : i = n + 1
        · rw [e]; exact c
        · exact h3 i (by omega)
  obtain ⟨h1, -, h3, h4⟩ := key (nt / 2 - 1)
  exact ⟨by omega, fun i hi => h3 i (by omega), h4⟩

example : topdet (fun i => ([1, -5, 2, 5, 0, 9, 0, 0].getD i 0 : Int)) 8 = 1 := by decide +kernel

/-- C189: the arrival determined by the tolerance is the first sample of the first half above the tolerance; when there is none the
answer is sample 0, the same answer as for a trace that starts above the tolerance. -/
theorem farrdet_first [LinearOrder K] [AddGroup K] (x : Nat → K) (nt : Nat) (tol : K) :
    ((∃ i < nt / 2, |x i| > tol) → farrdet x nt tol < nt / 2 ∧ |x (farrdet x nt tol)| > tol ∧
      ∀ i < farrdet x nt tol, ¬ |x i| > tol) ∧
    ((¬ ∃ i < nt / 2, |x i| > tol) → farrdet x nt tol = 0) := by
  unfold farrdet
  constructor
  · rintro ⟨i, hi, hx⟩
    cases h : (List.range (nt / 2)).find? fun it => decide (|x it| > tol) with
    | none =>
      rw [List.find?_eq_none] at h
      exact absurd (decide_eq_true hx) (h i (List.mem_range.mpr hi))
    | some j =>
      rw [Option.getD_some]
      rw [List.find?_range_eq_some] at h
      refine ⟨List.mem_range.mp h.2.1, of_decide_eq_true h.1, fun k hk hc => ?_⟩
      have := h.2.2 k hk
      rw [decide_eq_true hc] at this
      exact absurd this (by decide)
  · intro h
    cases h' : (List.range (nt / 2)).find? fun it => decide (|x it| > tol) with
    | none => rfl
    | some j =>
      rw [List.find?_range_eq_some] at h'
      exact absurd ⟨j, List.mem_range.mp h'.2.1, of_decide_eq_true h'.1⟩ h

example : farrdet (fun i => ([1, -5, 2, 7, 0, 9, 0, 0].getD i 0 : Int)) 8 5 = 3 := by decide +kernel

/-- C190 (violation): two files of the same volume pass the comparison only if the volume has as many columns as lines; so a
2D section (one line) of two or more columns is always refused. -/
theorem same_volume_refused (d : Dims) : accepts d d = true ↔ d.nx = d.ny := by
  unfold accepts
  simp only [decide_true, Bool.true_and, Bool.and_eq_true, decide_eq_true_eq]
  omega

/-- C190: what passes the comparison. -/
theorem accepts_iff (h s : Dims) : accepts h s = true ↔ s = ⟨h.nz, h.ny, h.nx⟩ := by
  obtain ⟨a, b, c⟩ := h
  obtain ⟨p, q, r⟩ := s
  unfold accepts
  simp only [Bool.and_eq_true, decide_eq_true_eq, Dims.mk.injEq]
  tauto

example : accepts ⟨100, 50, 1⟩ ⟨100, 50, 1⟩ = false := by decide

end Verif.Snap.Mute

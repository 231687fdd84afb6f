import Verif.Util.KxFilter

/-!
# C205, C206: convhomg, wavelets on the circle and the stabilised division (utils/convhomg.c)

A wavelet of `n` samples has its times from zero in the first half and its negative times in the second half.  It is put on a circle
of `m` samples (`ntfft`, chosen from the lengths of the data and of the wavelet of the convolution only).  A store outside the array
ends the program (`none`).  Not modelled: the transforms, reading, output.
-/

namespace Verif.Util.Hom

open Verif.Util.Kxw (put_spec put_none)

universe u
variable {K : Type u}

/-- The stores of the loop (utils/convhomg.c:134-137, 154-157), two in each turn. -/
def stores (n m : Nat) (wav : Nat → K) : List (Int × K) :=
  (List.range (n / 2)).flatMap fun it : Nat => [((it : Int), wav it), ((m : Int) - 1 - it, wav (n - 1 - it))]

/-- The array `wavelet`, or `decon` (utils/convhomg.c:129-137, 152-157); `calloc` makes it zero. -/
def circle [Zero K] (n m : Nat) (wav : Nat → K) : Option (Int → Option K) :=
  (stores n m wav).foldlM (Kxw.put m) fun _ => some 0

theorem mem_stores {n m : Nat} {wav : Nat → K} {s : Int × K} : s ∈ stores n m wav ↔
    ∃ it < n / 2, s = ((it : Int), wav it) ∨ s = ((m : Int) - 1 - it, wav (n - 1 - it)) := by
  unfold stores
  simp only [List.mem_flatMap, List.mem_range, List.mem_cons, List.not_mem_nil, or_false]

/-- **C205.** For a wavelet with an even number of samples that fits, sample `k` of the first half is at time `k`, the sample `j`
before the end is `j` samples before the end of the circle, that is at time `-j`, and the rest is zero.  Missing: odd numbers of
samples (`circle_odd`) and a longer wavelet for the deconvolution (`circle_long`). -/
theorem circle_even_partial [Zero K] (n m : Nat) (wav : Nat → K) (he : n % 2 = 0) (hm : n ≤ m) :
    ∃ w, circle n m wav = some w ∧ (∀ k < n / 2, w k = some (wav k)) ∧ (∀ j, 1 ≤ j → j ≤ n / 2 → w ((m - j : Nat) : Int) = some (wav (n - j))) ∧
      ∀ k, n / 2 ≤ k → k < m - n / 2 → w (k : Int) = some 0 := by
  obtain ⟨w, h1, h2, h3⟩ := put_spec m (stores n m wav) (fun _ => some 0)
    (by
      intro s hs
      obtain ⟨it, hi, rfl | rfl⟩ := mem_stores.mp hs <;> dsimp only <;> omega)
    (by
      intro s hs t ht e
      obtain ⟨i, hi, rfl | rfl⟩ := mem_stores.mp hs <;> obtain ⟨j, hj, rfl | rfl⟩ := mem_stores.mp ht <;> dsimp only at e ⊢ <;>
        first
          | omega
          | rw [show i = j by omega])
  refine ⟨w, h1, fun k hk => h2 ((k : Int), wav k) (mem_stores.mpr ⟨k, hk, Or.inl rfl⟩), fun j hj hj' => ?_, fun k hk hk' => ?_⟩
  · have := h2 ((m : Int) - 1 - (j - 1 : Nat), wav (n - 1 - (j - 1))) (mem_stores.mpr ⟨j - 1, by omega, Or.inr rfl⟩)
    dsimp only at this
    rw [show (m : Int) - 1 - (j - 1 : Nat) = ((m - j : Nat) : Int) by omega, show n - 1 - (j - 1) = n - j by omega] at this
    exact this
  · apply h3
    intro s hs
    obtain ⟨i, hi, rfl | rfl⟩ := mem_stores.mp hs <;> dsimp only <;> omega

/-- **C205 violated.** With an odd number of samples the one in the middle is not used. -/
theorem circle_odd [Zero K] (n m : Nat) (wav wav' : Nat → K) (he : n % 2 = 1) (h : ∀ i < n, i ≠ n / 2 → wav i = wav' i) :
    circle n m wav = circle n m wav' := by
  have e : stores n m wav = stores n m wav' := by
    unfold stores
    simp only [List.flatMap_def]
    congr 1
    apply List.map_congr_left
    intro it hi
    rw [List.mem_range] at hi
    rw [h it (by omega) (by omega), h (n - 1 - it) (by omega) (by omega)]
  unfold circle
  rw [e]

/-- **C205 violated.** The circle is not made larger for the wavelet of the deconvolution: with more than twice as many samples as
the circle the program writes outside the array. -/
theorem circle_long [Zero K] (n m : Nat) (wav : Nat → K) (h : m < n / 2) : circle n m wav = none :=
  put_none _ _ _ ⟨((m : Int), wav m), mem_stores.mpr ⟨m, h, Or.inl rfl⟩, by dsimp only; omega⟩

/-- **C205 violated.** With `m < n ≤ 2m` samples, `n` even, the two halves are mixed: the first sample is lost if the wavelet is
twice as long as the circle. -/
theorem circle_mixed [Zero K] (m : Nat) (wav : Nat → K) (hm : 2 ≤ m) :
    ∃ w, circle (2 * m) m wav = some w ∧ w 0 = some (wav m) := by
  have hlast : stores (2 * m) m wav = ((List.range (m - 1)).flatMap fun it : Nat => [((it : Int), wav it),
      ((m : Int) - 1 - it, wav (2 * m - 1 - it))]) ++ [(((m - 1 : Nat) : Int), wav (m - 1)), (0, wav m)] := by
    unfold stores
    rw [show 2 * m / 2 = (m - 1) + 1 by omega, List.range_succ, List.flatMap_append]
    congr 1
    rw [List.flatMap_cons, List.flatMap_nil, List.append_nil, show (m : Int) - 1 - (m - 1 : Nat) = 0 by omega,
      show 2 * m - 1 - (m - 1) = m by omega]
  have ok : ∀ (L : List (Int × K)) (f : Int → Option K), (∀ s ∈ L, 0 ≤ s.1 ∧ s.1 < m) → ∃ g, L.foldlM (Kxw.put m) f = some g := by
    intro L
    induction L with
    | nil => exact fun f _ => ⟨f, rfl⟩
    | cons a L ih =>
      intro f hL
      obtain ⟨g, hg⟩ := ih (fun j => if j = a.1 then some a.2 else f j) fun s hs => hL s (by simp [hs])
      exact ⟨g, by rw [List.foldlM_cons, Kxw.put, if_pos (hL a (by simp))]; exact hg⟩
  obtain ⟨g, hg⟩ := ok ((List.range (m - 1)).flatMap fun it : Nat => [((it : Int), wav it), ((m : Int) - 1 - it, wav (2 * m - 1 - it))])
    (fun _ => some 0) (by
      intro s hs
      simp only [List.mem_flatMap, List.mem_range, List.mem_cons, List.not_mem_nil, or_false] at hs
      obtain ⟨it, hi, rfl | rfl⟩ := hs <;> dsimp only <;> omega)
  refine ⟨fun j => if j = 0 then some (wav m) else if j = ((m - 1 : Nat) : Int) then some (wav (m - 1)) else g j, ?_, by simp⟩
  unfold circle
  rw [hlast, List.foldlM_append, hg]
  change ([(((m - 1 : Nat) : Int), wav (m - 1)), (0, wav m)] : List (Int × K)).foldlM (Kxw.put m) g = _
  rw [List.foldlM_cons, Kxw.put, if_pos (by dsimp only; omega)]
  change ([(0, wav m)] : List (Int × K)).foldlM (Kxw.put m) _ = _
  rw [List.foldlM_cons, Kxw.put, if_pos (by dsimp only; omega)]
  rfl

/-! ## Division (utils/convhomg.c:281-318) -/

/-- A spectrum: real and imaginary parts at `n` frequencies. -/
abbrev Spec := Nat → ℚ × ℚ

/-- `den` (utils/convhomg.c:287). -/
def den (p : Spec) (j : Nat) : ℚ := (p j).1 * (p j).1 + (p j).2 * (p j).2

/-- `maxden` (utils/convhomg.c:285-291). -/
def maxden (n : Nat) (p : Spec) : ℚ := (List.range n).foldl (fun m j => max (den p j) m) 0

/-- One quotient (utils/convhomg.c:299-309): data `p1`, wavelet `p2`. -/
def quot (n : Nat) (p1 p2 : Spec) (eps reps : ℚ) (j : Nat) : ℚ × ℚ :=
  let leps := reps * maxden n p2 + eps
  if |(p2 j).2| ≤ |(p2 j).1| then
    (((p2 j).1 * (p1 j).1 + (p2 j).2 * (p1 j).2) / (den p2 j + leps), ((p2 j).1 * (p1 j).2 - (p2 j).2 * (p1 j).1) / (den p2 j + leps))
  else
    (((p1 j).1 * (p2 j).1 + (p1 j).2 * (p2 j).2) / (den p2 j + leps), ((p1 j).2 * (p2 j).1 - (p1 j).1 * (p2 j).2) / (den p2 j + leps))

/-- Product of complex numbers. -/
def cmul (a b : ℚ × ℚ) : ℚ × ℚ := (a.1 * b.1 - a.2 * b.2, a.1 * b.2 + a.2 * b.1)

theorem foldl_max_spec (f : Nat → ℚ) (L : List Nat) (m : ℚ) : m ≤ L.foldl (fun m j => max (f j) m) m ∧
    (∀ j ∈ L, f j ≤ L.foldl (fun m j => max (f j) m) m) ∧
      (L.foldl (fun m j => max (f j) m) m = m ∨ ∃ j ∈ L, L.foldl (fun m j => max (f j) m) m = f j) := by
  induction L generalizing m with
  | nil => simp
  | cons a L ih =>
    rw [List.foldl_cons]
    obtain ⟨h1, h2, h3⟩ := ih (max (f a) m)
    refine ⟨le_trans (le_max_right _ _) h1, ?_, ?_⟩
    · intro j hj
      rcases List.mem_cons.mp hj with rfl | hj
      · exact le_trans (le_max_left _ _) h1
      · exact h2 j hj
    · rcases h3 with h3 | ⟨j, hj, h3⟩
      · rw [h3]
        rcases max_choice (f a) m with h | h
        · right; exact ⟨a, by simp, h⟩
        · left; exact h
      · right; exact ⟨j, by simp [hj], h3⟩

theorem quot_eq (n : Nat) (p1 p2 : Spec) (eps reps : ℚ) (j : Nat) : quot n p1 p2 eps reps j =
    (((p2 j).1 * (p1 j).1 + (p2 j).2 * (p1 j).2) / (den p2 j + (reps * maxden n p2 + eps)),
      ((p2 j).1 * (p1 j).2 - (p2 j).2 * (p1 j).1) / (den p2 j + (reps * maxden n p2 + eps))) := by
  unfold quot
  dsimp only
  split
  · rfl
  · ext <;> dsimp only <;> ring

/-- **C206.** The stabilised division divides exactly when the stabilisation is zero and the wavelet has energy at that frequency. -/
theorem division_exact (n : Nat) (p1 p2 : Spec) (j : Nat) (h : den p2 j ≠ 0) : cmul (p2 j) (quot n p1 p2 0 0 j) = p1 j := by
  rw [quot_eq]
  unfold cmul
  rw [show den p2 j + (0 * maxden n p2 + 0) = den p2 j by ring]
  have e : den p2 j = (p2 j).1 * (p2 j).1 + (p2 j).2 * (p2 j).2 := rfl
  ext
  · dsimp only
    rw [mul_div_assoc', mul_div_assoc', div_sub_div_same, div_eq_iff h, e]; ring
  · dsimp only
    rw [mul_div_assoc', mul_div_assoc', ← add_div, div_eq_iff h, e]; ring

/-- **C206.** With stabilisation the wavelet times the result is the data times a number from 0 to 1: the energy of the wavelet at
that frequency over itself plus `eps + reps` times the largest energy. -/
theorem division_damped (n : Nat) (p1 p2 : Spec) (eps reps : ℚ) (j : Nat) (he : 0 ≤ eps) (hr : 0 ≤ reps)
    (h : 0 < den p2 j + (reps * maxden n p2 + eps)) :
    ∃ a : ℚ, 0 ≤ a ∧ a ≤ 1 ∧ a * (den p2 j + (reps * maxden n p2 + eps)) = den p2 j ∧
      cmul (p2 j) (quot n p1 p2 eps reps j) = (a * (p1 j).1, a * (p1 j).2) := by
  have hd : 0 ≤ den p2 j := by unfold den; nlinarith [mul_self_nonneg (p2 j).1, mul_self_nonneg (p2 j).2]
  have hm : 0 ≤ maxden n p2 := (foldl_max_spec (den p2) (List.range n) 0).1
  have hl : 0 ≤ reps * maxden n p2 + eps := by positivity
  refine ⟨den p2 j / (den p2 j + (reps * maxden n p2 + eps)), by positivity, by rw [div_le_one h]; linarith,
    div_mul_cancel₀ _ h.ne', ?_⟩
  rw [quot_eq]
  unfold cmul
  generalize den p2 j + (reps * maxden n p2 + eps) = D at *
  have e : den p2 j = (p2 j).1 * (p2 j).1 + (p2 j).2 * (p2 j).2 := rfl
  rw [e]
  ext <;> dsimp only <;> field_simp <;> ring

/-- **C206.** With a positive `reps` (default 0.01) and a wavelet that is not zero there is no division by zero at any of the
frequencies, and the largest energy used is one of the wavelet. -/
theorem division_safe (n : Nat) (p2 : Spec) (eps reps : ℚ) (he : 0 ≤ eps) (hr : 0 < reps) (hw : ∃ k < n, den p2 k ≠ 0) :
    (∀ j, 0 < den p2 j + (reps * maxden n p2 + eps)) ∧ (∃ k < n, maxden n p2 = den p2 k) ∧ ∀ k < n, den p2 k ≤ maxden n p2 := by
  have hd : ∀ j, 0 ≤ den p2 j := fun j => by unfold den; nlinarith [mul_self_nonneg (p2 j).1, mul_self_nonneg (p2 j).2]
  obtain ⟨-, h2, h3⟩ := foldl_max_spec (den p2) (List.range n) 0
  obtain ⟨k, hk, hk'⟩ := hw
  have hpos : 0 < maxden n p2 := lt_of_lt_of_le (lt_of_le_of_ne (hd k) hk'.symm) (h2 k (List.mem_range.mpr hk))
  refine ⟨fun j => ?_, ?_, fun k hk => h2 k (List.mem_range.mpr hk)⟩
  · have := hd j
    have := mul_pos hr hpos
    linarith
  · rcases h3 with h3 | ⟨i, hi, h3⟩
    · exact absurd h3 hpos.ne'
    · exact ⟨i, List.mem_range.mp hi, h3⟩

/-! Cases that meet the hypotheses. -/
example : ((circle 4 7 fun i => (i : Int) + 10).map fun w => (List.range 7).map fun i : Nat => w i) =
    some [some 10, some 11, some 0, some 0, some 0, some 12, some 13] := by decide +kernel
example : circle 5 8 (fun i => i) = circle 5 8 fun i => if i = 2 then 100 else i :=
  circle_odd 5 8 (fun i => i) (fun i => if i = 2 then 100 else i) rfl fun i _ h => (if_neg (by simpa using h)).symm
example : circle (K := Int) 20 8 (fun i => i) = none := circle_long 20 8 _ (by norm_num)
example : cmul (3, 4) (quot 1 (fun _ => (1, 2)) (fun _ => (3, 4)) 0 0 0) = (1, 2) :=
  division_exact 1 (fun _ => (1, 2)) (fun _ => (3, 4)) 0 (by norm_num [den])
example : ∀ j, 0 < den (fun _ => (3, 4)) j + (1 / 100 * maxden 2 (fun _ => (3, 4)) + 0) :=
  (division_safe 2 (fun _ => (3, 4)) 0 (1 / 100) le_rfl (by norm_num) ⟨0, by norm_num, by norm_num [den]⟩).1

end Verif.Util.Hom

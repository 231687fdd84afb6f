import Verif.Basop.Simple
import Mathlib.Analysis.SpecialFunctions.Pow.Real

/-!
# Smoothing of gathers: `utils/smooth.c`

`r_smooth` over the real numbers; `pow` is the real power (for a negative number and a power that is not whole, C gives NaN: not
modelled).  Lengths are not negative.
-/

namespace Verif.Smooth

open Finset Verif

noncomputable section

/-- smooth.c:98-106: an even length is made odd. -/
def odd (n : ℕ) : ℕ := if n / 2 * 2 = n then n + 1 else n

/-- One sample before (and, with `1/power`, after) the smoothing, smooth.c:216-221 and 258-262. -/
def pw (power x : ℝ) : ℝ :=
  open Classical in
  if power ≠ 1 then if ¬ (x = 0 ∧ power < 0) then x ^ power else x else x

/-- The two inner loops, smooth.c:239-244: `icount` and `dtmp[ix*nsam+it]`, which starts with `s`. -/
def window (nsam : ℕ) (din : ℕ → ℝ) (ix0 ix1 it0 it1 : ℕ) (s : ℝ) : ℕ × ℝ :=
  forN (ix1 + 1 - ix0) (fun a p => forN (it1 + 1 - it0) (fun b p => (p.1 + 1, p.2 + din ((ix0 + a) * nsam + (it0 + b)))) p) (0, s)

/-- The new `dtmp[ix*nsam+it]`, smooth.c:229-245. -/
def sample (nrec nsam ntsm nxsm : ℕ) (din : ℕ → ℝ) (ix it : ℕ) (s : ℝ) : ℝ :=
  let p := window nsam din (ix - nxsm / 2) (min (ix + (nxsm - 1) / 2) (nrec - 1)) (it - ntsm / 2) (min (it + (ntsm - 1) / 2) (nsam - 1)) s
  p.2 / (p.1 : ℝ)

/-- A double loop over the gather that replaces every element. -/
def rows (nsam nrec : ℕ) (F : ℕ → ℕ → ℝ → ℝ) (d : ℕ → ℝ) : ℕ → ℝ :=
  forN nrec (fun ix d => forN nsam (fun it d => aset d (ix * nsam + it) (F ix it (d (ix * nsam + it)))) d) d

/-- One iteration, smooth.c:226-253.  Simplified: the last loop, which sets `din` and `dtmp`, is written as two loops (the arrays are
different). -/
def pass (nrec nsam ntsm nxsm : ℕ) (s : (ℕ → ℝ) × (ℕ → ℝ)) : (ℕ → ℝ) × (ℕ → ℝ) :=
  let dtmp := rows nsam nrec (fun ix it v => sample nrec nsam ntsm nxsm s.1 ix it v) s.2
  (rows nsam nrec (fun ix it _ => dtmp (ix * nsam + it)) s.1, rows nsam nrec (fun _ _ _ => 0) dtmp)

/-- `r_smooth`, smooth.c:205-266; `dtmp` is what is in the array at the start. -/
def rSmooth (nrec nsam ntsm nxsm niter : ℕ) (power : ℝ) (din dtmp : ℕ → ℝ) : ℕ → ℝ :=
  let s := forN niter (fun _ s => pass nrec nsam ntsm nxsm s) (rows nsam nrec (fun _ _ x => pw power x) din, rows nsam nrec (fun _ _ _ => 0) dtmp)
  rows nsam nrec (fun _ _ x => pw (1 / power) x) s.1

/-! ### Specification -/

/-- The positions within `len/2` of `i`, of `n` positions. -/
def near (n len i : ℕ) : Finset ℕ := (range n).filter (fun j => |(j : ℤ) - i| ≤ len / 2)

/-- The average of the gather over a rectangle of `nxsm` traces and `ntsm` samples around a point, cut off at the edges. -/
def average (nrec nsam ntsm nxsm : ℕ) (x : ℕ → ℕ → ℝ) (i t : ℕ) : ℝ :=
  (∑ j ∈ near nrec nxsm i, ∑ u ∈ near nsam ntsm t, x j u) / ((near nrec nxsm i).card * (near nsam ntsm t).card)

theorem odd_spec (n : ℕ) : Odd (odd n) ∧ n ≤ odd n ∧ odd n ≤ n + 1 := by
  unfold odd
  split
  · exact ⟨⟨n / 2, by omega⟩, by omega, by omega⟩
  · exact ⟨⟨n / 2, by omega⟩, by omega, by omega⟩

theorem near_eq (n len i : ℕ) (hi : i < n) (hl : Odd len) :
    near n len i = (range (min (i + (len - 1) / 2) (n - 1) + 1 - (i - len / 2))).image (fun a => i - len / 2 + a) := by
  obtain ⟨k, rfl⟩ := hl
  ext j
  simp only [near, mem_filter, mem_range, mem_image]
  have e1 : ((2 * k + 1 : ℕ) : ℤ) / 2 = k := by omega
  have e2 : (2 * k + 1) / 2 = k := by omega
  have e3 : (2 * k + 1 - 1) / 2 = k := by omega
  rw [e1, e2, e3, abs_le]
  constructor
  · rintro ⟨h1, h2, h3⟩
    exact ⟨j - (i - k), by omega, by omega⟩
  · rintro ⟨a, ha, rfl⟩
    omega

theorem near_sum (n len i : ℕ) (hi : i < n) (hl : Odd len) (f : ℕ → ℝ) :
    ∑ j ∈ near n len i, f j = ∑ a ∈ range (min (i + (len - 1) / 2) (n - 1) + 1 - (i - len / 2)), f (i - len / 2 + a) := by
  rw [near_eq n len i hi hl, sum_image (fun a _ b _ h => by simpa using h)]

theorem near_card (n len i : ℕ) (hi : i < n) (hl : Odd len) : (near n len i).card = min (i + (len - 1) / 2) (n - 1) + 1 - (i - len / 2) := by
  rw [near_eq n len i hi hl, card_image_of_injective _ (fun a b h => by simpa using h), card_range]

theorem near_pos (n len i : ℕ) (hi : i < n) : 0 < (near n len i).card := by
  refine card_pos.mpr ⟨i, ?_⟩
  simp only [near, mem_filter, mem_range, sub_self, abs_zero]
  exact ⟨hi, by positivity⟩

theorem window_val (nsam : ℕ) (din : ℕ → ℝ) (ix0 ix1 it0 it1 : ℕ) (s : ℝ) : window nsam din ix0 ix1 it0 it1 s =
    ((ix1 + 1 - ix0) * (it1 + 1 - it0), s + ∑ a ∈ range (ix1 + 1 - ix0), ∑ b ∈ range (it1 + 1 - it0), din ((ix0 + a) * nsam + (it0 + b))) := by
  unfold window
  have inner : ∀ (n a : ℕ) (p : ℕ × ℝ), forN n (fun b p => (p.1 + 1, p.2 + din ((ix0 + a) * nsam + (it0 + b)))) p =
      (p.1 + n, p.2 + ∑ b ∈ range n, din ((ix0 + a) * nsam + (it0 + b))) := by
    intro n a p
    induction n with
    | zero => simp
    | succ n ih => rw [forN_succ, ih, sum_range_succ]; simp [add_assoc]
  generalize ix1 + 1 - ix0 = m
  induction m with
  | zero => simp
  | succ m ih => rw [forN_succ, ih, inner, sum_range_succ]; simp only [Prod.mk.injEq]; exact ⟨by ring, by ring⟩

theorem sample_val (nrec nsam ntsm nxsm : ℕ) (ht : Odd ntsm) (hx : Odd nxsm) (din : ℕ → ℝ) (ix it : ℕ) (h1 : ix < nrec) (h2 : it < nsam) :
    sample nrec nsam ntsm nxsm din ix it 0 = average nrec nsam ntsm nxsm (fun j u => din (j * nsam + u)) ix it := by
  unfold sample average
  dsimp only
  rw [window_val, near_sum nrec nxsm ix h1 hx, near_card nrec nxsm ix h1 hx, near_card nsam ntsm it h2 ht]
  dsimp only
  rw [zero_add, Nat.cast_mul]
  congr 1
  refine sum_congr rfl fun a _ => ?_
  rw [near_sum nsam ntsm it h2 ht]

/-- What the array holds as a gather. -/
def Holds (nrec nsam : ℕ) (d : ℕ → ℝ) (x : ℕ → ℕ → ℝ) : Prop := ∀ i t, i < nrec → t < nsam → d (i * nsam + t) = x i t

theorem average_congr (nrec nsam ntsm nxsm : ℕ) (x y : ℕ → ℕ → ℝ) (h : ∀ i t, i < nrec → t < nsam → x i t = y i t) (i t : ℕ) :
    average nrec nsam ntsm nxsm x i t = average nrec nsam ntsm nxsm y i t := by
  unfold average
  congr 1
  refine sum_congr rfl fun j hj => sum_congr rfl fun u hu => h j u ?_ ?_
  · exact mem_range.mp (mem_filter.mp hj).1
  · exact mem_range.mp (mem_filter.mp hu).1

theorem rows_val {nsam nrec : ℕ} (F : ℕ → ℕ → ℝ → ℝ) (d : ℕ → ℝ) {i t : ℕ} (hi : i < nrec) (ht : t < nsam) :
    rows nsam nrec F d (i * nsam + t) = F i t (d (i * nsam + t)) := (Basop.rows_val nsam nrec F d).1 i t hi ht

theorem pass_val (nrec nsam ntsm nxsm : ℕ) (ht : Odd ntsm) (hx : Odd nxsm) (s : (ℕ → ℝ) × (ℕ → ℝ)) (x : ℕ → ℕ → ℝ) (h1 : Holds nrec nsam s.1 x)
    (h2 : Holds nrec nsam s.2 (fun _ _ => 0)) :
    Holds nrec nsam (pass nrec nsam ntsm nxsm s).1 (average nrec nsam ntsm nxsm x) ∧ Holds nrec nsam (pass nrec nsam ntsm nxsm s).2 (fun _ _ => 0) := by
  refine ⟨fun i t hi htt => ?_, fun i t hi htt => ?_⟩
  · unfold pass
    dsimp only
    rw [rows_val _ _ hi htt, rows_val _ _ hi htt, h2 i t hi htt, sample_val nrec nsam ntsm nxsm ht hx _ i t hi htt]
    exact average_congr _ _ _ _ _ _ h1 i t
  · unfold pass
    dsimp only
    rw [rows_val _ _ hi htt]

/-- **C135.** The result of `r_smooth` is the gather, averaged `niter` times over the rectangle around each point that is cut off at the
edges; with a power the averages are those of the power of the data. -/
theorem rSmooth_spec (nrec nsam ntsm nxsm niter : ℕ) (ht : Odd ntsm) (hx : Odd nxsm) (power : ℝ) (din dtmp : ℕ → ℝ) (x : ℕ → ℕ → ℝ)
    (h : Holds nrec nsam din x) :
    Holds nrec nsam (rSmooth nrec nsam ntsm nxsm niter power din dtmp)
      (fun i t => pw (1 / power) ((average nrec nsam ntsm nxsm)^[niter] (fun i t => pw power (x i t)) i t)) := by
  have key : ∀ n, Holds nrec nsam (forN n (fun _ s => pass nrec nsam ntsm nxsm s)
        (rows nsam nrec (fun _ _ x => pw power x) din, rows nsam nrec (fun _ _ _ => 0) dtmp)).1 ((average nrec nsam ntsm nxsm)^[n] (fun i t => pw power (x i t))) ∧
      Holds nrec nsam (forN n (fun _ s => pass nrec nsam ntsm nxsm s)
        (rows nsam nrec (fun _ _ x => pw power x) din, rows nsam nrec (fun _ _ _ => 0) dtmp)).2 (fun _ _ => 0) := by
    intro n
    induction n with
    | zero =>
      refine ⟨fun i t hi htt => ?_, fun i t hi htt => ?_⟩
      · rw [forN_zero]
        dsimp only
        rw [rows_val _ _ hi htt, h i t hi htt]
        rfl
      · rw [forN_zero]
        dsimp only
        rw [rows_val _ _ hi htt]
    | succ n ih =>
      rw [forN_succ, Function.iterate_succ_apply']
      exact pass_val nrec nsam ntsm nxsm ht hx _ _ ih.1 ih.2
  intro i t hi htt
  unfold rSmooth
  dsimp only
  rw [rows_val _ _ hi htt, (key niter).1 i t hi htt]

theorem pw_one (x : ℝ) : pw 1 x = x := by unfold pw; rw [if_neg (by simp)]

/-- Without a power: the averages of the data. -/
theorem rSmooth_plain (nrec nsam ntsm nxsm niter : ℕ) (ht : Odd ntsm) (hx : Odd nxsm) (din dtmp : ℕ → ℝ) (x : ℕ → ℕ → ℝ) (h : Holds nrec nsam din x) :
    Holds nrec nsam (rSmooth nrec nsam ntsm nxsm niter 1 din dtmp) ((average nrec nsam ntsm nxsm)^[niter] x) := by
  intro i t hi htt
  rw [rSmooth_spec nrec nsam ntsm nxsm niter ht hx 1 din dtmp x h i t hi htt]
  simp only [div_one, pw_one]

theorem average_bounds (nrec nsam ntsm nxsm : ℕ) (x : ℕ → ℕ → ℝ) (a b : ℝ) (h : ∀ i t, i < nrec → t < nsam → a ≤ x i t ∧ x i t ≤ b) (i t : ℕ) (hi : i < nrec)
    (ht : t < nsam) : a ≤ average nrec nsam ntsm nxsm x i t ∧ average nrec nsam ntsm nxsm x i t ≤ b := by
  have p1 : (0 : ℝ) < (near nrec nxsm i).card := by exact_mod_cast near_pos nrec nxsm i hi
  have p2 : (0 : ℝ) < (near nsam ntsm t).card := by exact_mod_cast near_pos nsam ntsm t ht
  have m1 : ∀ j ∈ near nrec nxsm i, j < nrec := fun j hj => mem_range.mp (mem_filter.mp hj).1
  have m2 : ∀ u ∈ near nsam ntsm t, u < nsam := fun j hj => mem_range.mp (mem_filter.mp hj).1
  unfold average
  rw [le_div_iff₀ (by positivity), div_le_iff₀ (by positivity)]
  constructor
  · calc a * ((near nrec nxsm i).card * (near nsam ntsm t).card) = ∑ j ∈ near nrec nxsm i, ∑ u ∈ near nsam ntsm t, a := by
          simp only [sum_const, nsmul_eq_mul]; ring
      _ ≤ _ := sum_le_sum fun j hj => sum_le_sum fun u hu => (h j u (m1 j hj) (m2 u hu)).1
  · calc ∑ j ∈ near nrec nxsm i, ∑ u ∈ near nsam ntsm t, x j u ≤ ∑ j ∈ near nrec nxsm i, ∑ u ∈ near nsam ntsm t, b :=
          sum_le_sum fun j hj => sum_le_sum fun u hu => (h j u (m1 j hj) (m2 u hu)).2
      _ = _ := by simp only [sum_const, nsmul_eq_mul]; ring

/-- **C135.** Smoothing never leaves the range of the data, for any number of iterations. -/
theorem rSmooth_bounds (nrec nsam ntsm nxsm niter : ℕ) (ht : Odd ntsm) (hx : Odd nxsm) (din dtmp : ℕ → ℝ) (a b : ℝ)
    (h : ∀ m, m < nrec * nsam → a ≤ din m ∧ din m ≤ b) (m : ℕ) (hm : m < nrec * nsam) :
    a ≤ rSmooth nrec nsam ntsm nxsm niter 1 din dtmp m ∧ rSmooth nrec nsam ntsm nxsm niter 1 din dtmp m ≤ b := by
  have hs : 0 < nsam := Nat.pos_of_ne_zero fun h => by subst h; simp at hm
  have hi : m / nsam < nrec := Nat.div_lt_of_lt_mul (by rwa [Nat.mul_comm])
  have hj : m % nsam < nsam := Nat.mod_lt _ hs
  have e := rSmooth_plain nrec nsam ntsm nxsm niter ht hx din dtmp (fun i t => din (i * nsam + t)) (fun _ _ _ _ => rfl) _ _ hi hj
  have hmm : m / nsam * nsam + m % nsam = m := by rw [Nat.mul_comm]; exact Nat.div_add_mod m nsam
  rw [hmm] at e
  rw [e]
  have key : ∀ n i t, i < nrec → t < nsam → a ≤ (average nrec nsam ntsm nxsm)^[n] (fun i t => din (i * nsam + t)) i t ∧
      (average nrec nsam ntsm nxsm)^[n] (fun i t => din (i * nsam + t)) i t ≤ b := by
    intro n
    induction n with
    | zero => intro i t hi ht; exact h _ (Conv.row_le hi ht)
    | succ n ih =>
      intro i t hi ht
      rw [Function.iterate_succ_apply']
      exact average_bounds nrec nsam ntsm nxsm _ a b ih i t hi ht
  exact key niter _ _ hi hj

/-- A constant gather stays as it is. -/
theorem rSmooth_constant (nrec nsam ntsm nxsm niter : ℕ) (ht : Odd ntsm) (hx : Odd nxsm) (din dtmp : ℕ → ℝ) (c : ℝ)
    (h : ∀ m, m < nrec * nsam → din m = c) (m : ℕ) (hm : m < nrec * nsam) : rSmooth nrec nsam ntsm nxsm niter 1 din dtmp m = c := by
  obtain ⟨h1, h2⟩ := rSmooth_bounds nrec nsam ntsm nxsm niter ht hx din dtmp c c (fun m hm => ⟨(h m hm).ge, (h m hm).le⟩) m hm
  exact le_antisymm h2 h1

/-- **C135.** The power and its inverse cancel for data that are not negative. -/
theorem pw_inverse (power x : ℝ) (hp : power ≠ 0) (hx : 0 ≤ x) : pw (1 / power) (pw power x) = x := by
  by_cases h1 : power = 1
  · rw [h1, div_one, pw_one, pw_one]
  have h2 : 1 / power ≠ 1 := by rw [one_div]; exact fun h => h1 (inv_eq_one.mp h)
  have inner : ∀ y q : ℝ, q ≠ 1 → ¬ (y = 0 ∧ q < 0) → pw q y = y ^ q := fun y q a b => by unfold pw; rw [if_pos a, if_pos b]
  have zero : ∀ q : ℝ, q < 0 → pw q 0 = 0 := fun q a => by unfold pw; split <;> simp [a]
  by_cases h0 : x = 0
  · subst h0
    by_cases hn : power < 0
    · rw [zero power hn, zero (1 / power) (by rw [one_div, inv_lt_zero]; exact hn)]
    · have hn' : ¬ 1 / power < 0 := by rw [one_div, inv_lt_zero]; exact hn
      rw [inner 0 power h1 (fun h => hn h.2), Real.zero_rpow hp, inner 0 (1 / power) h2 (fun h => hn' h.2),
        Real.zero_rpow (by rw [one_div]; exact inv_ne_zero hp)]
  · have hpos : 0 < x := lt_of_le_of_ne hx (Ne.symm h0)
    rw [inner x power h1 (fun h => h0 h.1), inner _ (1 / power) h2 (fun h => (Real.rpow_pos_of_pos hpos power).ne' h.1), ← Real.rpow_mul hx,
      mul_one_div_cancel hp, Real.rpow_one]

/-- With `power=2` the sign of the data is lost, even without any smoothing. -/
theorem pw_sign (x : ℝ) : pw (1 / 2) (pw 2 x) = |x| := by
  unfold pw
  rw [if_pos (by norm_num), if_pos (by norm_num)]
  rw [if_pos (by norm_num), if_pos (by norm_num), Real.rpow_two, ← Real.sqrt_eq_rpow, Real.sqrt_sq_eq_abs]

/-- So a length of one (the default) leaves data that are not negative as they are. -/
theorem rSmooth_one (nrec nsam niter : ℕ) (power : ℝ) (hp : power ≠ 0) (din dtmp : ℕ → ℝ) (i t : ℕ) (hi : i < nrec) (ht : t < nsam)
    (h : 0 ≤ din (i * nsam + t)) : rSmooth nrec nsam 1 1 niter power din dtmp (i * nsam + t) = din (i * nsam + t) := by
  rw [rSmooth_spec nrec nsam 1 1 niter odd_one odd_one power din dtmp (fun i t => din (i * nsam + t)) (fun _ _ _ _ => rfl) i t hi ht]
  have key : ∀ n (x : ℕ → ℕ → ℝ) i t, i < nrec → t < nsam → (average nrec nsam 1 1)^[n] x i t = x i t := by
    intro n x
    induction n with
    | zero => intro i t _ _; rfl
    | succ n ih =>
      intro i t hi ht
      rw [Function.iterate_succ_apply']
      have e1 : ∀ n i, i < n → near n 1 i = {i} := fun n i hi => by
        ext j
        simp only [near, mem_filter, mem_range, mem_singleton]
        constructor
        · rintro ⟨_, h⟩
          have : |(j : ℤ) - i| ≤ 0 := by simpa using h
          have := abs_nonpos_iff.mp this
          omega
        · rintro rfl; simp [hi]
      generalize (average nrec nsam 1 1)^[n] x = y at ih ⊢
      unfold average
      rw [e1 nrec i hi, e1 nsam t ht, sum_singleton, sum_singleton, card_singleton, card_singleton, ih i t hi ht]
      simp
  dsimp only
  rw [key niter _ i t hi ht, pw_inverse power _ hp h]

/-! ### The hypotheses are met -/

example : near 5 3 0 = {0, 1} ∧ near 5 3 2 = {1, 2, 3} := by decide

example : Odd (odd 4) ∧ odd 4 = 5 := ⟨(odd_spec 4).1, rfl⟩

example : rSmooth 1 3 3 1 1 1 (fun m => if m = 1 then 6 else 0) (fun _ => 9) 0 = 3 := by
  have := rSmooth_plain 1 3 3 1 1 ⟨1, rfl⟩ odd_one (fun m => if m = 1 then 6 else 0) (fun _ => 9) (fun _ t => if t = 1 then 6 else 0)
    (fun i t hi ht => by simp [show i = 0 by omega]) 0 0 (by omega) (by omega)
  rw [Nat.zero_mul, Nat.zero_add] at this
  rw [this, Function.iterate_one]
  unfold average
  rw [show near 1 1 0 = {0} by decide, show near 3 3 0 = {0, 1} by decide]
  norm_num

end

end Verif.Smooth

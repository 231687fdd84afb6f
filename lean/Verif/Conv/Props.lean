import Verif.Conv.Through

/-!
# What `fconv` computes: convolution, correlation, power
-/

namespace Verif.Conv

open Complex Finset Verif Verif.Fft Verif.Fft.Lib

/-- The result with time zero in the middle, or as it is. -/
noncomputable def placed (N nsam : Nat) (shift : Bool) (g : Nat → ℝ) : Nat → ℝ := if shift then delay N (nsam / 2) g else g

theorem spectrum_placed (N nsam : Nat) (hN : 0 < N) (h : nsam ≤ N) (shift : Bool) (g : Nat → ℝ) (k : Nat) :
    spectrum N (placed N nsam shift g) k = (if shift then phase N (nsam / 2) k else 1) * spectrum N g k := by
  unfold placed
  cases shift with
  | false => simp
  | true =>
    rw [if_pos rfl, if_pos rfl]
    exact spectrum_delay N (nsam / 2) hN (by omega) g k

theorem mul_re_im (a b : ℂ) : (⟨b.re * a.re - b.im * a.im, b.re * a.im + b.im * a.re⟩ : ℂ) = a * b := by
  apply Complex.ext <;> simp <;> ring

theorem mul_conj_re_im (a b : ℂ) : (⟨a.re * b.re + a.im * b.im, a.im * b.re - a.re * b.im⟩ : ℂ) = a * (starRingEnd ℂ) b := by
  apply Complex.ext <;> simp <;> ring

theorem re_half (z : ℂ) : (⟨z.re, 0⟩ : ℂ) = ((1 / 2 : ℝ) : ℂ) * (z + (starRingEnd ℂ) z) := by
  apply Complex.ext <;> simp <;> ring

/-! ### Convolution -/

/-- **C87.** `convol` gives, for every trace, `dt` times the circular convolution of the two traces with the padded length as period;
with `shift` delayed by half the number of samples.  Nothing else is written, and no array is left. -/
theorem convol_spec (nrec nsam lend lenc : Nat) (h3 : 3 ≤ nsam) (h16 : nsam ≤ 16384) (hd : nrec * nsam ≤ lend) (hc : nrec * nsam ≤ lenc)
    (dt : ℝ) (shift : Bool) (hdt : shift = true → dt ≠ 0) (w : Work) (d1 d2 cov : Nat → ℝ) (s : St) (hs : Hist s) :
    ∃ cov' s', convol nrec nsam lend lenc dt shift w d1 d2 cov s = some (cov', s') ∧ Hist s' ∧
      (∀ i t, i < nrec → t < nsam → cov' (i * nsam + t) =
        dt * placed (optncr nsam) nsam shift (cconv (optncr nsam) (pad nsam (trace nsam d1 i)) (pad nsam (trace nsam d2 i))) t) ∧
      ∀ m, nrec * nsam ≤ m → cov' m = cov m := by
  have hge : nsam ≤ optncr nsam := optncr_ge_partial nsam (by omega) h16
  refine through_spec nrec nsam nsam lend lenc h3 h16 le_rfl hd hc dt _ _ w d1 d2 cov s hs _ fun p1 p2 e1 e2 =>
    ⟨_, rfl, fun i k hi hk => ?_⟩
  rw [shifted_val nrec nsam (by omega) dt shift hdt _ hi hk, spectrum_placed _ _ (by omega) hge, spectrum_cconv _ (by omega)]
  congr 1
  unfold convLoop
  rw [eachLoop _ (fun j _ => (⟨(p2 j).re * (p1 j).re - (p2 j).im * (p1 j).im, (p2 j).re * (p1 j).im + (p2 j).im * (p1 j).re⟩ : ℂ)),
    if_pos (row_le hi (by omega)), mul_re_im, e1 i k hi hk, e2 i k hi hk]

/-- **C87 (wrap-around).** The result is the convolution plus the part of the convolution behind the padded length, brought back to the
beginning. -/
theorem convol_wrap (nrec nsam lend lenc : Nat) (h3 : 3 ≤ nsam) (h16 : nsam ≤ 16384) (hd : nrec * nsam ≤ lend) (hc : nrec * nsam ≤ lenc)
    (dt : ℝ) (w : Work) (d1 d2 cov : Nat → ℝ) (s : St) (hs : Hist s) :
    ∃ cov' s', convol nrec nsam lend lenc dt false w d1 d2 cov s = some (cov', s') ∧ Hist s' ∧
      ∀ i t, i < nrec → t < nsam → cov' (i * nsam + t) =
        dt * (lconv (pad nsam (trace nsam d1 i)) (pad nsam (trace nsam d2 i)) t +
          lconv (pad nsam (trace nsam d1 i)) (pad nsam (trace nsam d2 i)) (t + optncr nsam)) := by
  have hge : nsam ≤ optncr nsam := optncr_ge_partial nsam (by omega) h16
  obtain ⟨cov', s', e, p, a, _⟩ := convol_spec nrec nsam lend lenc h3 h16 hd hc dt false (by simp) w d1 d2 cov s hs
  refine ⟨cov', s', e, p, fun i t hi ht => ?_⟩
  have hz : ∀ d j, optncr nsam ≤ j → pad nsam (trace nsam d i) j = 0 := fun d j hj => by rw [pad, if_neg (by omega)]
  rw [a i t hi ht, placed, if_neg (by simp), cconv_wrap _ _ _ (hz d1) (hz d2) t (by omega)]

/-- **C87 (convolution).** When the traces are zero from sample `n1`, `n2` on and `n1 + n2 ≤ optncr(nsam) + 1`, the result is `dt`
times the convolution. -/
theorem convol_linear (nrec nsam lend lenc n1 n2 : Nat) (h3 : 3 ≤ nsam) (h16 : nsam ≤ 16384) (hd : nrec * nsam ≤ lend)
    (hc : nrec * nsam ≤ lenc) (hn : n1 + n2 ≤ optncr nsam + 1) (dt : ℝ) (w : Work) (d1 d2 cov : Nat → ℝ)
    (h1 : ∀ i j, i < nrec → n1 ≤ j → j < nsam → d1 (i * nsam + j) = 0) (h2 : ∀ i j, i < nrec → n2 ≤ j → j < nsam → d2 (i * nsam + j) = 0)
    (s : St) (hs : Hist s) :
    ∃ cov' s', convol nrec nsam lend lenc dt false w d1 d2 cov s = some (cov', s') ∧ Hist s' ∧
      ∀ i t, i < nrec → t < nsam → cov' (i * nsam + t) = dt * ∑ p ∈ antidiagonal t, d1 (i * nsam + p.1) * d2 (i * nsam + p.2) := by
  obtain ⟨cov', s', e, p, a⟩ := convol_wrap nrec nsam lend lenc h3 h16 hd hc dt w d1 d2 cov s hs
  refine ⟨cov', s', e, p, fun i t hi ht => ?_⟩
  have hz : ∀ (d : Nat → ℝ) (n : Nat), (∀ j, n ≤ j → j < nsam → d (i * nsam + j) = 0) → ∀ j, n ≤ j → pad nsam (trace nsam d i) j = 0 := by
    intro d n h j hj
    unfold pad trace
    split
    · exact h j hj (by assumption)
    · rfl
  rw [a i t hi ht, lconv_zero n1 n2 _ _ (hz d1 n1 fun j => h1 i j hi) (hz d2 n2 fun j => h2 i j hi) (t + optncr nsam) (by omega), add_zero]
  congr 1
  unfold lconv
  refine sum_congr rfl fun q hq => ?_
  have hq := mem_antidiagonal.mp hq
  rw [pad, pad, if_pos (by omega), if_pos (by omega), trace, trace]

/-- **C87 fails without padding.** For every number of samples that needs no padding: a unit sample at the end of both traces appears
at sample `nsam - 2` of the result, where the convolution of the traces is zero. -/
theorem convol_not_linear (nsam lend lenc : Nat) (h3 : 3 ≤ nsam) (h16 : nsam ≤ 16384) (hN : optncr nsam = nsam) (hd : nsam ≤ lend)
    (hc : nsam ≤ lenc) (dt : ℝ) (w : Work) (cov : Nat → ℝ) (s : St) (hs : Hist s) :
    ∃ cov' s', convol 1 nsam lend lenc dt false w (fun j => if j = nsam - 1 then 1 else 0) (fun j => if j = nsam - 1 then 1 else 0) cov s =
        some (cov', s') ∧ cov' (nsam - 2) = dt ∧
      lconv (fun j => if j = nsam - 1 then 1 else 0) (fun j => if j = nsam - 1 then 1 else 0) (nsam - 2) = 0 := by
  obtain ⟨cov', s', e, p, a⟩ := convol_wrap 1 nsam lend lenc h3 h16 (by omega) (by omega) dt w (fun j => if j = nsam - 1 then 1 else 0)
    (fun j => if j = nsam - 1 then 1 else 0) cov s hs
  have hp : pad nsam (trace nsam (fun j => if j = nsam - 1 then 1 else 0) 0) = fun j => if j = nsam - 1 then 1 else 0 := by
    funext j
    unfold pad trace
    rw [Nat.zero_mul, Nat.zero_add]
    by_cases h : j = nsam - 1
    · rw [if_pos (by omega)]
    · split <;> simp [h]
  have hl : lconv (fun j => if j = nsam - 1 then 1 else 0) (fun j => if j = nsam - 1 then 1 else 0) (nsam - 2) = 0 := by
    unfold lconv
    refine sum_eq_zero fun q hq => ?_
    have hq := mem_antidiagonal.mp hq
    dsimp only
    rw [if_neg (show ¬ q.1 = nsam - 1 by omega), zero_mul]
  have hw : lconv (fun j => if j = nsam - 1 then 1 else 0) (fun j => if j = nsam - 1 then 1 else 0) (nsam - 2 + nsam) = 1 := by
    unfold lconv
    rw [sum_eq_single (nsam - 1, nsam - 1)]
    · simp
    · rintro ⟨s, u⟩ hq hne
      have hq := mem_antidiagonal.mp hq
      dsimp only
      by_cases h : s = nsam - 1
      · rw [if_neg (show ¬ (u = nsam - 1) from fun h' => hne (by rw [h, h'])), mul_zero]
      · rw [if_neg h, zero_mul]
    · intro h
      exact absurd (mem_antidiagonal.mpr (by omega)) h
  refine ⟨cov', s', e, ?_, hl⟩
  have := a 0 (nsam - 2) (by omega) (by omega)
  rw [Nat.zero_mul, Nat.zero_add, hp, hl, hN, hw] at this
  rw [this]; ring

/-! ### Correlation -/

/-- **C88.** `corr` gives, for every trace, `dt` times the circular correlation with the padded length as period; with `shift` delayed
by half the number of samples. -/
theorem corr_spec (nrec nsam lend lenc : Nat) (h3 : 3 ≤ nsam) (h16 : nsam ≤ 16384) (hd : nrec * nsam ≤ lend) (hc : nrec * nsam ≤ lenc)
    (dt : ℝ) (shift : Bool) (hdt : shift = true → dt ≠ 0) (w : Work) (d1 d2 cov : Nat → ℝ) (s : St) (hs : Hist s) :
    ∃ cov' s', corr nrec nsam lend lenc dt shift w d1 d2 cov s = some (cov', s') ∧ Hist s' ∧
      (∀ i t, i < nrec → t < nsam → cov' (i * nsam + t) =
        dt * placed (optncr nsam) nsam shift (ccorr (optncr nsam) (pad nsam (trace nsam d1 i)) (pad nsam (trace nsam d2 i))) t) ∧
      ∀ m, nrec * nsam ≤ m → cov' m = cov m := by
  have hge : nsam ≤ optncr nsam := optncr_ge_partial nsam (by omega) h16
  refine through_spec nrec nsam nsam lend lenc h3 h16 le_rfl hd hc dt _ _ w d1 d2 cov s hs _ fun p1 p2 e1 e2 =>
    ⟨_, rfl, fun i k hi hk => ?_⟩
  rw [shifted_val nrec nsam (by omega) dt shift hdt _ hi hk, spectrum_placed _ _ (by omega) hge, spectrum_ccorr _ (by omega)]
  congr 1
  unfold corrLoop
  rw [eachLoop _ (fun j _ => (⟨(p1 j).re * (p2 j).re + (p1 j).im * (p2 j).im, (p1 j).im * (p2 j).re - (p1 j).re * (p2 j).im⟩ : ℂ)),
    if_pos (row_le hi (by omega)), mul_conj_re_im, e1 i k hi hk, e2 i k hi hk]

/-- The correlation `∑_u x(u+l) y(u)` of two traces of `nsam` samples at lag `l`. -/
noncomputable def lcorr (nsam : Nat) (x y : Nat → ℝ) (l : Nat) : ℝ := ∑ u ∈ range (nsam - l), x (u + l) * y u

theorem ccorr_pos (N nsam n2 : Nat) (h : nsam ≤ N) (x y : Nat → ℝ) (hy : ∀ j, n2 ≤ j → j < nsam → y j = 0) (t : Nat) (ht : n2 + t ≤ N) :
    ccorr N (pad nsam x) (pad nsam y) t = lcorr nsam x y t := by
  unfold ccorr lcorr
  symm
  refine sum_subset_zero_on_sdiff (range_subset_range.mpr (by omega)) (fun u hu => ?_) fun u hu => ?_
  · have h1 := mem_range.mp (mem_sdiff.mp hu).1
    have h2 : ¬ u < nsam - t := fun h => (mem_sdiff.mp hu).2 (mem_range.mpr h)
    by_cases hn : u < n2
    · rw [Nat.mod_eq_of_lt (by omega)]
      unfold pad
      rw [if_neg (by omega), zero_mul]
    · unfold pad
      by_cases hu2 : u < nsam
      · rw [if_pos hu2, hy u (by omega) hu2, mul_zero]
      · rw [if_neg hu2, mul_zero]
  · have h1 := mem_range.mp hu
    rw [Nat.mod_eq_of_lt (by omega)]
    unfold pad
    rw [if_pos (by omega), if_pos (by omega)]

theorem ccorr_neg (N : Nat) (x y : Nat → ℝ) (l : Nat) (hl : l < N) :
    ccorr N x y ((N - l) % N) = ccorr N y x l := by
  unfold ccorr
  have hN : 0 < N := by omega
  rw [← rotate_sum hN l]
  refine sum_congr rfl fun u hu => ?_
  have hu := mem_range.mp hu
  rw [Nat.add_mod_mod, Nat.mod_add_mod, show u + l + (N - l) = u + N by omega, Nat.add_mod_right, Nat.mod_eq_of_lt hu, mul_comm]

/-- **C88 (correlation).** Positive lags of the traces from the beginning, negative ones from the end of the period, as long as
they do not meet: with `data1` zero from sample `n1` on and `data2` from `n2` on, sample `l` holds lag `l` if `l + n2 ≤ N`, and sample
`N - l` lag `-l` if `l + n1 ≤ N`, where `N = optncr(nsam)`. -/
theorem corr_lags (nrec nsam lend lenc n1 n2 : Nat) (h3 : 3 ≤ nsam) (h16 : nsam ≤ 16384) (hd : nrec * nsam ≤ lend) (hc : nrec * nsam ≤ lenc)
    (dt : ℝ) (w : Work) (d1 d2 cov : Nat → ℝ)
    (h1 : ∀ i j, i < nrec → n1 ≤ j → j < nsam → d1 (i * nsam + j) = 0) (h2 : ∀ i j, i < nrec → n2 ≤ j → j < nsam → d2 (i * nsam + j) = 0)
    (s : St) (hs : Hist s) :
    ∃ cov' s', corr nrec nsam lend lenc dt false w d1 d2 cov s = some (cov', s') ∧ Hist s' ∧
      (∀ i l, i < nrec → l < nsam → l + n2 ≤ optncr nsam →
        cov' (i * nsam + l) = dt * ∑ u ∈ range (nsam - l), d1 (i * nsam + (u + l)) * d2 (i * nsam + u)) ∧
      ∀ i l, i < nrec → 0 < l → optncr nsam - l < nsam → l + n1 ≤ optncr nsam → l ≤ optncr nsam →
        cov' (i * nsam + (optncr nsam - l)) = dt * ∑ u ∈ range (nsam - l), d1 (i * nsam + u) * d2 (i * nsam + (u + l)) := by
  have hge : nsam ≤ optncr nsam := optncr_ge_partial nsam (by omega) h16
  obtain ⟨cov', s', e, p, a, _⟩ := corr_spec nrec nsam lend lenc h3 h16 hd hc dt false (by simp) w d1 d2 cov s hs
  refine ⟨cov', s', e, p, fun i l hi hl hl2 => ?_, fun i l hi hl0 hl hl1 hlN => ?_⟩
  · rw [a i l hi hl, placed, if_neg (by simp), ccorr_pos _ nsam n2 hge (trace nsam d1 i) (trace nsam d2 i) (fun j hj hj2 => h2 i j hi hj hj2) l (by omega)]
    rfl
  · rw [a i _ hi hl, placed, if_neg (by simp)]
    rcases Nat.lt_or_ge l (optncr nsam) with h | h
    · rw [← Nat.mod_eq_of_lt (show optncr nsam - l < optncr nsam by omega), ccorr_neg _ _ _ l h,
        ccorr_pos _ nsam n1 hge (trace nsam d2 i) (trace nsam d1 i) (fun j hj hj2 => h1 i j hi hj hj2) l (by omega)]
      congr 1
      unfold lcorr trace
      exact sum_congr rfl fun u _ => mul_comm _ _
    · have hn : n1 = 0 := by omega
      rw [show nsam - l = 0 by omega, sum_range_zero, mul_zero]
      unfold ccorr
      rw [sum_eq_zero, mul_zero]
      intro u _
      unfold pad trace
      split
      · rw [h1 i _ hi (by omega) (by assumption), zero_mul]
      · rw [zero_mul]

/-- **C88 (power).** `power` gives the mean of the circular correlation and its reverse. -/
theorem power_spec (nrec nsam lend lenc : Nat) (h3 : 3 ≤ nsam) (h16 : nsam ≤ 16384) (hd : nrec * nsam ≤ lend) (hc : nrec * nsam ≤ lenc)
    (dt : ℝ) (shift : Bool) (hdt : shift = true → dt ≠ 0) (w : Work) (d1 d2 cov : Nat → ℝ) (s : St) (hs : Hist s) :
    ∃ cov' s', power nrec nsam lend lenc dt shift w d1 d2 cov s = some (cov', s') ∧ Hist s' ∧
      (∀ i t, i < nrec → t < nsam → cov' (i * nsam + t) =
        dt * placed (optncr nsam) nsam shift (fun t => 1 / 2 * (
          ccorr (optncr nsam) (pad nsam (trace nsam d1 i)) (pad nsam (trace nsam d2 i)) t +
          rev (optncr nsam) (ccorr (optncr nsam) (pad nsam (trace nsam d1 i)) (pad nsam (trace nsam d2 i))) t)) t) ∧
      ∀ m, nrec * nsam ≤ m → cov' m = cov m := by
  have hge : nsam ≤ optncr nsam := optncr_ge_partial nsam (by omega) h16
  refine through_spec nrec nsam nsam lend lenc h3 h16 le_rfl hd hc dt _ _ w d1 d2 cov s hs _ fun p1 p2 e1 e2 =>
    ⟨_, rfl, fun i k hi hk => ?_⟩
  have hv : powerLoop (nrec * (optncr nsam / 2 + 1)) p1 p2 w.q (i * (optncr nsam / 2 + 1) + k) =
      ⟨(spectrum (optncr nsam) (ccorr (optncr nsam) (pad nsam (trace nsam d1 i)) (pad nsam (trace nsam d2 i))) k).re, 0⟩ := by
    unfold powerLoop
    rw [eachLoop _ (fun j _ => (⟨(p1 j).re * (p2 j).re + (p1 j).im * (p2 j).im, 0⟩ : ℂ)), if_pos (row_le hi (by omega)),
      spectrum_ccorr _ (by omega), ← mul_conj_re_im, e1 i k hi hk, e2 i k hi hk]
  rw [spectrum_placed _ _ (by omega) hge, spectrum_smul, spectrum_add, spectrum_rev _ (by omega), ← re_half]
  cases shift with
  | false => simp [hv]
  | true => rw [if_pos rfl, if_pos rfl, shiftPow_val nrec nsam (by omega) dt (hdt rfl) _ hi hk (by rw [hv]), hv]

/-! ### The third kind of correlation -/

/-- **C88 (`cor3`).** `corr3` gives the mean of the circular *convolution* and its reverse, cut off at half the samples. -/
theorem corr3_spec (nrec nsam lend lenc : Nat) (h3 : 3 ≤ nsam) (h16 : nsam ≤ 16384) (hd : nrec * nsam ≤ lend)
    (hc : nrec * (nsam / 2) ≤ lenc) (dt : ℝ) (w : Work) (d1 d2 cov : Nat → ℝ) (s : St) (hs : Hist s) :
    ∃ cov' s', corr3 nrec nsam lend lenc dt w d1 d2 cov s = some (cov', s') ∧ Hist s' ∧
      (∀ i t, i < nrec → t < nsam / 2 → cov' (i * (nsam / 2) + t) =
        dt * (1 / 2 * (cconv (optncr nsam) (pad nsam (trace nsam d1 i)) (pad nsam (trace nsam d2 i)) t +
          rev (optncr nsam) (cconv (optncr nsam) (pad nsam (trace nsam d1 i)) (pad nsam (trace nsam d2 i))) t))) ∧
      ∀ m, nrec * (nsam / 2) ≤ m → cov' m = cov m := by
  have hge : nsam ≤ optncr nsam := optncr_ge_partial nsam (by omega) h16
  refine through_spec nrec nsam (nsam / 2) lend lenc h3 h16 (by omega) hd hc dt _ _ w d1 d2 cov s hs
    (fun i t => 1 / 2 * (cconv (optncr nsam) (pad nsam (trace nsam d1 i)) (pad nsam (trace nsam d2 i)) t +
          rev (optncr nsam) (cconv (optncr nsam) (pad nsam (trace nsam d1 i)) (pad nsam (trace nsam d2 i))) t)) fun p1 p2 e1 e2 =>
    ⟨_, rfl, fun i k hi hk => ?_⟩
  rw [spectrum_smul, spectrum_add, spectrum_rev _ (by omega), ← re_half, spectrum_cconv _ (by omega), ← e1 i k hi hk, ← e2 i k hi hk,
    ← mul_re_im]
  unfold corr3Loop
  rw [id, eachLoop _ (fun j z => (⟨(p1 j).re * (p2 j).re - (p1 j).im * (p2 j).im, z.im⟩ : ℂ)), if_pos (row_le hi (by omega))]
  apply Complex.ext <;> simp <;> ring

/-- **C88 fails for `cor3`.** The "correlation, non-causal added to causal part" of a unit sample at time 1 with itself is zero at
time zero, whatever the number of samples, although its autocorrelation there is 1. -/
theorem corr3_wrong (nsam lend lenc : Nat) (h3 : 3 ≤ nsam) (h16 : nsam ≤ 16384) (hd : nsam ≤ lend)
    (hc : nsam / 2 ≤ lenc) (dt : ℝ) (w : Work) (cov : Nat → ℝ) (s : St) (hs : Hist s) :
    ∃ cov' s', corr3 1 nsam lend lenc dt w (fun j => if j = 1 then 1 else 0) (fun j => if j = 1 then 1 else 0) cov s = some (cov', s') ∧
      cov' 0 = 0 ∧ lcorr nsam (fun j => if j = 1 then 1 else 0) (fun j => if j = 1 then 1 else 0) 0 = 1 := by
  have hge : nsam ≤ optncr nsam := optncr_ge_partial nsam (by omega) h16
  obtain ⟨cov', s', e, p, a, _⟩ := corr3_spec 1 nsam lend lenc h3 h16 (by omega) (by omega) dt w (fun j => if j = 1 then 1 else 0)
    (fun j => if j = 1 then 1 else 0) cov s hs
  have hp : pad nsam (trace nsam (fun j => if j = 1 then 1 else 0) 0) = fun j => if j = 1 then 1 else 0 := by
    funext j
    unfold pad trace
    rw [Nat.zero_mul, Nat.zero_add]
    by_cases h : j = 1
    · rw [if_pos (by omega)]
    · split <;> simp [h]
  have hz : cconv (optncr nsam) (fun j => if j = 1 then 1 else 0) (fun j => if j = 1 then 1 else 0) 0 = 0 := by
    unfold cconv
    refine sum_eq_zero fun s _ => sum_eq_zero fun u _ => ?_
    by_cases h1 : s = 1
    · by_cases h2 : u = 1
      · subst h1; subst h2
        rw [Nat.mod_eq_of_lt (show 1 + 1 < optncr nsam by omega), if_neg (by omega)]
      · simp [h2]
    · simp [h1]
  refine ⟨cov', s', e, ?_, ?_⟩
  · have := a 0 0 (by omega) (by omega)
    rw [hp] at this
    unfold rev at this
    rw [Nat.sub_zero, Nat.mod_self, hz] at this
    rw [Nat.zero_mul] at this
    rw [this]; ring
  · unfold lcorr
    rw [sum_eq_single 1]
    · simp
    · intro b _ hb; simp [hb]
    · intro h; exact absurd (mem_range.mpr (by omega)) h

end Verif.Conv

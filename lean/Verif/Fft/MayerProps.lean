import Verif.Fft.MayerFht
import Verif.Base.Write

/-!
# C69: real transforms of power-of-two length

`rc1_fft` and `cr1_fft` of FFTlib/lib_fft.c for lengths that are powers of two.  The specification is `dft` of KissDft.lean, the
sum `Σ_j x_j exp(± 2πi jk/n)`.
-/

noncomputable section
namespace Verif.Fft.Mayer
open Verif Verif.Fft Finset

/-! ### What earlier calls leave behind -/

/-- The statics after any sequence of earlier calls, of any lengths, on any data. -/
inductive Reach : Trig → Prop
  /-- At the start of the program. -/
  | start : Reach Trig.start
  /-- After a call. -/
  | call {T T' : Trig} (n : Nat) (z z' : Mem) : Reach T → fht n z T = some (z', T') → Reach T'

private theorem trigInit_ok (k : Nat) (T T' : Trig) (h : TrigOk T) (he : trigInit k T = some T') : TrigOk T' := by
  unfold trigInit at he
  rw [Option.map_eq_some_iff] at he
  obtain ⟨T1, h1, rfl⟩ := he
  have := forNM_some (fun _ t => TrigOk t) h1 h (by
    intro d _ t t' ⟨a, b, c, e⟩ hs
    split at hs
    · cases hs
      exact ⟨by dsimp only; rw [upd_ne _ _ (by omega), a], by dsimp only; rw [upd_ne _ _ (by omega), b],
        by dsimp only; rw [upd_ne _ _ (by omega), c], by dsimp only; rw [upd_ne _ _ (by omega), e]⟩
    · cases hs)
  exact this

private theorem trigNext_ok (k : Nat) (T T' : Trig) (c1 s1 : ℝ) (h : TrigOk T) (he : trigNext k T = some (c1, s1, T')) : TrigOk T' := by
  unfold trigNext at he
  dsimp only at he
  rw [Option.bind_eq_some_iff] at he
  obtain ⟨e, _, he⟩ := he
  split at he
  · cases he
  · split at he
    · rw [Option.bind_eq_some_iff] at he
      obtain ⟨j, _, he⟩ := he
      split at he
      · cases he
      · cases he
        obtain ⟨a, b, c, d⟩ := h
        exact ⟨by dsimp only; rw [upd_ne _ _ (by omega), a], by dsimp only; rw [upd_ne _ _ (by omega), b],
          by dsimp only; rw [upd_ne _ _ (by omega), c], by dsimp only; rw [upd_ne _ _ (by omega), d]⟩
    · cases he
      exact h

private theorem stage_ok (n k : Nat) (z z' : Mem) (T T' : Trig) (h : TrigOk T) (he : stage n k z T = some (z', T')) : TrigOk T' := by
  unfold stage at he
  dsimp only at he
  rw [Option.bind_eq_some_iff] at he
  obtain ⟨z1, _, he⟩ := he
  rw [Option.bind_eq_some_iff] at he
  obtain ⟨T1, h1, he⟩ := he
  exact forNM_some (fun _ (st : Mem × Trig) => TrigOk st.2) he (trigInit_ok k T T1 h h1) (by
    rintro d _ ⟨w, t⟩ ⟨w', t'⟩ ht hs
    dsimp only at hs ht ⊢
    rw [Option.bind_eq_some_iff] at hs
    obtain ⟨⟨c1, s1, t2⟩, h2, hs⟩ := hs
    dsimp only at hs
    rw [Option.map_eq_some_iff] at hs
    obtain ⟨w2, _, hs⟩ := hs
    cases hs
    exact trigNext_ok k t _ c1 s1 ht h2)

private theorem stages_ok (n : Nat) : ∀ f k z z' T T', TrigOk T → stages n f k z T = some (z', T') → TrigOk T'
  | 0, _, _, _, _, _, _, he => by cases he
  | f + 1, k, z, z', T, T', h, he => by
    rw [stages, Option.bind_eq_some_iff] at he
    obtain ⟨⟨z1, T1⟩, h1, he⟩ := he
    have h2 := stage_ok n (k + 2) z z1 T T1 h h1
    dsimp only at he
    split at he
    · exact stages_ok n f _ _ _ _ _ h2 he
    · cases he; exact h2

theorem Reach.ok {T : Trig} (h : Reach T) : TrigOk T := by
  induction h with
  | start => exact trigOk_start
  | call n z z' _ he ih =>
    unfold fht at he
    dsimp only at he
    rw [Option.bind_eq_some_iff] at he
    obtain ⟨z1, _, he⟩ := he
    rw [Option.bind_eq_some_iff] at he
    obtain ⟨k, _, he⟩ := he
    rw [Option.bind_eq_some_iff] at he
    obtain ⟨z2, _, he⟩ := he
    split at he
    · cases he; exact ih
    · exact stages_ok _ _ _ _ _ _ _ ih he

/-! ### Helpers -/

private def cs (n : Nat) (x : Mem) (k : Nat) : ℝ := ∑ j ∈ range n, x j * Real.cos (2 * Real.pi / n * (k * j : Nat))
private def sn (n : Nat) (x : Mem) (k : Nat) : ℝ := ∑ j ∈ range n, x j * Real.sin (2 * Real.pi / n * (k * j : Nat))

private theorem hart_pos (n : Nat) (x : Mem) (k : Nat) : hart n x (k : ℤ) = cs n x k + sn n x k := by
  unfold hart cs sn
  rw [← sum_add_distrib]
  apply sum_congr rfl
  intro j _
  rw [show 2 * Real.pi * ((k : ℤ) : ℝ) * j / n = 2 * Real.pi / n * (k * j : Nat) by push_cast; ring]
  ring

private theorem hart_refl (n : Nat) (hn : 0 < n) (x : Mem) (k : Nat) (hk : k ≤ n) : hart n x ((n - k : Nat) : ℤ) = cs n x k - sn n x k := by
  rw [show ((n - k : Nat) : ℤ) = -(k : ℤ) + 1 * n by push_cast [Nat.cast_sub hk]; ring, hart_period n hn]
  unfold hart cs sn
  rw [← sum_sub_distrib]
  apply sum_congr rfl
  intro j _
  rw [show 2 * Real.pi * ((-(k : ℤ) : ℤ) : ℝ) * j / n = -(2 * Real.pi / n * (k * j : Nat)) by push_cast; ring, Real.cos_neg, Real.sin_neg]
  ring

private theorem sn_zero (n : Nat) (x : Mem) : sn n x 0 = 0 := by simp [sn]

private theorem sn_half (h : Nat) (hh : 0 < h) (x : Mem) : sn (2 * h) x h = 0 := by
  unfold sn
  apply sum_eq_zero
  intro j _
  have : (h : ℝ) ≠ 0 := by positivity
  rw [show 2 * Real.pi / ((2 * h : Nat) : ℝ) * (h * j : Nat) = j * Real.pi by push_cast; field_simp, Real.sin_nat_mul_pi, mul_zero]

/-- A loop that combines elements `i` and `n-i`. -/
theorem fold_spec (n : Nat) (f g : ℝ → ℝ → ℝ) (z : Mem) :
    let w := forN (n / 2 - 1) (fun d z => upd (upd z (n - 1 - d) (g (z (d + 1)) (z (n - 1 - d)))) (d + 1) (f (z (d + 1)) (z (n - 1 - d)))) z
    (∀ i, 0 < i → i < n / 2 → w i = f (z i) (z (n - i)) ∧ w (n - i) = g (z i) (z (n - i))) ∧
    ∀ c, (c = 0 ∨ 2 * c = n ∨ n ≤ c) → w c = z c := by
  have := forN_inv (n := n / 2 - 1) (s := z)
    (body := fun d z => upd (upd z (n - 1 - d) (g (z (d + 1)) (z (n - 1 - d)))) (d + 1) (f (z (d + 1)) (z (n - 1 - d))))
    (fun d w => (∀ i, 0 < i → i < d + 1 → w i = f (z i) (z (n - i)) ∧ w (n - i) = g (z i) (z (n - i))) ∧
      ∀ c, (c = 0 ∨ n ≤ c ∨ (d < c ∧ c < n - d)) → w c = z c) ⟨fun i a b => by omega, fun c _ => rfl⟩ (by
      rintro d hd w ⟨h1, h2⟩
      refine ⟨fun i hi hid => ?_, fun c hc => ?_⟩
      · by_cases hi' : i = d + 1
        · subst hi'
          rw [upd_same, show n - (d + 1) = n - 1 - d by omega, upd_ne _ _ (by omega), upd_same, h2 _ (by omega), h2 _ (by omega)]
          exact ⟨rfl, rfl⟩
        · rw [upd_ne _ _ (by omega), upd_ne _ _ (by omega), upd_ne _ _ (by omega), upd_ne _ _ (by omega)]
          exact h1 i hi (by omega)
      · rw [upd_ne _ _ (by omega), upd_ne _ _ (by omega)]
        exact h2 c (by omega))
  refine ⟨fun i h1 h2 => this.1 i h1 (by omega), fun c hc => this.2 c (by omega)⟩

private theorem realfft_spec (m : Nat) (h2 : 2 ≤ m) (h17 : m ≤ 17) (x : Mem) (T : Trig) (hT : Reach T) :
    ∃ d T', realfft (2 ^ m) x T = some (d, T') ∧ Reach T' ∧ (∀ k ≤ 2 ^ m / 2, d k = cs (2 ^ m) x k) ∧
      ∀ k, 0 < k → k < 2 ^ m / 2 → d (2 ^ m - k) = sn (2 ^ m) x k := by
  obtain ⟨h, hh⟩ : ∃ h, 2 ^ m = 2 * h := ⟨2 ^ (m - 1), by rw [← pow_succ', show m - 1 + 1 = m by omega]⟩
  have hpos : 0 < 2 ^ m := by positivity
  obtain ⟨z, T', a1, a2, a3, a4⟩ := fht_spec m h2 h17 x T hT.ok
  obtain ⟨f1, f2⟩ := fold_spec (2 ^ m) (fun a b => (a + b) * (1 / 2)) (fun a b => (a - b) * (1 / 2)) z
  refine ⟨_, T', by rw [realfft, a1]; rfl, Reach.call _ _ _ hT a1, fun k hk => ?_, fun k hk1 hk2 => ?_⟩
  · rcases Nat.eq_zero_or_pos k with rfl | hk0
    · refine (f2 0 (Or.inl rfl)).trans ?_
      rw [a2 0 hpos, hart_pos, sn_zero, add_zero]
    · by_cases hkh : k = 2 ^ m / 2
      · have e : k = h := by omega
        subst e
        refine (f2 k (by omega)).trans ?_
        rw [a2 k (by omega), hart_pos, hh, sn_half k hk0, add_zero]
      · refine (f1 k hk0 (by omega)).1.trans ?_
        rw [a2 k (by omega), a2 (2 ^ m - k) (by omega), hart_pos, hart_refl _ hpos _ _ (by omega)]
        ring
  · refine (f1 k hk1 hk2).2.trans ?_
    rw [a2 k (by omega), a2 (2 ^ m - k) (by omega), hart_pos, hart_refl _ hpos _ _ (by omega)]
    ring

/-- **C69 (forward transform).** For `n = 4, 8, …, 131072` points, after any history of calls, the real-to-complex transform
with sign ±1 gives the first `n/2+1` values of the discrete Fourier transform with that sign, and changes nothing behind them. -/
theorem rc1_pow2_dft (m : Nat) (h2 : 2 ≤ m) (h17 : m ≤ 17) (s : Int) (hs : s = 1 ∨ s = -1) (x re im : Mem) (T : Trig) (hT : Reach T) :
    ∃ re' im' T', rc1Pow2 (2 ^ m) s x re im T = some (re', im', T') ∧ Reach T' ∧
      (∀ k ≤ 2 ^ m / 2, (⟨re' k, im' k⟩ : ℂ) = dft s (2 ^ m) (fun j => (x j : ℂ)) k) ∧
      ∀ k, 2 ^ m / 2 < k → re' k = re k ∧ im' k = im k := by
  obtain ⟨h, hh⟩ : ∃ h, 2 ^ m = 2 * h := ⟨2 ^ (m - 1), by rw [← pow_succ', show m - 1 + 1 = m by omega]⟩
  have hpos : 0 < 2 ^ m := by positivity
  obtain ⟨d, T', a1, a2, a3, a4⟩ := realfft_spec m h2 h17 x T hT
  have loop := forN_inv (n := 2 ^ m / 2) (s := (re, upd im 0 0))
    (body := fun j (s' : Mem × Mem) => (upd s'.1 j (d j), upd s'.2 (j + 1) (s * d (2 ^ m - j - 1))))
    (fun e w => (∀ k < e, w.1 k = d k) ∧ (∀ k, 0 < k → k ≤ e → w.2 k = s * d (2 ^ m - k)) ∧ w.2 0 = 0 ∧
      (∀ k, e ≤ k → w.1 k = re k) ∧ ∀ k, e < k → w.2 k = im k)
    ⟨fun k hk => by omega, fun k a b => by omega, upd_same im 0 0, fun k _ => rfl, fun k hk => upd_ne _ _ (by omega)⟩ (by
      rintro e he w ⟨b1, b2, b3, b4, b5⟩
      refine ⟨fun k hk => ?_, fun k hk1 hk2 => ?_, ?_, fun k hk => ?_, fun k hk => ?_⟩
      · by_cases hke : k = e
        · subst hke; exact upd_same _ _ _
        · dsimp only; rw [upd_ne _ _ hke]; exact b1 k (by omega)
      · by_cases hke : k = e + 1
        · subst hke; dsimp only; rw [upd_same, show 2 ^ m - e - 1 = 2 ^ m - (e + 1) by omega]
        · dsimp only; rw [upd_ne _ _ hke]; exact b2 k hk1 (by omega)
      · dsimp only; rw [upd_ne _ _ (by omega)]; exact b3
      · dsimp only; rw [upd_ne _ _ (by omega)]; exact b4 k (by omega)
      · dsimp only; rw [upd_ne _ _ (by omega)]; exact b5 k (by omega))
  obtain ⟨b1, b2, b3, b4, b5⟩ := loop
  refine ⟨_, _, T', by rw [rc1Pow2, a1]; rfl, a2, fun k hk => ?_, fun k hk => ⟨?_, ?_⟩⟩
  · obtain ⟨d1, d2⟩ := dft_re_im s hs (2 ^ m) x k
    change _ = cs (2 ^ m) x k at d1
    change _ = s * sn (2 ^ m) x k at d2
    apply Complex.ext
    · rw [d1, ← a3 k hk]
      dsimp only
      by_cases hkh : k = 2 ^ m / 2
      · subst hkh; exact upd_same _ _ _
      · rw [upd_ne _ _ hkh]; exact b1 k (by omega)
    · rw [d2]
      dsimp only
      by_cases hkh : k = 2 ^ m / 2
      · subst hkh
        rw [upd_same, hh, show 2 * h / 2 = h by omega, sn_half h (by omega), mul_zero]
      · rw [upd_ne _ _ hkh]
        rcases Nat.eq_zero_or_pos k with rfl | hk0
        · rw [sn_zero, mul_zero]; exact b3
        · rw [← a4 k hk0 (by omega)]; exact b2 k hk0 hk
  · rw [upd_ne _ _ (by omega)]; exact b4 k (by omega)
  · rw [upd_ne _ _ (by omega)]; exact b5 k (by omega)

/-- The hypotheses are met by the first call of a program. -/
example : ∃ re' im' T', rc1Pow2 (2 ^ 10) 1 (fun j => if j = 3 then 5 else 0) (fun _ => 0) (fun _ => 0) Trig.start = some (re', im', T') ∧ Reach T' ∧
      (∀ k ≤ 2 ^ 10 / 2, (⟨re' k, im' k⟩ : ℂ) = dft 1 (2 ^ 10) (fun j => ((if j = 3 then 5 else 0 : ℝ) : ℂ)) k) ∧
      ∀ k, 2 ^ 10 / 2 < k → re' k = 0 ∧ im' k = 0 :=
  rc1_pow2_dft 10 (by omega) (by omega) 1 (Or.inl rfl) _ _ _ _ Reach.start

/-! ### The inverse -/

private theorem odd_sum (n : Nat) (g : Nat → ℝ) (h0 : g 0 = 0) (h : ∀ k, 0 < k → k < n → g (n - k) = - g k) : ∑ k ∈ range n, g k = 0 := by
  rcases n with _ | n
  · rfl
  rw [sum_range_succ', h0, add_zero]
  have : ∑ k ∈ range n, g (k + 1) = - ∑ k ∈ range n, g (k + 1) := by
    conv_lhs => rw [← sum_range_reflect]
    rw [← sum_neg_distrib]
    apply sum_congr rfl
    intro k hk
    have hk := mem_range.1 hk
    rw [← h (k + 1) (by omega) (by omega)]
    congr 1; omega
  linarith

theorem dft_reflect (s : Int) (n : Nat) (hn : 0 < n) (X : Nat → ℂ) (k : Nat) (hk : k ≤ n) : dft s n X (n - k) = dft (-s) n X k := by
  unfold dft
  apply sum_congr rfl
  intro j _
  rw [← root_pow_dft, ← root_pow_dft, root_reflect s n hn j k hk]

/-- A Hermitian spectrum has a real transform: the Hartley sum. -/
theorem hermitian_dft (n : Nat) (hn : 0 < n) (X : Nat → ℂ) (h0 : (X 0).im = 0) (hX : ∀ k, 0 < k → k < n → X (n - k) = (starRingEnd ℂ) (X k)) (t : Nat) :
    dft (-1) n X t = ((hart n (fun c => (X c).re + (X c).im) (t : ℤ) : ℝ) : ℂ) := by
  have hang : ∀ k, k < n → 2 * Real.pi / n * (t * (n - k : Nat) : Nat) = (t : ℕ) * (2 * Real.pi) - 2 * Real.pi / n * (t * k : Nat) := by
    intro k hk
    have : (n : ℝ) ≠ 0 := by positivity
    push_cast [Nat.cast_sub hk.le]
    field_simp
  have hcos : ∀ k, k < n → Real.cos (2 * Real.pi / n * (t * (n - k : Nat) : Nat)) = Real.cos (2 * Real.pi / n * (t * k : Nat)) := fun k hk => by
    rw [hang k hk, Real.cos_nat_mul_two_pi_sub]
  have hsin : ∀ k, k < n → Real.sin (2 * Real.pi / n * (t * (n - k : Nat) : Nat)) = - Real.sin (2 * Real.pi / n * (t * k : Nat)) := fun k hk => by
    rw [hang k hk, Real.sin_nat_mul_two_pi_sub]
  have hre : ∀ k, 0 < k → k < n → (X (n - k)).re = (X k).re := fun k a b => by rw [hX k a b, Complex.conj_re]
  have him : ∀ k, 0 < k → k < n → (X (n - k)).im = - (X k).im := fun k a b => by rw [hX k a b, Complex.conj_im]
  have z1 : ∑ k ∈ range n, ((X k).re * Real.sin (2 * Real.pi / n * (t * k : Nat)) + (X k).im * Real.cos (2 * Real.pi / n * (t * k : Nat))) = 0 := by
    apply odd_sum
    · simp [h0]
    · intro k a b
      rw [hre k a b, him k a b, hcos k b, hsin k b]; ring
  have z2 : ∑ k ∈ range n, ((X k).im * Real.cos (2 * Real.pi / n * (t * k : Nat)) - (X k).re * Real.sin (2 * Real.pi / n * (t * k : Nat))) = 0 := by
    apply odd_sum
    · simp [h0]
    · intro k a b
      rw [hre k a b, him k a b, hcos k b, hsin k b]; ring
  have term : ∀ k : Nat, (Complex.exp ((-1 : Int) * (2 * Real.pi * Complex.I * (k * t) / n))) =
      ⟨Real.cos (2 * Real.pi / n * (t * k : Nat)), - Real.sin (2 * Real.pi / n * (t * k : Nat))⟩ := fun k => by
    have := exp_angle (-1) n k t
    rw [cos_sign _ (Or.inr rfl), sin_sign _ (Or.inr rfl)] at this
    rw [this]; simp
  unfold dft
  apply Complex.ext
  · rw [Complex.re_sum, Complex.ofReal_re, hart_pos]
    unfold cs sn
    rw [← sum_add_distrib, ← sub_eq_zero, ← neg_eq_zero, neg_sub, ← sum_sub_distrib, ← z1]
    apply sum_congr rfl
    intro k _
    rw [term k, Complex.mul_re]; ring
  · rw [Complex.im_sum, Complex.ofReal_im, ← z2]
    apply sum_congr rfl
    intro k _
    rw [term k, Complex.mul_im]; ring

/-- **C69 (inverse transform).** For `n = 4, 8, …, 131072` points, after any history of calls and for every content of the
fresh array, the complex-to-real transform with sign ±1 of the first `n/2+1` values of a Hermitian spectrum `X` is its discrete
Fourier transform with that sign. -/
theorem cr1_pow2_dft (m : Nat) (h2 : 2 ≤ m) (h17 : m ≤ 17) (s : Int) (hs : s = 1 ∨ s = -1) (X : Nat → ℂ) (h0 : (X 0).im = 0)
    (hX : ∀ k, 0 < k → k < 2 ^ m → X (2 ^ m - k) = (starRingEnd ℂ) (X k)) (re im : Mem)
    (hre : ∀ k ≤ 2 ^ m / 2, re k = (X k).re) (him : ∀ k ≤ 2 ^ m / 2, im k = (X k).im) (buf x : Mem) (T : Trig) (hT : Reach T) :
    ∃ y T', cr1Pow2 (2 ^ m) s re im buf x T = some (y, T') ∧ Reach T' ∧ (∀ t < 2 ^ m, (y t : ℂ) = dft s (2 ^ m) X t) ∧
      ∀ t, 2 ^ m ≤ t → y t = x t := by
  obtain ⟨h, hh⟩ : ∃ h, 2 ^ m = 2 * h := ⟨2 ^ (m - 1), by rw [← pow_succ', show m - 1 + 1 = m by omega]⟩
  have hpos : 0 < 2 ^ m := by positivity
  have loop := forN_inv (n := 2 ^ m / 2) (s := buf) (body := fun j d => upd (upd d j (re j)) (2 ^ m - 1 - j) (im (j + 1)))
    (fun e d => (∀ k < e, d k = re k) ∧ ∀ k, 0 < k → k ≤ e → d (2 ^ m - k) = im k) ⟨fun k hk => by omega, fun k a b => by omega⟩ (by
      rintro e he d ⟨b1, b2⟩
      refine ⟨fun k hk => ?_, fun k hk1 hk2 => ?_⟩
      · rw [upd_ne _ _ (by omega)]
        by_cases hke : k = e
        · subst hke; exact upd_same _ _ _
        · rw [upd_ne _ _ hke]; exact b1 k (by omega)
      · show upd (upd d e (re e)) (2 ^ m - 1 - e) (im (e + 1)) (2 ^ m - k) = im k
        by_cases hke : k = e + 1
        · subst hke; rw [show 2 ^ m - (e + 1) = 2 ^ m - 1 - e by omega]; exact upd_same _ _ _
        · rw [upd_ne _ _ (by omega), upd_ne _ _ (by omega)]; exact b2 k hk1 (by omega))
  obtain ⟨b1, b2⟩ := loop
  generalize hd : forN (2 ^ m / 2) (fun j d => upd (upd d j (re j)) (2 ^ m - 1 - j) (im (j + 1))) buf = d at b1 b2
  obtain ⟨f1, f2⟩ := fold_spec (2 ^ m) (fun a b => a + b) (fun a b => a - b) (upd d (2 ^ m / 2) (re (2 ^ m / 2)))
  generalize hw : forN (2 ^ m / 2 - 1) (fun d z => upd (upd z (2 ^ m - 1 - d) (z (d + 1) - z (2 ^ m - 1 - d))) (d + 1)
    (z (d + 1) + z (2 ^ m - 1 - d))) (upd d (2 ^ m / 2) (re (2 ^ m / 2))) = w at f1 f2
  have hval : ∀ c < 2 ^ m, w c = (X c).re + (X c).im := by
    intro c hc
    rcases Nat.eq_zero_or_pos c with rfl | hc0
    · rw [f2 0 (Or.inl rfl), upd_ne _ _ (by omega), b1 0 (by omega), hre 0 (by omega), h0, add_zero]
    · rcases Nat.lt_trichotomy c (2 ^ m / 2) with hl | hl | hl
      · rw [(f1 c hc0 hl).1, upd_ne _ _ (by omega), upd_ne _ _ (by omega), b1 c hl, b2 c hc0 (by omega), hre c (by omega), him c (by omega)]
      · have hx := congrArg Complex.im (hX c hc0 hc)
        rw [show 2 ^ m - c = c by omega, Complex.conj_im] at hx
        rw [f2 c (by omega), hl, upd_same, hre _ (le_refl _), ← hl]
        linarith
      · have := (f1 (2 ^ m - c) (by omega) (by omega)).2
        rw [show 2 ^ m - (2 ^ m - c) = c by omega] at this
        have hx := hX (2 ^ m - c) (by omega) (by omega)
        rw [show 2 ^ m - (2 ^ m - c) = c by omega] at hx
        have b3 := b2 (2 ^ m - c) (by omega) (by omega)
        rw [show 2 ^ m - (2 ^ m - c) = c by omega] at b3
        rw [this, upd_ne _ _ (by omega), upd_ne _ _ (by omega), b1 _ (by omega), b3, hre _ (by omega), him _ (by omega), hx,
          Complex.conj_re, Complex.conj_im]
        ring
  obtain ⟨z, T', a1, a2, a3, a4⟩ := fht_spec m h2 h17 w T hT.ok
  have hz : ∀ c < 2 ^ m, (z c : ℂ) = dft (-1) (2 ^ m) X c := by
    intro c hc
    rw [a2 c hc, hermitian_dft (2 ^ m) hpos X h0 hX c]
    congr 1
    unfold hart
    exact sum_congr rfl fun j hj => by rw [hval j (mem_range.1 hj)]
  have hr : realifft (2 ^ m) (upd d (2 ^ m / 2) (re (2 ^ m / 2))) T = some (z, T') := by rw [realifft, hw]; exact a1
  rcases hs with rfl | rfl
  · refine ⟨_, T', by rw [cr1Pow2]; dsimp only; rw [hd, hr, Option.map_some, if_neg (by decide), if_pos rfl], Reach.call _ _ _ hT a1, ?_⟩
    have loop := forN_inv (n := 2 ^ m - 1) (s := x) (body := fun j x => upd x (j + 1) (z (2 ^ m - (j + 1))))
      (fun e y => (∀ t, 0 < t → t ≤ e → y t = z (2 ^ m - t)) ∧ ∀ t, e < t → y t = x t) ⟨fun t a b => by omega, fun _ _ => rfl⟩ (by
        rintro e he y ⟨c1, c2⟩
        refine ⟨fun t ht1 ht2 => ?_, fun t ht => ?_⟩
        · by_cases hte : t = e + 1
          · subst hte; exact upd_same _ _ _
          · rw [upd_ne _ _ hte]; exact c1 t ht1 (by omega)
        · rw [upd_ne _ _ (by omega)]; exact c2 t (by omega))
    refine ⟨fun t ht => ?_, fun t ht => ?_⟩
    · rcases Nat.eq_zero_or_pos t with rfl | ht0
      · rw [upd_same, hz 0 hpos]
        unfold dft
        simp
      · rw [upd_ne _ _ (by omega), loop.1 t ht0 (by omega), hz _ (by omega), dft_reflect (-1) _ hpos X t ht.le]
        norm_num
    · rw [upd_ne _ _ (by omega)]; exact loop.2 t (by omega)
  · refine ⟨_, T', by rw [cr1Pow2]; dsimp only; rw [hd, hr, Option.map_some, if_pos rfl], Reach.call _ _ _ hT a1, ?_⟩
    have loop := forN_inv (n := 2 ^ m) (s := x) (body := fun j x => upd x j (z j))
      (fun e y => (∀ t < e, y t = z t) ∧ ∀ t, e ≤ t → y t = x t) ⟨fun t a => by omega, fun _ _ => rfl⟩ (by
        rintro e he y ⟨c1, c2⟩
        refine ⟨fun t ht => ?_, fun t ht => ?_⟩
        · by_cases hte : t = e
          · subst hte; exact upd_same _ _ _
          · rw [upd_ne _ _ hte]; exact c1 t (by omega)
        · rw [upd_ne _ _ (by omega)]; exact c2 t (by omega))
    exact ⟨fun t ht => by rw [loop.1 t ht, hz t ht], loop.2⟩

theorem dft_hermitian (s : Int) (n : Nat) (hn : 0 < n) (x : Mem) (k : Nat) (hk : k ≤ n) :
    dft s n (fun j => (x j : ℂ)) (n - k) = (starRingEnd ℂ) (dft s n (fun j => (x j : ℂ)) k) := by
  rw [dft_reflect s n hn _ k hk]
  unfold dft
  rw [map_sum]
  apply sum_congr rfl
  intro j _
  rw [map_mul, Complex.conj_ofReal, ← root_pow_dft, ← root_pow_dft, map_pow, root_conj]

theorem dft_zero_im (s : Int) (n : Nat) (x : Mem) : (dft s n (fun j => (x j : ℂ)) 0).im = 0 := by
  unfold dft
  rw [Complex.im_sum]
  apply sum_eq_zero
  intro j _
  simp

/-- **C69 (round trip).** Forward and then inverse with the opposite sign gives `n` times the trace. -/
theorem cr1_rc1_pow2 (m : Nat) (h2 : 2 ≤ m) (h17 : m ≤ 17) (s : Int) (hs : s = 1 ∨ s = -1) (x re im buf y : Mem) (T : Trig) (hT : Reach T) :
    ∃ re' im' T' y' T'', rc1Pow2 (2 ^ m) s x re im T = some (re', im', T') ∧ cr1Pow2 (2 ^ m) (-s) re' im' buf y T' = some (y', T'') ∧
      ∀ t < 2 ^ m, y' t = 2 ^ m * x t := by
  have hpos : 0 < 2 ^ m := by positivity
  obtain ⟨re', im', T', a1, a2, a3, a4⟩ := rc1_pow2_dft m h2 h17 s hs x re im T hT
  have hs' : -s = 1 ∨ -s = -1 := by rcases hs with rfl | rfl <;> simp
  obtain ⟨y', T'', b1, b2, b3, b4⟩ := cr1_pow2_dft m h2 h17 (-s) hs' (dft s (2 ^ m) fun j => (x j : ℂ)) (dft_zero_im _ _ _)
    (fun k _ hk => dft_hermitian s _ hpos x k hk.le) re' im' (fun k hk => congrArg Complex.re (a3 k hk))
    (fun k hk => congrArg Complex.im (a3 k hk)) buf y T' a2
  refine ⟨re', im', T', y', T'', a1, b1, fun t ht => ?_⟩
  have e := (b3 t ht).trans (dft_roundtrip s hs (2 ^ m) hpos (fun j => (x j : ℂ)) t ht)
  have e2 : (y' t : ℂ) = ((2 ^ m * x t : ℝ) : ℂ) := by rw [e]; push_cast; ring
  exact_mod_cast e2

/-- **C69 (round trip of spectra).** Inverse and then forward with the opposite sign gives `n` times the spectrum. -/
theorem rc1_cr1_pow2 (m : Nat) (h2 : 2 ≤ m) (h17 : m ≤ 17) (s : Int) (hs : s = 1 ∨ s = -1) (X : Nat → ℂ) (h0 : (X 0).im = 0)
    (hX : ∀ k, 0 < k → k < 2 ^ m → X (2 ^ m - k) = (starRingEnd ℂ) (X k)) (buf y re im : Mem) (T : Trig) (hT : Reach T) :
    ∃ y' T' re' im' T'', cr1Pow2 (2 ^ m) s (fun k => (X k).re) (fun k => (X k).im) buf y T = some (y', T') ∧
      rc1Pow2 (2 ^ m) (-s) y' re im T' = some (re', im', T'') ∧ ∀ k ≤ 2 ^ m / 2, (⟨re' k, im' k⟩ : ℂ) = 2 ^ m * X k := by
  have hpos : 0 < 2 ^ m := by positivity
  have hs' : -s = 1 ∨ -s = -1 := by rcases hs with rfl | rfl <;> simp
  obtain ⟨y', T', b1, b2, b3, b4⟩ := cr1_pow2_dft m h2 h17 s hs X h0 hX _ _ (fun _ _ => rfl) (fun _ _ => rfl) buf y T hT
  obtain ⟨re', im', T'', a1, a2, a3, a4⟩ := rc1_pow2_dft m h2 h17 (-s) hs' y' re im T' b2
  refine ⟨y', T', re', im', T'', b1, a1, fun k hk => ?_⟩
  rw [a3 k hk]
  have hk' : k < 2 ^ m := by omega
  have := dft_roundtrip s hs (2 ^ m) hpos X k hk'
  push_cast at this
  rw [← this]
  unfold dft
  exact sum_congr rfl fun j hj => by
    dsimp only; rw [b3 j (mem_range.1 hj)]; rfl

/-- A Hermitian spectrum that is not zero. -/
example : ∃ X : Nat → ℂ, (X 0).im = 0 ∧ (∀ k, 0 < k → k < 2 ^ 4 → X (2 ^ 4 - k) = (starRingEnd ℂ) (X k)) ∧ X 1 = Complex.I :=
  ⟨fun k => if k = 1 then Complex.I else if k = 15 then -Complex.I else 0, by simp, fun k h1 h2 => by
    by_cases a : k = 1
    · subst a; simp
    · by_cases b : k = 15
      · subst b; simp
      · have c : ¬ 2 ^ 4 - k = 1 := by omega
        have d : ¬ 2 ^ 4 - k = 15 := by omega
        simp only [a, b, c, d, if_false, map_zero], by simp⟩

end Verif.Fft.Mayer

import Verif.Fft.PfaRealMath

/-!
# The real prime-factor transforms are discrete Fourier transforms (FFTlib/pfafft.c:1268-1361)
-/

namespace Verif.Fft.Pfa

open Complex Finset Verif Verif.Fft

/-! ### The complex transform of one trace -/

theorem lay_one {n len : Nat} (h : n ≤ len) : Lay n 1 1 0 len :=
  ⟨fun x t hx ht => by omega, fun x t x' t' hx ht hx' ht' e => by omega⟩

/-- **C77.** `pfacc` replaces a trace of valid length by its discrete Fourier transform; a negative sign argument selects the
negative exponent, all others the positive one; nothing behind the trace is changed. -/
theorem pfacc_dft (isign : Int) (n len : Nat) (hv : ValidLen n) (hl : n ≤ len) (z : Nat → ℂ) :
    ∃ z', pfacc isign n len z = some z' ∧ (∀ k, k < n → z' k = dft (sgn isign) n z k) ∧ ∀ k, n ≤ k → z' k = z k := by
  obtain ⟨z', e, a, f⟩ := pfamcc_dft isign n 1 1 0 len hv (lay_one hl) z
  refine ⟨z', e, fun k hk => ?_, fun k hk => f k (fun x t hx ht => by omega)⟩
  simpa using a 0 (by omega) k hk

theorem view_unview (c : Nat → ℂ) : view (unview c) = c := by
  funext j
  apply Complex.ext
  · simp [view, unview]
  · have h1 : (2 * j + 1) % 2 = 1 := by omega
    have h2 : (2 * j + 1) / 2 = j := by omega
    simp [view, unview, h1, h2]

theorem pfaccR_dft (isign : Int) (n len : Nat) (hv : ValidLen n) (hl : n ≤ len) (z : Nat → ℝ) :
    ∃ z', pfaccR isign n len z = some z' ∧ (∀ k, k < n → view z' k = dft (sgn isign) n (view z) k) ∧
      ∀ k, n ≤ k → view z' k = view z k := by
  obtain ⟨z', e, a, f⟩ := pfacc_dft isign n len hv hl (view z)
  exact ⟨unview z', by rw [pfaccR, e]; rfl, fun k hk => by rw [view_unview, a k hk], fun k hk => by rw [view_unview, f k hk]⟩

/-! ### The twiddle loop -/

/-- The new elements of a pair in `pfarc`. -/
def pairRC (wr wi : ℝ) (u v : ℂ) : ℂ × ℂ :=
  (⟨u.re + v.re + (wi * (u.re - v.re) + wr * (u.im + v.im)), u.im - v.im + (wi * (u.im + v.im) - wr * (u.re - v.re))⟩,
   ⟨u.re + v.re - (wi * (u.re - v.re) + wr * (u.im + v.im)), wi * (u.im + v.im) - wr * (u.re - v.re) - (u.im - v.im)⟩)

/-- The new elements of a pair in `pfacr`. -/
def pairCR (wr wi : ℝ) (u v : ℂ) : ℂ × ℂ :=
  (⟨u.re + v.re + (wi * (u.re - v.re) - wr * (u.im + v.im)), u.im - v.im + (wi * (u.im + v.im) + wr * (u.re - v.re))⟩,
   ⟨u.re + v.re - (wi * (u.re - v.re) - wr * (u.im + v.im)), wi * (u.im + v.im) + wr * (u.re - v.re) - (u.im - v.im)⟩)

/-- A body that changes the elements `i+1` and `N-(i+1)` only. -/
def BodyOk (body : Nat → Nat → Tw → Nat → ℝ) (pair : ℝ → ℝ → ℂ → ℂ → ℂ × ℂ) : Prop :=
  ∀ N i s, i + 1 ≤ N → ∀ j, view (body (2 * N) i s) j =
    if j = N - (i + 1) then (pair s.wr s.wi (view s.z (i + 1)) (view s.z (N - (i + 1)))).2
    else if j = i + 1 then (pair s.wr s.wi (view s.z (i + 1)) (view s.z (N - (i + 1)))).1
    else view s.z j

private theorem view_upd4 (z : Nat → ℝ) (a b : Nat) (p q r t : ℝ) (j : Nat) :
    view (upd (upd (upd (upd z (2 * a) p) (2 * a + 1) q) (2 * b) r) (2 * b + 1) t) j =
      if j = b then ⟨r, t⟩ else if j = a then ⟨p, q⟩ else view z j := by
  by_cases hb : j = b
  · subst hb
    rw [if_pos rfl]
    apply Complex.ext
    · simp [view, upd]
    · simp [view, upd]
  · rw [if_neg hb]
    by_cases ha : j = a
    · subst ha
      rw [if_pos rfl]
      have h1 : 2 * j ≠ 2 * b + 1 := by omega
      have h2 : 2 * j ≠ 2 * b := by omega
      have h3 : 2 * j + 1 ≠ 2 * b + 1 := by omega
      have h4 : 2 * j + 1 ≠ 2 * b := by omega
      apply Complex.ext <;> simp [view, upd, hb, h1, h4]
    · rw [if_neg ha]
      have h1 : 2 * j ≠ 2 * b + 1 := by omega
      have h4 : 2 * j + 1 ≠ 2 * b := by omega
      have h5 : 2 * j ≠ 2 * a + 1 := by omega
      have h6 : 2 * j + 1 ≠ 2 * a := by omega
      apply Complex.ext <;> simp [view, upd, hb, ha, h1, h4, h5, h6]

theorem twRC_ok : BodyOk twRC pairRC := by
  intro N i s h j
  have e : 2 * N - 2 * (i + 1) = 2 * (N - (i + 1)) := by omega
  simp only [twRC, e]
  rw [view_upd4]
  rfl

theorem twCR_ok : BodyOk twCR pairCR := by
  intro N i s h j
  have e : 2 * N - 2 * (i + 1) = 2 * (N - (i + 1)) := by omega
  simp only [twCR, e]
  rw [view_upd4]
  rfl

theorem twLoop_spec {body : Nat → Nat → Tw → Nat → ℝ} {pair : ℝ → ℝ → ℂ → ℂ → ℂ × ℂ} (hb : BodyOk body pair) (N : Nat)
    (theta : ℝ) (z : Nat → ℝ) (F : Nat → ℂ)
    (hF : ∀ k, 0 < k → k ≤ N - k → pair (Real.cos (theta * k)) (Real.sin (theta * k)) (view z k) (view z (N - k)) = (F k, F (N - k)))
    (j : Nat) : view (twLoop body (2 * N) theta z) j = if 0 < j ∧ j < N then F j else view z j := by
  have hcos : 1 + -2 * Real.sin (1 / 2 * theta) * Real.sin (1 / 2 * theta) = Real.cos theta := by
    have h1 : Real.cos theta = Real.cos (2 * (1 / 2 * theta)) := by congr 1; ring
    rw [h1, Real.cos_two_mul]
    have := Real.sin_sq_add_cos_sq (1 / 2 * theta)
    nlinarith
  have loop := forN_inv (n := 2 * N / 2 / 2)
    (body := fun i s => Tw.next (-2 * Real.sin (1 / 2 * theta) * Real.sin (1 / 2 * theta)) (Real.sin theta)
      { s with z := body (2 * N) i s })
    (s := ⟨z, 1 + -2 * Real.sin (1 / 2 * theta) * Real.sin (1 / 2 * theta), Real.sin theta⟩)
    (fun J s => s.wr = Real.cos (theta * (J + 1 : Nat)) ∧ s.wi = Real.sin (theta * (J + 1 : Nat)) ∧
      ∀ j, view s.z j = if 0 < j ∧ j < N ∧ (j ≤ J ∨ N - j ≤ J) then F j else view z j)
    ⟨by simp only [Nat.zero_add, Nat.cast_one, mul_one]; exact hcos, by simp, fun j => by rw [if_neg (by omega)]⟩ (by
      rintro J hJ s ⟨a1, a2, a3⟩
      have hJ2 : J + 1 ≤ N - (J + 1) := by omega
      have hF' := hF (J + 1) (by omega) hJ2
      rw [← a1, ← a2] at hF'
      have e1 : view s.z (J + 1) = view z (J + 1) := by rw [a3, if_neg (by omega)]
      have e2 : view s.z (N - (J + 1)) = view z (N - (J + 1)) := by rw [a3, if_neg (by omega)]
      refine ⟨?_, ?_, fun j => ?_⟩
      · have h2 : Real.cos (theta * (J + 1 + 1 : Nat)) = Real.cos (theta * (J + 1 : Nat) + theta) := by
          congr 1; push_cast; ring
        rw [h2, Real.cos_add, ← a1, ← a2, ← hcos]
        simp only [Tw.next]; ring
      · have h2 : Real.sin (theta * (J + 1 + 1 : Nat)) = Real.sin (theta * (J + 1 : Nat) + theta) := by
          congr 1; push_cast; ring
        rw [h2, Real.sin_add, ← a1, ← a2, ← hcos]
        simp only [Tw.next]; ring
      · have h3 := hb N J s (by omega) j
        simp only [Tw.next]
        rw [h3, e1, e2, hF']
        by_cases c1 : j = N - (J + 1)
        · rw [if_pos c1, if_pos (by omega), c1]
        · rw [if_neg c1]
          by_cases c2 : j = J + 1
          · rw [if_pos c2, if_pos (by omega), c2]
          · rw [if_neg c2, a3]
            by_cases c3 : 0 < j ∧ j < N ∧ (j ≤ J ∨ N - j ≤ J)
            · rw [if_pos c3, if_pos (by omega)]
            · rw [if_neg c3, if_neg (by omega)])
  have := loop.2.2 j
  simp only [twLoop]
  rw [this]
  by_cases h : 0 < j ∧ j < N
  · rw [if_pos (by omega), if_pos h]
  · rw [if_neg (by omega), if_neg h]

/-! ### From real to complex -/

private theorem theta_sgn (isign : Int) (n : Nat) :
    (if isign < 0 then -(2 * Real.pi / n) else 2 * Real.pi / n : ℝ) = (sgn isign : ℝ) * (2 * Real.pi / n) := by
  unfold sgn; split <;> simp

/-- The pair formula of `pfarc` in complex numbers. -/
private theorem pairRC_eq (W u v : ℂ) : pairRC W.re W.im u v =
    ((u + (starRingEnd ℂ) v) + W * (-I * (u - (starRingEnd ℂ) v)),
     (v + (starRingEnd ℂ) u) + (-(starRingEnd ℂ) W) * (-I * (v - (starRingEnd ℂ) u))) := by
  unfold pairRC
  refine Prod.ext ?_ ?_ <;> apply Complex.ext <;> simp <;> ring

private theorem pairCR_eq (W u v : ℂ) : pairCR W.re (-W.im) u v =
    ((u + (starRingEnd ℂ) v) + I * W * (u - (starRingEnd ℂ) v),
     (v + (starRingEnd ℂ) u) + I * (-(starRingEnd ℂ) W) * (v - (starRingEnd ℂ) u)) := by
  unfold pairCR
  refine Prod.ext ?_ ?_ <;> apply Complex.ext <;> simp <;> ring

/-- The second half of `pfarc`: from the complex transform of the pairs to the transform of the trace. -/
theorem rcTail_spec (isign : Int) (N : Nat) (hN : 0 < N) (x z1 : Nat → ℝ)
    (hZ : ∀ k, k < N → view z1 k = dft (sgn isign) N (fun j => (1 / 2 : ℂ) * (x (2 * j) + I * x (2 * j + 1))) k) :
    (∀ k, k ≤ N → view (twLoop twRC (2 * N) (thetaRC isign (2 * N)) (dcNyq (2 * N) z1)) k =
      dft (sgn isign) (2 * N) (fun j => (x j : ℂ)) k) ∧
    ∀ k, N < k → view (twLoop twRC (2 * N) (thetaRC isign (2 * N)) (dcNyq (2 * N) z1)) k = view z1 k := by
  have hs := sgn_cases isign
  generalize hP : (fun j => (1 / 2 : ℂ) * (x (2 * j) + I * x (2 * j + 1))) = P at hZ
  have hX := fwd_half (sgn isign) hN x
  rw [hP] at hX
  have hper : dft (sgn isign) N P N = dft (sgn isign) N P 0 := by
    simp only [dft_tw]
    refine sum_congr rfl fun j _ => ?_
    congr 1
    have h0 : tw (sgn isign) N N = 1 := by
      have h := tw_add (sgn isign) (2 * N) N N
      rw [← two_mul N, tw_double, tw_half _ hs hN] at h
      rw [h]; norm_num
    have : ∀ j, tw (sgn isign) N (j * N) = 1 := by
      intro j
      induction j with
      | zero => simp [tw_zero]
      | succ j ih => rw [Nat.succ_mul, tw_add, ih, h0, one_mul]
    rw [this, Nat.mul_zero, tw_zero]
  -- the ends
  generalize hz2 : dcNyq (2 * N) z1 = z2
  unfold dcNyq at hz2
  dsimp only at hz2
  have hz2a : view z2 0 = dft (sgn isign) (2 * N) (fun j => (x j : ℂ)) 0 := by
    rw [hX 0 (by omega), Nat.sub_zero, hper, ← hZ 0 hN, tw_zero, ← hz2]
    have h1 : (0 : Nat) ≠ 2 * N + 1 := by omega
    have h2 : (0 : Nat) ≠ 2 * N := by omega
    have h3 : (1 : Nat) ≠ 2 * N := by omega
    apply Complex.ext
    · simp [view, upd, h2, h3]; ring
    · simp [view, upd]
  have hz2b : view z2 N = dft (sgn isign) (2 * N) (fun j => (x j : ℂ)) N := by
    rw [hX N le_rfl, Nat.sub_self, hper, ← hZ 0 hN, tw_half _ hs hN, ← hz2]
    have h1 : (2 * N : Nat) ≠ 1 := by omega
    have h2 : N ≠ 0 := by omega
    apply Complex.ext
    · simp [view, upd, h1, h2]; ring
    · simp [view, upd, h2]
  have hz2c : ∀ k, k ≠ 0 → k ≠ N → view z2 k = view z1 k := by
    intro k h1 h2
    rw [← hz2]
    have g1 : 2 * k ≠ 1 := by omega
    have g2 : 2 * k ≠ 2 * N + 1 := by omega
    have g3 : 2 * k ≠ 0 := by omega
    have g4 : 2 * k ≠ 2 * N := by omega
    have g5 : 2 * k + 1 ≠ 1 := by omega
    have g6 : 2 * k + 1 ≠ 2 * N + 1 := by omega
    have g7 : 2 * k + 1 ≠ 0 := by omega
    have g8 : 2 * k + 1 ≠ 2 * N := by omega
    simp only [view, upd, g1, g2, g3, g4, g5, g6, g7, g8, if_false]
  -- the loop
  have hloop := twLoop_spec twRC_ok N ((sgn isign : ℝ) * (2 * Real.pi / (2 * N : Nat))) z2
    (fun k => dft (sgn isign) (2 * N) (fun j => (x j : ℂ)) k) (by
      intro k hk1 hk2
      rw [hz2c k (by omega) (by omega), hz2c (N - k) (by omega) (by omega), hZ k (by omega), hZ (N - k) (by omega)]
      have hW := tw_val (sgn isign) (2 * N) k
      have hre : Real.cos ((sgn isign : ℝ) * (2 * Real.pi / (2 * N : Nat)) * k) = (tw (sgn isign) (2 * N) k).re := by rw [hW]
      have him : Real.sin ((sgn isign : ℝ) * (2 * Real.pi / (2 * N : Nat)) * k) = (tw (sgn isign) (2 * N) k).im := by rw [hW]
      rw [hre, him, pairRC_eq]
      refine Prod.ext ?_ ?_
      · rw [hX k (by omega)]
      · dsimp only
        rw [hX (N - k) (by omega), show N - (N - k) = k by omega, tw_sub _ hs hN (by omega)])
  rw [thetaRC, theta_sgn]
  refine ⟨fun k hk => ?_, fun k hk => ?_⟩
  · rw [hloop]
    by_cases h : 0 < k ∧ k < N
    · rw [if_pos h]
    · rw [if_neg h]
      rcases Nat.eq_zero_or_pos k with h0 | h0
      · rw [h0]; exact hz2a
      · have : k = N := by omega
        rw [this]; exact hz2b
  · rw [hloop, if_neg (by omega), hz2c k (by omega) (by omega)]

/-- **C78 (forward).** The real-to-complex transform of a trace of length `2 N`, `N` a valid length, gives the first `N+1`
values of the discrete Fourier transform of the trace, for every old content of the result. -/
theorem pfarc_dft (isign : Int) (N len : Nat) (hv : ValidLen N) (hl : N < len) (x z : Nat → ℝ) :
    ∃ z', pfarc isign (2 * N) len x z = some z' ∧
      (∀ k, k ≤ N → view z' k = dft (sgn isign) (2 * N) (fun j => (x j : ℂ)) k) ∧ ∀ k, N < k → view z' k = view z k := by
  have hN := valid_pos hv
  -- the copy
  have hcopy := forN_inv (n := 2 * N) (s := z) (body := fun i z => upd z i (1 / 2 * x i))
    (fun J w => ∀ i, w i = if i < J then 1 / 2 * x i else z i) (fun i => by simp) (by
      intro J _ w hw i
      simp only [upd]
      rw [hw i]
      by_cases h : i = J
      · subst h; rw [if_pos rfl, if_pos (by omega)]
      · rw [if_neg h]
        by_cases h2 : i < J
        · rw [if_pos h2, if_pos (by omega)]
        · rw [if_neg h2, if_neg (by omega)])
  generalize hz0 : forN (2 * N) (fun i z => upd z i (1 / 2 * x i)) z = z0 at hcopy
  have hv0 : ∀ j, j < N → view z0 j = (1 / 2 : ℂ) * (x (2 * j) + I * x (2 * j + 1)) := by
    intro j hj
    apply Complex.ext
    · simp only [view, hcopy]
      rw [if_pos (by omega)]; simp
    · simp only [view, hcopy]
      rw [if_pos (by omega)]; simp
  have hv1 : ∀ j, N ≤ j → view z0 j = view z j := by
    intro j hj
    simp only [view, hcopy]
    rw [if_neg (by omega), if_neg (by omega)]
  obtain ⟨z1, e1, a1, f1⟩ := pfaccR_dft isign N len hv (by omega) z0
  have hZ : ∀ k, k < N → view z1 k = dft (sgn isign) N (fun j => (1 / 2 : ℂ) * (x (2 * j) + I * x (2 * j + 1))) k := by
    intro k hk
    rw [a1 k hk]
    unfold dft
    exact sum_congr rfl fun j hj => by rw [hv0 j (mem_range.mp hj)]
  obtain ⟨b1, b2⟩ := rcTail_spec isign N hN x z1 hZ
  refine ⟨_, ?_, b1, fun k hk => by rw [b2 k hk, f1 k (by omega), hv1 k (by omega)]⟩
  rw [pfarc, if_pos (by omega)]
  dsimp only
  rw [hz0, show 2 * N / 2 = N by omega, e1, Option.map_some]

/-! ### From complex to real -/

private theorem theta_sgn' (s : Int) (hs : s = 1 ∨ s = -1) (n : Nat) :
    (if s > 0 then -(2 * Real.pi / n) else 2 * Real.pi / n : ℝ) = -((s : ℝ) * (2 * Real.pi / n)) := by
  rcases hs with rfl | rfl <;> simp

/-- The middle part of `pfacr`: the twiddle loop prepares the complex transform of the pairs. -/
theorem crHead_spec (s : Int) (hs : s = 1 ∨ s = -1) (N : Nat) (hN : 0 < N)
    (X : Nat → ℂ) (h0 : (X 0).im = 0) (hX : ∀ k, 0 < k → k < 2 * N → X (2 * N - k) = (starRingEnd ℂ) (X k)) (z1 : Nat → ℝ)
    (h01 : view z1 0 = ⟨(X 0).re + (X N).re, (X 0).re - (X N).re⟩) (hvk : ∀ k, 0 < k → k < N → view z1 k = X k) :
    (∀ k, k < N → view (twLoop twCR (2 * N) (thetaCR s (2 * N)) z1) k =
      (X k + X (k + N)) + I * tw s (2 * N) k * (X k - X (k + N))) ∧
    ∀ k, N ≤ k → view (twLoop twCR (2 * N) (thetaCR s (2 * N)) z1) k = view z1 k := by
  have hNim : (X N).im = 0 := by
    have := congrArg Complex.im (hX N hN (by omega))
    rw [show 2 * N - N = N by omega, conj_im] at this
    linarith
  have hv0 : view z1 0 = (X 0 + X N) + I * (X 0 - X N) := by
    rw [h01]
    apply Complex.ext
    · simp [h0, hNim]
    · simp [h0, hNim]
  have hconj : ∀ k, 0 < k → k < N → (starRingEnd ℂ) (X (N - k)) = X (k + N) := by
    intro k h1 h2
    rw [← hX (N - k) (by omega) (by omega)]
    congr 1; omega
  have hloop := twLoop_spec twCR_ok N (-((s : ℝ) * (2 * Real.pi / (2 * N : Nat)))) z1
    (fun k => (X k + X (k + N)) + I * tw s (2 * N) k * (X k - X (k + N))) (by
      intro k hk1 hk2
      rw [hvk k hk1 (by omega), hvk (N - k) (by omega) (by omega)]
      have hW := tw_val s (2 * N) k
      have hre : Real.cos (-((s : ℝ) * (2 * Real.pi / (2 * N : Nat))) * k) = (tw s (2 * N) k).re := by
        rw [hW, neg_mul, Real.cos_neg]
      have him : Real.sin (-((s : ℝ) * (2 * Real.pi / (2 * N : Nat))) * k) = -(tw s (2 * N) k).im := by
        rw [hW, neg_mul, Real.sin_neg]
      rw [hre, him, pairCR_eq]
      have hc2 := hconj (N - k) (by omega) (by omega)
      rw [show N - (N - k) = k by omega] at hc2
      refine Prod.ext ?_ ?_
      · dsimp only; rw [hconj k hk1 (by omega)]
      · dsimp only; rw [hc2, tw_sub _ hs hN (by omega)])
  rw [thetaCR, theta_sgn' s hs]
  refine ⟨fun k hk => ?_, fun k hk => by rw [hloop, if_neg (by omega)]⟩
  rw [hloop]
  by_cases h : 0 < k
  · rw [if_pos ⟨h, hk⟩]
  · have : k = 0 := by omega
    subst this
    rw [if_neg (by omega), hv0, tw_zero, Nat.zero_add, mul_one]

/-- The end of `pfacr`: the transform of the pairs holds the samples one after the other. -/
theorem crOut_spec (s : Int) (hs : s = 1 ∨ s = -1) (N : Nat) (hN : 0 < N)
    (X : Nat → ℂ) (h0 : (X 0).im = 0) (hX : ∀ k, 0 < k → k < 2 * N → X (2 * N - k) = (starRingEnd ℂ) (X k)) (z3 : Nat → ℝ) (Y : Nat → ℂ)
    (hY : ∀ k, k < N → Y k = (X k + X (k + N)) + I * tw s (2 * N) k * (X k - X (k + N)))
    (a3 : ∀ t, t < N → view z3 t = dft s N Y t) (t : Nat) (ht : t < 2 * N) : (z3 t : ℂ) = dft s (2 * N) X t := by
  have hout : ∀ t, t < N → view z3 t = dft s (2 * N) X (2 * t) + I * dft s (2 * N) X (2 * t + 1) := by
    intro t ht
    rw [a3 t ht, ← bwd_half s hs hN]
    unfold dft
    exact sum_congr rfl fun j hj => by rw [hY j (mem_range.mp hj)]
  have hreal := hermitian_real s hs (2 * N) (by omega) X h0 hX
  rcases Nat.even_or_odd' t with ⟨j, rfl | rfl⟩
  · have h1 := congrArg Complex.re (hout j (by omega))
    apply Complex.ext
    · rw [ofReal_re]
      simpa [view, hreal (2 * j + 1) (by omega)] using h1
    · rw [ofReal_im, hreal _ ht]
  · have h1 := congrArg Complex.im (hout j (by omega))
    apply Complex.ext
    · rw [ofReal_re]
      simpa [view, hreal (2 * j) (by omega)] using h1
    · rw [ofReal_im, hreal _ ht]

/-- **C78 (inverse).** The complex-to-real transform of the first `N+1` values of a Hermitian spectrum of length `2 N`, `N` a
valid length, is the discrete Fourier transform of the spectrum. -/
theorem pfacr_dft (s : Int) (hs : s = 1 ∨ s = -1) (N len lenr : Nat) (hv : ValidLen N) (hl : N < len) (hr : 2 * N ≤ lenr)
    (X : Nat → ℂ) (h0 : (X 0).im = 0) (hX : ∀ k, 0 < k → k < 2 * N → X (2 * N - k) = (starRingEnd ℂ) (X k))
    (c z : Nat → ℝ) (hc : ∀ k, k ≤ N → view c k = X k) :
    ∃ z', pfacr s (2 * N) len lenr c z = some z' ∧ (∀ t, t < 2 * N → (z' t : ℂ) = dft s (2 * N) X t) ∧
      ∀ t, 2 * N ≤ t → z' t = z t := by
  have hN := valid_pos hv
  have hsg : sgn s = s := by rcases hs with rfl | rfl <;> simp [sgn]
  have hcopy := forN_inv (n := 2 * N - 2) (s := z) (body := fun i z => upd z (i + 2) (c (i + 2)))
    (fun J w => ∀ i, w i = if 2 ≤ i ∧ i < J + 2 then c i else z i) (fun i => by rw [if_neg (by omega)]) (by
      intro J _ w hw i
      simp only [upd]
      rw [hw i]
      by_cases h : i = J + 2
      · subst h; rw [if_pos rfl, if_pos (by omega)]
      · rw [if_neg h]
        by_cases h2 : 2 ≤ i ∧ i < J + 2
        · rw [if_pos h2, if_pos (by omega)]
        · rw [if_neg h2, if_neg (by omega)])
  generalize hz0 : forN (2 * N - 2) (fun i z => upd z (i + 2) (c (i + 2))) z = z0 at hcopy
  generalize hz1 : upd (upd z0 1 (c 0 - c (2 * N))) 0 (c 0 + c (2 * N)) = z1
  have hc0 : c 0 = (X 0).re := by rw [← hc 0 (by omega)]; simp [view]
  have hcN : c (2 * N) = (X N).re := by rw [← hc N le_rfl]; simp [view]
  have hv0 : view z1 0 = ⟨(X 0).re + (X N).re, (X 0).re - (X N).re⟩ := by
    rw [← hz1]
    apply Complex.ext
    · simp [view, upd, hc0, hcN]
    · simp [view, upd, hc0, hcN]
  have hvk : ∀ k, 0 < k → k < N → view z1 k = X k := by
    intro k h1 h2
    rw [← hc k (by omega), ← hz1]
    simp only [view, upd, hcopy]
    rw [if_neg (by omega), if_neg (by omega), if_pos (by omega), if_neg (by omega), if_neg (by omega), if_pos (by omega)]
  have hvN : ∀ k, N ≤ k → view z1 k = view z k := by
    intro k h1
    rw [← hz1]
    simp only [view, upd, hcopy]
    rw [if_neg (by omega), if_neg (by omega), if_neg (by omega), if_neg (by omega), if_neg (by omega), if_neg (by omega)]
  obtain ⟨g1, g2⟩ := crHead_spec s hs N hN X h0 hX z1 hv0 hvk
  generalize hz2 : twLoop twCR (2 * N) (thetaCR s (2 * N)) z1 = z2 at g1 g2
  obtain ⟨z3, e3, a3, f3⟩ := pfaccR_dft s N (lenr / 2) hv (by omega) z2
  rw [hsg] at a3
  refine ⟨z3, ?_, crOut_spec s hs N hN X h0 hX z3 _ g1 a3, fun t ht => ?_⟩
  · rw [pfacr, if_pos (by omega)]
    dsimp only
    rw [hz0, hz1, hz2, show 2 * N / 2 = N by omega, e3]
  · rcases Nat.even_or_odd' t with ⟨j, rfl | rfl⟩
    · have h1 : view z3 j = view z j := by rw [f3 j (by omega), g2 j (by omega), hvN j (by omega)]
      exact congrArg Complex.re h1
    · have h1 : view z3 j = view z j := by rw [f3 j (by omega), g2 j (by omega), hvN j (by omega)]
      exact congrArg Complex.im h1

/-- **C78 (round trip).** Forward and inverse with the opposite sign give the trace times its length. -/
theorem pfacr_pfarc (s : Int) (hs : s = 1 ∨ s = -1) (N len lenr : Nat) (hv : ValidLen N) (hl : N < len) (hr : 2 * N ≤ lenr)
    (x z y : Nat → ℝ) :
    ∃ c y', pfarc s (2 * N) len x z = some c ∧ pfacr (-s) (2 * N) len lenr c y = some y' ∧
      ∀ t, t < 2 * N → y' t = (2 * N : Nat) * x t := by
  have hN := valid_pos hv
  have hsg : sgn s = s := by rcases hs with rfl | rfl <;> simp [sgn]
  have hs' : -s = 1 ∨ -s = -1 := by rcases hs with rfl | rfl <;> simp
  obtain ⟨c, e1, a1, _⟩ := pfarc_dft s N len hv hl x z
  rw [hsg] at a1
  obtain ⟨y', e2, a2, _⟩ := pfacr_dft (-s) hs' N len lenr hv hl hr (dft s (2 * N) fun j => (x j : ℂ))
    (Mayer.dft_zero_im _ _ _) (fun k _ hk => Mayer.dft_hermitian s _ (by omega) x k hk.le) c y a1
  refine ⟨c, y', e1, e2, fun t ht => ?_⟩
  have e := (a2 t ht).trans (dft_roundtrip s hs (2 * N) (by omega) (fun j => (x j : ℂ)) t ht)
  have e2 : (y' t : ℂ) = (((2 * N : Nat) * x t : ℝ) : ℂ) := by rw [e]; push_cast; ring
  exact_mod_cast e2

/-- A trace of 120 samples, 61 complex numbers. -/
example : ValidLen 60 ∧ 60 < 61 ∧ 2 * 60 ≤ 120 := ⟨⟨[5, 4, 3], by decide, by decide, by norm_num⟩, by norm_num, by norm_num⟩

/-- A spectrum that meets the hypotheses of `pfacr_dft`: that of a unit at sample 1. -/
example : ∃ X : Nat → ℂ, (X 0).im = 0 ∧ (∀ k, 0 < k → k < 2 * 60 → X (2 * 60 - k) = (starRingEnd ℂ) (X k)) ∧ X 30 = -I := by
  let x : Nat → ℝ := fun j => if j = 1 then 1 else 0
  refine ⟨dft (-1) (2 * 60) fun j => (x j : ℂ), Mayer.dft_zero_im _ _ _, fun k _ hk => Mayer.dft_hermitian _ _ (by omega) x k hk.le, ?_⟩
  rw [dft_tw, Finset.sum_eq_single 1]
  · have h : tw (-1) (2 * 60) (1 * 30) = -I := by
      have e : (((-1 : Int) : ℝ) * (2 * Real.pi / (2 * 60 : Nat)) * (1 * 30 : Nat)) = -(Real.pi / 2) := by push_cast; ring
      rw [tw_val, e, Real.cos_neg, Real.sin_neg, Real.cos_pi_div_two, Real.sin_pi_div_two]
      apply Complex.ext <;> simp
    simpa [x] using h
  · intro j _ hj; simp [x, hj]
  · intro h; simp at h

end Verif.Fft.Pfa

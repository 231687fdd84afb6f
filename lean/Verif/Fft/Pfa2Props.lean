import Verif.Fft.Pfa2
import Verif.Fft.PfaRealProps

/-!
# Real prime-factor transforms of several traces are discrete Fourier transforms of each trace
-/

namespace Verif.Fft.Pfa

open Complex Finset Verif Verif.Fft

/-- A body that reads and writes the first `w` elements only. -/
def BodyLoc (body : Nat → Nat → Tw → Nat → ℝ) : Prop :=
  ∀ n w i wr wi (z z' : Nat → ℝ), n ≤ w → i < n / 2 / 2 → (∀ k, w ≤ k → body n i ⟨z, wr, wi⟩ k = z k) ∧
    ((∀ k, k < w → z k = z' k) → ∀ k, k < w → body n i ⟨z, wr, wi⟩ k = body n i ⟨z', wr, wi⟩ k)

theorem twRC_loc : BodyLoc twRC := by
  intro n w i wr wi z z' hw hi
  refine ⟨fun k hk => ?_, fun h k hk => ?_⟩
  · simp only [twRC, upd]
    rw [if_neg (by omega), if_neg (by omega), if_neg (by omega), if_neg (by omega)]
  · simp only [twRC, upd]
    rw [h (2 * (i + 1)) (by omega), h (2 * (i + 1) + 1) (by omega), h (n - 2 * (i + 1)) (by omega), h (n - 2 * (i + 1) + 1) (by omega), h k hk]

theorem twCR_loc : BodyLoc twCR := by
  intro n w i wr wi z z' hw hi
  refine ⟨fun k hk => ?_, fun h k hk => ?_⟩
  · simp only [twCR, upd]
    rw [if_neg (by omega), if_neg (by omega), if_neg (by omega), if_neg (by omega)]
  · simp only [twCR, upd]
    rw [h (2 * (i + 1)) (by omega), h (2 * (i + 1) + 1) (by omega), h (n - 2 * (i + 1)) (by omega), h (n - 2 * (i + 1) + 1) (by omega), h k hk]

/-- The loop over several transforms does to each of them what the loop over one does. -/
theorem twLoop2_row {body : Nat → Nat → Tw → Nat → ℝ} (hb : BodyLoc body) {n nt ld w : Nat} (h1 : n ≤ w) (h2 : w ≤ ld) (theta : ℝ)
    (z : Nat → ℝ) :
    (∀ t, t < nt → ∀ z1 : Nat → ℝ, (∀ k, k < w → z1 k = z (t * ld + k)) → ∀ k, k < w →
      twLoop2 body n nt ld theta z (t * ld + k) = twLoop body n theta z1 k) ∧
    ∀ j, (∀ t k, t < nt → k < w → j ≠ t * ld + k) → twLoop2 body n nt ld theta z j = z j := by
  unfold twLoop2 twLoop
  generalize -2 * Real.sin (1 / 2 * theta) * Real.sin (1 / 2 * theta) = wpr
  generalize Real.sin theta = wpi
  have key : ∀ m, m ≤ n / 2 / 2 →
      let S := forN m (fun i s => Tw.next wpr wpi { s with z := rowsN nt ld (fun _ z => body n i { s with z := z }) s.z }) ⟨z, 1 + wpr, wpi⟩
      (∀ t, t < nt → ∀ z1 : Nat → ℝ, (∀ k, k < w → z1 k = z (t * ld + k)) →
        let R := forN m (fun i s => Tw.next wpr wpi { s with z := body n i s }) ⟨z1, 1 + wpr, wpi⟩
        S.wr = R.wr ∧ S.wi = R.wi ∧ ∀ k, k < w → S.z (t * ld + k) = R.z k) ∧
      ∀ j, (∀ t k, t < nt → k < w → j ≠ t * ld + k) → S.z j = z j := by
    intro m
    induction m with
    | zero => intro _; exact ⟨fun t _ z1 hz => ⟨rfl, rfl, fun k hk => (hz k hk).symm⟩, fun _ _ => rfl⟩
    | succ m ih =>
      intro hm
      obtain ⟨a, f⟩ := ih (by omega)
      dsimp only at a f ⊢
      rw [forN_succ]
      generalize forN m (fun i s => Tw.next wpr wpi { s with z := rowsN nt ld (fun _ z => body n i { s with z := z }) s.z })
        ⟨z, 1 + wpr, wpi⟩ = S at a f
      obtain ⟨b, g⟩ := rowsN_spec h2 (n := nt) (g := fun _ z => body n m { S with z := z })
        (fun i _ c k hk => (hb n w m S.wr S.wi c c h1 (by omega)).1 k hk)
        (fun i _ c d hcd k hk => (hb n w m S.wr S.wi c d h1 (by omega)).2 hcd k hk) S.z
      refine ⟨fun t ht z1 hz => ?_, fun j hj => ?_⟩
      · obtain ⟨e1, e2, e3⟩ := a t ht z1 hz
        rw [forN_succ]
        generalize forN m (fun i s => Tw.next wpr wpi { s with z := body n i s }) ⟨z1, 1 + wpr, wpi⟩ = R at e1 e2 e3
        refine ⟨?_, ?_, fun k hk => ?_⟩
        · simp only [Tw.next, e1, e2]
        · simp only [Tw.next, e1, e2]
        · simp only [Tw.next]
          rw [b t ht k hk]
          have := (hb n w m S.wr S.wi (row (t * ld) S.z) R.z h1 (by omega)).2 (fun k hk => e3 k hk) k hk
          rw [this, e1, e2]
      · simp only [Tw.next]
        rw [g j hj, f j hj]
  obtain ⟨a, f⟩ := key (n / 2 / 2) le_rfl
  exact ⟨fun t ht z1 hz => (a t ht z1 hz).2.2, f⟩

/-! ### The shift -/

private theorem shift1 (i2 n1 : Nat) (h1 : 0 < i2) (z : Nat → ℝ) (a : Nat) :
    forN n1 (fun e z => upd z (i2 * n1 + n1 - 1 + i2 * 2 - e) (z (i2 * n1 + n1 - 1 - e))) z a =
      if i2 * n1 + i2 * 2 ≤ a ∧ a < i2 * n1 + i2 * 2 + n1 then z (a - i2 * 2) else z a := by
  generalize i2 * n1 = A
  have := forN_inv (n := n1) (body := fun e z => upd z (A + n1 - 1 + i2 * 2 - e) (z (A + n1 - 1 - e))) (s := z)
    (fun e w => ∀ a, w a = if A + i2 * 2 + (n1 - e) ≤ a ∧ a < A + i2 * 2 + n1 then z (a - i2 * 2) else z a)
    (fun a => by rw [if_neg (by omega)]) (by
      intro e he w hw a
      simp only [upd]
      by_cases h : a = A + n1 - 1 + i2 * 2 - e
      · rw [if_pos h, if_pos (by omega), hw, if_neg (by omega)]
        congr 1; omega
      · rw [if_neg h, hw]
        by_cases h2 : A + i2 * 2 + (n1 - e) ≤ a ∧ a < A + i2 * 2 + n1
        · rw [if_pos h2, if_pos (by omega)]
        · rw [if_neg h2, if_neg (by omega)]) a
  rw [this, Nat.sub_self, Nat.add_zero]

theorem shiftRows_spec (n1 n2 : Nat) (z : Nat → ℝ) :
    (∀ i, i < n2 → ∀ k, k < n1 → shiftRows n1 n2 z (i * (n1 + 2) + k) = z (i * n1 + k)) ∧
    ∀ a, n2 * (n1 + 2) ≤ a → shiftRows n1 n2 z a = z a := by
  have := forN_inv (n := n2 - 1) (s := z) (body := fun d z =>
      forN n1 (fun e z => upd z ((n2 - 1 - d) * n1 + n1 - 1 + (n2 - 1 - d) * 2 - e) (z ((n2 - 1 - d) * n1 + n1 - 1 - e))) z)
    (fun d w => (∀ i, n2 - d ≤ i → i < n2 → ∀ k, k < n1 → w (i * (n1 + 2) + k) = z (i * n1 + k)) ∧
      (∀ a, a < (n2 - d) * n1 → w a = z a) ∧ ∀ a, n2 * (n1 + 2) ≤ a → w a = z a)
    ⟨fun i a b => by omega, fun _ _ => rfl, fun _ _ => rfl⟩ (by
      rintro d hd w ⟨p1, p2, p3⟩
      have hi2 : n2 - d = n2 - 1 - d + 1 := by omega
      have hi3 : n2 - (d + 1) = n2 - 1 - d := by omega
      rw [hi3]
      have hb : n2 - 1 - d < n2 := by omega
      rw [hi2] at p1 p2
      have hpos : 0 < n2 - 1 - d := by omega
      generalize n2 - 1 - d = i2 at *
      have hm := Nat.mul_le_mul_right (n1 + 2) (show i2 + 1 ≤ n2 from hb)
      refine ⟨fun i h1 h2 k hk => ?_, fun a ha => ?_, fun a ha => ?_⟩
      · rw [shift1 i2 n1 hpos]
        by_cases h : i = i2
        · subst h
          have e : i * (n1 + 2) = i * n1 + i * 2 := by ring
          rw [e, if_pos (by omega), show i * n1 + i * 2 + k - i * 2 = i * n1 + k by omega]
          refine p2 _ ?_
          rw [Nat.add_mul]; omega
        · have h3 := Nat.mul_le_mul_right (n1 + 2) (show i2 + 1 ≤ i by omega)
          have e : i2 * n1 + i2 * 2 + n1 ≤ i * (n1 + 2) := by
            have : (i2 + 1) * (n1 + 2) = i2 * n1 + i2 * 2 + n1 + 2 := by ring
            omega
          rw [if_neg (by omega)]
          exact p1 i (by omega) h2 k hk
      · rw [shift1 i2 n1 hpos, if_neg (by omega)]
        refine p2 a ?_
        rw [Nat.add_mul]; omega
      · have e : (i2 + 1) * (n1 + 2) = i2 * n1 + i2 * 2 + n1 + 2 := by ring
        rw [shift1 i2 n1 hpos, if_neg (by omega)]
        exact p3 a ha)
  obtain ⟨p1, p2, p3⟩ := this
  refine ⟨fun i hi k hk => ?_, p3⟩
  by_cases h : i = 0
  · subst h
    simp only [Nat.zero_mul, Nat.zero_add]
    refine p2 k ?_
    rw [show n2 - (n2 - 1) = 1 by omega]; omega
  · exact p1 i (by omega) hi k hk

/-! ### Rows of complex numbers -/

theorem view_row (o : Nat) (z : Nat → ℝ) (k : Nat) : view (row (2 * o) z) k = view z (o + k) := by
  simp only [view, row]
  rw [show 2 * o + 2 * k = 2 * (o + k) by ring, show 2 * o + (2 * k + 1) = 2 * (o + k) + 1 by ring]

theorem view_congr {z z' : Nat → ℝ} {w k : Nat} (h : ∀ i, i < 2 * w → z i = z' i) (hk : k < w) : view z k = view z' k := by
  simp only [view]
  rw [h _ (by omega), h _ (by omega)]

private theorem dcNyq_loc (n w : Nat) (hw : n + 2 ≤ w) :
    (∀ (z : Nat → ℝ) k, w ≤ k → dcNyq n z k = z k) ∧
    ∀ z z' : Nat → ℝ, (∀ k, k < w → z k = z' k) → ∀ k, k < w → dcNyq n z k = dcNyq n z' k := by
  refine ⟨fun z k hk => ?_, fun z z' h k hk => ?_⟩
  · simp only [dcNyq, upd]
    rw [if_neg (by omega), if_neg (by omega), if_neg (by omega), if_neg (by omega)]
  · simp only [dcNyq, upd]
    rw [h 0 (by omega), h 1 (by omega), h k hk]

theorem lay_rows {N n2 ld len : Nat} (h1 : N ≤ ld) (h2 : ∀ t, t < n2 → t * ld + N ≤ len) : Lay N n2 1 ld len :=
  ⟨fun x t hx ht => by have := h2 t ht; omega, fun x t x' t' hx ht hx' ht' e => by
    by_cases h : t = t'
    · subst h; exact ⟨by omega, rfl⟩
    · exact absurd (show t * ld + x = t' * ld + x' by omega) (row_ne h1 hx hx' h)⟩

private theorem lay_rows' {N n2 len : Nat} (h : n2 * N ≤ len) : Lay N n2 1 N len :=
  lay_rows le_rfl fun t ht => by
    have := Nat.mul_le_mul_right N (show t + 1 ≤ n2 from ht)
    rw [Nat.add_mul] at this; omega

/-- **C79 (prime factors, forward).** `pfa2rc` transforms each of `n2` consecutive traces of `2 N` samples; trace `i` of the result
starts at element `i*(N+1)`. -/
theorem pfa2rc_dft (isign : Int) (N n2 len : Nat) (hv : ValidLen N) (hl : n2 * (N + 1) ≤ len) (x z : Nat → ℝ) :
    ∃ z', pfa2rc isign (2 * N) n2 len x z = some z' ∧
      (∀ i, i < n2 → ∀ k, k ≤ N → view z' (i * (N + 1) + k) = dft (sgn isign) (2 * N) (fun j => (x (i * (2 * N) + j) : ℂ)) k) ∧
      ∀ k, n2 * (N + 1) ≤ k → view z' k = view z k := by
  have hN := valid_pos hv
  have hcopy := forN_inv (n := n2 * (2 * N)) (s := z) (body := fun i z => upd z i (1 / 2 * x i))
    (fun J w => ∀ i, w i = if i < J then 1 / 2 * x i else z i) (fun i => by simp) (by
      intro J _ w hw i
      simp only [upd]
      rw [hw i]
      by_cases h : i = J
      · subst h; rw [if_pos rfl, if_pos (by omega)]
      · rw [if_neg h]
        by_cases h2 : i < J
        · rw [if_pos h2, if_pos (by omega)]
        · rw [if_neg h2, if_neg (by omega)])
  generalize hz0 : forN (n2 * (2 * N)) (fun i z => upd z i (1 / 2 * x i)) z = z0 at hcopy
  have e2N : n2 * (2 * N) = 2 * (n2 * N) := by ring
  have hle : n2 * N ≤ n2 * (N + 1) := Nat.mul_le_mul_left _ (by omega)
  have hv0 : ∀ j, j < n2 * N → view z0 j = (1 / 2 : ℂ) * (x (2 * j) + I * x (2 * j + 1)) := by
    intro j hj
    apply Complex.ext
    · simp only [view, hcopy]
      rw [if_pos (by omega)]; simp
    · simp only [view, hcopy]
      rw [if_pos (by omega)]; simp
  have hv1 : ∀ j, n2 * N ≤ j → view z0 j = view z j := by
    intro j hj
    simp only [view, hcopy]
    rw [if_neg (by omega), if_neg (by omega)]
  obtain ⟨c, e1, a1, f1⟩ := pfamcc_dft isign N n2 1 N len hv (lay_rows' (by omega)) (view z0)
  obtain ⟨s1, s2⟩ := shiftRows_spec (2 * N) n2 (unview c)
  generalize hzs : shiftRows (2 * N) n2 (unview c) = zs at s1 s2
  obtain ⟨d1, d2⟩ := rowsN_spec (le_refl (2 * N + 2)) (n := n2) (g := fun _ z => dcNyq (2 * N) z)
    (fun _ _ => (dcNyq_loc (2 * N) _ le_rfl).1) (fun _ _ => (dcNyq_loc (2 * N) _ le_rfl).2) zs
  generalize hz2 : rowsN n2 (2 * N + 2) (fun _ z => dcNyq (2 * N) z) zs = z2 at d1 d2
  obtain ⟨t1, t2⟩ := twLoop2_row twRC_loc (nt := n2) (show 2 * N ≤ 2 * N + 2 by omega) (le_refl (2 * N + 2)) (thetaRC isign (2 * N)) z2
  refine ⟨twLoop2 twRC (2 * N) n2 (2 * N + 2) (thetaRC isign (2 * N)) z2, ?_, fun i hi k hk => ?_, fun k hk => ?_⟩
  · rw [pfa2rc, if_pos (by rw [show n2 * (2 * N + 2) = 2 * (n2 * (N + 1)) by ring]; omega)]
    dsimp only
    rw [hz0, pfa2cc, if_pos rfl, show 2 * N / 2 = N by omega, e1, Option.map_some, hzs, hz2]
  · have hZ : ∀ k, k < N → view (row (i * (2 * N + 2)) zs) k =
        dft (sgn isign) N (fun j => (1 / 2 : ℂ) * (x (i * (2 * N) + 2 * j) + I * x (i * (2 * N) + (2 * j + 1)))) k := by
      intro k hk
      have g1 : view (row (i * (2 * N + 2)) zs) k = c (k * 1 + i * N) := by
        have q : view (row (i * (2 * N + 2)) zs) k = view (unview c) (i * N + k) := by
          simp only [view, row]
          rw [s1 i hi _ (by omega), s1 i hi _ (by omega), show i * (2 * N) + 2 * k = 2 * (i * N + k) by ring,
            show i * (2 * N) + (2 * k + 1) = 2 * (i * N + k) + 1 by ring]
        rw [q, view_unview]
        congr 1; ring
      rw [g1, a1 i hi k hk]
      unfold dft
      refine sum_congr rfl fun j hj => ?_
      have hjN := mem_range.mp hj
      have hlt : j * 1 + i * N < n2 * N := by
        have := Nat.mul_le_mul_right N (show i + 1 ≤ n2 from hi)
        rw [Nat.add_mul] at this; omega
      dsimp only
      rw [hv0 _ hlt, show 2 * (j * 1 + i * N) = i * (2 * N) + 2 * j by ring,
        show i * (2 * N) + 2 * j + 1 = i * (2 * N) + (2 * j + 1) by ring]
    obtain ⟨b1, _⟩ := rcTail_spec isign N hN (fun j => x (i * (2 * N) + j)) (row (i * (2 * N + 2)) zs) hZ
    have e : view (twLoop2 twRC (2 * N) n2 (2 * N + 2) (thetaRC isign (2 * N)) z2) (i * (N + 1) + k) =
        view (twLoop twRC (2 * N) (thetaRC isign (2 * N)) (dcNyq (2 * N) (row (i * (2 * N + 2)) zs))) k := by
      rw [← view_row, show 2 * (i * (N + 1)) = i * (2 * N + 2) by ring]
      refine view_congr (w := N + 1) (fun m hm => ?_) (by omega)
      exact t1 i hi _ (fun m hm => (d1 i hi m hm).symm) m (by omega)
    rw [e, b1 k hk]
  · have hout : ∀ m, n2 * (2 * N + 2) ≤ m →
        twLoop2 twRC (2 * N) n2 (2 * N + 2) (thetaRC isign (2 * N)) z2 m = unview c m := by
      intro m hm
      have hne : ∀ t k, t < n2 → k < 2 * N + 2 → m ≠ t * (2 * N + 2) + k := by
        intro t k ht hk
        have := Nat.mul_le_mul_right (2 * N + 2) (show t + 1 ≤ n2 from ht)
        rw [Nat.add_mul] at this; omega
      rw [t2 m hne, d2 m hne, s2 m hm]
    have h3 : n2 * (2 * N + 2) = 2 * (n2 * (N + 1)) := by ring
    have e : view (twLoop2 twRC (2 * N) n2 (2 * N + 2) (thetaRC isign (2 * N)) z2) k = view (unview c) k := by
      simp only [view]
      rw [hout _ (by omega), hout _ (by omega)]
    rw [e, view_unview, f1 k (fun y t hy ht => ?_), hv1 k (by omega)]
    have := Nat.mul_le_mul_right N (show t + 1 ≤ n2 from ht)
    rw [Nat.add_mul] at this; omega

/-! ### From complex to real -/

private theorem copyCR_at (n1 : Nat) (h : 2 ≤ n1) (c z : Nat → ℝ) (k : Nat) : copyCR n1 c z k =
    if k = 0 then c 0 + c n1 else if k = 1 then c 0 - c n1 else if k < n1 then c k else z k := by
  have := forN_inv (n := n1 - 2) (s := upd (upd z 1 (c 0 - c n1)) 0 (c 0 + c n1)) (body := fun i z => upd z (i + 2) (c (i + 2)))
    (fun J w => ∀ i, w i = if 2 ≤ i ∧ i < J + 2 then c i else upd (upd z 1 (c 0 - c n1)) 0 (c 0 + c n1) i)
    (fun i => by rw [if_neg (by omega)]) (by
      intro J _ w hw i
      generalize upd (upd z 1 (c 0 - c n1)) 0 (c 0 + c n1) = y at hw ⊢
      simp only [upd]
      rw [hw i]
      by_cases h : i = J + 2
      · subst h; rw [if_pos rfl, if_pos (by omega)]
      · rw [if_neg h]
        by_cases h2 : 2 ≤ i ∧ i < J + 2
        · rw [if_pos h2, if_pos (by omega)]
        · rw [if_neg h2, if_neg (by omega)]) k
  unfold copyCR
  rw [this]
  simp only [upd]
  by_cases h0 : k = 0
  · rw [if_neg (by omega), if_pos h0, if_pos h0]
  · by_cases h1 : k = 1
    · rw [if_neg (by omega), if_neg h0, if_pos h1, if_neg h0, if_pos h1]
    · by_cases h2 : k < n1
      · rw [if_pos (by omega), if_neg h0, if_neg h1, if_pos h2]
      · rw [if_neg (by omega), if_neg h0, if_neg h1, if_neg h0, if_neg h1, if_neg h2]

/-- **C79 (prime factors, inverse).** `pfa2cr` transforms each of `n2` half spectra, number `i` starting at element `i*(N+1)`, to
`2 N` real samples each. -/
theorem pfa2cr_dft (s : Int) (hs : s = 1 ∨ s = -1) (N n2 len lenr : Nat) (hv : ValidLen N) (hl : n2 * (N + 1) ≤ len)
    (hr : n2 * (2 * N) ≤ lenr) (X : Nat → Nat → ℂ) (h0 : ∀ i, i < n2 → (X i 0).im = 0)
    (hX : ∀ i, i < n2 → ∀ k, 0 < k → k < 2 * N → X i (2 * N - k) = (starRingEnd ℂ) (X i k))
    (c z : Nat → ℝ) (hc : ∀ i, i < n2 → ∀ k, k ≤ N → view c (i * (N + 1) + k) = X i k) :
    ∃ z', pfa2cr s (2 * N) n2 len lenr c z = some z' ∧
      (∀ i, i < n2 → ∀ t, t < 2 * N → (z' (i * (2 * N) + t) : ℂ) = dft s (2 * N) (X i) t) ∧
      ∀ t, n2 * (2 * N) ≤ t → z' t = z t := by
  have hN := valid_pos hv
  have hsg : sgn s = s := by rcases hs with rfl | rfl <;> simp [sgn]
  obtain ⟨d1, d2⟩ := rowsN_spec (le_refl (2 * N)) (n := n2) (g := fun i2 z => copyCR (2 * N) (row (i2 * (2 * N + 2)) c) z)
    (fun i _ a k hk => by rw [copyCR_at _ (by omega), if_neg (by omega), if_neg (by omega), if_neg (by omega)])
    (fun i _ a b hab k hk => by rw [copyCR_at _ (by omega), copyCR_at _ (by omega), hab k hk]) z
  generalize hz0 : rowsN n2 (2 * N) (fun i2 z => copyCR (2 * N) (row (i2 * (2 * N + 2)) c) z) z = z0 at d1 d2
  obtain ⟨t1, t2⟩ := twLoop2_row twCR_loc (nt := n2) (le_refl (2 * N)) (le_refl (2 * N)) (thetaCR s (2 * N)) z0
  generalize hz1 : twLoop2 twCR (2 * N) n2 (2 * N) (thetaCR s (2 * N)) z0 = z1 at t1 t2
  have e2N : n2 * (2 * N) = 2 * (n2 * N) := by ring
  obtain ⟨c3, e3, a3, f3⟩ := pfamcc_dft s N n2 1 N (lenr / 2) hv (lay_rows' (by omega)) (view z1)
  rw [hsg] at a3
  refine ⟨unview c3, ?_, fun i hi t ht => ?_, fun t ht => ?_⟩
  · rw [pfa2cr, if_pos ⟨by rw [show n2 * (2 * N + 2) = 2 * (n2 * (N + 1)) by ring]; omega, hr⟩]
    dsimp only
    rw [hz0, hz1, pfa2cc, if_pos rfl, show 2 * N / 2 = N by omega, e3, Option.map_some]
  · have hcr : ∀ k, k ≤ N → view (row (i * (2 * N + 2)) c) k = X i k := by
      intro k hk
      rw [show i * (2 * N + 2) = 2 * (i * (N + 1)) by ring, view_row, hc i hi k hk]
    have hc0 : row (i * (2 * N + 2)) c 0 = (X i 0).re := by rw [← hcr 0 (by omega)]; simp [view]
    have hcN : row (i * (2 * N + 2)) c (2 * N) = (X i N).re := by rw [← hcr N le_rfl]; simp [view]
    generalize hw : copyCR (2 * N) (row (i * (2 * N + 2)) c) (row (i * (2 * N)) z) = w at *
    have hwat : ∀ k, w k = _ := fun k => by rw [← hw, copyCR_at _ (by omega)]
    obtain ⟨g1, _⟩ := crHead_spec s hs N hN (X i) (h0 i hi) (hX i hi) w
      (by simp only [view, hwat]; simp [hc0, hcN])
      (fun k hk1 hk2 => by
        rw [← hcr k (by omega)]
        simp only [view, hwat]
        rw [if_neg (by omega), if_neg (by omega), if_pos (by omega), if_neg (by omega), if_neg (by omega), if_pos (by omega)])
    have hrow : ∀ k, k < N → view z1 (i * N + k) = view (twLoop twCR (2 * N) (thetaCR s (2 * N)) w) k := by
      intro k hk
      rw [← view_row, show 2 * (i * N) = i * (2 * N) by ring]
      refine view_congr (w := N) (fun m hm => ?_) hk
      exact t1 i hi w (fun k hk => by rw [d1 i hi k hk, hw]) m hm
    have := crOut_spec s hs N hN (X i) (h0 i hi) (hX i hi) (row (i * (2 * N)) (unview c3))
      (fun k => view z1 (i * N + k)) (fun k hk => by rw [hrow k hk, g1 k hk])
      (fun t ht => by
        rw [show i * (2 * N) = 2 * (i * N) by ring, view_row, view_unview, show i * N + t = t * 1 + i * N by ring, a3 i hi t ht]
        unfold dft
        refine sum_congr rfl fun j _ => ?_
        dsimp only
        rw [show j * 1 + i * N = i * N + j by ring]) t ht
    exact this
  · have hout : ∀ k, n2 * N ≤ k → view (unview c3) k = view z k := by
      intro k hk
      have hb : ∀ m, n2 * (2 * N) ≤ m → z1 m = z m := by
        intro m hm
        have hne : ∀ t k, t < n2 → k < 2 * N → m ≠ t * (2 * N) + k := by
          intro t k ht hk
          have := Nat.mul_le_mul_right (2 * N) (show t + 1 ≤ n2 from ht)
          rw [Nat.add_mul] at this; omega
        rw [t2 m hne, d2 m hne]
      rw [view_unview, f3 k (fun y t hy ht => ?_)]
      · simp only [view]
        rw [hb _ (by omega), hb _ (by omega)]
      · have := Nat.mul_le_mul_right N (show t + 1 ≤ n2 from ht)
        rw [Nat.add_mul] at this; omega
    rcases Nat.even_or_odd' t with ⟨j, rfl | rfl⟩
    · exact congrArg Complex.re (hout j (by omega))
    · exact congrArg Complex.im (hout j (by omega))

/-- Nine traces of 120 samples. -/
example : ValidLen 60 ∧ 9 * (60 + 1) ≤ 549 ∧ 9 * (2 * 60) ≤ 1080 :=
  ⟨⟨[5, 4, 3], by decide, by decide, by norm_num⟩, by norm_num, by norm_num⟩

end Verif.Fft.Pfa

import Verif.Fft.LibProps

/-!
# Real transforms of several traces, padded lengths, and the layout the fast branch assumes
-/

namespace Verif.Fft.Lib

open Complex Finset Verif Verif.Fft

private theorem dft_congr (s : Int) (n k : Nat) {x y : Nat → ℂ} (h : ∀ j, j < n → x j = y j) : dft s n x k = dft s n y k := by
  unfold dft
  exact sum_congr rfl fun j hj => by rw [h j (mem_range.mp hj)]

private theorem sgn_of {s : Int} (hs : s = 1 ∨ s = -1) : Pfa.sgn s = s := by rcases hs with rfl | rfl <;> simp [Pfa.sgn]

/-- **C81 (forward, partial).** `rcm_fft` transforms every trace and puts its half spectrum at its place, when the complex traces are
packed (`ldc = n1/2+1`, as in all programs of the package), or in another place than the one the fast branch takes
(`ldr = n1` and `ldc = n2`).  For the rest see `rcm_fft_layout`. -/
theorem rcm_fft_dft_partial (n1 n2 ldr ldc lenr lenc : Nat) (hn : FwdLen n1) (hld : n1 / 2 < ldc)
    (hlay : ldc = n1 / 2 + 1 ∨ ldr ≠ n1 ∨ ldc ≠ n2)
    (hr : ∀ i, i < n2 → i * ldr + n1 ≤ lenr) (hc : ∀ i, i < n2 → i * ldc + n1 / 2 < lenc) (sign : Int)
    (hs : sign = 1 ∨ sign = -1) (junk : Nat → Junk) (x : Nat → ℝ) (c : Nat → ℂ) (s : St) (h : Hist s) :
    ∃ c' s', rcmFft n1 n2 ldr ldc lenr lenc sign junk x c s = some (c', s') ∧ Hist s' ∧
      (∀ i, i < n2 → ∀ k, k ≤ n1 / 2 → c' (i * ldc + k) = dft sign n1 (fun j => (x (i * ldr + j) : ℂ)) k) ∧
      ∀ m, (∀ i k, i < n2 → k ≤ n1 / 2 → m ≠ i * ldc + k) → c' m = c m := by
  unfold rcmFft
  split
  · rename_i hp
    obtain ⟨_, hq, rfl, rfl⟩ := hp
    obtain ⟨N, hv, rfl⟩ := npfar_self hq
    have hldc : ldc = N + 1 := by omega
    subst hldc
    have hlast := hr N (by omega)
    have hlastc := hc N (by omega)
    obtain ⟨z', e, a, f⟩ := Pfa.pfa2rc_dft sign N (N + 1) lenc hv (by
      have : (N + 1) * (N + 1) = N * (N + 1) + (N + 1) := by ring
      omega) x (Pfa.unview c)
    rw [sgn_of hs] at a
    rw [if_pos (by rw [Nat.add_mul]; omega), e]
    refine ⟨_, _, rfl, h, fun i hi k hk => a i hi k (by omega), fun m hm => ?_⟩
    rw [f m, Pfa.view_unview]
    by_contra hlt
    refine hm (m / (N + 1)) (m % (N + 1)) ?_ ?_ ?_
    · exact Nat.div_lt_of_lt_mul (by omega)
    · have := Nat.mod_lt m (show 0 < N + 1 by omega); omega
    · rw [Nat.mul_comm, Nat.div_add_mod]
  · obtain ⟨c', s', e, p, a, f⟩ := rowsM_spec Hist (show n1 / 2 + 1 ≤ ldc by omega) (n := n2)
      (f := fun i c s => rc1Fft n1 (lenr - i * ldr) (lenc - i * ldc) sign (junk i) (row (i * ldr) x) c s)
      (fun i _ k => dft sign n1 (fun j => (x (i * ldr + j) : ℂ)) k)
      (fun i hi a s hs' => by
        obtain ⟨c', s', e, p, a, f⟩ := rc1_fft_dft n1 (lenr - i * ldr) (lenc - i * ldc) hn (by have := hr i hi; omega)
          (by have := hc i hi; omega) sign hs (junk i) (row (i * ldr) x) a s hs'
        exact ⟨c', s', e, p, fun k hk => a k (by omega), fun k hk => f k (by omega)⟩)
      (fun _ _ _ _ _ _ _ => rfl) c s h
    exact ⟨c', s', e, p, fun i hi k hk => a i hi k (by omega), fun m hm => f m fun i k hi hk => hm i k hi (by omega)⟩

/-- **C81 (inverse, partial).** `crm_fft`, for the same layouts. -/
theorem crm_fft_dft_partial (n1 n2 ldc ldr lenc lenr : Nat) (hn : InvLen n1) (hld : n1 ≤ ldr)
    (hlay : ldc = n1 / 2 + 1 ∨ ldr ≠ n1 ∨ ldc ≠ n2)
    (hr : ∀ i, i < n2 → i * ldr + n1 ≤ lenr) (hc : ∀ i, i < n2 → i * ldc + n1 / 2 < lenc) (sign : Int)
    (hs : sign = 1 ∨ sign = -1) (junk : Nat → Junk) (X : Nat → Nat → ℂ) (c : Nat → ℂ) (h0 : ∀ i, i < n2 → (X i 0).im = 0)
    (hX : ∀ i, i < n2 → ∀ k, 0 < k → k < n1 → X i (n1 - k) = (starRingEnd ℂ) (X i k))
    (hcX : ∀ i, i < n2 → ∀ k, k ≤ n1 / 2 → c (i * ldc + k) = X i k) (x : Nat → ℝ) (s : St) (h : Hist s) :
    ∃ x' s', crmFft n1 n2 ldc ldr lenc lenr sign junk c x s = some (x', s') ∧ Hist s' ∧
      (∀ i, i < n2 → ∀ t, t < n1 → (x' (i * ldr + t) : ℂ) = dft sign n1 (X i) t) ∧
      ∀ m, (∀ i t, i < n2 → t < n1 → m ≠ i * ldr + t) → x' m = x m := by
  have h1 := hn.1.1
  unfold crmFft
  split
  · rename_i hp
    obtain ⟨_, hq, rfl, rfl⟩ := hp
    obtain ⟨N, hv, rfl⟩ := npfar_self hq
    have hldc : ldc = N + 1 := by rcases hlay with h | h | h <;> omega
    subst hldc
    have hlast := hr N (by omega)
    have hlastc := hc N (by omega)
    obtain ⟨z', e, a, f⟩ := Pfa.pfa2cr_dft sign hs N (N + 1) lenc lenr hv (by
      have : (N + 1) * (N + 1) = N * (N + 1) + (N + 1) := by ring
      omega) (by rw [Nat.add_mul]; omega) X h0 hX (Pfa.unview c) x
      (fun i hi k hk => by rw [Pfa.view_unview, hcX i hi k (by omega)])
    rw [e]
    refine ⟨_, _, rfl, h, a, fun m hm => f m ?_⟩
    by_contra hlt
    refine hm (m / (2 * N)) (m % (2 * N)) ?_ ?_ ?_
    · exact Nat.div_lt_of_lt_mul (by rw [Nat.mul_comm]; omega)
    · exact Nat.mod_lt m h1
    · rw [Nat.mul_comm, Nat.div_add_mod]
  · let G : Nat → Nat → ℝ := fun i t => (dft sign n1 (X i) t).re
    obtain ⟨x', s', e, p, a, f⟩ := rowsM_spec Hist hld (n := n2)
      (f := fun i x s => cr1Fft n1 (lenc - i * ldc) (lenr - i * ldr) sign (junk i) (row (i * ldc) c) x s)
      (fun i _ t => G i t)
      (fun i hi a s hs' => by
        obtain ⟨x', s', e, p, a, f⟩ := cr1_fft_dft n1 (lenc - i * ldc) (lenr - i * ldr) hn (by have := hr i hi; omega)
          (by have := hc i hi; omega) sign hs (junk i) (X i) (row (i * ldc) c) (h0 i hi) (hX i hi) (hcX i hi) a s hs'
        exact ⟨x', s', e, p, fun k hk => by
          have := congrArg Complex.re (a k hk)
          rwa [ofReal_re] at this, f⟩)
      (fun _ _ _ _ _ _ _ => rfl) x s h
    refine ⟨x', s', e, p, fun i hi t ht => ?_, f⟩
    rw [a i hi t ht]
    apply Complex.ext
    · exact ofReal_re _
    · rw [ofReal_im, Pfa.hermitian_real sign hs n1 h1 (X i) (h0 i hi) (hX i hi) t ht]

/-- **C81 (round trip).** Packed traces there and back: each sample times the length, whatever other calls are made in between. -/
theorem crm_rcm_fft (n1 n2 lenr lenc : Nat) (hn : InvLen n1) (hr : n2 * n1 ≤ lenr) (hc : n2 * (n1 / 2 + 1) ≤ lenc) (sign : Int)
    (hs : sign = 1 ∨ sign = -1) (junk junk' : Nat → Junk) (x y : Nat → ℝ) (c : Nat → ℂ) (s t : St) (h : Hist s) (ht : Hist t) :
    ∃ c' s' y' t', rcmFft n1 n2 n1 (n1 / 2 + 1) lenr lenc sign junk x c s = some (c', s') ∧
      crmFft n1 n2 (n1 / 2 + 1) n1 lenc lenr (-sign) junk' c' y t = some (y', t') ∧
      ∀ m, m < n2 * n1 → y' m = n1 * x m := by
  have h1 := hn.1.1
  have hs' : -sign = 1 ∨ -sign = -1 := by rcases hs with rfl | rfl <;> simp
  have hr' : ∀ i, i < n2 → i * n1 + n1 ≤ lenr := fun i hi => by
    have := Nat.mul_le_mul_right n1 (show i + 1 ≤ n2 from hi)
    rw [Nat.add_mul] at this; omega
  have hc' : ∀ i, i < n2 → i * (n1 / 2 + 1) + n1 / 2 < lenc := fun i hi => by
    have := Nat.mul_le_mul_right (n1 / 2 + 1) (show i + 1 ≤ n2 from hi)
    rw [Nat.add_mul] at this; omega
  obtain ⟨c', s', e1, _, a1, _⟩ := rcm_fft_dft_partial n1 n2 n1 (n1 / 2 + 1) lenr lenc hn.1 (by omega) (Or.inl rfl) hr' hc' sign hs
    junk x c s h
  obtain ⟨y', t', e2, _, a2, _⟩ := crm_fft_dft_partial n1 n2 (n1 / 2 + 1) n1 lenc lenr hn le_rfl (Or.inl rfl) hr' hc' (-sign) hs'
    junk' (fun i => dft sign n1 fun j => (x (i * n1 + j) : ℂ)) c' (fun i _ => Mayer.dft_zero_im _ _ _)
    (fun i _ k _ hk => Mayer.dft_hermitian sign _ h1 (fun j => x (i * n1 + j)) k hk.le) a1 y t ht
  refine ⟨c', s', y', t', e1, e2, fun m hm => ?_⟩
  have hi : m / n1 < n2 := Nat.div_lt_of_lt_mul (by rw [Nat.mul_comm]; exact hm)
  have hk : m % n1 < n1 := Nat.mod_lt m h1
  have e := (a2 (m / n1) hi (m % n1) hk).trans (dft_roundtrip sign hs n1 h1 (fun j => (x (m / n1 * n1 + j) : ℂ)) (m % n1) hk)
  rw [Nat.mul_comm, Nat.div_add_mod] at e
  have e2 : (y' m : ℂ) = ((n1 * x m : ℝ) : ℂ) := by rw [e]; push_cast; ring
  exact_mod_cast e2

/-! ### The lengths the programs choose -/

private theorem pow2Len_le (n : Nat) (hn : 0 < n) (h : n ≤ 16384) : ∃ m, pow2Len n = 2 ^ m ∧ m ≤ 14 := by
  refine ⟨_, rfl, ?_⟩
  have hlog : Real.logb 2 n ≤ 14 := by
    rw [Real.logb_le_iff_le_rpow (by norm_num) (by exact_mod_cast hn)]
    have : ((n : Nat) : ℝ) ≤ 16384 := by exact_mod_cast h
    calc (n : ℝ) ≤ 16384 := this
      _ = (2 : ℝ) ^ (14 : ℝ) := by norm_num
  have hf : ⌊Real.logb 2 n + 9999 / 10000⌋ < 15 := by
    rw [Int.floor_lt]
    push_cast
    linarith
  omega

/-- **C82.** The padded length a program chooses for `3 ≤ n ≤ 16384` samples is one for which forward and inverse transform work. -/
theorem optncr_invLen (n : Nat) (h3 : 3 ≤ n) (h : n ≤ 16384) : InvLen (optncr n) := by
  have hge := optncr_ge_partial n (by omega) h
  have hpow : ∀ m, m ≤ 14 → 3 ≤ 2 ^ m → InvLen (2 ^ m) := by
    intro m hm h3
    refine ⟨⟨by positivity, fun m' e => ?_⟩, Or.inl ⟨m, rfl⟩⟩
    have := Nat.pow_right_injective (le_refl 2) e
    subst this
    refine ⟨?_, by omega⟩
    by_contra hlt
    have : 2 ^ m ≤ 2 ^ 1 := Nat.pow_le_pow_right (by norm_num) (by omega)
    omega
  obtain ⟨m, hm, hm14⟩ := pow2Len_le n (by omega) h
  unfold optncr at hge ⊢
  dsimp only at hge ⊢
  split
  · rename_i hne
    rw [if_pos hne] at hge
    split
    · rename_i hlt
      rw [if_pos hlt] at hge
      have hb : npfar n < 2 ^ 14 := by
        have : 2 ^ m ≤ 2 ^ 14 := Nat.pow_le_pow_right (by norm_num) hm14
        rw [hm] at hlt
        omega
      refine ⟨⟨by omega, fun m' e => ?_⟩, Or.inr (Or.inl ⟨_, npfa_valid _, rfl⟩)⟩
      rw [e] at hge hb
      constructor
      · by_contra hlt
        have : 2 ^ m' ≤ 2 ^ 1 := Nat.pow_le_pow_right (by norm_num) (by omega)
        omega
      · have := (Nat.pow_lt_pow_iff_right (le_refl 2)).mp hb
        omega
    · rename_i hlt
      rw [if_neg hlt, hm] at hge
      rw [hm]
      exact hpow m hm14 (by omega)
  · rename_i hne
    have e : n = 2 ^ m := by rw [← hm]; exact (not_not.mp hne).symm
    rw [e]
    exact hpow m hm14 (by omega)

/-- **C82 (round trip).** A trace of `n` samples padded with zeros to the length `optncr n`, transformed forth and back: every sample
times the length, and zeros behind them. -/
theorem padded_roundtrip (n : Nat) (h3 : 3 ≤ n) (h : n ≤ 16384) (sign : Int) (hs : sign = 1 ∨ sign = -1) (junk junk' : Junk)
    (x y : Nat → ℝ) (c : Nat → ℂ) (s t : St) (hs' : Hist s) (ht : Hist t) :
    ∃ c' s' y' t', n ≤ optncr n ∧
      rc1Fft (optncr n) (optncr n) (optncr n / 2 + 1) sign junk (fun j => if j < n then x j else 0) c s = some (c', s') ∧
      cr1Fft (optncr n) (optncr n / 2 + 1) (optncr n) (-sign) junk' c' y t = some (y', t') ∧
      (∀ k, k < n → y' k = optncr n * x k) ∧ ∀ k, n ≤ k → k < optncr n → y' k = 0 := by
  obtain ⟨c', s', y', t', e1, e2, a, _⟩ := cr1_rc1_fft (optncr n) (optncr n) (optncr n / 2 + 1) (optncr_invLen n h3 h) le_rfl (by omega)
    sign hs junk junk' (fun j => if j < n then x j else 0) y c s t hs' ht
  have hge := optncr_ge_partial n (by omega) h
  refine ⟨c', s', y', t', hge, e1, e2, fun k hk => ?_, fun k hk hk2 => ?_⟩
  · rw [a k (by omega), if_pos hk]
  · rw [a k hk2, if_neg (by omega), mul_zero]

/-! ### The layout of the fast branch -/

/-- **C81 fails.** When `ldr = n1` and `ldc = n2` and the length has a prime-factor transform, the half spectra are stored
`n1/2+1` elements apart, not `ldc`. -/
theorem rcm_fft_layout (N n2 lenr lenc : Nat) (hv : ValidLen N) (hp : ∀ m, 2 * N ≠ 2 ^ m) (hr : n2 * (2 * N) ≤ lenr)
    (hc : n2 * (N + 1) ≤ lenc) (sign : Int) (hs : sign = 1 ∨ sign = -1) (junk : Nat → Junk) (x : Nat → ℝ) (c : Nat → ℂ) (s : St) :
    ∃ c', rcmFft (2 * N) n2 (2 * N) n2 lenr lenc sign junk x c s = some (c', s) ∧
      (∀ i, i < n2 → ∀ k, k ≤ N → c' (i * (N + 1) + k) = dft sign (2 * N) (fun j => (x (i * (2 * N) + j) : ℂ)) k) ∧
      ∀ k, n2 * (N + 1) ≤ k → c' k = c k := by
  obtain ⟨z', e, a, f⟩ := Pfa.pfa2rc_dft sign N n2 lenc hv hc x (Pfa.unview c)
  rw [sgn_of hs] at a
  refine ⟨Pfa.view z', ?_, a, fun k hk => by rw [f k hk, Pfa.view_unview]⟩
  have hq : ¬ isPow2 (2 * N) := fun hq => by
    obtain ⟨m, hm⟩ := isPow2_iff.mp hq
    exact hp m hm
  rw [rcmFft, if_pos ⟨hq, npfar_of hv, rfl, rfl⟩, if_pos hr, e]
  rfl

/-- **C81 fails**, a case: five traces of 6 samples, the half spectra 5 elements apart.  Trace 0 is zero, trace 1 is a unit sample;
element 4, which no half spectrum owns, is overwritten by the spectrum of trace 1. -/
theorem rcm_fft_layout_wrong (junk : Nat → Junk) (s : St) :
    ∃ c' s', rcmFft 6 5 6 5 30 25 (-1) junk (fun j => if j = 6 then 1 else 0) (fun _ => 0) s = some (c', s') ∧
      dft (-1) 6 (fun j => (((fun j => if j = 6 then 1 else 0 : Nat → ℝ) (1 * 6 + j) : ℝ) : ℂ)) 3 = 1 ∧ c' (1 * 5 + 3) = 0 ∧ c' 4 = 1 := by
  have hv : ValidLen 3 := ⟨[3], by decide, by decide, by norm_num⟩
  have hp : ∀ m, 2 * 3 ≠ 2 ^ m := by
    intro m h
    have h1 : m < 3 := by
      by_contra hlt
      have : 2 ^ 3 ≤ 2 ^ m := Nat.pow_le_pow_right (by norm_num) (by omega)
      omega
    interval_cases m <;> omega
  obtain ⟨c', e, a, _⟩ := rcm_fft_layout 3 5 30 25 hv hp (by norm_num) (by norm_num) (-1) (Or.inr rfl) junk
    (fun j => if j = 6 then 1 else 0) (fun _ => 0) s
  have hone : ∀ k, dft (-1) 6 (fun j => (((fun j => if j = 6 then 1 else 0 : Nat → ℝ) (1 * 6 + j) : ℝ) : ℂ)) k = 1 := by
    intro k
    unfold dft
    rw [sum_eq_single 0]
    · simp
    · intro j _ hj
      simp [hj]
    · simp
  refine ⟨c', s, e, hone 3, ?_, ?_⟩
  · have := a 2 (by norm_num) 0 (by norm_num)
    rw [show 2 * (3 + 1) + 0 = 1 * 5 + 3 by norm_num] at this
    rw [this]
    unfold dft
    refine sum_eq_zero fun j hj => ?_
    have h : ¬ (2 * (2 * 3) + j = 6) := by omega
    simp only [if_neg h, ofReal_zero, zero_mul]
  · have := a 1 (by norm_num) 0 (by norm_num)
    rw [show 1 * (3 + 1) + 0 = 4 by norm_num] at this
    rw [this]
    exact hone 0

/-! ### The hypotheses can be met -/

/-- After some calls. -/
example : ∃ s, Hist s ∧ s.rc.nprev = 7 := by
  have h7 : ¬ isPow2 7 := by
    rw [isPow2_iff]
    rintro ⟨m, h⟩
    have h1 : m < 3 := by
      by_contra hlt
      have : 2 ^ 3 ≤ 2 ^ m := Nat.pow_le_pow_right (by norm_num) (by omega)
      omega
    interval_cases m <;> omega
  have h7' : npfar 7 ≠ 7 := fun h => by
    obtain ⟨N, _, e⟩ := npfar_self (n := 7) h
    omega
  have e : ∃ c' s', rc1Fft 7 7 4 1 ⟨0, 0, 0⟩ (fun _ => 1) (fun _ => 0) St.init = some (c', s') ∧ s'.rc.nprev = 7 := by
    rw [rc1Fft, if_pos (by norm_num), if_pos h7, if_neg (by exact_mod_cast h7')]
    exact ⟨_, _, rfl, by simp [rcdft, St.init, Tab.init]⟩
  obtain ⟨c', s', e, h⟩ := e
  exact ⟨s', Hist.start.rc1 7 7 4 1 ⟨0, 0, 0⟩ (fun _ => 1) (fun _ => 0) c' (by norm_num) e, h⟩

example : FwdLen 14 ∧ InvLen 120 ∧ InvLen 131072 ∧ InvLen 17 := by
  have hodd : ∀ n : Nat, n % 2 = 1 → 1 < n → ∀ m, n ≠ 2 ^ m := by
    intro n h1 h2 m e
    cases m with
    | zero => omega
    | succ m => rw [pow_succ] at e; omega
  have hp : ∀ n q a : Nat, n = q * 2 ^ a → q % 2 = 1 → 1 < q → ∀ m, n ≠ 2 ^ m := by
    intro n q a e h1 h2 m h3
    rcases Nat.lt_or_ge m a with h | h
    · have h4 : 2 ^ m < 2 ^ a := Nat.pow_lt_pow_right (by norm_num) h
      have h5 : 1 * 2 ^ a ≤ q * 2 ^ a := Nat.mul_le_mul_right _ h2.le
      omega
    · obtain ⟨d, rfl⟩ := Nat.exists_eq_add_of_le h
      rw [e, pow_add, mul_comm] at h3
      exact hodd q h1 h2 d (Nat.eq_of_mul_eq_mul_left (by positivity) h3)
  refine ⟨⟨by norm_num, fun m e => absurd e (hp 14 7 1 (by norm_num) (by norm_num) (by norm_num) m)⟩,
    ⟨⟨by norm_num, fun m e => absurd e (hp 120 15 3 (by norm_num) (by norm_num) (by norm_num) m)⟩,
      Or.inr (Or.inl ⟨60, ⟨[5, 4, 3], by decide, by decide, by norm_num⟩, by norm_num⟩)⟩,
    ⟨⟨by norm_num, fun m e => ?_⟩, Or.inl ⟨17, by norm_num⟩⟩,
    ⟨⟨by norm_num, fun m e => absurd e (hodd 17 (by norm_num) (by norm_num) m)⟩, Or.inr (Or.inr (by norm_num))⟩⟩
  have : m = 17 := Nat.pow_right_injective (le_refl 2) (by dsimp only; omega)
  omega

end Verif.Fft.Lib

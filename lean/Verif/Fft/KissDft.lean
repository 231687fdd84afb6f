import Verif.Fft.KissBfly
import Mathlib.Analysis.SpecialFunctions.Trigonometric.Basic
import Mathlib.Analysis.SpecialFunctions.Complex.Circle
import Mathlib.RingTheory.RootsOfUnity.Complex

/-!
# kf_work computes the discrete Fourier transform
-/

noncomputable section
namespace Verif.Fft
open Verif Finset

/-- Specification: the DFT of `x 0 … x (n-1)` with exponent sign `sgn`, bin `k`. -/
def dft (sgn : Int) (n : Nat) (x : Nat → ℂ) (k : Nat) : ℂ :=
  ∑ j ∈ range n, x j * Complex.exp (sgn * (2 * Real.pi * Complex.I * (j * k) / n))

/-- `exp(sgn 2πi/n)` -/
def root (sgn : Int) (n : Nat) : ℂ := Complex.exp (sgn * (2 * Real.pi * Complex.I / n))

theorem root_pow (sgn : Int) (n i : Nat) :
    root sgn n ^ i = Complex.exp (sgn * (2 * Real.pi * Complex.I * i / n)) := by
  unfold root
  rw [← Complex.exp_nat_mul]
  congr 1
  ring

theorem root_pow_dft (sgn : Int) (n j k : Nat) :
    root sgn n ^ (j * k) = Complex.exp (sgn * (2 * Real.pi * Complex.I * (j * k) / n)) := by
  rw [root_pow]; push_cast; rfl

theorem root_pow_n (sgn : Int) (n : Nat) (hn : 0 < n) : root sgn n ^ n = 1 := by
  rw [root_pow]
  have : (n:ℂ) ≠ 0 := by exact_mod_cast hn.ne'
  rw [mul_div_assoc, div_self this, mul_one, Complex.exp_eq_one_iff]
  exact ⟨sgn, by ring⟩

/-- Taking the `N/p`-th power of the `N`-th root gives the `p`-th root. -/
theorem root_pow_quot (sgn : Int) (N p m : Nat) (hN : m * p = N) (hp : 0 < N) :
    root sgn N ^ m = root sgn p := by
  rw [root_pow]
  unfold root
  congr 2
  have hm0 : (m:ℂ) ≠ 0 := by
    have : m ≠ 0 := by rintro rfl; simp at hN; omega
    exact_mod_cast this
  have hp0 : (p:ℂ) ≠ 0 := by
    have : p ≠ 0 := by rintro rfl; simp at hN; omega
    exact_mod_cast this
  have : (N:ℂ) = m * p := by rw [← hN]; push_cast; ring
  rw [this]
  field_simp

theorem root_conj (sgn : Int) (n : Nat) : (starRingEnd ℂ) (root sgn n) = root (-sgn) n := by
  unfold root
  rw [← Complex.exp_conj]
  congr 1
  rw [map_mul, map_div₀, map_mul, map_mul]
  simp only [Complex.conj_I, Complex.conj_ofReal, map_ofNat, map_natCast, map_intCast]
  push_cast
  ring

theorem root_mul_neg (sgn : Int) (n : Nat) : root sgn n * root (-sgn) n = 1 := by
  unfold root
  rw [← Complex.exp_add]
  have : (sgn * (2 * Real.pi * Complex.I / n) + ((-sgn : Int):ℂ) * (2 * Real.pi * Complex.I / n)) = 0 := by
    push_cast; ring
  rw [this, Complex.exp_zero]

theorem root_conj_pow (sgn : Int) (n : Nat) (hn : 0 < n) :
    root sgn n ^ (n - 1) = (starRingEnd ℂ) (root sgn n) := by
  rw [root_conj]
  have h1 := root_pow_n sgn n hn
  have h2 := root_mul_neg sgn n
  calc root sgn n ^ (n-1) = root sgn n ^ (n-1) * (root sgn n * root (-sgn) n) := by rw [h2, mul_one]
    _ = root sgn n ^ (n - 1 + 1) * root (-sgn) n := by ring
    _ = root (-sgn) n := by rw [Nat.sub_add_cancel hn, h1, one_mul]

theorem root_two (sgn : Int) (hs : sgn = 1 ∨ sgn = -1) : root sgn 2 = -1 := by
  unfold root
  rcases hs with rfl | rfl
  · have : ((1:Int):ℂ) * (2 * Real.pi * Complex.I / (2:Nat)) = Real.pi * Complex.I := by push_cast; ring
    rw [this, Complex.exp_pi_mul_I]
  · have : ((-1:Int):ℂ) * (2 * Real.pi * Complex.I / (2:Nat)) = -(Real.pi * Complex.I) := by push_cast; ring
    rw [this, Complex.exp_neg, Complex.exp_pi_mul_I]; norm_num

theorem root_four (sgn : Int) (hs : sgn = 1 ∨ sgn = -1) :
    root sgn 4 = if sgn = 1 then Complex.I else -Complex.I := by
  have h1 : Complex.exp (Real.pi / 2 * Complex.I) = Complex.I := by
    rw [Complex.exp_mul_I]
    have c : Complex.cos (Real.pi / 2) = 0 := by
      have := congrArg (fun x : ℝ => (x:ℂ)) Real.cos_pi_div_two
      push_cast at this; exact this
    have s : Complex.sin (Real.pi / 2) = 1 := by
      have := congrArg (fun x : ℝ => (x:ℂ)) Real.sin_pi_div_two
      push_cast at this; exact this
    rw [c, s]; ring
  unfold root
  rcases hs with rfl | rfl
  · have : ((1:Int):ℂ) * (2 * Real.pi * Complex.I / (4:Nat)) = Real.pi / 2 * Complex.I := by push_cast; ring
    rw [this, h1]; rfl
  · have : ((-1:Int):ℂ) * (2 * Real.pi * Complex.I / (4:Nat)) = -(Real.pi / 2 * Complex.I) := by
      push_cast; ring
    rw [this, Complex.exp_neg, h1, Complex.inv_I]; rfl

theorem root_three_re (sgn : Int) (hs : sgn = 1 ∨ sgn = -1) : (root sgn 3).re = -1/2 := by
  have h1 : (Complex.exp ((2 * Real.pi / 3 : ℝ) * Complex.I)).re = -1/2 := by
    rw [Complex.exp_ofReal_mul_I_re]
    have : (2 * Real.pi / 3 : ℝ) = Real.pi - Real.pi / 3 := by ring
    rw [this, Real.cos_pi_sub, Real.cos_pi_div_three]; ring
  have h2 : root 1 3 = Complex.exp ((2 * Real.pi / 3 : ℝ) * Complex.I) := by
    unfold root; congr 1; push_cast; ring
  rcases hs with rfl | rfl
  · rw [h2, h1]
  · rw [← root_conj 1 3, Complex.conj_re, h2, h1]

/-- The exponent sign a plan is set up for. -/
def Cfg.sgn (st : Cfg) : Int := if st.inverse then 1 else -1

/-- A plan whose twiddle table belongs to its `inverse` flag. -/
def Cfg.Ready (st : Cfg) : Prop := Twiddles st (root st.sgn st.nfft)

theorem bfly_ok (st : Cfg) (hr : st.Ready) (b fs m p : Nat) (hp : 1 ≤ p)
    (hN : fs * (p * m) = st.nfft) :
    StageOk (root st.sgn st.nfft) b fs m p (bfly st b fs m p) := by
  have hs : st.sgn = 1 ∨ st.sgn = -1 := by unfold Cfg.sgn; split <;> simp
  have hq : ∀ p', p = p' → root st.sgn st.nfft ^ (fs * m) = root st.sgn p' := by
    rintro p' rfl
    exact root_pow_quot _ _ p _ (by rw [← hN]; ring) hr.pos
  unfold bfly
  split
  · exact bfly2_ok st _ hr b fs m hN (by rw [hq 2 rfl, root_two _ hs])
  · refine bfly3_ok st _ hr b fs m hN ?_ ?_
    · rw [hq 3 rfl, root_three_re _ hs]
    · rw [hq 3 rfl]; exact root_conj_pow _ 3 (by decide)
  · refine bfly4_ok st _ hr b fs m hN ?_
    rw [hq 4 rfl, root_four _ hs]
    unfold Cfg.sgn
    cases st.inverse <;> simp
  · refine bfly5_ok st _ hr b fs m hN ?_
    rw [hq 5 rfl]; exact root_conj_pow _ 5 (by decide)
  · exact bflyGeneric_ok st _ hr b fs m p hp hN

theorem sum_range_mul (p m : Nat) (g : Nat → ℂ) :
    ∑ j ∈ range (p * m), g j = ∑ q ∈ range p, ∑ j ∈ range m, g (q + p * j) := by
  rw [sum_comm]
  induction m with
  | zero => simp
  | succ m ih =>
    rw [Nat.mul_succ, sum_range_add, sum_range_succ, ih]
    congr 1
    apply sum_congr rfl
    intro q _
    rw [Nat.add_comm]

/-- **C08, the recursion.** For every plan, `kf_work` writes the DFT of its strided input to its
output block and touches nothing else. -/
theorem kfWork_dft (st : Cfg) (hr : st.Ready) (f : Nat → ℂ) (is : Nat) :
    ∀ (l : List (Nat × Nat)) (n : Nat), Plan l n → ∀ (Fout fo fs : Nat), fs * n = st.nfft → ∀ A : Mem,
    (∀ k, k < n → kfWork st f is l Fout fo fs A (Fout + k) =
      ∑ j ∈ range n, f (fo + j * (fs * is)) * root st.sgn st.nfft ^ (fs * j * k)) ∧
    (∀ x, (x < Fout ∨ Fout + n ≤ x) → kfWork st f is l Fout fo fs A x = A x) := by
  intro l n hP
  induction hP with
  | last p hp =>
    intro Fout fo fs hN A
    simp only [kfWork, if_true]
    -- copy loop
    have copy : ∀ c (A : Mem), (∀ j, j < c →
          forN c (fun j A => put A (Fout + j) (f (fo + j * (fs * is)))) A (Fout + j) = f (fo + j * (fs * is))) ∧
        (∀ x, (x < Fout ∨ Fout + c ≤ x) →
          forN c (fun j A => put A (Fout + j) (f (fo + j * (fs * is)))) A x = A x) := by
      intro c A
      induction c with
      | zero => exact ⟨fun j hj => absurd hj (by omega), fun _ _ => rfl⟩
      | succ c ih =>
        constructor
        · intro j hj
          rw [forN_succ]
          unfold put
          by_cases hjc : j = c
          · subst hjc; rw [if_pos rfl]
          · rw [if_neg (by omega)]; exact ih.1 j (by omega)
        · intro x hx
          rw [forN_succ]
          unfold put
          rw [if_neg (by omega)]
          exact ih.2 x (by omega)
    obtain ⟨hc1, hc2⟩ := copy p A
    obtain ⟨hb1, hb2⟩ := bfly_ok st hr Fout fs 1 p hp (by rw [Nat.mul_one]; exact hN)
      (forN p (fun j A => put A (Fout + j) (f (fo + j * (fs * is)))) A)
    constructor
    · intro k hk
      have := hb1 0 (by decide) k hk
      rw [Nat.mul_one, Nat.add_zero] at this
      rw [this]
      unfold stage
      apply sum_congr rfl
      intro q hq
      have hq' : q < p := mem_range.mp hq
      beta_reduce
      rw [Nat.mul_one, Nat.add_zero, hc1 q hq', Nat.zero_add, Nat.mul_one]
    · intro x hx
      rw [hb2 x (by rw [Nat.mul_one]; exact hx), hc2 x hx]
  | more p m rest hp hm hrest ih =>
    intro Fout fo fs hN A
    simp only [kfWork]
    rw [if_neg (by omega)]
    have hN' : fs * p * m = st.nfft := by rw [Nat.mul_assoc]; exact hN
    set W := root st.sgn st.nfft with hW
    -- the loop over the sub-transforms
    have loop : ∀ c, c ≤ p → ∀ (A : Mem),
        (∀ q, q < c → ∀ u, u < m →
          forN c (fun j A => kfWork st f is rest (Fout + j * m) (fo + j * (fs * is)) (fs * p) A) A
            (Fout + q * m + u) =
          ∑ j ∈ range m, f (fo + q * (fs * is) + j * (fs * p * is)) * W ^ (fs * p * j * u)) ∧
        (∀ x, (x < Fout ∨ Fout + c * m ≤ x) →
          forN c (fun j A => kfWork st f is rest (Fout + j * m) (fo + j * (fs * is)) (fs * p) A) A x = A x) := by
      intro c
      induction c with
      | zero => intro _ A; exact ⟨fun j hj => absurd hj (by omega), fun _ _ => rfl⟩
      | succ c ihc =>
        intro hc A
        obtain ⟨i1, i2⟩ := ihc (by omega) A
        obtain ⟨r1, r2⟩ := ih (Fout + c * m) (fo + c * (fs * is)) (fs * p) hN'
          (forN c (fun j A => kfWork st f is rest (Fout + j * m) (fo + j * (fs * is)) (fs * p) A) A)
        rw [Nat.succ_mul]
        constructor
        · intro q hq u hu
          rw [forN_succ]
          by_cases hqc : q = c
          · subst hqc; exact r1 u hu
          · rw [r2]
            · exact i1 q (by omega) u hu
            · left
              have : (q + 1) * m ≤ c * m := Nat.mul_le_mul_right m (by omega)
              rw [Nat.add_mul, Nat.one_mul] at this
              omega
        · intro x hx
          rw [forN_succ, r2 x (by omega)]
          exact i2 x (by omega)
    obtain ⟨l1, l2⟩ := loop p (le_refl p) A
    obtain ⟨hb1, hb2⟩ := bfly_ok st hr Fout fs m p (by omega) hN
      (forN p (fun j A => kfWork st f is rest (Fout + j * m) (fo + j * (fs * is)) (fs * p) A) A)
    constructor
    · intro k hk
      have hmpos : 0 < m := by omega
      have hkm : k % m + m * (k / m) = k := Nat.mod_add_div k m
      have hu : k % m < m := Nat.mod_lt _ hmpos
      have hq1 : k / m < p := Nat.div_lt_of_lt_mul (by rw [Nat.mul_comm]; exact hk)
      have h1 := hb1 (k % m) hu (k / m) hq1
      have hidx : Fout + k / m * m + k % m = Fout + k := by rw [Nat.mul_comm (k/m) m]; omega
      rw [hidx] at h1
      rw [h1]
      unfold stage
      rw [sum_range_mul]
      apply sum_congr rfl
      intro q hq
      beta_reduce
      rw [l1 q (mem_range.mp hq) (k % m) hu, sum_mul]
      apply sum_congr rfl
      intro j _
      have e1 : k % m + k / m * m = k := by rw [Nat.mul_comm]; exact hkm
      rw [e1, mul_assoc, ← pow_add]
      have e2 : fo + q * (fs * is) + j * (fs * p * is) = fo + (q + p * j) * (fs * is) := by ring
      rw [e2]
      congr 1
      -- exponents agree modulo nfft
      have e3 : fs * (q + p * j) * k = fs * p * j * (k % m) + fs * q * k + st.nfft * (j * (k / m)) := by
        rw [← hN']
        conv_lhs => rw [← hkm]
        conv_rhs => rw [← hkm]
        simp only [Nat.add_mul_mod_self_left, Nat.mod_mod, hkm]
        have : k = k % m + m * (k / m) := hkm.symm
        generalize k % m = a at *
        generalize k / m = c at *
        subst this
        ring
      rw [e3, pow_add _ _ (st.nfft * _), pow_mul _ st.nfft, root_pow_n _ _ hr.pos, one_pow, mul_one]
    · intro x hx
      rw [hb2 x hx, l2 x hx]

end Verif.Fft

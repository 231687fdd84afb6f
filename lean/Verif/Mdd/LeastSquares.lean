import Verif.Mdd.Inverse

/-!
# MDD: the whole of `mdd=1` solves a damped least-squares problem
-/

namespace Verif.Mdd

open Matrix ComplexOrder

noncomputable section

/-! ### Specification -/

/-- The damped misfit of one row `c` of the operator: how far `c·B` is from row `i` of A, over all
shots, plus `eps` times the size of the row. -/
def misfit (nB ns : ℕ) (A B : ℕ → ℕ → ℂ) (eps : ℝ) (i : ℕ) (c : ℕ → ℂ) : ℝ :=
  ∑ k ∈ Finset.range ns, ‖∑ l ∈ Finset.range nB, c l * B l k - A i k‖ ^ 2
    + eps * ∑ l ∈ Finset.range nB, ‖c l‖ ^ 2

/-- The stabilisation of a frequency: `eps_r` times the sum of the absolute values of `B·Bᴴ`, plus
`eps_a`. -/
def stab (nB ns : ℕ) (B : ℕ → ℕ → ℂ) (epsa epsr : ℝ) : ℝ :=
  epsr * ∑ i ∈ Finset.range nB, ∑ j ∈ Finset.range nB, ‖∑ k ∈ Finset.range ns, B i k * star (B j k)‖ + epsa

/-- The default run of `mdd`: `mdd=1`, `conjgA=0`, `conjgB=1`, with an inversion method. -/
def run (L : Lapack) (rthm nfreq ns nA nB : ℕ) (epsa epsr numacc : ℝ) : Par ℂ :=
  ⟨nfreq, ns, nA, nB, 0, 1, 1, matrixInverse L rthm nB epsa epsr numacc⟩

/-! ### The minimum -/

theorem norm_sq_add (x y : ℂ) : ‖x + y‖ ^ 2 = ‖x‖ ^ 2 + ‖y‖ ^ 2 + 2 * (x * star y).re := by
  rw [← Complex.normSq_eq_norm_sq, ← Complex.normSq_eq_norm_sq, ← Complex.normSq_eq_norm_sq, Complex.normSq_add]
  rfl

/-- the misfit around a solution of the normal equations -/
theorem misfit_add (nB ns : ℕ) (A B : ℕ → ℕ → ℂ) (eps : ℝ) (i : ℕ) (c d : ℕ → ℂ)
    (hn : ∀ j, j < nB → ∑ l ∈ Finset.range nB, c l *
        (∑ k ∈ Finset.range ns, B l k * star (B j k) + if l = j then (eps : ℂ) else 0)
      = ∑ k ∈ Finset.range ns, A i k * star (B j k)) :
    misfit nB ns A B eps i (fun l => c l + d l) = misfit nB ns A B eps i c
      + (∑ k ∈ Finset.range ns, ‖∑ l ∈ Finset.range nB, d l * B l k‖ ^ 2 + eps * ∑ l ∈ Finset.range nB, ‖d l‖ ^ 2) := by
  unfold misfit
  have e1 : ∀ k, ∑ l ∈ Finset.range nB, (c l + d l) * B l k - A i k =
      (∑ l ∈ Finset.range nB, c l * B l k - A i k) + ∑ l ∈ Finset.range nB, d l * B l k := by
    intro k
    simp only [add_mul, Finset.sum_add_distrib]
    ring
  simp only [e1, norm_sq_add, Finset.sum_add_distrib, Finset.mul_sum, mul_add]
  have cross : (∑ k ∈ Finset.range ns, (∑ l ∈ Finset.range nB, c l * B l k - A i k) *
        star (∑ l ∈ Finset.range nB, d l * B l k)) + eps * ∑ l ∈ Finset.range nB, c l * star (d l) = 0 := by
    have h : ∀ j, j < nB → ∑ k ∈ Finset.range ns, (∑ l ∈ Finset.range nB, c l * B l k - A i k) * star (B j k)
        + eps * c j = 0 := by
      intro j hj
      have h1 := hn j hj
      simp only [mul_add, Finset.sum_add_distrib, Finset.mul_sum] at h1
      have h2 : ∑ l ∈ Finset.range nB, c l * (if l = j then (eps : ℂ) else 0) = c j * eps := by
        rw [Finset.sum_eq_single j]
        · rw [if_pos rfl]
        · intro l _ hl; rw [if_neg hl, mul_zero]
        · intro hh; exact absurd (Finset.mem_range.mpr hj) hh
      rw [h2, Finset.sum_comm] at h1
      simp only [sub_mul, Finset.sum_sub_distrib, Finset.sum_mul, mul_assoc]
      linear_combination h1
    have h3 : ∑ j ∈ Finset.range nB, star (d j) * (∑ k ∈ Finset.range ns,
        (∑ l ∈ Finset.range nB, c l * B l k - A i k) * star (B j k) + eps * c j) = 0 :=
      Finset.sum_eq_zero fun j hj => by rw [h j (Finset.mem_range.mp hj), mul_zero]
    simp only [mul_add, Finset.sum_add_distrib] at h3
    rw [← h3]
    congr 1
    · simp only [star_sum, star_mul', Finset.mul_sum]
      rw [Finset.sum_comm]
      refine Finset.sum_congr rfl fun j _ => Finset.sum_congr rfl fun k _ => ?_
      ring
    · rw [Finset.mul_sum]
      refine Finset.sum_congr rfl fun j _ => ?_
      ring
  have cre := congrArg Complex.re cross
  rw [Complex.add_re, Complex.re_sum, Complex.re_ofReal_mul, Complex.re_sum, Complex.zero_re, Finset.mul_sum] at cre
  have cre2 : (∑ k ∈ Finset.range ns, 2 * ((∑ l ∈ Finset.range nB, c l * B l k - A i k) *
      star (∑ l ∈ Finset.range nB, d l * B l k)).re) + ∑ l ∈ Finset.range nB, eps * (2 * (c l * star (d l)).re) = 0 := by
    have e4 : ∀ l, eps * (2 * (c l * star (d l)).re) = 2 * (eps * (c l * star (d l)).re) := fun l => by ring
    simp only [e4, ← Finset.mul_sum]
    rw [← mul_add]
    rw [← Finset.mul_sum] at cre
    rw [cre, mul_zero]
  linarith

/-- `B·Bᴴ` plus a positive stabilisation is positive definite -/
theorem damped_posDef (nB ns : ℕ) (B : ℕ → ℕ → ℂ) (M : Arr ℂ) (epsa epsr : ℝ) (ha : 0 < epsa) (hr : 0 ≤ epsr)
    (hM : ∀ i j, i < nB → j < nB → ent nB M i j = ∑ l ∈ Finset.range ns, B i l * star (B j l)) :
    (damped nB epsa epsr M.get).PosDef := by
  let Bm : Matrix (Fin nB) (Fin ns) ℂ := fun i k => B i k
  have h1 : mat nB M.get = Bm * Bmᴴ := by
    funext i j
    have := hM i j i.2 j.2
    rw [Matrix.mul_apply]
    show ent nB M i j = _
    rw [this, Finset.sum_range]
    rfl
  have hps : (mat nB M.get).PosSemidef := h1 ▸ Matrix.posSemidef_self_mul_conjTranspose Bm
  unfold damped
  apply Matrix.PosDef.posSemidef_add hps
  apply Matrix.PosDef.smul Matrix.PosDef.one
  have : 0 < epsr * ∑ i : Fin nB, ∑ j : Fin nB, ‖mat nB M.get i j‖ + epsa := by
    have : 0 ≤ ∑ i : Fin nB, ∑ j : Fin nB, ‖mat nB M.get i j‖ :=
      Finset.sum_nonneg fun i _ => Finset.sum_nonneg fun j _ => norm_nonneg _
    have := mul_nonneg hr this
    linarith
  exact_mod_cast this

/-- the damped inverse meets the hypothesis of `mdd1_normal_partial` -/
theorem inverse_left (nB ns : ℕ) (B : ℕ → ℕ → ℂ) (M : Arr ℂ) (epsa epsr : ℝ) (X : Arr ℂ)
    (hM : ∀ i j, i < nB → j < nB → ent nB M i j = ∑ l ∈ Finset.range ns, B i l * star (B j l))
    (hX : mat nB X.get = (damped nB epsa epsr M.get)⁻¹) (hd : IsUnit (damped nB epsa epsr M.get).det)
    (i j : ℕ) (hi : i < nB) (hj : j < nB) :
    ∑ l ∈ Finset.range nB, ent nB X i l * (ent nB M l j + if l = j then ((stab nB ns B epsa epsr : ℝ) : ℂ) else 0)
      = if i = j then 1 else 0 := by
  have h := Matrix.nonsing_inv_mul _ hd
  rw [← hX] at h
  have h1 := congrFun (congrFun h ⟨i, hi⟩) ⟨j, hj⟩
  rw [Matrix.mul_apply, Matrix.one_apply] at h1
  have e : (epsr * ∑ i : Fin nB, ∑ j : Fin nB, ‖mat nB M.get i j‖ + epsa) = stab nB ns B epsa epsr := by
    unfold stab
    congr 2
    rw [Finset.sum_range]
    refine Finset.sum_congr rfl fun a _ => ?_
    rw [Finset.sum_range]
    refine Finset.sum_congr rfl fun b _ => ?_
    rw [← hM a b a.2 b.2]
    rfl
  rw [Finset.sum_range]
  have h2 : (if i = j then (1 : ℂ) else 0) = if (⟨i, hi⟩ : Fin nB) = ⟨j, hj⟩ then 1 else 0 := by
    simp only [Fin.mk.injEq]
  rw [h2, ← h1]
  refine Finset.sum_congr rfl fun l _ => ?_
  unfold damped
  rw [e, Matrix.add_apply, Matrix.smul_apply, Matrix.one_apply]
  have h3 : (l = (⟨j, hj⟩ : Fin nB)) ↔ l.1 = j := by rw [Fin.ext_iff]
  simp only [h3]
  congr 2
  split <;> simp

/-- **C153** the default method of `mdd` (`rthm=0`, `eps_a>0`, `eps_r≥0`) never stops on data with the
same number of traces per shot, whatever the data and the number of shots, and every row of the
operator written minimises the damped misfit; no other row does as well. -/
theorem mdd_least_squares_partial (L : Lapack) (hL : Cholesky L) (nfreq ns n : ℕ) (hn : 0 < n) (epsa epsr numacc : ℝ)
    (ha : 0 < epsa) (hr : 0 ≤ epsr) (a b : Arr ℂ) (hin : Input (run L 0 nfreq ns n n epsa epsr numacc) a b) (c0 : ℕ → ℂ) :
    ∃ c, deconvolve (run L 0 nfreq ns n n epsa epsr numacc) a b c0 = .ok c ∧
      ∀ w i, w < nfreq → i < n → ∀ r : ℕ → ℂ,
        let row := written (run L 0 nfreq ns n n epsa epsr numacc) c w i
        let J := misfit n ns (datum a n ns w) (datum b n ns w) (stab n ns (datum b n ns w) epsa epsr) i
        J row ≤ J r ∧ (J r = J row → ∀ j, j < n → r j = row j) := by
  set p := run L 0 nfreq ns n n epsa epsr numacc with hp
  obtain ⟨c, hc, hv⟩ := mdd1_normal_partial p hn rfl rfl rfl rfl a b hin c0
    (fun w => ((stab n ns (datum b n ns w) epsa epsr : ℝ) : ℂ)) (by
      intro w _ M hl hM
      have hpd := damped_posDef n ns (datum b n ns w) M epsa epsr ha hr hM
      obtain ⟨X, hX, hlen, hv⟩ := cholesky_inverse L hL n epsa epsr numacc M hl hpd
      exact ⟨X, hX, hlen.trans hl, fun i j hi hj => inverse_left n ns (datum b n ns w) M epsa epsr X hM hv
        ((Matrix.isUnit_iff_isUnit_det _).mp hpd.isUnit) i j hi hj⟩)
  refine ⟨c, hc, ?_⟩
  intro w i hw hi r
  dsimp only
  set B := datum b n ns w
  set A := datum a n ns w
  set e := stab n ns B epsa epsr with he
  have hepos : 0 < e := by
    have : 0 ≤ ∑ i ∈ Finset.range n, ∑ j ∈ Finset.range n, ‖∑ k ∈ Finset.range ns, B i k * star (B j k)‖ :=
      Finset.sum_nonneg fun i _ => Finset.sum_nonneg fun j _ => norm_nonneg _
    have := mul_nonneg hr this
    rw [he]; unfold stab; linarith
  set row := written p c w i
  have hm := misfit_add n ns A B e i row (fun l => r l - row l) (fun j hj => hv w i j hw hi hj)
  have hfun : (fun l => row l + (r l - row l)) = r := by funext l; ring
  rw [hfun] at hm
  have h1 : 0 ≤ ∑ k ∈ Finset.range ns, ‖∑ l ∈ Finset.range n, (r l - row l) * B l k‖ ^ 2 :=
    Finset.sum_nonneg fun k _ => by positivity
  have h2 : 0 ≤ ∑ l ∈ Finset.range n, ‖r l - row l‖ ^ 2 := Finset.sum_nonneg fun k _ => by positivity
  have h3 := mul_nonneg hepos.le h2
  refine ⟨by linarith, ?_⟩
  intro heq j hj
  have h4 : e * ∑ l ∈ Finset.range n, ‖r l - row l‖ ^ 2 = 0 := by linarith
  have h5 : ∑ l ∈ Finset.range n, ‖r l - row l‖ ^ 2 = 0 := by
    rcases mul_eq_zero.mp h4 with h | h
    · exact absurd h hepos.ne'
    · exact h
  have h6 := (Finset.sum_eq_zero_iff_of_nonneg (fun l _ => by positivity)).mp h5 j (Finset.mem_range.mpr hj)
  have h7 : ‖r j - row j‖ = 0 := by simpa using h6
  exact sub_eq_zero.mp (norm_eq_zero.mp h7)

/-- a library that meets the Cholesky contract exists -/
example : ∃ L : Lapack, Cholesky L ∧ Lu L := by
  let f : (n : ℕ) → (ℕ → ℂ) → ℕ → ℂ := fun n m q =>
    if h : 0 < n then (mat n m)⁻¹ ⟨q % n, Nat.mod_lt _ h⟩ ⟨q / n % n, Nat.mod_lt _ h⟩ else 0
  have hf : ∀ n m, mat n (f n m) = (mat n m)⁻¹ := by
    intro n m
    funext i j
    show f n m (j * n + i) = _
    have hn : 0 < n := i.pos
    have e1 : (j.1 * n + i.1) / n = j := by
      rw [Nat.add_comm, Nat.add_mul_div_right _ _ hn, Nat.div_eq_of_lt i.2, Nat.zero_add]
    have e2 : (j.1 * n + i.1) % n = i := by
      rw [Nat.mul_add_mod_self_right, Nat.mod_eq_of_lt i.2]
    simp only [f, hn, dif_pos, e1, e2, Nat.mod_eq_of_lt j.2]
  exact ⟨⟨fun n m => some (f n m), fun n m => some (f n m), fun _ _ => none⟩,
    fun n m _ => ⟨_, rfl, fun i j _ => by rw [hf]⟩, fun n m _ => ⟨_, rfl, hf n m⟩⟩

/-- singular value factors: the 1×1 matrix 2 -/
example : IsSvd 1 (fun _ => 2) (fun _ => 1) (fun _ => 2) (fun _ => 1) where
  prod := by funext i j; fin_cases i; fin_cases j; simp [mat, Matrix.mul_apply]
  uu := by funext i j; fin_cases i; fin_cases j; simp [mat, Matrix.mul_apply]
  vv := by funext i j; fin_cases i; fin_cases j; simp [mat, Matrix.mul_apply]
  nonneg := fun _ _ => by norm_num
  anti := fun _ _ => le_rfl

/-- data for `mdd_least_squares_partial`: 2 traces, 3 shots, 2 frequencies -/
example (L : Lapack) : Input (run L 0 2 3 2 2 1 0 0) ⟨12, fun q => q⟩ ⟨12, fun q => q * q⟩ := ⟨rfl, rfl⟩

end

end Verif.Mdd

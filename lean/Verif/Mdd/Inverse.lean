import Verif.Mdd.Defects
import Verif.Base.Loop
import Verif.Base.Writes
import Mathlib.LinearAlgebra.Matrix.PosDef
import Mathlib.Analysis.Matrix.PosDef

/-!
# MDD: the damped inverse (MDD/computeMatrixInverse.c) and what `mdd=1` minimises

LAPACK is not part of the repository; its routines enter as a parameter with their published
contracts (`Cholesky`, `Lu`, `Svd` below).  Arithmetic is exact.  `rthm=6` ("not yet working") is not
modelled; `rthm` 3, 4 and 5 have the same code as 2, 2 and 1 up to the precision and the LAPACK
driver.
-/

namespace Verif.Mdd

open Matrix ComplexOrder

noncomputable section

/-- The LAPACK routines called: what they leave in the matrix, or `none` for `info ≠ 0`. -/
structure Lapack where
  /-- `cpotrf_` followed by `cpotri_`, `uplo="U"` (computeMatrixInverse.c:62-66) -/
  potri : ℕ → (ℕ → ℂ) → Option (ℕ → ℂ)
  /-- `cgetrf_` followed by `cgetri_` (computeMatrixInverse.c:106-109) -/
  getri : ℕ → (ℕ → ℂ) → Option (ℕ → ℂ)
  /-- `cgesvd_`/`cgesdd_` with all of `U` and `VT` (computeMatrixInverse.c:151-153) -/
  gesvd : ℕ → (ℕ → ℂ) → Option ((ℕ → ℂ) × (ℕ → ℝ) × (ℕ → ℂ))

/-- MDD/computeMatrixInverse.c:46-55: the sum of the absolute values, only formed when `eps_r` is set. -/
def energy (n : ℕ) (epsr : ℝ) (m : ℕ → ℂ) : ℝ :=
  if epsr ≠ 0 then ∑ i ∈ Finset.range n, ∑ j ∈ Finset.range n, ‖m (i * n + j)‖ else 0

/-- MDD/computeMatrixInverse.c:57-61: "add small value at diagonal". -/
def addDiag (n : ℕ) (e : ℝ) (m : ℕ → ℂ) : ℕ → ℂ :=
  forN n (fun i m => aset m (i * n + i) (m (i * n + i) + e)) m

/-- MDD/computeMatrixInverse.c:67-74: "fill lower part of inverse matrix". -/
def fillLower (n : ℕ) (m : ℕ → ℂ) : ℕ → ℂ :=
  forN n (fun i m => forN (n - (i + 1)) (fun d m => aset m (i * n + (i + 1 + d)) (star (m ((i + 1 + d) * n + i)))) m) m

/-- MDD/computeMatrixInverse.c:162-172: the inverse of a singular value, or zero when it is small
against the first.  The quotient is tested as in C, where `0/0 > numacc` is false. -/
def sinv (numacc : ℝ) (s : ℕ → ℝ) (i : ℕ) : ℝ := if s 0 ≠ 0 ∧ numacc < s i / s 0 then 1 / s i else 0

/-- MDD/computeMatrixInverse.c:175-193: the columns of `U` are scaled and conjugated, then multiplied
with the conjugate of `VT`. -/
def svdProduct (n : ℕ) (numacc : ℝ) (u : ℕ → ℂ) (s : ℕ → ℝ) (vt : ℕ → ℂ) (q : ℕ) : ℂ :=
  ∑ k ∈ Finset.range n, (sinv numacc s k * star (u (k * n + q / n))) * star (vt (q % n * n + k))

/-- MDD/computeMatrixInverse.c:32-420 for `rthm` 0 to 5. -/
def matrixInverse (L : Lapack) (rthm n : ℕ) (epsa epsr numacc : ℝ) (M : Arr ℂ) : Except Stop (Arr ℂ) :=
  if M.len < n * n then .error .ub else
  let m := addDiag n (epsr * energy n epsr M.get + epsa) M.get
  if rthm = 0 then
    match L.potri n m with
    | some x => .ok ⟨M.len, fillLower n x⟩
    | none => .error .assert
  else if rthm = 1 ∨ rthm = 5 then
    match L.getri n m with
    | some x => .ok ⟨M.len, x⟩
    | none => .error .assert
  else
    match L.gesvd n m with
    | some (u, s, vt) => .ok ⟨M.len, svdProduct n numacc u s vt⟩
    | none => .error .assert

/-! ### Specification -/

/-- The matrix stored by columns in an array. -/
def mat (n : ℕ) (m : ℕ → ℂ) : Matrix (Fin n) (Fin n) ℂ := fun i j => m (j * n + i)

/-- The stabilised matrix: `eps_r` times the sum of all absolute values, plus `eps_a`, on the diagonal. -/
def damped (n : ℕ) (epsa epsr : ℝ) (m : ℕ → ℂ) : Matrix (Fin n) (Fin n) ℂ :=
  mat n m + ((epsr * ∑ i : Fin n, ∑ j : Fin n, ‖mat n m i j‖ + epsa : ℝ) : ℂ) • (1 : Matrix (Fin n) (Fin n) ℂ)

/-- LAPACK's Cholesky contract: for a positive definite matrix the upper triangle of the inverse. -/
def Cholesky (L : Lapack) : Prop := ∀ n m, (mat n m).PosDef →
  ∃ x, L.potri n m = some x ∧ ∀ i j : Fin n, i ≤ j → mat n x i j = (mat n m)⁻¹ i j

/-- LAPACK's LU contract: the inverse of a matrix that has one. -/
def Lu (L : Lapack) : Prop := ∀ n m, IsUnit (mat n m).det →
  ∃ x, L.getri n m = some x ∧ mat n x = (mat n m)⁻¹

/-- LAPACK's SVD contract: `M = U·S·VT` with unitary factors and non-negative decreasing `S`. -/
structure IsSvd (n : ℕ) (m u : ℕ → ℂ) (s : ℕ → ℝ) (vt : ℕ → ℂ) : Prop where
  /-- the factors multiply to the matrix -/
  prod : mat n m = mat n u * diagonal (fun k : Fin n => (s k : ℂ)) * mat n vt
  /-- `U` is unitary -/
  uu : (mat n u)ᴴ * mat n u = 1
  /-- `VT` is unitary -/
  vv : mat n vt * (mat n vt)ᴴ = 1
  /-- no negative value -/
  nonneg : ∀ k, k < n → 0 ≤ s k
  /-- decreasing -/
  anti : ∀ k, k < n → s k ≤ s 0

/-! ### Lemmas -/

theorem addDiag_val (n : ℕ) (e : ℝ) (m : ℕ → ℂ) (i j : ℕ) (hi : i < n) (hj : j < n) :
    addDiag n e m (j * n + i) = m (j * n + i) + if i = j then (e : ℂ) else 0 := by
  have key : ∀ I, I ≤ n → forN I (fun i m => aset m (i * n + i) (m (i * n + i) + (e : ℂ))) m (j * n + i) =
      m (j * n + i) + if i = j ∧ i < I then (e : ℂ) else 0 := by
    intro I
    induction I with
    | zero => intro _; simp
    | succ I ih =>
      intro hI
      rw [forN_succ]
      by_cases h : j * n + i = I * n + I
      · have := rc_inj (le_refl n) hi (by omega : I < n) h
        obtain ⟨rfl, rfl⟩ := this
        have ih := ih (by omega)
        generalize forN i _ m = q at ih
        unfold aset
        rw [if_pos rfl, ih]
        simp
      · have ih := ih (by omega)
        generalize forN I _ m = q at ih
        unfold aset
        rw [if_neg h, ih]
        congr 1
        have : (i = j ∧ i < I) ↔ (i = j ∧ i < I + 1) := by
          constructor
          · rintro ⟨a, b⟩; exact ⟨a, by omega⟩
          · rintro ⟨rfl, b⟩
            refine ⟨rfl, ?_⟩
            rcases Nat.lt_succ_iff_lt_or_eq.mp b with b | rfl
            · exact b
            · exact absurd rfl h
        simp only [this]
  unfold addDiag
  rw [key n le_rfl]
  simp [hi]

theorem energy_eq (n : ℕ) (epsr : ℝ) (m : ℕ → ℂ) :
    epsr * energy n epsr m = epsr * ∑ i : Fin n, ∑ j : Fin n, ‖mat n m i j‖ := by
  unfold energy
  split
  · congr 1
    rw [Finset.sum_comm, Finset.sum_range]
    refine Finset.sum_congr rfl fun i _ => ?_
    rw [Finset.sum_range]
    rfl
  · rename_i h
    have : epsr = 0 := by simpa using h
    rw [this]; simp

/-- the matrix handed to LAPACK is the damped one -/
theorem mat_damped (n : ℕ) (epsa epsr : ℝ) (m : ℕ → ℂ) :
    mat n (addDiag n (epsr * energy n epsr m + epsa) m) = damped n epsa epsr m := by
  funext i j
  show addDiag n _ m (j * n + i) = _
  rw [addDiag_val n _ m i j i.2 j.2, energy_eq]
  unfold damped
  rw [Matrix.add_apply, Matrix.smul_apply, Matrix.one_apply]
  congr 1
  by_cases h : i = j
  · simp [h]
  · rw [if_neg h, if_neg (fun e => h (Fin.ext e))]; simp

theorem fillLower_val (n : ℕ) (m : ℕ → ℂ) (r c : ℕ) (hr : r < n) (hc : c < n) :
    fillLower n m (c * n + r) = if r ≤ c then m (c * n + r) else star (m (r * n + c)) := by
  have inner : ∀ (I : ℕ) (w : ℕ → ℂ), I < n → ∀ D, I + 1 + D ≤ n → ∀ r c, r < n → c < n →
      forN D (fun d m => aset m (I * n + (I + 1 + d)) (star (m ((I + 1 + d) * n + I)))) w (c * n + r) =
        if c = I ∧ I < r ∧ r < I + 1 + D then star (w (r * n + c)) else w (c * n + r) := by
    intro I w hI D
    induction D with
    | zero =>
      intro _ r c _ _
      rw [if_neg (by omega)]; rfl
    | succ D ih =>
      intro hD r c hr hc
      rw [forN_succ]
      by_cases h : c * n + r = I * n + (I + 1 + D)
      · obtain ⟨rfl, rfl⟩ := rc_inj (le_refl n) hr (by omega : I + 1 + D < n) h
        have h2 := ih (by omega) c (c + 1 + D) hc hr
        generalize forN D _ w = q at h2
        unfold aset
        rw [if_pos rfl, if_pos ⟨rfl, by omega, by omega⟩, h2, if_neg (by omega)]
      · have h1 := ih (by omega) r c hr hc
        generalize forN D _ w = q at h1
        unfold aset
        rw [if_neg h, h1]
        have : (c = I ∧ I < r ∧ r < I + 1 + D) ↔ (c = I ∧ I < r ∧ r < I + 1 + (D + 1)) := by
          constructor
          · rintro ⟨a, b, d⟩; exact ⟨a, b, by omega⟩
          · rintro ⟨rfl, b, d⟩
            refine ⟨rfl, b, ?_⟩
            by_contra hh
            exact h (by congr 1; omega)
        simp only [this]
  have outer : ∀ I, I ≤ n → ∀ r c, r < n → c < n →
      forN I (fun i m => forN (n - (i + 1)) (fun d m => aset m (i * n + (i + 1 + d)) (star (m ((i + 1 + d) * n + i)))) m) m
        (c * n + r) = if c < I ∧ c < r then star (m (r * n + c)) else m (c * n + r) := by
    intro I
    induction I with
    | zero => intro _ r c _ _; rw [if_neg (by omega)]; rfl
    | succ I ih =>
      intro hI r c hr hc
      rw [forN_succ, inner I _ (by omega) _ (by omega) r c hr hc]
      by_cases h : c = I ∧ I < r
      · rw [if_pos ⟨h.1, h.2, by omega⟩, ih (by omega) c r hc hr, if_neg (by omega), if_pos (by omega)]
      · rw [if_neg (by omega), ih (by omega) r c hr hc]
        have : (c < I ∧ c < r) ↔ (c < I + 1 ∧ c < r) := by omega
        simp only [this]
  unfold fillLower
  rw [outer n le_rfl r c hr hc]
  by_cases h : r ≤ c
  · rw [if_neg (by omega), if_pos h]
  · rw [if_pos (by omega), if_neg h]

/-! ### C153: the inverse -/

/-- **C153** `rthm=0`: for a matrix whose damped form is Hermitian positive definite, the routine
returns the full inverse of the damped matrix. -/
theorem cholesky_inverse (L : Lapack) (hL : Cholesky L) (n : ℕ) (epsa epsr numacc : ℝ) (M : Arr ℂ) (hM : M.len = n * n)
    (hpd : (damped n epsa epsr M.get).PosDef) :
    ∃ X, matrixInverse L 0 n epsa epsr numacc M = .ok X ∧ X.len = M.len ∧
      mat n X.get = (damped n epsa epsr M.get)⁻¹ := by
  rw [← mat_damped] at hpd
  obtain ⟨x, hx, hv⟩ := hL n _ hpd
  refine ⟨⟨M.len, fillLower n x⟩, ?_, rfl, ?_⟩
  · unfold matrixInverse
    rw [if_neg (by omega)]
    simp only [if_true, hx]
  · rw [← mat_damped]
    have hh : ((mat n (addDiag n (epsr * energy n epsr M.get + epsa) M.get))⁻¹).IsHermitian := hpd.isHermitian.inv
    funext i j
    show fillLower n x (j * n + i) = _
    rw [fillLower_val n x i j i.2 j.2]
    split
    · rename_i h
      exact hv i j h
    · rename_i h
      have := hv j i (by rw [Fin.le_def]; omega)
      have e2 : star (mat n x j i) = _ := congrArg star this
      rw [← hh.apply] at e2 ⊢
      rw [← hh.apply j i] at this
      exact e2.trans (by rw [hh.apply])

/-- **C153** `rthm=1` and `rthm=5`: the inverse of the damped matrix whenever it has one. -/
theorem lu_inverse (L : Lapack) (hL : Lu L) (rthm n : ℕ) (hr : rthm = 1 ∨ rthm = 5) (epsa epsr numacc : ℝ) (M : Arr ℂ)
    (hM : M.len = n * n) (hd : IsUnit (damped n epsa epsr M.get).det) :
    ∃ X, matrixInverse L rthm n epsa epsr numacc M = .ok X ∧ X.len = M.len ∧
      mat n X.get = (damped n epsa epsr M.get)⁻¹ := by
  rw [← mat_damped] at hd ⊢
  obtain ⟨x, hx, hv⟩ := hL n _ hd
  refine ⟨⟨M.len, x⟩, ?_, rfl, hv⟩
  unfold matrixInverse
  rw [if_neg (by omega)]
  rw [if_neg (by omega), if_pos hr]
  simp only [hx]

/-- what the singular value branch returns, as a matrix product -/
theorem svd_mat (n : ℕ) (numacc : ℝ) (u : ℕ → ℂ) (s : ℕ → ℝ) (vt : ℕ → ℂ) :
    mat n (svdProduct n numacc u s vt) =
      (mat n vt)ᴴ * diagonal (fun k : Fin n => (sinv numacc s k : ℂ)) * (mat n u)ᴴ := by
  funext i j
  have hn : 0 < n := i.pos
  show svdProduct n numacc u s vt (j * n + i) = _
  unfold svdProduct
  have e1 : (j.1 * n + i.1) / n = j := by
    rw [Nat.add_comm, Nat.add_mul_div_right _ _ hn, Nat.div_eq_of_lt i.2, Nat.zero_add]
  have e2 : (j.1 * n + i.1) % n = i := by
    rw [Nat.mul_add_mod_self_right, Nat.mod_eq_of_lt i.2]
  rw [e1, e2, Matrix.mul_apply, Finset.sum_range]
  refine Finset.sum_congr rfl fun k _ => ?_
  rw [Matrix.mul_diagonal]
  simp only [Matrix.conjTranspose_apply, mat]
  ring

theorem sinv_keep {n : ℕ} {m u : ℕ → ℂ} {s : ℕ → ℝ} {vt : ℕ → ℂ} (h : IsSvd n m u s vt) {numacc : ℝ} (hacc : 0 ≤ numacc)
    {k : ℕ} (hk : k < n) : (s k ≤ numacc * s 0 → sinv numacc s k = 0) ∧ (numacc * s 0 < s k → sinv numacc s k = (s k)⁻¹ ∧ s k ≠ 0) := by
  have h0 : 0 ≤ s 0 := h.nonneg 0 (by omega)
  unfold sinv
  constructor
  · intro hle
    apply if_neg
    rintro ⟨hne, hlt⟩
    have hp : 0 < s 0 := lt_of_le_of_ne h0 (Ne.symm hne)
    rw [lt_div_iff₀ hp] at hlt
    linarith
  · intro hlt
    have hk0 : 0 < s k := lt_of_le_of_lt (mul_nonneg hacc h0) hlt
    have hp : 0 < s 0 := lt_of_lt_of_le hk0 (h.anti k hk)
    rw [if_pos ⟨hp.ne', (lt_div_iff₀ hp).mpr hlt⟩, one_div]
    exact ⟨rfl, hk0.ne'⟩

/-- **C153** `rthm=2,3,4`: with LAPACK's factors of the damped matrix `D`, the result `X` satisfies
`X·D·X = X`, and both `D·X` and `X·D` are Hermitian: it is the pseudo-inverse of the part of `D` that
is kept. -/
theorem svd_penrose (L : Lapack) (rthm n : ℕ) (hr : rthm = 2 ∨ rthm = 3 ∨ rthm = 4) (epsa epsr numacc : ℝ) (M : Arr ℂ)
    (hM : M.len = n * n) (u : ℕ → ℂ) (s : ℕ → ℝ) (vt : ℕ → ℂ)
    (hs : L.gesvd n (addDiag n (epsr * energy n epsr M.get + epsa) M.get) = some (u, s, vt))
    (hsvd : IsSvd n (addDiag n (epsr * energy n epsr M.get + epsa) M.get) u s vt) (hacc : 0 ≤ numacc) :
    ∃ X, matrixInverse L rthm n epsa epsr numacc M = .ok X ∧ X.len = M.len ∧
      (let D := damped n epsa epsr M.get
       let Y := mat n X.get
       Y * D * Y = Y ∧ (D * Y)ᴴ = D * Y ∧ (Y * D)ᴴ = Y * D ∧
       -- what is dropped of `D` is at most `numacc` times its largest singular value
       ∃ E : Matrix (Fin n) (Fin n) ℂ, D * Y * D = D - E ∧
         E = mat n u * diagonal (fun k : Fin n => if s k ≤ numacc * s 0 then (s k : ℂ) else 0) * mat n vt) := by
  refine ⟨⟨M.len, svdProduct n numacc u s vt⟩, ?_, rfl, ?_⟩
  · unfold matrixInverse
    rw [if_neg (by omega), if_neg (by omega), if_neg (by omega)]
    simp only [hs]
  · dsimp only
    rw [← mat_damped, svd_mat, hsvd.prod]
    have hu := hsvd.uu
    have hv := hsvd.vv
    generalize mat n u = U at *
    generalize mat n vt = W at *
    set S : Matrix (Fin n) (Fin n) ℂ := diagonal (fun k : Fin n => (s k : ℂ)) with hS
    set T : Matrix (Fin n) (Fin n) ℂ := diagonal (fun k : Fin n => (sinv numacc s k : ℂ)) with hT
    have hSH : Sᴴ = S := by
      rw [hS, diagonal_conjTranspose]; congr 1; funext k; exact Complex.conj_ofReal _
    have hTH : Tᴴ = T := by
      rw [hT, diagonal_conjTranspose]; congr 1; funext k; exact Complex.conj_ofReal _
    have hST : S * T = T * S := by
      rw [hS, hT, diagonal_mul_diagonal, diagonal_mul_diagonal]; congr 1; funext k; exact mul_comm _ _
    have hTST : T * S * T = T := by
      rw [hS, hT, diagonal_mul_diagonal, diagonal_mul_diagonal]
      congr 1; funext k
      obtain ⟨h1, h2⟩ := sinv_keep hsvd hacc k.2
      rcases le_or_gt (s k) (numacc * s 0) with hle | hlt
      · rw [h1 hle]; simp
      · obtain ⟨e, hne⟩ := h2 hlt
        have hne' : ((s k : ℝ) : ℂ) ≠ 0 := by exact_mod_cast hne
        rw [e]; push_cast; field_simp
    have hYD : Wᴴ * T * Uᴴ * (U * S * W) = Wᴴ * (T * S) * W := by
      calc _ = Wᴴ * T * (Uᴴ * U) * S * W := by simp only [Matrix.mul_assoc]
        _ = _ := by rw [hu]; simp only [Matrix.mul_one, Matrix.mul_assoc]
    have hDY : U * S * W * (Wᴴ * T * Uᴴ) = U * (S * T) * Uᴴ := by
      calc _ = U * S * (W * Wᴴ) * T * Uᴴ := by simp only [Matrix.mul_assoc]
        _ = _ := by rw [hv]; simp only [Matrix.mul_one, Matrix.mul_assoc]
    refine ⟨?_, ?_, ?_, _, ?_, rfl⟩
    · rw [hYD]
      calc _ = Wᴴ * (T * S) * (W * Wᴴ) * T * Uᴴ := by simp only [Matrix.mul_assoc]
        _ = Wᴴ * (T * S * T) * Uᴴ := by rw [hv]; simp only [Matrix.mul_one, Matrix.mul_assoc]
        _ = _ := by rw [hTST]
    · rw [hDY]
      simp only [Matrix.conjTranspose_mul, Matrix.conjTranspose_conjTranspose, hSH, hTH, ← hST, Matrix.mul_assoc]
    · rw [hYD]
      simp only [Matrix.conjTranspose_mul, Matrix.conjTranspose_conjTranspose, hSH, hTH, hST, Matrix.mul_assoc]
    · rw [hDY]
      have e1 : U * (S * T) * Uᴴ * (U * S * W) = U * (S * T * S) * W := by
        calc _ = U * (S * T) * (Uᴴ * U) * S * W := by simp only [Matrix.mul_assoc]
          _ = _ := by rw [hu]; simp only [Matrix.mul_one, Matrix.mul_assoc]
      rw [e1, ← Matrix.sub_mul, ← Matrix.mul_sub]
      congr 2
      rw [hS, hT, diagonal_mul_diagonal, diagonal_mul_diagonal, diagonal_sub]
      congr 1; funext k
      obtain ⟨h1, h2⟩ := sinv_keep hsvd hacc k.2
      rcases le_or_gt (s k) (numacc * s 0) with hle | hlt
      · rw [h1 hle, if_pos hle]; simp
      · obtain ⟨e, hne⟩ := h2 hlt
        have hne' : ((s k : ℝ) : ℂ) ≠ 0 := by exact_mod_cast hne
        rw [e, if_neg (not_le.mpr hlt)]; push_cast; field_simp; simp

/-- **C153** when no singular value is dropped the result is the inverse of the damped matrix. -/
theorem svd_inverse (L : Lapack) (rthm n : ℕ) (hr : rthm = 2 ∨ rthm = 3 ∨ rthm = 4) (epsa epsr numacc : ℝ) (M : Arr ℂ)
    (hM : M.len = n * n) (u : ℕ → ℂ) (s : ℕ → ℝ) (vt : ℕ → ℂ)
    (hs : L.gesvd n (addDiag n (epsr * energy n epsr M.get + epsa) M.get) = some (u, s, vt))
    (hsvd : IsSvd n (addDiag n (epsr * energy n epsr M.get + epsa) M.get) u s vt) (hacc : 0 ≤ numacc)
    (hall : ∀ k, k < n → numacc * s 0 < s k) :
    ∃ X, matrixInverse L rthm n epsa epsr numacc M = .ok X ∧ X.len = M.len ∧
      mat n X.get = (damped n epsa epsr M.get)⁻¹ := by
  refine ⟨⟨M.len, svdProduct n numacc u s vt⟩, ?_, rfl, ?_⟩
  · unfold matrixInverse
    rw [if_neg (by omega), if_neg (by omega), if_neg (by omega)]
    simp only [hs]
  · dsimp only
    rw [← mat_damped, svd_mat]
    symm
    apply Matrix.inv_eq_left_inv
    rw [hsvd.prod]
    have hu := hsvd.uu
    have hv := hsvd.vv
    have hv' : (mat n vt)ᴴ * mat n vt = 1 := mul_eq_one_comm.mp hv
    generalize mat n u = U at *
    generalize mat n vt = W at *
    have hTS : diagonal (fun k : Fin n => (sinv numacc s k : ℂ)) * diagonal (fun k : Fin n => (s k : ℂ)) = 1 := by
      rw [diagonal_mul_diagonal, ← diagonal_one]
      congr 1; funext k
      obtain ⟨e, hne⟩ := (sinv_keep hsvd hacc k.2).2 (hall k k.2)
      have hne' : ((s k : ℝ) : ℂ) ≠ 0 := by exact_mod_cast hne
      rw [e]; push_cast; exact inv_mul_cancel₀ hne'
    generalize diagonal (fun k : Fin n => (sinv numacc s k : ℂ)) = T at *
    generalize diagonal (fun k : Fin n => (s k : ℂ)) = S at *
    calc _ = Wᴴ * T * (Uᴴ * U) * S * W := by simp only [Matrix.mul_assoc]
      _ = Wᴴ * (T * S) * W := by rw [hu]; simp only [Matrix.mul_one, Matrix.mul_assoc]
      _ = 1 := by rw [hTS, Matrix.mul_one, hv']

end

end Verif.Mdd

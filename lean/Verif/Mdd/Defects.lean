import Verif.Mdd.Props

/-!
# MDD: other solvers, and where the slices do not fit

`mdd=2`, the transmission series of `mdd=6`, the operator pair given to LSQR (`mdd=3`), and the
dimensions for which `deconvolve` leaves its arrays or mixes frequencies.
-/

namespace Verif.Mdd

variable {K : Type*} [CommRing K] [StarRing K]

/-! ### `mdd=2` -/

/-- **C150** `mdd=2` (`A/(B+eps)`, both matrices square): the result times the inverted matrix's
original, damped, is `A`. -/
theorem mdd2_solves_partial (p : Par K) (hp : 0 < p.nA) (heq : p.nB = p.nA) (hs : p.ns = p.nA) (hm : p.mdd = 2)
    (a b : Arr K) (hin : Input p a b) (c0 : ℕ → K) (eps : ℕ → K)
    (hinv : ∀ w, w < p.nfreq → ∀ M : Arr K, M.len = p.nB * p.nB →
      (∀ i j, i < p.nB → j < p.nB → ent p.nB M i j = datum b p.nB p.ns w i j) →
      ∃ X, p.inv M = .ok X ∧ X.len = p.nB * p.nB ∧ ∀ i j, i < p.nB → j < p.nB →
        ∑ l ∈ Finset.range p.nB, ent p.nB X i l * (ent p.nB M l j + if l = j then eps w else 0)
          = if i = j then 1 else 0) :
    ∃ c, deconvolve p a b c0 = .ok c ∧ ∀ w i j, w < p.nfreq → i < p.nA → j < p.nB →
      ∑ l ∈ Finset.range p.nB, written p c w i l * (datum b p.nB p.ns w l j + if l = j then eps w else 0)
        = datum a p.nA p.ns w i j := by
  have hS : Shape p := ⟨hp, heq, fun _ => hs, fun _ => hs⟩
  have key : ∃ c, deconvolve p a b c0 = .ok c ∧ ∀ w i j, w < p.nfreq → i < p.nA → j < p.nB →
      ∃ X : ℕ → ℕ → K, (∀ i j, i < p.nB → j < p.nB → ∑ l ∈ Finset.range p.nB, X i l *
          (datum b p.nB p.ns w l j + if l = j then eps w else 0) = if i = j then 1 else 0) ∧
        ∀ j, j < p.nB → written p c w i j = ∑ l ∈ Finset.range p.nB, datum a p.nA p.ns w i l * X l j := by
    obtain ⟨s, hs', -, -, X, hXi, hv⟩ := loopE_inv (n := p.nfreq) (f := slice p a b)
      (s := ⟨⟨p.nA * p.nB * p.nfreq, c0⟩, ⟨p.nB * p.nB, fun _ => 0⟩⟩)
      (fun m s => s.c.len = p.nA * p.nB * p.nfreq ∧ s.bb.len = p.nB * p.nB ∧
        ∃ X : ℕ → ℕ → ℕ → K, (∀ w, w < m → ∀ i j, i < p.nB → j < p.nB → ∑ l ∈ Finset.range p.nB, X w i l *
          (datum b p.nB p.ns w l j + if l = j then eps w else 0) = if i = j then 1 else 0) ∧
        ∀ w i j, w < m → i < p.nA → j < p.nB → s.c.get (w * p.nA * p.nA + (j * p.nA + i)) =
          ∑ l ∈ Finset.range p.nB, datum a p.nA p.ns w i l * X w l j)
      ⟨rfl, rfl, fun _ _ _ => 0, fun w hw => absurd hw (Nat.not_lt_zero _),
        fun w i j hw => absurd hw (Nat.not_lt_zero _)⟩
      (by
        rintro m t hm' ⟨h1, h2, X, h3, h4⟩
        have hl := lin m p.nB p.ns p.nfreq hm'
        have hlA := lin m p.nA p.ns p.nfreq hm'
        obtain ⟨bb, ebb, lbb, vbb, -⟩ := copy_ok (n := p.nB * p.ns) (a := b) (oa := m * p.nB * p.ns) (c := t.bb) (oc := 0)
          (by rw [hin.2]; exact hl) (by rw [h2, hs, heq, Nat.zero_add])
        have hent : ∀ i j, i < p.nB → j < p.nB → ent p.nB bb i j = datum b p.nB p.ns m i j := by
          intro i j hi hj
          have hb2 : (j + 1) * p.nB ≤ p.nB * p.nB := Nat.mul_le_mul_right _ hj
          have e3 : (j + 1) * p.nB = j * p.nB + p.nB := by ring
          have := vbb (j * p.nB + i) (by rw [hs, ← heq]; omega)
          rw [Nat.zero_add] at this
          unfold ent datum
          rw [this]
          congr 1
          ring
        obtain ⟨x, ex, lx, ix⟩ := hinv m hm' bb (lbb.trans h2) hent
        obtain ⟨c', e, l, v, f⟩ := gemm_ok (ta := .N) (tb := .N) (m := p.nA) (n := p.nB) (k := p.nB)
          (a := a) (oa := m * p.nA * p.ns) (lda := p.nA) (b := x) (ob := 0) (ldb := p.nB)
          (c := t.c) (oc := m * p.nC * p.nC) (ldc := p.nA)
          (by show max 1 p.nA ≤ p.nA; omega) (by show max 1 p.nB ≤ p.nB; omega) (by omega)
          (fits_mul (by
            show m * p.nA * p.ns + p.nB * p.nA ≤ a.len
            rw [hin.1, heq]
            rw [hs] at hlA ⊢
            exact hlA))
          (fits_mul (by show 0 + p.nB * p.nB ≤ x.len; rw [lx, Nat.zero_add]))
          (by
            have := hS.out hm'
            rw [h1]
            rw [hS.nC] at this ⊢
            exact this)
        refine ⟨⟨c', x⟩, ?_, l.trans h1, lx, fun w => if w = m then ent p.nB x else X w, ?_, ?_⟩
        · unfold slice
          simp only [hm, if_true, ebb]
          show ((p.inv bb).bind _) = _
          rw [ex]
          show ((gemm _ _ _ _ _ _ _ _ _ _ _ _ _ _).bind _) = _
          rw [e]
          rfl
        · intro w hw
          dsimp only
          split
          · subst w
            intro i j hi hj
            rw [← ix i j hi hj]
            refine Finset.sum_congr rfl fun k hk => ?_
            rw [hent k j (Finset.mem_range.mp hk) hj]
          · exact h3 w (by omega)
        · intro w i j hw hi hj
          dsimp only
          split
          · subst w
            have := v i j hi hj
            rw [hS.nC] at this
            rw [this]
            unfold prod
            refine Finset.sum_congr rfl fun k hk => ?_
            have e1 := elt_form 0 a p.nA p.ns m i k
            have e2 := elt_ent 0 x p.nB k j
            exact congrArg₂ (· * ·) e1 e2
          · rw [f]
            · exact h4 w i j (by omega) hi hj
            · rw [hS.nC]
              exact slot_lt _ _ _ _ _ (by omega) hi (by omega))
    refine ⟨s.c, by unfold deconvolve; rw [hs']; rfl, ?_⟩
    intro w i j hw hi _
    refine ⟨X w, hXi w hw, fun j hj => ?_⟩
    have := hv w i j hw hi hj
    unfold written
    rw [← this, heq, slot]
  obtain ⟨c, hc, hv⟩ := key
  refine ⟨c, hc, ?_⟩
  intro w i j hw hi hj
  obtain ⟨X, hX, hv⟩ := hv w i j hw hi hj
  rw [Finset.sum_congr rfl fun l hl => by rw [hv l (Finset.mem_range.mp hl), Finset.sum_mul], Finset.sum_comm]
  rw [Finset.sum_congr rfl fun q hq => (by
    rw [Finset.sum_congr rfl fun l _ => mul_assoc _ _ _, ← Finset.mul_sum, hX q j (Finset.mem_range.mp hq) hj] :
    ∑ l ∈ Finset.range p.nB, datum a p.nA p.ns w i q * X q l * (datum b p.nB p.ns w l j + if l = j then eps w else 0)
      = datum a p.nA p.ns w i q * if q = j then 1 else 0)]
  rw [Finset.sum_eq_single j]
  · rw [if_pos rfl, mul_one]
  · intro q _ hq
    rw [if_neg hq, mul_zero]
  · intro hq
    exact absurd (Finset.mem_range.mpr hj) hq

/-- **C150** `mdd=2` with more shots than traces: the copy overruns the `nstationB²` scratch matrix. -/
theorem mdd2_shots_ub (p : Par K) (hm : p.mdd = 2) (hB : 0 < p.nB) (hs : p.nB < p.ns) (hf : 0 < p.nfreq) (a b : Arr K) (c0 : ℕ → K) :
    deconvolve p a b c0 = .error .ub := by
  have h1 : loopE 1 (slice p a b) (⟨⟨p.nA * p.nB * p.nfreq, c0⟩, ⟨p.nB * p.nB, fun _ => 0⟩⟩ : St K) = .error .ub := by
    have hlt : p.nB * p.nB < p.nB * p.ns := Nat.mul_lt_mul_of_pos_left hs hB
    show slice p a b 0 _ = _
    unfold slice copy
    simp only [hm, if_true]
    rw [if_pos (Or.inr (by simpa using hlt))]
    rfl
  unfold deconvolve
  rw [loopE_error 1 hf h1]
  rfl

/-! ### Unequal numbers of traces -/

/-- **C149** `mdd=0`, default form of A, more traces per shot in A than in B: BLAS rejects the leading
dimension and the program stops. -/
theorem corr_more_stop (p : Par K) (hm : p.mdd = 0) (hA : p.conjgA = 0) (hn : p.nB < p.nA) (hf : 0 < p.nfreq)
    (a b : Arr K) (c0 : ℕ → K) : deconvolve p a b c0 = .error .xerbla := by
  have h1 : loopE 1 (slice p a b) (⟨⟨p.nA * p.nB * p.nfreq, c0⟩, ⟨p.nB * p.nB, fun _ => 0⟩⟩ : St K) = .error .xerbla := by
    have hnC : p.nC = p.nB := by unfold Par.nC; rw [if_neg (by simp [hA])]
    show slice p a b 0 _ = _
    unfold slice gemm
    simp only [hm, if_true]
    rw [if_pos (Or.inr (Or.inr (by rw [hnC]; omega)))]
    rfl
  unfold deconvolve
  rw [loopE_error 1 hf h1]
  rfl

/-- The array that a failed write leaves undefined: if the last pass writes outside, the run is UB. -/
theorem gemm_out_ub {ta tb : Op} {m n k : ℕ} {a : Arr K} {oa lda : ℕ} {b : Arr K} {ob ldb : ℕ} {c : Arr K} {oc ldc : ℕ}
    (f3 : ¬ Fits c.len oc ldc m n) :
    gemm ta tb m n k a oa lda b ob ldb c oc ldc = .error .xerbla ∨ gemm ta tb m n k a oa lda b ob ldb c oc ldc = .error .ub := by
  unfold gemm
  split
  · exact Or.inl rfl
  · right
    rw [if_pos (Or.inr (Or.inr f3))]

/-- **C149** `mdd=0` or `mdd=1` with fewer traces per shot in A than in B (`conjgA=0`, two or more
frequencies): no run succeeds — the output stride `nstationB²` runs past the
`nstationA·nstationB·nfreq` elements allocated. -/
theorem fewer_traces_fails (p : Par K) (hm : p.mdd = 0 ∨ p.mdd = 1) (hA : p.conjgA = 0) (h0 : 0 < p.nA) (hn : p.nA < p.nB)
    (hf : 2 ≤ p.nfreq) (a b : Arr K) (c0 : ℕ → K) : ∀ c, deconvolve p a b c0 ≠ .ok c := by
  intro c hc
  have hnC : p.nC = p.nB := by unfold Par.nC; rw [if_neg (by simp [hA])]
  obtain ⟨F, hF⟩ : ∃ F, p.nfreq = F + 1 := ⟨p.nfreq - 1, by omega⟩
  have hlen : ∀ m s, loopE m (slice p a b) (⟨⟨p.nA * p.nB * p.nfreq, c0⟩, ⟨p.nB * p.nB, fun _ => 0⟩⟩ : St K) = .ok s →
      s.c.len = p.nA * p.nB * p.nfreq := by
    have glen : ∀ {ta tb : Op} {m n k : ℕ} {a : Arr K} {oa lda : ℕ} {b : Arr K} {ob ldb : ℕ} {c c' : Arr K} {oc ldc : ℕ},
        gemm ta tb m n k a oa lda b ob ldb c oc ldc = .ok c' → c'.len = c.len := by
      intro ta tb m n k a oa lda b ob ldb c c' oc ldc h
      unfold gemm at h
      split at h
      · cases h
      · split at h
        · cases h
        · cases h; rfl
    have blen : ∀ {σ : Type _} {ρ : Type _} (x : Except Stop σ) (g : σ → Except Stop ρ) (y : ρ), x.bind g = .ok y →
        ∃ z, x = .ok z ∧ g z = .ok y := by
      intro σ ρ x g y h
      cases x with
      | error e => cases h
      | ok z => exact ⟨z, rfl, h⟩
    intro m
    induction m with
    | zero => intro s hs; cases hs; rfl
    | succ m ih =>
      intro s hs
      simp only [loopE] at hs
      obtain ⟨t, ht, hs⟩ := blen _ _ _ hs
      rw [← ih t ht]
      unfold slice at hs
      rcases hm with hm | hm
      · simp only [hm, if_true] at hs
        obtain ⟨c1, e1, hs⟩ := blen _ _ _ hs
        cases hs
        exact glen e1
      · simp only [hm, if_true] at hs
        rw [if_neg (by decide)] at hs
        obtain ⟨c1, e1, hs⟩ := blen _ _ _ hs
        obtain ⟨c2, e2, hs⟩ := blen _ _ _ hs
        obtain ⟨c3, e3, hs⟩ := blen _ _ _ hs
        obtain ⟨c4, e4, hs⟩ := blen _ _ _ hs
        cases hs
        exact glen e4
  unfold deconvolve at hc
  rw [hF] at hc
  simp only [loopE] at hc
  rw [← hF] at hc
  generalize hq : loopE F (slice p a b) (⟨⟨p.nA * p.nB * p.nfreq, c0⟩, ⟨p.nB * p.nB, fun _ => 0⟩⟩ : St K) = r at hc
  cases r with
  | error e => cases hc
  | ok s =>
    have hl := hlen F s hq
    have hno : ∀ ld, p.nA ≤ ld → ¬ Fits s.c.len (F * p.nC * p.nC) ld p.nA p.nB := by
      intro ld hld hfit
      rw [hl, hnC, hF] at hfit
      unfold Fits at hfit
      obtain ⟨d, hd⟩ : ∃ d, p.nB = d + 1 := ⟨p.nB - 1, by omega⟩
      rcases hfit with h | h | h
      · omega
      · omega
      · have h1 : (p.nB - 1) * p.nA ≤ (p.nB - 1) * ld := Nat.mul_le_mul_left _ hld
        have h2 : (p.nB - 1) * p.nA + p.nA = p.nB * p.nA := by rw [hd]; simp; ring
        have h3 : F * p.nB * p.nA + F * p.nB ≤ F * p.nB * p.nB := by
          rw [← Nat.mul_succ]; exact Nat.mul_le_mul_left _ hn
        have h4 : 0 < F * p.nB := Nat.mul_pos (by omega) (by omega)
        have h5 : p.nA * p.nB * (F + 1) = F * p.nB * p.nA + p.nB * p.nA := by ring
        omega
    have hbad : ∀ s', slice p a b F s ≠ .ok s' := by
      intro s' hs'
      unfold slice at hs'
      rcases hm with hm | hm
      · simp only [hm, if_true] at hs'
        rcases gemm_out_ub (ta := opOf p.conjgA) (tb := opOf p.conjgB) (k := p.ns) (a := a) (oa := F * p.nA * p.ns)
          (lda := p.nA) (b := b) (ob := F * p.nB * p.ns) (ldb := p.nB) (hno p.nC (by rw [hnC]; omega)) with e | e <;>
        · rw [e] at hs'; cases hs'
      · simp only [hm, if_true] at hs'
        rw [if_neg (by decide)] at hs'
        revert hs'
        generalize gemm _ _ _ _ _ a _ _ b _ _ _ _ _ = r1
        cases r1 with
        | error e => intro h; cases h
        | ok ab =>
          show (Except.bind _ _ = _) → False
          generalize gemm _ _ _ _ _ b _ _ b _ _ _ _ _ = r2
          cases r2 with
          | error e => intro h; cases h
          | ok bb =>
            show (Except.bind (p.inv bb) _ = _) → False
            generalize p.inv bb = r3
            cases r3 with
            | error e => intro h; cases h
            | ok bi =>
              show (Except.bind (gemm _ _ _ _ _ _ _ _ _ _ _ _ _ _) _ = _) → False
              rcases gemm_out_ub (ta := opOf p.conjgA) (tb := opOf p.conjgA) (k := p.nB) (a := ab) (oa := 0)
                (lda := p.nA) (b := bi) (ob := 0) (ldb := p.nB) (hno p.nA le_rfl) with e | e <;>
              · rw [e]; intro h; cases h
    have hc' : (slice p a b F s).bind (fun s => Except.ok s.c) = .ok c := hc
    generalize hr : slice p a b F s = r at hc'
    cases r with
    | error e => cases hc'
    | ok s' => exact hbad s' hr

/-- A run with two traces per shot in A, one in B, two shots and two frequencies, `mdd=1`; the inverse
is replaced by the identity so that the result is `A·Bᴴ`. -/
def uneven : Par ℤ := ⟨2, 1, 2, 1, 0, 1, 1, fun m => .ok m⟩

/-- **C149** `mdd=1` with more traces per shot in A than in B does not stop, but the slices overlap:
the second trace of frequency 0 is overwritten by the first of frequency 1. -/
theorem more_traces_mixed :
    ∃ c, deconvolve uneven ⟨4, fun q => q + 1⟩ ⟨2, fun _ => 1⟩ (fun _ => 0) = .ok c ∧
      written uneven c 0 1 0 = 3 ∧ written uneven c 1 0 0 ≠ 3 ∧ written uneven c 1 0 0 = 4 ∧
      datum (⟨4, fun q => q + 1⟩ : Arr ℤ) 2 1 0 1 0 = 2 ∧ datum (⟨4, fun q => q + 1⟩ : Arr ℤ) 2 1 1 0 0 = 3 := by
  refine ⟨_, rfl, ?_⟩
  decide +kernel

/-! ### `conjgA` with `mdd=1` -/

/-- A square run of one frequency with `conjgA=1`, `conjgB=0`. -/
def conjRun : Par ℤ := ⟨1, 2, 2, 2, 1, 0, 1, fun m =>
  .ok ⟨4, fun q => if q = 0 then m.get 3 else if q = 3 then m.get 0 else - m.get q⟩⟩

/-- **C150** `mdd=1` with `conjgA=1`, `conjgB=0`, unimodular 2×2 data: the inversion routine returns the
exact inverse of `Bᴴ·B`, but the matrix written is neither the solution of `C·(BᴴB) = Aᴴ·B` nor of
`(BᴴB)·C = Bᴴ·A` — the conjugate transpose is applied a second time to the product. -/
theorem conjgA_wrong :
    ∃ c, deconvolve conjRun ⟨4, fun q => if q = 0 then 1 else if q = 2 then 3 else if q = 3 then 1 else 0⟩
        ⟨4, fun q => if q = 0 then 1 else if q = 1 then 1 else if q = 3 then 1 else 0⟩ (fun _ => 0) = .ok c ∧
      (let A := datum (⟨4, fun q => if q = 0 then 1 else if q = 2 then 3 else if q = 3 then 1 else 0⟩ : Arr ℤ) 2 2 0
       let B := datum (⟨4, fun q => if q = 0 then 1 else if q = 1 then 1 else if q = 3 then 1 else 0⟩ : Arr ℤ) 2 2 0
       let H := form (1 : ℤ) B
       let C := written conjRun c 0
       mul 2 C (mul 2 H B) 0 1 ≠ mul 2 (form 1 A) B 0 1 ∧ mul 2 (mul 2 H B) C 0 1 ≠ mul 2 H A 0 1) := by
  refine ⟨_, rfl, ?_⟩
  decide +kernel

/-! ### C151: the transmission series of `mdd=6` -/

omit [StarRing K] in
theorem mul_assoc' (n : ℕ) (x y z : ℕ → ℕ → K) (i j : ℕ) : mul n (mul n x y) z i j = mul n x (mul n y z) i j := by
  unfold mul
  simp only [Finset.sum_mul, Finset.mul_sum]
  rw [Finset.sum_comm]
  refine Finset.sum_congr rfl fun k _ => Finset.sum_congr rfl fun l _ => mul_assoc _ _ _

/-- The term `(tc²·A·B)^k·A` of the series. -/
def term (n : ℕ) (tc : K) (a b : ℕ → ℕ → K) : ℕ → ℕ → ℕ → K
  | 0 => a
  | k + 1 => fun i j => tc * tc * mul n (mul n a b) (term n tc a b k) i j

/-- **C151** what `mdd=6` computes (square data, `conjgA=conjgB=0`): the terms of the series are right,
but all of them carry the sign fixed by the parity of `k_iter` rather than alternating. -/
theorem transmission_actual (n kiter : ℕ) (tc : K) (a b : ℕ → ℕ → K) (i j : ℕ) :
    transOut n .N kiter tc a b i j =
      a i j + (if kiter % 2 = 1 then -1 else 1) * ∑ k ∈ Finset.Ico 1 (max 1 kiter), term n tc a b k i j := by
  have key : ∀ k, (trans n .N kiter tc a b k).1 = term n tc a b k ∧ ∀ i j, (trans n .N kiter tc a b k).2 i j =
      a i j + (if kiter % 2 = 1 then -1 else 1) * ∑ q ∈ Finset.Ico 1 (k + 1), term n tc a b q i j := by
    intro k
    induction k with
    | zero => exact ⟨rfl, fun i j => by simp [trans]⟩
    | succ k ih =>
      obtain ⟨ih1, ih2⟩ := ih
      have h1 : (trans n .N kiter tc a b (k + 1)).1 = term n tc a b (k + 1) := by
        funext i j
        simp only [trans, term, ih1, mulOp, mul, Finset.mul_sum, Finset.sum_mul]
        refine Finset.sum_congr rfl fun l _ => Finset.sum_congr rfl fun q _ => ?_
        ring
      refine ⟨h1, fun i j => ?_⟩
      rw [Finset.sum_Ico_succ_top (by omega), ← h1]
      simp only [trans]
      rw [ih2 i j]
      split <;> ring
  have := (key (kiter - 1)).2 i j
  unfold transOut
  rw [this]
  rcases Nat.eq_zero_or_pos kiter with h | h
  · subst h; simp
  · rw [Nat.sub_add_cancel h, Nat.max_eq_right h]

/-- The alternating series of `(1 + tc²·A·B)⁻¹·A` truncated after `m` terms. -/
def alternating (n m : ℕ) (tc : K) (a b : ℕ → ℕ → K) (i j : ℕ) : K :=
  ∑ k ∈ Finset.range m, (-1) ^ k * term n tc a b k i j

/-- **C151** the default `k_iter=5`: the result is `A` minus every later term, which differs from the
alternating series as soon as the second or fourth term is present: already for 1×1 data. -/
theorem transmission_sign :
    transOut 1 .N 5 (1 : ℤ) (fun _ _ => 1) (fun _ _ => 1) 0 0 = -3 ∧
    alternating 1 5 (1 : ℤ) (fun _ _ => 1) (fun _ _ => 1) 0 0 = 1 := by decide +kernel

/-- **C151** with an even `k_iter` the signs are all positive: the truncated series of
`(1 - tc²·A·B)⁻¹·A`: applying `1 - tc²AB` leaves `A` minus the first term not included. -/
theorem transmission_even (n kiter : ℕ) (hk : kiter % 2 = 0) (h0 : 0 < kiter) (tc : K) (a b : ℕ → ℕ → K) (i j : ℕ) :
    transOut n .N kiter tc a b i j - tc * tc * mul n (mul n a b) (transOut n .N kiter tc a b) i j
      = a i j - term n tc a b kiter i j := by
  have hval : ∀ i j, transOut n .N kiter tc a b i j = ∑ k ∈ Finset.range kiter, term n tc a b k i j := by
    intro i j
    rw [transmission_actual, if_neg (by omega), one_mul, Nat.max_eq_right h0, Finset.range_eq_Ico,
      Finset.sum_eq_sum_Ico_succ_bot h0]
    rfl
  have hstep : tc * tc * mul n (mul n a b) (transOut n .N kiter tc a b) i j =
      ∑ k ∈ Finset.range kiter, term n tc a b (k + 1) i j := by
    simp only [term]
    rw [← Finset.mul_sum]
    congr 1
    unfold mul
    rw [Finset.sum_comm]
    refine Finset.sum_congr rfl fun l _ => ?_
    rw [hval, Finset.mul_sum]
  rw [hval, hstep, ← Finset.sum_sub_distrib]
  have := Finset.sum_range_sub (fun k => term n tc a b k i j) kiter
  rw [← neg_inj, ← Finset.sum_neg_distrib]
  simp only [neg_sub]
  exact this

/-! ### C152: the operators given to LSQR -/

/-- **C152** the two operators are adjoint: for a cleared `y` the inner product of `X·B` with `Y` equals
that of `X` with `Y·Bᴴ`. -/
theorem lsqr_adjoint (n : ℕ) (b x y z : ℕ → ℕ → K) :
    ∑ i ∈ Finset.range n, ∑ j ∈ Finset.range n, aprod1 n b x (fun _ _ => 0) i j * star (y i j) =
      ∑ i ∈ Finset.range n, ∑ j ∈ Finset.range n, x i j * star (aprod2 n b y z i j) := by
  refine Finset.sum_congr rfl fun i _ => ?_
  unfold aprod1 aprod2
  simp only [add_zero, star_sum, Finset.sum_mul, Finset.mul_sum, star_mul', star_star]
  rw [Finset.sum_comm]
  refine Finset.sum_congr rfl fun l _ => Finset.sum_congr rfl fun j _ => ?_
  ring

/-- The contract of zlsqrModule.F90:60-95: `Aprod2` must add `Aᴴ·y` to `x`. -/
def AddsTo (n : ℕ) (b : ℕ → ℕ → K) (f : (ℕ → ℕ → K) → (ℕ → ℕ → K) → ℕ → ℕ → K) : Prop :=
  ∀ y x i j, i < n → j < n → f y x i j = x i j + ∑ l ∈ Finset.range n, y i l * star (b j l)

/-- `Aprod1_` meets its contract `y := y + A·x`. -/
theorem aprod1_adds (n : ℕ) (b x y : ℕ → ℕ → K) (i j : ℕ) : aprod1 n b x y i j = y i j + mul n x b i j :=
  add_comm _ _

/-- **C152** `Aprod2_` clears `x` first, so it violates the contract for every `B`: the term `-beta·v`
of LSQR's recurrence (zlsqrModule.F90:530-531) is lost in every iteration. -/
theorem aprod2_overwrites [Nontrivial K] (n : ℕ) (hn : 0 < n) (b : ℕ → ℕ → K) : ¬ AddsTo n b (aprod2 n b) := by
  intro h
  have h1 := h (fun _ _ => 0) (fun _ _ => 1) 0 0 hn hn
  simp [aprod2] at h1

/-- One step of the recurrence as LSQR means it and as it runs: with `B = 1` (1×1), `u = 1`, `v = 1`
and `beta = 1` the new `v` should vanish (the solution is exact) but is 1. -/
theorem lsqr_step_wrong :
    aprod2 1 (fun _ _ => (1 : ℤ)) (fun _ _ => 1) (fun _ _ => -1 * 1) 0 0 = 1 ∧
    (-1 * 1 : ℤ) + ∑ l ∈ Finset.range 1, 1 * star (1 : ℤ) = 0 := by decide +kernel

/-! ### Non-vacuity -/

/-- the hypotheses of `correlation_partial` are met by a run with 2 traces, 3 shots and 2 frequencies -/
example : Shape (⟨2, 3, 2, 2, 0, 1, 0, fun m => .ok m⟩ : Par ℤ) :=
  ⟨by decide, rfl, fun h => absurd rfl h, fun h => absurd h (by decide)⟩
example : Input (⟨2, 3, 2, 2, 0, 1, 0, fun m => .ok m⟩ : Par ℤ) ⟨12, fun q => q⟩ ⟨12, fun q => q⟩ := ⟨rfl, rfl⟩
/-- `more_traces_mixed` and `fewer_traces_fails`: one trace per shot in A, two in B, two frequencies -/
example : 0 < (⟨2, 1, 1, 2, 0, 1, 0, fun m => .ok m⟩ : Par ℤ).nA ∧ (⟨2, 1, 1, 2, 0, 1, 0, fun m => .ok m⟩ : Par ℤ).nA <
    (⟨2, 1, 1, 2, 0, 1, 0, fun m => .ok m⟩ : Par ℤ).nB := by decide
/-- `transmission_even` on 2×2 data with four terms -/
example : transOut 2 .N 2 (1 : ℤ) (fun i j => if i = j then 2 else 1) (fun i j => i + j) 0 1 = 10 := by decide +kernel
/-- an exact inverse for `mdd1_normal_partial`: `B` is the 1×1 matrix 1 and `eps = 0` -/
example : ∀ w, w < 1 → ∀ M : Arr ℤ, M.len = 1 * 1 →
    (∀ i j, i < 1 → j < 1 → ent 1 M i j = ∑ l ∈ Finset.range 1, (1 : ℤ) * star 1) →
    ∃ X, (Except.ok M : Except Stop (Arr ℤ)) = .ok X ∧ X.len = 1 * 1 ∧ ∀ i j, i < 1 → j < 1 →
      ∑ l ∈ Finset.range 1, ent 1 X i l * (ent 1 M l j + if l = j then 0 else 0) = if i = j then 1 else 0 := by
  intro w _ M hl hM
  refine ⟨M, rfl, hl, ?_⟩
  intro i j hi hj
  obtain rfl : i = 0 := by omega
  obtain rfl : j = 0 := by omega
  have := hM 0 0 hi hj
  simp at this
  simp [this]

end Verif.Mdd

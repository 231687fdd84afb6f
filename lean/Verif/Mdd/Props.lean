import Verif.Mdd.Model
import Mathlib.LinearAlgebra.Matrix.ConjTranspose
import Mathlib.LinearAlgebra.Matrix.Trace
import Mathlib.LinearAlgebra.Matrix.NonsingularInverse
import Mathlib.Analysis.Complex.Basic
import Mathlib.Tactic.LinearCombination
import Mathlib.Tactic.FinCases

/-!
# What `mdd` delivers per frequency

With the same number of traces per shot in both data sets the slices are the documented matrix
expressions, and for `mdd=1` the minimum of the damped misfit; with unequal numbers the output stride
does not match.
-/

namespace Verif.Mdd

variable {K : Type*} [CommRing K] [StarRing K]

/-! ### Specification -/

/-- The documented meaning of `conjgA`/`conjgB` (MDD/mdd.c:72-74): the data matrix, its conjugate
transpose for 1, and (undocumented) its transpose for any other value. -/
def form (c : ℤ) (d : ℕ → ℕ → K) (i j : ℕ) : K := if c = 1 then star (d j i) else if c = 0 then d i j else d j i

/-- The matrix product over `n` inner elements. -/
def mul (n : ℕ) (x y : ℕ → ℕ → K) (i j : ℕ) : K := ∑ l ∈ Finset.range n, x i l * y l j

/-- Dimensions for which the BLAS calls read what was meant: equal numbers of traces per shot; a data
matrix used transposed on the left, or untransposed on the right, has to be square. -/
structure Shape (p : Par K) : Prop where
  /-- there is a trace -/
  pos : 0 < p.nA
  /-- same number of traces per shot -/
  eq : p.nB = p.nA
  /-- A transposed: as many shots as traces -/
  sqA : p.conjgA ≠ 0 → p.ns = p.nA
  /-- B untransposed: as many shots as traces -/
  sqB : p.conjgB = 0 → p.ns = p.nA

/-- entry `(i,j)` of an `n × n` matrix stored by columns -/
def ent (n : ℕ) (x : Arr K) (i j : ℕ) : K := x.get (j * n + i)

/-! ### Lemmas -/

theorem elt_form (c : ℤ) (a : Arr K) (n ns w i l : ℕ) :
    (opOf c).elt (fun x => a.get (w * n * ns + x)) n i l = form c (datum a n ns w) i l := by
  have e : ∀ x y, w * n * ns + (x * n + y) = w * ns * n + x * n + y := by intros; ring
  unfold opOf form datum
  split
  · simp only [Op.elt, e]
  · split <;> simp only [Op.elt, e]

theorem elt_ent (c : ℤ) (a : Arr K) (n i l : ℕ) :
    (opOf c).elt (fun x => a.get (0 + x)) n i l = form c (ent n a) i l := by
  unfold opOf form ent
  split
  · simp only [Op.elt, Nat.zero_add]
  · split <;> simp only [Op.elt, Nat.zero_add]

theorem form_congr {c : ℤ} {x y : ℕ → ℕ → K} {i j : ℕ} (h1 : x i j = y i j) (h2 : x j i = y j i) :
    form c x i j = form c y i j := by
  unfold form
  rw [h1, h2]

theorem opOf_N {c : ℤ} (h : opOf c = .N) : c = 0 := by
  unfold opOf at h
  split at h
  · cases h
  · split at h
    · assumption
    · cases h

theorem opOf_not_N {c : ℤ} (h : opOf c ≠ .N) : c ≠ 0 := by
  rintro rfl
  exact h rfl

omit [StarRing K] [CommRing K] in
theorem lin (w n ns nfreq : ℕ) (hw : w < nfreq) : w * n * ns + n * ns ≤ n * nfreq * ns := by
  have h : (w + 1) * (n * ns) ≤ nfreq * (n * ns) := Nat.mul_le_mul_right _ hw
  calc w * n * ns + n * ns = (w + 1) * (n * ns) := by ring
    _ ≤ nfreq * (n * ns) := h
    _ = n * nfreq * ns := by ring

omit [CommRing K] [StarRing K] in
theorem Shape.nC {p : Par K} (h : Shape p) : p.nC = p.nA := by
  unfold Par.nC
  split
  · exact h.sqA ‹_›
  · exact h.eq

theorem slot (n w i j : ℕ) : (w * n + j) * n + i = w * n * n + (j * n + i) := by ring

theorem slot_lt (n w w' i j : ℕ) (hw : w' < w) (hi : i < n) (hj : j < n) :
    w' * n * n + (j * n + i) < w * n * n := by
  have h : (w' + 1) * (n * n) ≤ w * (n * n) := Nat.mul_le_mul_right _ hw
  have h2 : (j + 1) * n ≤ n * n := Nat.mul_le_mul_right _ hj
  have e1 : (w' + 1) * (n * n) = w' * n * n + n * n := by ring
  have e2 : w * (n * n) = w * n * n := by ring
  have e3 : (j + 1) * n = j * n + n := by ring
  omega

omit [CommRing K] [StarRing K] in
/-- left operand: the stored matrix has the right leading dimension and lies in the array -/
theorem Shape.left {p : Par K} {a b : Arr K} (h : Shape p) (hin : Input p a b) {w : ℕ} (hw : w < p.nfreq) :
    max 1 ((opOf p.conjgA).rows p.nA p.ns) ≤ p.nA ∧
    Fits a.len (w * p.nA * p.ns) p.nA ((opOf p.conjgA).rows p.nA p.ns) ((opOf p.conjgA).cols p.nA p.ns) := by
  have hp := h.pos
  have hl := lin w p.nA p.ns p.nfreq hw
  rw [hin.1]
  unfold Op.rows Op.cols
  split
  · exact ⟨by omega, fits_mul (by rw [Nat.mul_comm p.ns p.nA]; exact hl)⟩
  · rename_i hc
    have e := h.sqA (opOf_not_N hc)
    rw [e] at hl ⊢
    exact ⟨by omega, fits_mul hl⟩

omit [CommRing K] [StarRing K] in
/-- same for the second product, where B is used on the left too -/
theorem Shape.leftB {p : Par K} {a b : Arr K} (h : Shape p) (hin : Input p a b) {w : ℕ} (hw : w < p.nfreq) :
    max 1 ((opOf p.conjgA).rows p.nB p.ns) ≤ p.nB ∧
    Fits b.len (w * p.nB * p.ns) p.nB ((opOf p.conjgA).rows p.nB p.ns) ((opOf p.conjgA).cols p.nB p.ns) := by
  have hp := h.pos
  have hl := lin w p.nB p.ns p.nfreq hw
  have hq := h.eq
  rw [hin.2]
  unfold Op.rows Op.cols
  split
  · exact ⟨by omega, fits_mul (by rw [Nat.mul_comm p.ns p.nB]; exact hl)⟩
  · rename_i hc
    have e := h.sqA (opOf_not_N hc)
    rw [e, ← hq] at hl ⊢
    exact ⟨by omega, fits_mul hl⟩

omit [CommRing K] [StarRing K] in
/-- right operand -/
theorem Shape.right {p : Par K} {a b : Arr K} (h : Shape p) (hin : Input p a b) {w : ℕ} (hw : w < p.nfreq) :
    max 1 ((opOf p.conjgB).rows p.ns p.nB) ≤ p.nB ∧
    Fits b.len (w * p.nB * p.ns) p.nB ((opOf p.conjgB).rows p.ns p.nB) ((opOf p.conjgB).cols p.ns p.nB) := by
  have hp := h.pos
  have hl := lin w p.nB p.ns p.nfreq hw
  have hq := h.eq
  rw [hin.2]
  unfold Op.rows Op.cols
  split
  · rename_i hc
    have e := h.sqB (opOf_N hc)
    rw [e, ← hq] at hl ⊢
    exact ⟨by omega, fits_mul hl⟩
  · exact ⟨by omega, fits_mul (by rw [Nat.mul_comm p.ns p.nB]; exact hl)⟩

omit [CommRing K] [StarRing K] in
theorem Shape.out {p : Par K} (h : Shape p) {w : ℕ} (hw : w < p.nfreq) :
    Fits (p.nA * p.nB * p.nfreq) (w * p.nC * p.nC) p.nC p.nA p.nB := by
  rw [h.nC, h.eq]
  apply fits_mul
  have h1 : (w + 1) * (p.nA * p.nA) ≤ p.nfreq * (p.nA * p.nA) := Nat.mul_le_mul_right _ hw
  calc w * p.nA * p.nA + p.nA * p.nA = (w + 1) * (p.nA * p.nA) := by ring
    _ ≤ _ := h1
    _ = _ := by ring

/-- the loop: if every pass fills its own slot and leaves the earlier ones, all slots are right at the end -/
theorem fill_all {p : Par K} (h : Shape p) (a b : Arr K) (c0 : ℕ → K) (V : ℕ → ℕ → ℕ → K → Prop)
    (step : ∀ w, w < p.nfreq → ∀ s : St K, s.c.len = p.nA * p.nB * p.nfreq → s.bb.len = p.nB * p.nB →
      ∃ s', slice p a b w s = .ok s' ∧ s'.c.len = s.c.len ∧ s'.bb.len = p.nB * p.nB ∧
        (∀ i j, i < p.nA → j < p.nB → V w i j (s'.c.get (w * p.nC * p.nC + (j * p.nC + i)))) ∧
        (∀ q, q < w * p.nC * p.nC → s'.c.get q = s.c.get q)) :
    ∃ c, deconvolve p a b c0 = .ok c ∧
      ∀ w i j, w < p.nfreq → i < p.nA → j < p.nB → V w i j (written p c w i j) := by
  obtain ⟨s, hs, -, -, hv⟩ := loopE_inv (n := p.nfreq) (f := slice p a b)
    (s := ⟨⟨p.nA * p.nB * p.nfreq, c0⟩, ⟨p.nB * p.nB, fun _ => 0⟩⟩)
    (fun m s => s.c.len = p.nA * p.nB * p.nfreq ∧ s.bb.len = p.nB * p.nB ∧
      ∀ w i j, w < m → i < p.nA → j < p.nB → V w i j (s.c.get (w * p.nC * p.nC + (j * p.nC + i))))
    ⟨rfl, rfl, fun w i j hw => absurd hw (Nat.not_lt_zero _)⟩
    (by
      rintro m t hm ⟨h1, h2, h3⟩
      obtain ⟨s', e, l1, l2, v, fr⟩ := step m hm t h1 h2
      refine ⟨s', e, l1.trans h1, l2, ?_⟩
      intro w i j hw hi hj
      rcases Nat.lt_succ_iff_lt_or_eq.mp hw with hw' | rfl
      · rw [fr]
        · exact h3 w i j hw' hi hj
        · rw [h.nC]
          exact slot_lt _ _ _ _ _ hw' hi (by have := h.eq; omega)
      · exact v i j hi hj)
  refine ⟨s.c, by unfold deconvolve; rw [hs]; rfl, ?_⟩
  intro w i j hw hi hj
  have := hv w i j hw hi hj
  rw [h.nC] at this
  unfold written
  rwa [h.eq, slot]

/-! ### C149: correlation and pass-through -/

/-- **C149** `mdd=0`: for every number of frequencies, shots and traces and every choice of
`conjgA`/`conjgB` that fits, frequency `w` of trace `i` of gather `j` of the result is entry `(i,j)` of
the documented product of the two data matrices at that frequency; the run stays inside its arrays. -/
theorem correlation_partial (p : Par K) (h : Shape p) (hm : p.mdd = 0) (a b : Arr K) (hin : Input p a b) (c0 : ℕ → K) :
    ∃ c, deconvolve p a b c0 = .ok c ∧ ∀ w i j, w < p.nfreq → i < p.nA → j < p.nB →
      written p c w i j =
        mul p.ns (form p.conjgA (datum a p.nA p.ns w)) (form p.conjgB (datum b p.nB p.ns w)) i j := by
  refine fill_all h a b c0 (fun w i j v => v =
    mul p.ns (form p.conjgA (datum a p.nA p.ns w)) (form p.conjgB (datum b p.nB p.ns w)) i j) ?_
  intro w hw s hl hb
  obtain ⟨c', e, l, v, f⟩ := gemm_ok (c := s.c) (oc := w * p.nC * p.nC) (ldc := p.nC)
    (h.left hin hw).1 (h.right hin hw).1 (by rw [h.nC]; have := h.pos; omega)
    (h.left hin hw).2 (h.right hin hw).2 (hl ▸ h.out hw)
  refine ⟨⟨c', s.bb⟩, ?_, l, hb, ?_, f⟩
  · unfold slice
    simp only [hm, if_true, e]
    rfl
  · intro i j hi hj
    rw [v i j hi hj]
    unfold prod mul
    refine Finset.sum_congr rfl fun k _ => ?_
    rw [elt_form, elt_form]

/-- `mdd=4` copies data set A when it is square. -/
theorem pass_through (p : Par K) (h : Shape p) (hs : p.ns = p.nA) (hm : p.mdd = 4) (a b : Arr K) (hin : Input p a b)
    (c0 : ℕ → K) :
    ∃ c, deconvolve p a b c0 = .ok c ∧ ∀ w i j, w < p.nfreq → i < p.nA → j < p.nB →
      written p c w i j = datum a p.nA p.ns w i j := by
  refine fill_all h a b c0 (fun w i j v => v = datum a p.nA p.ns w i j) ?_
  intro w hw s hl hb
  have hlin := lin w p.nA p.ns p.nfreq hw
  have ho : w * p.nC * p.nC + p.nA * p.ns ≤ s.c.len := by
    rw [hl, h.nC, hs, h.eq]
    rw [hs] at hlin
    calc _ ≤ p.nA * p.nfreq * p.nA := hlin
      _ = _ := by ring
  obtain ⟨c', e, l, v, f⟩ := copy_ok (a := a) (oa := w * p.nA * p.ns) (n := p.nA * p.ns) (by rw [hin.1]; exact hlin) ho
  refine ⟨⟨c', s.bb⟩, ?_, l, hb, ?_, f⟩
  · unfold slice
    simp only [hm, e, if_true]
    rfl
  · intro i j hi hj
    have hj' : j < p.nA := by have := h.eq; omega
    have hb2 : (j + 1) * p.nA ≤ p.nA * p.nA := Nat.mul_le_mul_right _ hj'
    have e3 : (j + 1) * p.nA = j * p.nA + p.nA := by ring
    rw [v _ (by rw [h.nC, hs]; omega), h.nC]
    unfold datum
    congr 1
    ring

/-! ### C150: deconvolution -/

/-- `mdd=1` for any fitting options: with `AB` and `BB` the documented products, the result is
`form conjgA AB · form conjgA (inverse of BB)`: the conjugate transpose asked for with `conjgA` is
applied again in the last product. -/
theorem mdd1_actual (p : Par K) (h : Shape p) (hm : p.mdd = 1) (a b : Arr K) (hin : Input p a b) (c0 : ℕ → K)
    (Inv : ℕ → (ℕ → ℕ → K) → Prop)
    (hinv : ∀ w, w < p.nfreq → ∀ M : Arr K, M.len = p.nB * p.nB →
      (∀ i j, i < p.nB → j < p.nB → ent p.nB M i j =
        mul p.ns (form p.conjgA (datum b p.nB p.ns w)) (form p.conjgB (datum b p.nB p.ns w)) i j) →
      ∃ X, p.inv M = .ok X ∧ X.len = p.nB * p.nB ∧ Inv w (ent p.nB X)) :
    ∃ c, deconvolve p a b c0 = .ok c ∧ ∃ X : ℕ → ℕ → ℕ → K, (∀ w, w < p.nfreq → Inv w (X w)) ∧
      ∀ w i j, w < p.nfreq → i < p.nA → j < p.nB →
        written p c w i j = mul p.nB (form p.conjgA
          (mul p.ns (form p.conjgA (datum a p.nA p.ns w)) (form p.conjgB (datum b p.nB p.ns w))))
          (form p.conjgA (X w)) i j := by
  have hpos := h.pos
  have heq := h.eq
  obtain ⟨s, hs, -, -, X, hXi, hv⟩ := loopE_inv (n := p.nfreq) (f := slice p a b)
    (s := ⟨⟨p.nA * p.nB * p.nfreq, c0⟩, ⟨p.nB * p.nB, fun _ => 0⟩⟩)
    (fun m s => s.c.len = p.nA * p.nB * p.nfreq ∧ s.bb.len = p.nB * p.nB ∧
      ∃ X : ℕ → ℕ → ℕ → K, (∀ w, w < m → Inv w (X w)) ∧
      ∀ w i j, w < m → i < p.nA → j < p.nB → s.c.get (w * p.nC * p.nC + (j * p.nC + i)) =
        mul p.nB (form p.conjgA
        (mul p.ns (form p.conjgA (datum a p.nA p.ns w)) (form p.conjgB (datum b p.nB p.ns w))))
        (form p.conjgA (X w)) i j)
    ⟨rfl, rfl, fun _ _ _ => 0, fun w hw => absurd hw (Nat.not_lt_zero _),
      fun w i j hw => absurd hw (Nat.not_lt_zero _)⟩
    (by
      rintro m t hm' ⟨h1, h2, X, h3, h4⟩
      obtain ⟨ab, eab, lab, vab, -⟩ := gemm_ok (c := (⟨p.nA * p.nB, fun _ => 0⟩ : Arr K)) (oc := 0) (ldc := p.nA)
        (h.left hin hm').1 (h.right hin hm').1 (by omega)
        (h.left hin hm').2 (h.right hin hm').2 (fits_mul (by rw [Nat.zero_add, Nat.mul_comm]))
      obtain ⟨bb, ebb, lbb, vbb, -⟩ := gemm_ok (c := t.bb) (oc := 0) (ldc := p.nB)
        (h.leftB hin hm').1 (h.right hin hm').1 (by omega)
        (h.leftB hin hm').2 (h.right hin hm').2 (fits_mul (by rw [Nat.zero_add, h2]))
      obtain ⟨x, ex, lx, ix⟩ := hinv m hm' bb (lbb.trans h2) (by
        intro i j hi hj
        have := vbb i j hi hj
        rw [Nat.zero_add] at this
        unfold ent
        rw [this]
        unfold prod mul
        refine Finset.sum_congr rfl fun k _ => ?_
        rw [elt_form, elt_form])
      have hlab : ab.len = p.nA * p.nA := by rw [lab]; show p.nA * p.nB = _; rw [heq]
      have hlx : x.len = p.nA * p.nA := by rw [lx, heq]
      have g1 : max 1 ((opOf p.conjgA).rows p.nA p.nB) ≤ p.nA := by unfold Op.rows; split <;> omega
      have g2 : max 1 ((opOf p.conjgA).rows p.nB p.nB) ≤ p.nB := by unfold Op.rows; split <;> omega
      have g3 : Fits ab.len 0 p.nA ((opOf p.conjgA).rows p.nA p.nB) ((opOf p.conjgA).cols p.nA p.nB) := by
        rw [hlab, heq]
        unfold Op.rows Op.cols
        split <;> exact fits_mul (by rw [Nat.zero_add])
      have g4 : Fits x.len 0 p.nB ((opOf p.conjgA).rows p.nB p.nB) ((opOf p.conjgA).cols p.nB p.nB) := by
        rw [lx]
        unfold Op.rows Op.cols
        split <;> exact fits_mul (by rw [Nat.zero_add])
      have g5 : Fits t.c.len (m * p.nC * p.nC) p.nA p.nA p.nB := by
        have := h.out hm'
        rw [h1]
        rw [h.nC] at this ⊢
        exact this
      obtain ⟨c', e, l, v, f⟩ := gemm_ok (c := t.c) (oc := m * p.nC * p.nC) (ldc := p.nA) g1 g2 (by omega) g3 g4 g5
      refine ⟨⟨c', x⟩, ?_, l.trans h1, lx, fun w => if w = m then ent p.nB x else X w, ?_, ?_⟩
      · unfold slice
        simp only [hm, if_true, eab, ebb]
        show ((p.inv bb).bind _) = _
        rw [ex]
        show ((gemm _ _ _ _ _ _ _ _ _ _ _ _ _ _).bind _) = _
        rw [e]
        rfl
      · intro w hw
        dsimp only
        split
        · subst w; exact ix
        · exact h3 w (by omega)
      · intro w i j hw hi hj
        dsimp only
        split
        · subst w
          have := v i j hi hj
          rw [h.nC] at this ⊢
          rw [this]
          unfold prod
          show _ = ∑ l ∈ Finset.range p.nB, _
          refine Finset.sum_congr rfl fun k hk => ?_
          have hk' : k < p.nB := Finset.mem_range.mp hk
          rw [elt_ent, elt_ent]
          congr 1
          have hval : ∀ r s, r < p.nA → s < p.nB → ent p.nA ab r s =
              mul p.ns (form p.conjgA (datum a p.nA p.ns m)) (form p.conjgB (datum b p.nB p.ns m)) r s := by
            intro r s hr hs
            have := vab r s hr hs
            rw [Nat.zero_add] at this
            unfold ent
            rw [this]
            unfold prod mul
            refine Finset.sum_congr rfl fun k _ => ?_
            rw [elt_form, elt_form]
          exact form_congr (hval i k (by omega) (by omega)) (hval k i (by omega) (by omega))
        · rw [f]
          · exact h4 w i j (by omega) hi hj
          · rw [h.nC]
            exact slot_lt _ _ _ _ _ (by omega) hi (by omega))
  refine ⟨s.c, by unfold deconvolve; rw [hs]; rfl, X, hXi, ?_⟩
  intro w i j hw hi hj
  have := hv w i j hw hi hj
  rw [h.nC] at this
  unfold written
  rw [← this, h.eq, slot]

/-- **C150** `mdd=1` with the default options (`conjgA=0`, `conjgB=1`), same number of traces per shot,
any number of shots: if for each frequency the inversion routine returns a left inverse of
`B·Bᴴ + eps`, the matrix `C` written for that frequency solves the damped normal equations
`C·(B·Bᴴ + eps) = A·Bᴴ` of `C·B = A`. -/
theorem mdd1_normal_partial (p : Par K) (hp : 0 < p.nA) (heq : p.nB = p.nA) (hm : p.mdd = 1) (hA : p.conjgA = 0)
    (hB : p.conjgB = 1) (a b : Arr K) (hin : Input p a b) (c0 : ℕ → K) (eps : ℕ → K)
    (hinv : ∀ w, w < p.nfreq → ∀ M : Arr K, M.len = p.nB * p.nB →
      (∀ i j, i < p.nB → j < p.nB → ent p.nB M i j =
        ∑ l ∈ Finset.range p.ns, datum b p.nB p.ns w i l * star (datum b p.nB p.ns w j l)) →
      ∃ X, p.inv M = .ok X ∧ X.len = p.nB * p.nB ∧ ∀ i j, i < p.nB → j < p.nB →
        ∑ l ∈ Finset.range p.nB, ent p.nB X i l * (ent p.nB M l j + if l = j then eps w else 0)
          = if i = j then 1 else 0) :
    ∃ c, deconvolve p a b c0 = .ok c ∧ ∀ w i j, w < p.nfreq → i < p.nA → j < p.nB →
      ∑ l ∈ Finset.range p.nB, written p c w i l *
          (∑ k ∈ Finset.range p.ns, datum b p.nB p.ns w l k * star (datum b p.nB p.ns w j k) + if l = j then eps w else 0)
        = ∑ k ∈ Finset.range p.ns, datum a p.nA p.ns w i k * star (datum b p.nB p.ns w j k) := by
  have hS : Shape p := ⟨hp, heq, fun h => absurd hA h, fun h => by rw [hB] at h; exact absurd h (by decide)⟩
  have fB : ∀ (x y : ℕ → ℕ → K) (i j : ℕ), mul p.ns (form p.conjgA x) (form p.conjgB y) i j =
      ∑ l ∈ Finset.range p.ns, x i l * star (y j l) := by
    intro x y i j
    unfold mul form
    rw [hA, hB]
    simp
  obtain ⟨c, hc, X, hX, hv⟩ := mdd1_actual p hS hm a b hin c0
    (fun w x => ∀ i j, i < p.nB → j < p.nB →
      ∑ l ∈ Finset.range p.nB, x i l *
        (∑ k ∈ Finset.range p.ns, datum b p.nB p.ns w l k * star (datum b p.nB p.ns w j k) + if l = j then eps w else 0)
        = if i = j then 1 else 0)
    (by
      intro w hw M hl hM
      have hM' : ∀ i j, i < p.nB → j < p.nB → ent p.nB M i j =
          ∑ l ∈ Finset.range p.ns, datum b p.nB p.ns w i l * star (datum b p.nB p.ns w j l) := by
        intro i j hi hj
        rw [hM i j hi hj, fB]
      obtain ⟨x, e, l, hx⟩ := hinv w hw M hl hM'
      refine ⟨x, e, l, fun i j hi hj => ?_⟩
      rw [← hx i j hi hj]
      refine Finset.sum_congr rfl fun k hk => ?_
      rw [hM' k j (Finset.mem_range.mp hk) hj])
  refine ⟨c, hc, ?_⟩
  intro w i j hw hi hj
  have hval : ∀ l, l < p.nB → written p c w i l = ∑ q ∈ Finset.range p.nB,
      (∑ k ∈ Finset.range p.ns, datum a p.nA p.ns w i k * star (datum b p.nB p.ns w q k)) * X w q l := by
    intro l hl
    rw [hv w i l hw hi hl]
    unfold mul
    refine Finset.sum_congr rfl fun q _ => ?_
    have := fB (datum a p.nA p.ns w) (datum b p.nB p.ns w) i q
    rw [← this]
    unfold form mul
    rw [hA]
    simp
  have hsum : ∀ G : ℕ → K, ∑ l ∈ Finset.range p.nB, written p c w i l * G l =
      ∑ q ∈ Finset.range p.nB,
        (∑ k ∈ Finset.range p.ns, datum a p.nA p.ns w i k * star (datum b p.nB p.ns w q k)) *
          ∑ l ∈ Finset.range p.nB, X w q l * G l := by
    intro G
    rw [Finset.sum_congr rfl fun l hl => by rw [hval l (Finset.mem_range.mp hl), Finset.sum_mul], Finset.sum_comm]
    refine Finset.sum_congr rfl fun q _ => ?_
    rw [Finset.mul_sum]
    refine Finset.sum_congr rfl fun l _ => ?_
    ring
  rw [hsum]
  rw [Finset.sum_congr rfl fun q hq => by rw [hX w hw q j (Finset.mem_range.mp hq) hj]]
  rw [Finset.sum_eq_single j]
  · rw [if_pos rfl, mul_one]
  · intro q _ hq
    rw [if_neg hq, mul_zero]
  · intro hq
    exact absurd (Finset.mem_range.mpr hj) hq

end Verif.Mdd

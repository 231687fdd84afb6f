import Verif.Fft.KissProps

/-!
# C11: rcdft and crdft (FFTlib/lib_fft.c), the direct transforms used for arbitrary lengths
-/

noncomputable section
namespace Verif.Fft
open Verif Finset

/-- The statics `csval[id]`, `nprev[id]` of one thread in `rcdft` or `crdft`
(FFTlib/lib_fft.c:371-372, 416-417).  Each thread has its own entry, so one thread is modelled. -/
structure Tab where
  /-- `nprev[id]` -/
  nprev : Nat
  /-- contents of `csval[id]` -/
  cs : Nat → ℝ

/-- Zero-initialised statics. -/
def Tab.init : Tab := ⟨0, fun _ => 0⟩

/-- C assignment `a[i] = v` -/
def upd (a : Nat → ℝ) (i : Nat) (v : ℝ) : Nat → ℝ := fun k => if k = i then v else a k

/-- `nc = (n+2)/2` -/
def ncOf (n : Nat) : Nat := (n+2)/2

/-- The two nested loops filling the table with `na` outer and `nb` inner iterations
(FFTlib/lib_fft.c:387-393 with na=nc, nb=n; 432-438 with na=n, nb=nc). -/
def fillTab (n na nb : Nat) (cs : Nat → ℝ) : Nat → ℝ :=
  let scl := (2 * Real.pi) / n
  forN na (fun i cs => forN nb (fun j cs =>
    upd (upd cs (2*i*j) (Real.cos (scl * (i*j : Nat)))) (2*i*j+1) (Real.sin (scl * (i*j : Nat)))) cs) cs

/-- `rcdft`, FFTlib/lib_fft.c:367-410: returns the real and imaginary output arrays (indices below nc) and
the new statics.  `junk` is the content of freshly allocated memory. -/
def rcdft (n : Nat) (sign : Int) (junk : Nat → ℝ) (x : Nat → ℝ) (t : Tab) : (Nat → ℝ) × (Nat → ℝ) × Tab :=
  let t := if t.nprev ≠ n then ⟨n, fillTab n (ncOf n) n junk⟩ else t
  (fun i => forN n (fun j sumr => sumr + x j * t.cs (2*i*j)) 0,
   fun i => forN n (fun j sumi => sumi + sign * x j * t.cs (2*i*j+1)) 0,
   t)

/-- `crdft`, FFTlib/lib_fft.c:412-466.  `re`, `im` are the input spectrum; the last loop is the
"something strange" correction for even `n` (lines 455-464). -/
def crdft (n : Nat) (sign : Int) (junk : Nat → ℝ) (re im : Nat → ℝ) (t : Tab) : (Nat → ℝ) × Tab :=
  let t := if t.nprev ≠ n then ⟨n, fillTab n n (ncOf n) junk⟩ else t
  let r : Nat → ℝ := fun i =>
    2 * forN (ncOf n) (fun j sumr => sumr + (re j * t.cs (2*i*j) - sign * im j * t.cs (2*i*j+1))) 0 - re 0
  let r := if n % 2 = 0 then
      forN (ncOf n - 1) (fun i r => upd (upd r (2*i) (r (2*i) - n * (1/4))) (2*i+1)
        (upd r (2*i) (r (2*i) - n * (1/4)) (2*i+1) + n * (1/4))) r
    else r
  (r, t)

/-! ### The table -/

/-- The table is right for length `n`. -/
def TabOk (n na nb : Nat) (cs : Nat → ℝ) : Prop :=
  ∀ i, i < na → ∀ j, j < nb → cs (2*i*j) = Real.cos (2 * Real.pi / n * (i*j : Nat)) ∧
    cs (2*i*j+1) = Real.sin (2 * Real.pi / n * (i*j : Nat))

/-- All table accesses stay inside the `2*n*nc` doubles allocated. -/
theorem tab_in_bounds (n i j : Nat) (hi : i < ncOf n) (hj : j < n) : 2*i*j+1 < 2*n*ncOf n := by
  have : i * j ≤ ncOf n * (n-1) := Nat.mul_le_mul (by omega) (by omega)
  obtain ⟨m, rfl⟩ : ∃ m, n = m + 1 := ⟨n-1, by omega⟩
  have h3 : 0 < ncOf (m+1) := by omega
  simp only [Nat.add_sub_cancel] at this
  nlinarith

theorem fillTab_ok (n na nb : Nat) (cs : Nat → ℝ) : TabOk n na nb (fillTab n na nb cs) := by
  -- one inner iteration keeps every right entry right and makes its own right
  have keep : ∀ (cs : Nat → ℝ) (i j i' j' : Nat),
      (cs (2*i*j) = Real.cos (2 * Real.pi / n * (i*j : Nat)) ∧
        cs (2*i*j+1) = Real.sin (2 * Real.pi / n * (i*j : Nat)) ∨ (i = i' ∧ j = j')) →
      (upd (upd cs (2*i'*j') (Real.cos ((2 * Real.pi) / n * (i'*j' : Nat)))) (2*i'*j'+1)
          (Real.sin ((2 * Real.pi) / n * (i'*j' : Nat)))) (2*i*j) = Real.cos (2 * Real.pi / n * (i*j : Nat)) ∧
      (upd (upd cs (2*i'*j') (Real.cos ((2 * Real.pi) / n * (i'*j' : Nat)))) (2*i'*j'+1)
          (Real.sin ((2 * Real.pi) / n * (i'*j' : Nat)))) (2*i*j+1) = Real.sin (2 * Real.pi / n * (i*j : Nat)) := by
    intro cs i j i' j' h
    have e1 : 2*i*j = 2*(i*j) := by ring
    have e2 : 2*i'*j' = 2*(i'*j') := by ring
    unfold upd
    rw [e1] at h ⊢
    rw [e2]
    by_cases he : i*j = i'*j'
    · rw [he]
      constructor
      · rw [if_neg (by omega), if_pos rfl]
      · rw [if_pos rfl]
    · have : ¬ (i = i' ∧ j = j') := by rintro ⟨rfl, rfl⟩; exact he rfl
      obtain ⟨h1, h2⟩ := h.resolve_right this
      constructor
      · rw [if_neg (by omega), if_neg (by omega), h1]
      · rw [if_neg (by omega), if_neg (by omega), h2]
  unfold fillTab
  dsimp only
  have main := forN_inv (n := na) (s := cs) (body := fun i cs => forN nb (fun j cs =>
    upd (upd cs (2*i*j) (Real.cos ((2 * Real.pi) / n * (i*j : Nat)))) (2*i*j+1)
      (Real.sin ((2 * Real.pi) / n * (i*j : Nat)))) cs)
    (fun a cs => ∀ i, i < a → ∀ j, j < nb → cs (2*i*j) = Real.cos (2 * Real.pi / n * (i*j : Nat)) ∧
      cs (2*i*j+1) = Real.sin (2 * Real.pi / n * (i*j : Nat)))
    (fun i hi => absurd hi (Nat.not_lt_zero _)) ?_
  · exact main
  · intro a _ cs hcs
    have inner := forN_inv (n := nb) (s := cs) (body := fun j cs =>
      upd (upd cs (2*a*j) (Real.cos ((2 * Real.pi) / n * (a*j : Nat)))) (2*a*j+1)
        (Real.sin ((2 * Real.pi) / n * (a*j : Nat))))
      (fun b cs => ∀ i j, (i < a ∧ j < nb ∨ i = a ∧ j < b) →
        cs (2*i*j) = Real.cos (2 * Real.pi / n * (i*j : Nat)) ∧
        cs (2*i*j+1) = Real.sin (2 * Real.pi / n * (i*j : Nat)))
      (fun i j h => hcs i (by omega) j (by omega)) ?_
    · intro i hi j hj
      exact inner i j (by omega)
    · intro b _ cs hb i j hij
      apply keep
      by_cases he : i = a ∧ j = b
      · right; exact he
      · left; exact hb i j (by omega)

/-- Invariant of the statics: a table that will be reused is right. -/
def TabInv (nas nbs : Nat → Nat) (t : Tab) : Prop :=
  t.nprev ≠ 0 → TabOk t.nprev (nas t.nprev) (nbs t.nprev) t.cs

theorem forN_sum (n : Nat) (f : Nat → ℝ) : forN n (fun j s => s + f j) 0 = ∑ j ∈ range n, f j := by
  induction n with
  | zero => simp
  | succ n ih => rw [forN_succ, ih, sum_range_succ]

/-- rcdft delivers the DFT sums, for every state of the statics that calls can produce. -/
theorem rcdft_spec (n : Nat) (sign : Int) (junk x : Nat → ℝ) (t : Tab) (hn : 0 < n)
    (ht : TabInv ncOf id t) :
    (∀ i, i < ncOf n → (rcdft n sign junk x t).1 i = ∑ j ∈ range n, x j * Real.cos (2*Real.pi/n * (i*j:Nat)) ∧
      (rcdft n sign junk x t).2.1 i = sign * ∑ j ∈ range n, x j * Real.sin (2*Real.pi/n * (i*j:Nat))) ∧
    TabInv ncOf id (rcdft n sign junk x t).2.2 := by
  have main : ∀ t : Tab, t.nprev = n → TabOk n (ncOf n) n t.cs →
      ∀ i, i < ncOf n →
      forN n (fun j sumr => sumr + x j * t.cs (2*i*j)) 0 = ∑ j ∈ range n, x j * Real.cos (2*Real.pi/n * (i*j:Nat)) ∧
      forN n (fun j sumi => sumi + sign * x j * t.cs (2*i*j+1)) 0 =
        sign * ∑ j ∈ range n, x j * Real.sin (2*Real.pi/n * (i*j:Nat)) := by
    intro t _ h2 i hi
    constructor
    · rw [forN_sum]
      exact sum_congr rfl (fun j hj => by rw [(h2 i hi j (mem_range.mp hj)).1])
    · rw [forN_sum, mul_sum]
      exact sum_congr rfl (fun j hj => by rw [(h2 i hi j (mem_range.mp hj)).2]; ring)
  unfold rcdft
  dsimp only
  by_cases h : t.nprev ≠ n
  · rw [if_pos h]
    have hok := fillTab_ok n (ncOf n) n junk
    exact ⟨main ⟨n, _⟩ rfl hok, fun _ => hok⟩
  · rw [if_neg h]
    have he : t.nprev = n := not_not.mp h
    have hok : TabOk n (ncOf n) n t.cs := by have := ht (by omega); rw [he] at this; exact this
    exact ⟨main t he hok, ht⟩

/-- The even-length correction loop. -/
theorem correction (m : Nat) (q : ℝ) (r : Nat → ℝ) (i : Nat) (hi : i < 2*m) :
    forN m (fun i r => upd (upd r (2*i) (r (2*i) - q)) (2*i+1)
        (upd r (2*i) (r (2*i) - q) (2*i+1) + q)) r i = r i - (-1)^i * q := by
  have := forN_inv (n := m) (s := r) (body := fun i r => upd (upd r (2*i) (r (2*i) - q)) (2*i+1)
        (upd r (2*i) (r (2*i) - q) (2*i+1) + q))
    (fun a r' => (∀ i, i < 2*a → r' i = r i - (-1)^i * q) ∧ ∀ i, 2*a ≤ i → r' i = r i)
    ⟨fun i h => by omega, fun i _ => rfl⟩ ?_
  · exact this.1 i hi
  · rintro a _ r' ⟨h1, h2⟩
    constructor
    · intro i hi
      unfold upd
      by_cases c1 : i = 2*a+1
      · subst c1
        rw [if_pos rfl, if_neg (by omega), h2 _ (by omega), pow_succ, pow_mul]
        norm_num
      · by_cases c2 : i = 2*a
        · subst c2
          rw [if_neg (by omega), if_pos rfl, h2 _ (by omega), pow_mul]
          norm_num
        · rw [if_neg c1, if_neg c2, h1 i (by omega)]
    · intro i hi
      unfold upd
      rw [if_neg (by omega), if_neg (by omega), h2 i (by omega)]

theorem crdft_spec (n : Nat) (sign : Int) (junk re im : Nat → ℝ) (t : Tab) (hn : 0 < n)
    (ht : TabInv id ncOf t) :
    (∀ i, i < n → (crdft n sign junk re im t).1 i =
      2 * ∑ j ∈ range (ncOf n), (re j * Real.cos (2*Real.pi/n * (i*j:Nat)) -
        sign * im j * Real.sin (2*Real.pi/n * (i*j:Nat))) - re 0
      - (if n % 2 = 0 then (-1)^i * ((n:ℝ) * (1/4)) else 0)) ∧
    TabInv id ncOf (crdft n sign junk re im t).2 := by
  have main : ∀ t : Tab, TabOk n n (ncOf n) t.cs → ∀ i, i < n →
      (2 * forN (ncOf n) (fun j sumr => sumr + (re j * t.cs (2*i*j) - sign * im j * t.cs (2*i*j+1))) 0 - re 0 : ℝ) =
      2 * ∑ j ∈ range (ncOf n), (re j * Real.cos (2*Real.pi/n * (i*j:Nat)) -
        sign * im j * Real.sin (2*Real.pi/n * (i*j:Nat))) - re 0 := by
    intro t h i hi
    rw [forN_sum]
    congr 2
    exact sum_congr rfl (fun j hj => by
      rw [(h i hi j (mem_range.mp hj)).1, (h i hi j (mem_range.mp hj)).2])
  have fin : ∀ t : Tab, TabOk n n (ncOf n) t.cs → ∀ i, i < n →
      (if n % 2 = 0 then
      forN (ncOf n - 1) (fun i r => upd (upd r (2*i) (r (2*i) - n * (1/4))) (2*i+1)
        (upd r (2*i) (r (2*i) - n * (1/4)) (2*i+1) + n * (1/4)))
        (fun i => 2 * forN (ncOf n) (fun j sumr => sumr + (re j * t.cs (2*i*j) - sign * im j * t.cs (2*i*j+1))) 0 - re 0)
      else (fun i => 2 * forN (ncOf n) (fun j sumr => sumr + (re j * t.cs (2*i*j) - sign * im j * t.cs (2*i*j+1))) 0 - re 0)) i =
      2 * ∑ j ∈ range (ncOf n), (re j * Real.cos (2*Real.pi/n * (i*j:Nat)) -
        sign * im j * Real.sin (2*Real.pi/n * (i*j:Nat))) - re 0
      - (if n % 2 = 0 then (-1)^i * ((n:ℝ) * (1/4)) else 0) := by
    intro t h i hi
    by_cases he : n % 2 = 0
    · rw [if_pos he, if_pos he, correction _ _ _ _ (by unfold ncOf; omega), ← main t h i hi]
    · rw [if_neg he, if_neg he, sub_zero, ← main t h i hi]
  unfold crdft
  dsimp only
  by_cases h : t.nprev ≠ n
  · rw [if_pos h]
    have hok := fillTab_ok n n (ncOf n) junk
    exact ⟨fin ⟨n, _⟩ hok, fun _ => hok⟩
  · rw [if_neg h]
    have he : t.nprev = n := not_not.mp h
    have hok : TabOk n n (ncOf n) t.cs := by have := ht (by omega); rw [he] at this; exact this
    exact ⟨fin t hok, ht⟩

/-! ### Round trip -/

/-- Folding a symmetric sum. -/
theorem half_sum (n : Nat) (h : Nat → ℝ) (hs : ∀ k, 0 < k → k < n → h (n-k) = h k) (hn : 0 < n) :
    2 * ∑ k ∈ range (ncOf n), h k - h 0 =
      ∑ k ∈ range n, h k + (if n % 2 = 0 then h (n/2) else 0) := by
  unfold ncOf
  rcases Nat.even_or_odd' n with ⟨m, rfl | rfl⟩
  · obtain ⟨p, rfl⟩ : ∃ p, m = p+1 := ⟨m-1, by omega⟩
    have e1 : (2*(p+1)+2)/2 = p+1+1 := by omega
    have e2 : 2*(p+1) = (p+1+1) + p := by omega
    have e3 : 2*(p+1)/2 = p+1 := by omega
    rw [e1, if_pos (by omega), e3]
    have hsplit : ∑ k ∈ range (2*(p+1)), h k = ∑ k ∈ range (p+1+1), h k + ∑ k ∈ range p, h (k+1) := by
      rw [e2, sum_range_add, ← sum_range_reflect (fun k => h (p+1+1 + k))]
      congr 1
      apply sum_congr rfl
      intro k hk
      have hk := mem_range.mp hk
      rw [← hs (k+1) (by omega) (by omega)]
      exact congrArg h (by clear e1; omega)
    rw [hsplit, sum_range_succ (n := p+1), sum_range_succ' (n := p)]
    ring
  · have e1 : (2*m+1+2)/2 = m+1 := by omega
    have e2 : 2*m+1 = (m+1) + m := by omega
    rw [e1, if_neg (by omega)]
    have hsplit : ∑ k ∈ range (2*m+1), h k = ∑ k ∈ range (m+1), h k + ∑ k ∈ range m, h (k+1) := by
      rw [e2, sum_range_add, ← sum_range_reflect (fun k => h (m+1 + k))]
      congr 1
      apply sum_congr rfl
      intro k hk
      have hk := mem_range.mp hk
      rw [← hs (k+1) (by omega) (by omega)]
      exact congrArg h (by clear e1; omega)
    rw [hsplit, sum_range_succ' (n := m)]
    ring

theorem exp_angle (s : Int) (n j k : Nat) :
    Complex.exp (s * (2 * Real.pi * Complex.I * (j * k) / n)) =
      ⟨Real.cos (s * (2*Real.pi/n * (k*j:Nat))), Real.sin (s * (2*Real.pi/n * (k*j:Nat)))⟩ := by
  have : (s * (2 * Real.pi * Complex.I * (j * k) / n) : ℂ) =
      ((s * (2*Real.pi/n * (k*j:Nat)) : ℝ) : ℂ) * Complex.I := by push_cast; ring
  rw [this, Complex.exp_mul_I]
  generalize (s * (2*Real.pi/n * (k*j:Nat)) : ℝ) = a
  rw [← Complex.ofReal_cos, ← Complex.ofReal_sin]
  apply Complex.ext
  · simp [Complex.cos_ofReal_re]
  · simp [Complex.sin_ofReal_re]

theorem cos_sign (s : Int) (hs : s = 1 ∨ s = -1) (a : ℝ) : Real.cos (s * a) = Real.cos a := by
  rcases hs with rfl | rfl <;> simp

theorem sin_sign (s : Int) (hs : s = 1 ∨ s = -1) (a : ℝ) : Real.sin (s * a) = s * Real.sin a := by
  rcases hs with rfl | rfl <;> simp

theorem dft_re_im (s : Int) (hs : s = 1 ∨ s = -1) (n : Nat) (x : Nat → ℝ) (k : Nat) :
    (dft s n (fun j => (x j : ℂ)) k).re = ∑ j ∈ range n, x j * Real.cos (2*Real.pi/n * (k*j:Nat)) ∧
    (dft s n (fun j => (x j : ℂ)) k).im = s * ∑ j ∈ range n, x j * Real.sin (2*Real.pi/n * (k*j:Nat)) := by
  unfold dft
  rw [Complex.re_sum, Complex.im_sum, mul_sum]
  constructor
  · exact sum_congr rfl (fun j _ => by rw [exp_angle, cos_sign s hs]; simp)
  · exact sum_congr rfl (fun j _ => by rw [exp_angle, sin_sign s hs]; simp; ring)

/-- One term of the inverse sum. -/
def invTerm (s : Int) (n : Nat) (x : Nat → ℝ) (i k : Nat) : ℂ :=
  dft s n (fun j => (x j : ℂ)) k * Complex.exp ((-s : Int) * (2 * Real.pi * Complex.I * (k * i) / n))

theorem invTerm_root (s : Int) (n : Nat) (x : Nat → ℝ) (i k : Nat) :
    invTerm s n x i k = (∑ j ∈ range n, (x j : ℂ) * root s n ^ (j*k)) * root (-s) n ^ (k*i) := by
  unfold invTerm dft
  simp only [root_pow_dft]

theorem root_reflect (s : Int) (n : Nat) (hn : 0 < n) (j k : Nat) (hk : k ≤ n) :
    root s n ^ (j*(n-k)) = root (-s) n ^ (j*k) := by
  have h1 : root s n ^ (j*(n-k)) * root s n ^ (j*k) = 1 := by
    rw [← pow_add, ← Nat.mul_add, Nat.sub_add_cancel hk, Nat.mul_comm, pow_mul, root_pow_n s n hn, one_pow]
  have h2 : root (-s) n ^ (j*k) * root s n ^ (j*k) = 1 := by
    rw [← mul_pow, mul_comm, root_mul_neg, one_pow]
  have h3 : root s n ^ (j*k) ≠ 0 := pow_ne_zero _ (by unfold root; exact Complex.exp_ne_zero _)
  exact mul_right_cancel₀ h3 (h1.trans h2.symm)

theorem invTerm_reflect (s : Int) (n : Nat) (hn : 0 < n) (x : Nat → ℝ) (i k : Nat) (hk : k ≤ n) :
    (invTerm s n x i (n-k)).re = (invTerm s n x i k).re := by
  have : invTerm s n x i (n-k) = (starRingEnd ℂ) (invTerm s n x i k) := by
    rw [invTerm_root, invTerm_root, map_mul, map_sum, map_pow, root_conj]
    congr 1
    · apply sum_congr rfl
      intro j _
      rw [map_mul, map_pow, root_conj, Complex.conj_ofReal, root_reflect s n hn j k hk]
    · rw [Nat.mul_comm (n-k) i, root_reflect (-s) n hn i k hk, Nat.mul_comm k i]
  rw [this, Complex.conj_re]

theorem invTerm_sum (s : Int) (hs : s = 1 ∨ s = -1) (n : Nat) (hn : 0 < n) (x : Nat → ℝ) (i : Nat) (hi : i < n) :
    ∑ k ∈ range n, (invTerm s n x i k).re = n * x i := by
  have h := dft_roundtrip s hs n hn (fun j => (x j : ℂ)) i hi
  have h2 : ∑ k ∈ range n, invTerm s n x i k = n * (x i : ℂ) := by rw [← h]; rfl
  rw [← Complex.re_sum, h2]
  simp

theorem invTerm_nyquist (s : Int) (hs : s = 1 ∨ s = -1) (m : Nat) (hm : 0 < m) (x : Nat → ℝ) (i : Nat) :
    (invTerm s (2*m) x i m).re = (-1)^i * ∑ j ∈ range (2*m), (-1)^j * x j := by
  have h1 : ∀ s : Int, (s = 1 ∨ s = -1) → ∀ a, root s (2*m) ^ (a*m) = (-1)^a := by
    intro s hs a
    rw [Nat.mul_comm a m, pow_mul, root_pow_quot s (2*m) 2 m (by ring) (by omega), root_two s hs]
  have hs' : -s = 1 ∨ -s = -1 := by rcases hs with rfl | rfl <;> simp
  rw [invTerm_root]
  simp only [h1 s hs]
  rw [Nat.mul_comm m i, h1 (-s) hs']
  have : ((∑ j ∈ range (2*m), (x j : ℂ) * (-1)^j) * (-1)^i : ℂ) =
      (((-1)^i * ∑ j ∈ range (2*m), (-1)^j * x j : ℝ) : ℂ) := by
    push_cast
    rw [mul_comm]
    congr 1
    exact sum_congr rfl (fun j _ => by ring)
  rw [this, Complex.ofReal_re]

/-- The exact result of forward and inverse real transform, for every length, trace, history of the
statics and content of fresh memory. -/
theorem crdft_rcdft (n : Nat) (hn : 0 < n) (s : Int) (hs : s = 1 ∨ s = -1) (junk junk' x : Nat → ℝ)
    (t t' : Tab) (ht : TabInv ncOf id t) (ht' : TabInv id ncOf t') (i : Nat) (hi : i < n) :
    let f := rcdft n s junk x t
    (crdft n (-s) junk' f.1 f.2.1 t').1 i =
      n * x i + (if n % 2 = 0 then (-1)^i * (∑ j ∈ range n, (-1)^j * x j - n/4) else 0) := by
  intro f
  obtain ⟨hf, _⟩ := rcdft_spec n s junk x t hn ht
  rw [(crdft_spec n (-s) junk' f.1 f.2.1 t' hn ht').1 i hi]
  have hterm : ∀ j, j < ncOf n → f.1 j * Real.cos (2*Real.pi/n * (i*j:Nat)) -
      ((-s:Int):ℝ) * f.2.1 j * Real.sin (2*Real.pi/n * (i*j:Nat)) = (invTerm s n x i j).re := by
    intro j hj
    obtain ⟨h1, h2⟩ := hf j hj
    obtain ⟨d1, d2⟩ := dft_re_im s hs n x j
    have hs' : -s = 1 ∨ -s = -1 := by rcases hs with rfl | rfl <;> simp
    rw [show f.1 j = _ from h1, show f.2.1 j = _ from h2, ← d1, ← d2]
    unfold invTerm
    rw [exp_angle, cos_sign _ hs', sin_sign _ hs', Complex.mul_re]
    ring
  have h0 : f.1 0 = (invTerm s n x i 0).re := by
    have hp : 0 < ncOf n := by unfold ncOf; omega
    have := hterm 0 hp
    simpa using this
  rw [sum_congr rfl (fun j hj => hterm j (mem_range.mp hj)), h0,
    half_sum n (fun k => (invTerm s n x i k).re)
      (fun k _ h2 => invTerm_reflect s n hn x i k (by omega)) hn,
    invTerm_sum s hs n hn x i hi]
  by_cases he : n % 2 = 0
  · obtain ⟨m, rfl⟩ : ∃ m, n = 2*m := ⟨n/2, by omega⟩
    rw [if_pos he, if_pos he, if_pos he, show 2*m/2 = m from by omega,
      invTerm_nyquist s hs m (by omega)]
    ring
  · rw [if_neg he, if_neg he, if_neg he]; ring

/-- **C11 (partial).** For odd lengths the inverse real transform of the forward transform is `n` times
the trace.  Missing: even lengths, for which it is false (`crdft_rcdft_even_wrong`). -/
theorem crdft_rcdft_odd_partial (n : Nat) (hodd : n % 2 = 1) (s : Int) (hs : s = 1 ∨ s = -1)
    (junk junk' x : Nat → ℝ) (t t' : Tab) (ht : TabInv ncOf id t) (ht' : TabInv id ncOf t')
    (i : Nat) (hi : i < n) :
    (crdft n (-s) junk' (rcdft n s junk x t).1 (rcdft n s junk x t).2.1 t').1 i = n * x i := by
  have := crdft_rcdft n (by omega) s hs junk junk' x t t' ht ht' i hi
  rw [if_neg (by omega), add_zero] at this
  exact this

/-- The initial statics satisfy the invariant; calls keep it (`rcdft_spec`, `crdft_spec`). -/
example : TabInv ncOf id Tab.init ∧ TabInv id ncOf Tab.init := ⟨fun h => absurd rfl h, fun h => absurd rfl h⟩

example (x : Nat → ℝ) : (crdft 7 (-1) 0 (rcdft 7 1 0 x Tab.init).1 (rcdft 7 1 0 x Tab.init).2.1 Tab.init).1 3 =
    7 * x 3 :=
  crdft_rcdft_odd_partial 7 rfl 1 (Or.inl rfl) 0 0 x _ _ (fun h => absurd rfl h) (fun h => absurd rfl h) 3 (by decide)

/-- For even lengths the round trip is right exactly for the traces whose alternating sum happens to
be n/4. -/
theorem crdft_rcdft_even_iff (n : Nat) (hn : 0 < n) (he : n % 2 = 0) (s : Int) (hs : s = 1 ∨ s = -1)
    (junk junk' x : Nat → ℝ) (t t' : Tab) (ht : TabInv ncOf id t) (ht' : TabInv id ncOf t') :
    (∀ i, i < n → (crdft n (-s) junk' (rcdft n s junk x t).1 (rcdft n s junk x t).2.1 t').1 i = n * x i) ↔
      ∑ j ∈ range n, (-1)^j * x j = n/4 := by
  constructor
  · intro h
    have h0 := h 0 hn
    have := crdft_rcdft n hn s hs junk junk' x t t' ht ht' 0 hn
    dsimp only at this
    rw [h0, if_pos he] at this
    simp only [pow_zero, one_mul] at this
    linarith
  · intro h i hi
    have := crdft_rcdft n hn s hs junk junk' x t t' ht ht' i hi
    dsimp only at this
    rw [this, if_pos he, h]
    ring

/-- **C11 is false for every even length**: the zero trace does not come back as zero. -/
theorem crdft_rcdft_even_wrong (n : Nat) (hn : 0 < n) (he : n % 2 = 0) :
    (crdft n (-1) 0 (rcdft n 1 0 0 Tab.init).1 (rcdft n 1 0 0 Tab.init).2.1 Tab.init).1 0 = -(n/4) ∧
    -((n:ℝ)/4) ≠ n * 0 := by
  constructor
  · have := crdft_rcdft n hn 1 (Or.inl rfl) 0 0 0 Tab.init Tab.init (fun h => absurd rfl h)
      (fun h => absurd rfl h) 0 hn
    dsimp only at this
    rw [this, if_pos he]
    simp
  · have : (0:ℝ) < n := by exact_mod_cast hn
    intro h
    linarith

end Verif.Fft

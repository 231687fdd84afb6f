import Mathlib.Algebra.Star.BigOperators
import Mathlib.Algebra.BigOperators.Intervals
import Mathlib.Algebra.Ring.Rat
import Mathlib.Algebra.Star.Basic
import Mathlib.Tactic.Ring
import Mathlib.Tactic.NormNum

/-!
# MDD: the frequency slices of multi-dimensional deconvolution (MDD/deconvolve.c)

The matrices are stored the way BLAS wants them, by columns.  The BLAS routine `cgemm_` itself is not
source of the repository; it is modelled by its published contract, which deconvolve.c:27-86 quotes:
leading dimensions that are too small stop the program (`xerbla`), and a block that does not lie in
the allocated array is undefined behaviour.
-/

namespace Verif.Mdd

variable {K : Type*} [CommRing K] [StarRing K]

/-- How a run can end badly: undefined behaviour, BLAS's argument check, or a failed `assert`. -/
inductive Stop | ub | xerbla | assert
  deriving DecidableEq

/-- An allocated array of complex numbers: its length and what it holds. -/
structure Arr (K : Type*) where
  /-- number of elements allocated -/
  len : ℕ
  /-- the elements -/
  get : ℕ → K

/-- MDD/deconvolve.c:123-128: the three forms of `op( A )`. -/
inductive Op | N | T | C
  deriving DecidableEq

/-- MDD/deconvolve.c:123-128: `conjgA`/`conjgB` select the form. -/
def opOf (c : ℤ) : Op := if c = 1 then .C else if c = 0 then .N else .T

/-- MDD/deconvolve.c:44-54: element `(i,j)` of `op( A )` for a matrix stored by columns from `p`. -/
def Op.elt (o : Op) (p : ℕ → K) (ld i j : ℕ) : K :=
  match o with
  | .N => p (j * ld + i)
  | .T => p (i * ld + j)
  | .C => star (p (i * ld + j))

/-- MDD/deconvolve.c:66-76: rows of the stored matrix when `op` of it has `r` rows and `c` columns. -/
def Op.rows (o : Op) (r c : ℕ) : ℕ := if o = .N then r else c
/-- MDD/deconvolve.c:66-76: columns of the stored matrix. -/
def Op.cols (o : Op) (r c : ℕ) : ℕ := if o = .N then c else r

/-- The `r × c` block at offset `off` with column stride `ld` lies in an array of length `len`. -/
def Fits (len off ld r c : ℕ) : Prop := r = 0 ∨ c = 0 ∨ off + (c - 1) * ld + r ≤ len

instance (len off ld r c : ℕ) : Decidable (Fits len off ld r c) := by unfold Fits; infer_instance

/-- MDD/deconvolve.c:27-86: the contract of `cgemm_` with `alpha=1`, `beta=0`. -/
def gemm (ta tb : Op) (m n k : ℕ) (a : Arr K) (oa lda : ℕ) (b : Arr K) (ob ldb : ℕ)
    (c : Arr K) (oc ldc : ℕ) : Except Stop (Arr K) :=
  if lda < max 1 (ta.rows m k) ∨ ldb < max 1 (tb.rows k n) ∨ ldc < max 1 m then .error .xerbla
  else if ¬ Fits a.len oa lda (ta.rows m k) (ta.cols m k) ∨ ¬ Fits b.len ob ldb (tb.rows k n) (tb.cols k n)
      ∨ ¬ Fits c.len oc ldc m n then .error .ub
  else .ok ⟨c.len, fun q =>
    if oc ≤ q ∧ (q - oc) % ldc < m ∧ (q - oc) / ldc < n then
      ∑ l ∈ Finset.range k, ta.elt (fun x => a.get (oa + x)) lda ((q - oc) % ldc) l
        * tb.elt (fun x => b.get (ob + x)) ldb l ((q - oc) / ldc)
    else c.get q⟩

/-- `memcpy` of `n` elements between two arrays. -/
def copy (n : ℕ) (a : Arr K) (oa : ℕ) (c : Arr K) (oc : ℕ) : Except Stop (Arr K) :=
  if a.len < oa + n ∨ c.len < oc + n then .error .ub
  else .ok ⟨c.len, fun q => if oc ≤ q ∧ q < oc + n then a.get (oa + (q - oc)) else c.get q⟩

/-- A `for` loop whose body may end the program. -/
def loopE {σ : Type*} : ℕ → (ℕ → σ → Except Stop σ) → σ → Except Stop σ
  | 0, _, s => .ok s
  | n + 1, f, s => (loopE n f s).bind (f n)

/-- The arguments of `deconvolve` (MDD/deconvolve.c:106) that the modelled branches use.  `inv` stands
for `computeMatrixInverse` with its options (modelled in `Mdd/Inverse.lean`). -/
structure Par (K : Type*) where
  /-- number of frequencies -/
  nfreq : ℕ
  /-- shots (`nblock`) -/
  ns : ℕ
  /-- traces per shot of A -/
  nA : ℕ
  /-- traces per shot of B -/
  nB : ℕ
  /-- option `conjgA` -/
  conjgA : ℤ
  /-- option `conjgB` -/
  conjgB : ℤ
  /-- option `mdd` -/
  mdd : ℕ
  /-- `computeMatrixInverse` -/
  inv : Arr K → Except Stop (Arr K)

/-- MDD/deconvolve.c:135-136: the stride of the output. -/
def Par.nC (p : Par K) : ℕ := if p.conjgA ≠ 0 then p.ns else p.nB

/-- What a pass of the loop changes: the output `cC` and the scratch matrix `BB`, which is allocated
once for all frequencies (MDD/deconvolve.c:115-116). -/
structure St (K : Type*) where
  /-- output -/
  c : Arr K
  /-- scratch matrix -/
  bb : Arr K

/-- MDD/deconvolve.c:142-238: one frequency, for `mdd` 0, 1, 2 and 4; `mdd=5` ends with an error
message.  `mdd=6` is `trans` below and `mdd=3` is left to LSQR.  Simplification: `AB` is rebuilt for
every frequency, which is unobservable because the first `cgemm_` overwrites all of it. -/
def slice (p : Par K) (a b : Arr K) (iw : ℕ) (s : St K) : Except Stop (St K) :=
  let ta := opOf p.conjgA
  let tb := opOf p.conjgB
  let iwnA := iw * p.nA * p.ns
  let iwnB := iw * p.nB * p.ns
  let iwAB := iw * p.nC * p.nC
  if p.mdd = 0 then
    (gemm ta tb p.nA p.nB p.ns a iwnA p.nA b iwnB p.nB s.c iwAB p.nC).bind fun c => .ok ⟨c, s.bb⟩
  else if p.mdd = 1 then
    (gemm ta tb p.nA p.nB p.ns a iwnA p.nA b iwnB p.nB ⟨p.nA * p.nB, fun _ => 0⟩ 0 p.nA).bind fun ab =>
    (gemm ta tb p.nB p.nB p.ns b iwnB p.nB b iwnB p.nB s.bb 0 p.nB).bind fun bb =>
    (p.inv bb).bind fun bi =>
    (gemm ta ta p.nA p.nB p.nB ab 0 p.nA bi 0 p.nB s.c iwAB p.nA).bind fun c => .ok ⟨c, bi⟩
  else if p.mdd = 2 then
    (copy (p.nB * p.ns) b iwnB s.bb 0).bind fun bb =>
    (p.inv bb).bind fun bi =>
    (gemm .N .N p.nA p.nB p.nB a iwnA p.nA bi 0 p.nB s.c iwAB p.nA).bind fun c => .ok ⟨c, bi⟩
  else if p.mdd = 4 then
    (copy (p.nA * p.ns) a iwnA s.c iwAB).bind fun c => .ok ⟨c, s.bb⟩
  else .error .assert

/-- MDD/deconvolve.c:106-291 with the allocation of mdd.c:300 for the output. -/
def deconvolve (p : Par K) (a b : Arr K) (c0 : ℕ → K) : Except Stop (Arr K) :=
  (loopE p.nfreq (slice p a b)
    ⟨⟨p.nA * p.nB * p.nfreq, c0⟩, ⟨p.nB * p.nB, fun _ => 0⟩⟩).bind fun s => .ok s.c

/-- MDD/mdd.c:301-302: the arrays the data is read into have these lengths. -/
def Input (p : Par K) (a b : Arr K) : Prop := a.len = p.nA * p.nfreq * p.ns ∧ b.len = p.nB * p.nfreq * p.ns

/-- MDD/readShotData.c:132-133 (`transpose=0`): where frequency `w` of trace `i` of shot `l` is stored
in a data set of `n` traces per shot. -/
def datum (a : Arr K) (n ns w i l : ℕ) : K := a.get (w * ns * n + l * n + i)

/-- MDD/mdd.c:532-533: the sample of the result that is written as frequency `w` of trace `i` of
gather `j`. -/
def written (p : Par K) (c : Arr K) (w i j : ℕ) : K := c.get ((w * p.nB + j) * p.nA + i)

/-- MDD/deconvolve.c:240-281, `mdd=6` with all three dimensions equal to `n`: the state of one
frequency is the pair of matrices `cA` (overwritten by every pass) and `cC`, as functions of row and
column.  `tb` is the form selected by `conjgB`, `conjgA=0`.  The sign is chosen with `k_iter`, as
written. -/
def mulOp (n : ℕ) (tb : Op) (x y : ℕ → ℕ → K) (i j : ℕ) : K :=
  ∑ l ∈ Finset.range n, x i l * (match tb with | .N => y l j | .T => y j l | .C => star (y j l))

/-- MDD/deconvolve.c:240-281: the loop over `k`. -/
def trans (n : ℕ) (tb : Op) (kiter : ℕ) (tc : K) (a b : ℕ → ℕ → K) : ℕ → (ℕ → ℕ → K) × (ℕ → ℕ → K)
  | 0 => (a, a)
  | k + 1 =>
    let s := trans n tb kiter tc a b k
    let t0f := fun i j => mulOp n tb a b i j * tc
    let temp := fun i j => mulOp n tb t0f s.1 i j * tc
    (temp, fun i j => if kiter % 2 = 1 then s.2 i j - temp i j else s.2 i j + temp i j)

/-- MDD/deconvolve.c:240-281: the output of `mdd=6`: the loop runs `k` from 1 to `k_iter-1`. -/
def transOut (n : ℕ) (tb : Op) (kiter : ℕ) (tc : K) (a b : ℕ → ℕ → K) : ℕ → ℕ → K :=
  (trans n tb kiter tc a b (kiter - 1)).2

/-- MDD/deconvolve.c:294-319 `Aprod1_`: `y += x·B`. -/
def aprod1 (n : ℕ) (b x y : ℕ → ℕ → K) (i j : ℕ) : K :=
  ∑ l ∈ Finset.range n, x i l * b l j + y i j

/-- MDD/deconvolve.c:321-348 `Aprod2_`: `x` is cleared, then `x += y·Bᴴ`. -/
def aprod2 (n : ℕ) (b y _x : ℕ → ℕ → K) (i j : ℕ) : K :=
  ∑ l ∈ Finset.range n, y i l * star (b j l) + 0

/-! ### Lemmas about the library contract -/

omit [CommRing K] [StarRing K] in
theorem loopE_inv {σ : Type*} {n : ℕ} {f : ℕ → σ → Except Stop σ} {s : σ} (P : ℕ → σ → Prop) (h0 : P 0 s)
    (hs : ∀ i t, i < n → P i t → ∃ t', f i t = .ok t' ∧ P (i + 1) t') : ∃ t, loopE n f s = .ok t ∧ P n t := by
  have key : ∀ m, m ≤ n → ∃ t, loopE m f s = .ok t ∧ P m t := by
    intro m
    induction m with
    | zero => intro _; exact ⟨s, rfl, h0⟩
    | succ m ih =>
      intro hm
      obtain ⟨t, ht, hp⟩ := ih (by omega)
      obtain ⟨t', ht', hp'⟩ := hs m t (by omega) hp
      refine ⟨t', ?_, hp'⟩
      simp only [loopE, ht]
      exact ht'
  exact key n le_rfl

omit [StarRing K] [CommRing K] in
theorem loopE_error {σ : Type*} {n : ℕ} {f : ℕ → σ → Except Stop σ} {s : σ} {e : Stop} :
    ∀ m, m ≤ n → loopE m f s = .error e → loopE n f s = .error e := by
  induction n with
  | zero => intro m hm h; obtain rfl : m = 0 := by omega
            exact h
  | succ n ih =>
    intro m hm h
    rcases Nat.lt_or_ge m (n + 1) with h1 | h1
    · simp only [loopE, ih m (by omega) h]; rfl
    · obtain rfl : m = n + 1 := by omega
      exact h

/-- what `cgemm_` computes -/
def prod (ta tb : Op) (k : ℕ) (a : Arr K) (oa lda : ℕ) (b : Arr K) (ob ldb i j : ℕ) : K :=
  ∑ l ∈ Finset.range k, ta.elt (fun x => a.get (oa + x)) lda i l * tb.elt (fun x => b.get (ob + x)) ldb l j

theorem gemm_ok {ta tb : Op} {m n k : ℕ} {a : Arr K} {oa lda : ℕ} {b : Arr K} {ob ldb : ℕ} {c : Arr K} {oc ldc : ℕ}
    (h1 : max 1 (ta.rows m k) ≤ lda) (h2 : max 1 (tb.rows k n) ≤ ldb) (h3 : max 1 m ≤ ldc)
    (f1 : Fits a.len oa lda (ta.rows m k) (ta.cols m k)) (f2 : Fits b.len ob ldb (tb.rows k n) (tb.cols k n))
    (f3 : Fits c.len oc ldc m n) :
    ∃ c', gemm ta tb m n k a oa lda b ob ldb c oc ldc = .ok c' ∧ c'.len = c.len ∧
      (∀ i j, i < m → j < n → c'.get (oc + (j * ldc + i)) = prod ta tb k a oa lda b ob ldb i j) ∧
      (∀ q, q < oc → c'.get q = c.get q) := by
  refine ⟨⟨c.len, fun q => if oc ≤ q ∧ (q - oc) % ldc < m ∧ (q - oc) / ldc < n then
      prod ta tb k a oa lda b ob ldb ((q - oc) % ldc) ((q - oc) / ldc) else c.get q⟩, ?_, rfl, ?_, ?_⟩
  · unfold gemm
    rw [if_neg (by omega), if_neg (by simp [f1, f2, f3])]
    rfl
  · intro i j hi hj
    have hl : 0 < ldc := by omega
    have e1 : (oc + (j * ldc + i) - oc) % ldc = i := by
      rw [Nat.add_sub_cancel_left, Nat.mul_add_mod_self_right, Nat.mod_eq_of_lt (by omega)]
    have e2 : (oc + (j * ldc + i) - oc) / ldc = j := by
      rw [Nat.add_sub_cancel_left, Nat.add_comm, Nat.add_mul_div_right _ _ hl, Nat.div_eq_of_lt (by omega), Nat.zero_add]
    simp only [e1, e2]
    rw [if_pos ⟨by omega, hi, hj⟩]
  · intro q hq
    dsimp only
    rw [if_neg (by omega)]

omit [CommRing K] [StarRing K] in
theorem copy_ok {n : ℕ} {a : Arr K} {oa : ℕ} {c : Arr K} {oc : ℕ} (h1 : oa + n ≤ a.len) (h2 : oc + n ≤ c.len) :
    ∃ c', copy n a oa c oc = .ok c' ∧ c'.len = c.len ∧
      (∀ q, q < n → c'.get (oc + q) = a.get (oa + q)) ∧ (∀ q, q < oc → c'.get q = c.get q) := by
  refine ⟨⟨c.len, fun q => if oc ≤ q ∧ q < oc + n then a.get (oa + (q - oc)) else c.get q⟩, ?_, rfl, ?_, ?_⟩
  · unfold copy
    rw [if_neg (by omega)]
  · intro q hq
    dsimp only
    rw [if_pos ⟨by omega, by omega⟩, Nat.add_sub_cancel_left]
  · intro q hq
    dsimp only
    rw [if_neg (by omega)]

theorem fits_mul {len off r c : ℕ} (h : off + c * r ≤ len) : Fits len off r r c := by
  unfold Fits
  rcases Nat.eq_zero_or_pos c with hc | hc
  · exact Or.inr (Or.inl hc)
  · right; right
    obtain ⟨d, rfl⟩ : ∃ d, c = d + 1 := ⟨c - 1, by omega⟩
    rw [Nat.add_mul, Nat.one_mul] at h
    rw [Nat.add_sub_cancel]
    omega

end Verif.Mdd

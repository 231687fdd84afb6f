import Mathlib.Algebra.Star.BigOperators
import Mathlib.Algebra.BigOperators.Group.Finset.Basic

/-! # Specification: Hermitian Toeplitz systems -/

namespace Verif.Toep

section
variable {K : Type} [Field K] [StarRing K]

/-- The Hermitian Toeplitz matrix whose first column is `r`: element `(i,j)` is `r[i-j]` on and below the diagonal and the
conjugate of `r[j-i]` above it. -/
def T (r : ℕ → K) (i j : ℕ) : K := if j ≤ i then r (i - j) else star (r (j - i))

/-- `x` solves `T x = y`. -/
def Solves (n : ℕ) (r x y : ℕ → K) : Prop := ∀ i < n, ∑ j ∈ Finset.range n, T r i j * x j = y i

/-- The quadratic form of the matrix vanishes at zero only (for instance, the matrix is positive definite). -/
def Definite (n : ℕ) (r : ℕ → K) : Prop :=
  ∀ v : ℕ → K, (∃ i < n, v i ≠ 0) → ∑ i ∈ Finset.range n, ∑ j ∈ Finset.range n, star (v i) * T r i j * v j ≠ 0

end

end Verif.Toep

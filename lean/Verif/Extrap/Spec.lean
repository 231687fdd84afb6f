import Mathlib.Analysis.SpecialFunctions.Trigonometric.Basic
import Mathlib.Analysis.SpecialFunctions.Complex.Circle

/-! # Specification: convolution operators fitted to a wavenumber spectrum -/

namespace Verif.Extrap

noncomputable section

open Finset

/-- Response of a convolution operator of odd length `opl` at wavenumber sample `k` of `nkx`; element `j` acts at lag
`j - (opl-1)/2`. -/
def response (nkx opl : ℕ) (x : ℕ → ℂ) (k : ℕ) : ℂ :=
  ∑ j ∈ range opl, x j * Complex.exp (2 * Real.pi * Complex.I * (((j : ℤ) - (((opl - 1) / 2 : ℕ) : ℤ) : ℤ) : ℂ) * k / nkx)

/-- Weighted squared distance between the response and the wanted spectrum. -/
def misfit (nkx opl : ℕ) (w : ℕ → ℝ) (K x : ℕ → ℂ) : ℝ :=
  ∑ k ∈ range nkx, w k * Complex.normSq (response nkx opl x k - K k)

/-- `x` is the best operator of its length: no other has a smaller misfit, and any other has a larger one. -/
def Best (nkx opl : ℕ) (w : ℕ → ℝ) (K x : ℕ → ℂ) : Prop :=
  ∀ z, misfit nkx opl w K x ≤ misfit nkx opl w K z ∧
    ((∃ j < opl, z j ≠ x j) → misfit nkx opl w K x < misfit nkx opl w K z)

/-- Signed wavenumber number of sample `q` of the transform. -/
def signed (nkx q : ℕ) : ℤ := if q ≤ nkx / 2 then q else (q : ℤ) - nkx

/-- Sampling distance of the wavenumbers. -/
def dkx (nkx : ℕ) (dx : ℝ) : ℝ := 2 * Real.pi / (nkx * dx)

/-- The wanted band: wavenumbers of plane waves with angles between `alfa1` and `alfa2`, at most 85 % of the Nyquist wavenumber. -/
def bandMin (k dx alfa1 : ℝ) : ℝ := max (k * Real.sin (Real.pi * alfa1 / 180)) (-(85 / 100) * (Real.pi / dx))
def bandMax (k dx alfa2 : ℝ) : ℝ := min (k * Real.sin (Real.pi * alfa2 / 180)) (85 / 100 * (Real.pi / dx))

/-- Weights that are 1 or `scale`: `scale` outside the band, 1 at least one sample inside it. -/
def BandWeights (nkx : ℕ) (k dx alfa1 alfa2 scale : ℝ) (w : ℕ → ℝ) : Prop :=
  ∀ q < nkx, (w q = 1 ∨ w q = scale) ∧
    (¬ (bandMin k dx alfa1 < signed nkx q * dkx nkx dx ∧ signed nkx q * dkx nkx dx < bandMax k dx alfa2) → w q = scale) ∧
    (bandMin k dx alfa1 + dkx nkx dx ≤ signed nkx q * dkx nkx dx ∧
      signed nkx q * dkx nkx dx ≤ bandMax k dx alfa2 - dkx nkx dx → w q = 1)

end

end Verif.Extrap

import Verif.Med.Model

/-!
# Specification: the medium parameters of a staggered grid

A model of `nx` by `nz` points with P velocity, S velocity and density.  The horizontal velocity lives half a grid step to
the right of a model point, the vertical velocity half a step below it, the shear stress half a step to the right and
below.  A point beyond the last column or row counts as the last one.
-/

namespace Verif.Med

section
variable {K : Type} [Field K] [LinearOrder K]

/-- The column to the right and the row below, within the model. -/
def rightOf (p : Par) (i : Int) : Int := min (i + 1) (p.nx - 1)
def below (p : Par) (j : Int) : Int := min (j + 1) (p.nz - 1)

/-- The nearest column and row of the model. -/
def nearX (p : Par) (i : Int) : Int := max 0 (min i (p.nx - 1))
def nearZ (p : Par) (j : Int) : Int := max 0 (min j (p.nz - 1))

/-- Shear modulus `cs² ρ`. -/
def Inp.mu (q : Inp K) (i j : Int) : K := q.cs i j ^ 2 * q.ro i j
/-- `λ+2μ = cp² ρ`. -/
def Inp.l2m (q : Inp K) (i j : Int) : K := q.cp i j ^ 2 * q.ro i j
/-- `λ`. -/
def Inp.lam (q : Inp K) (i j : Int) : K := q.l2m i j - 2 * q.mu i j

/-- Harmonic mean of four moduli; zero if one of them is zero (a fluid). -/
def harmonic (a b c d : K) : K :=
  if a = 0 ∨ b = 0 ∨ c = 0 ∨ d = 0 then 0 else 4 / (1 / a + 1 / b + 1 / c + 1 / d)

/-- The medium parameters of model point `(i,j)`, times `fac`: the buoyancies are one over the mean density, and zero where
the velocity is zero (air); the shear modulus is the harmonic mean of the four points around. -/
def medium (p : Par) (q : Inp K) (fac : K) : Arr → Int → Int → K
  | .rox, i, j => if q.cp i j = 0 then 0 else fac / ((q.ro i j + q.ro (rightOf p i) j) / 2)
  | .roz, i, j => if q.cp i j = 0 then 0 else fac / ((q.ro i j + q.ro i (below p j)) / 2)
  | .l2m, i, j => fac * q.l2m i j
  | .lam, i, j => fac * q.lam i j
  | .muu, i, j => fac * harmonic (q.mu i j) (q.mu i (below p j)) (q.mu (rightOf p i) j) (q.mu (rightOf p i) (below p j))

/-- Column and row of model point `(0,0)` in each array: normal stress, and half a step (one index) further for the
velocities and the shear stress. -/
def ox (p : Par) : Arr → Int
  | .rox => p.iorder / 2 + p.pad p.lef | .roz => p.iorder / 2 - 1 + p.pad p.lef
  | .l2m => p.iorder / 2 - 1 + p.pad p.lef | .lam => p.iorder / 2 - 1 + p.pad p.lef
  | .muu => p.iorder / 2 + p.pad p.lef
def oz (p : Par) : Arr → Int
  | .rox => p.iorder / 2 - 1 + p.pad p.top + p.add | .roz => p.iorder / 2 + p.pad p.top + p.add
  | .l2m => p.iorder / 2 - 1 + p.pad p.top + p.add | .lam => p.iorder / 2 - 1 + p.pad p.top + p.add
  | .muu => p.iorder / 2 + p.pad p.top + p.add

/-- The cells of an array that belong to the model and its absorbing borders. -/
def inBox (p : Par) (a : Arr) (x z : Int) : Prop :=
  (ox p a - p.pad p.lef ≤ x ∧ x < ox p a + p.nx + p.pad p.rig) ∧
  (oz p a - p.pad p.top ≤ z ∧ z < oz p a + p.nz + p.pad p.bot)

/-- What the parameters satisfy after `getParameters`. -/
structure Valid (p : Par) : Prop where
  nx : 1 ≤ p.nx
  nz : 1 ≤ p.nz
  iorder : 2 ≤ p.iorder
  even : p.iorder % 2 = 0
  npml : 0 ≤ p.npml
  topadd : 0 ≤ p.topadd

/-- The array belongs to the scheme (`lam` and `muu` only to the elastic ones). -/
def used (p : Par) : Arr → Prop
  | .lam => p.ischeme > 2 | .muu => p.ischeme > 2 | _ => True

end

end Verif.Med

import Mathlib.Analysis.SpecialFunctions.Trigonometric.Basic
import Mathlib.Tactic.Linarith
import Mathlib.Tactic.FieldSimp
import Mathlib.Tactic.NormNum

/-!
# C207, C208: the medium of the electromagnetic program (fdemmodc/readEmModel.c)

Fields are functions of column and row; elements that have no value yet are `none`.  Exact numbers.  Not modelled: reading of the
files, which gives `nx` columns of `nz` values.
-/

namespace Verif.Em.Medium

universe u
variable {K : Type u}

/-- The grid: origin of the pressure grid, size of the model, length of the boundary layer, and the sides that have one
(`bnd.lef==4 || bnd.lef==2`, and so on). -/
structure Geo where
  ox : Int
  oz : Int
  nx : Nat
  nz : Nat
  ntap : Nat
  lef : Bool
  rig : Bool
  top : Bool
  bot : Bool

/-- Width of a layer. -/
def layer (g : Geo) (b : Bool) : Int := if b then g.ntap else 0

/-- `mod.iePx` (fdemmodc/getEmParameters.c:301, 341, 346). -/
def ex (g : Geo) : Int := g.nx + g.ox + layer g g.lef + layer g g.rig
/-- `mod.iePz` (fdemmodc/getEmParameters.c:302, 322, 328). -/
def ez (g : Geo) : Int := g.nz + g.oz + layer g g.top + layer g g.bot

abbrev Field (K : Type u) := Int → Int → Option K

/-- Two nested loops that store `v ix iz` in element `(ix, iz)`.  In the copies below the source is not among the stored elements, so
`v` may be taken from the field before the loop. -/
def loop (xs xe zs ze : Int) (v : Field K) (f : Field K) : Field K :=
  fun ix iz => if xs ≤ ix ∧ ix < xe ∧ zs ≤ iz ∧ iz < ze then v ix iz else f ix iz

/-- The model at the origin `ioPx`, `ioPz` (fdemmodc/readEmModel.c:72-82, 128-151): last row, last column, corner, the rest. -/
def place (g : Geo) (m : Int → Int → K) (f : Field K) : Field K :=
  let px := g.ox + layer g g.lef
  let pz := g.oz + layer g g.top
  let v : Field K := fun ix iz => some (m (ix - px) (iz - pz))
  let f := loop px (px + (g.nx - 1)) (pz + (g.nz - 1)) (pz + (g.nz - 1) + 1) v f
  let f := loop (px + (g.nx - 1)) (px + (g.nx - 1) + 1) pz (pz + (g.nz - 1)) v f
  let f := loop (px + (g.nx - 1)) (px + (g.nx - 1) + 1) (pz + (g.nz - 1)) (pz + (g.nz - 1) + 1) v f
  loop px (px + (g.nx - 1)) pz (pz + (g.nz - 1)) v f

/-- Left (fdemmodc/readEmModel.c:158-171). -/
def left (g : Geo) (f : Field K) : Field K :=
  if g.lef then loop g.ox (g.ox + g.ntap) g.oz (ez g) (fun _ iz => f (g.ox + g.ntap) iz) f else f
/-- Right (fdemmodc/readEmModel.c:174-187). -/
def right (g : Geo) (f : Field K) : Field K :=
  if g.rig then loop (ex g - g.ntap) (ex g) g.oz (ez g) (fun _ iz => f (ex g - g.ntap - 1) iz) f else f
/-- Top (fdemmodc/readEmModel.c:190-203). -/
def above (g : Geo) (f : Field K) : Field K :=
  if g.top then loop g.ox (ex g) g.oz (g.oz + g.ntap) (fun ix _ => f ix (g.oz + g.ntap)) f else f
/-- Bottom (fdemmodc/readEmModel.c:206-219). -/
def below (g : Geo) (f : Field K) : Field K :=
  if g.bot then loop g.ox (ex g) (ez g - g.ntap) (ez g) (fun ix _ => f ix (ez g - g.ntap - 1)) f else f

/-- One of the two fields (fdemmodc/readEmModel.c:128-219). -/
def medium (g : Geo) (m : Int → Int → K) : Field K := below g (above g (right g (left g (place g m fun _ _ => none))))

/-! ## Specification -/

/-- The sample of the model nearest to position `i`, if the model has samples `0..n-1`. -/
def nearest (n : Nat) (i : Int) : Int := if i < 0 then 0 else if (n : Int) ≤ i then n - 1 else i

/-! ## Lemmas -/

theorem place_eq (g : Geo) (m : Int → Int → K) (f : Field K) {ix iz : Int}
    (h1 : 0 ≤ ix - g.ox - layer g g.lef) (h2 : ix - g.ox - layer g g.lef < g.nx) (h3 : 0 ≤ iz - g.oz - layer g g.top)
    (h4 : iz - g.oz - layer g g.top < g.nz) :
    place g m f ix iz = some (m (ix - g.ox - layer g g.lef) (iz - g.oz - layer g g.top)) := by
  unfold place
  have e : some (m (ix - (g.ox + layer g g.lef)) (iz - (g.oz + layer g g.top))) =
      some (m (ix - g.ox - layer g g.lef) (iz - g.oz - layer g g.top)) := by
    rw [sub_sub, sub_sub]
  unfold loop
  generalize layer g g.lef = a at *
  generalize layer g g.top = b at *
  split_ifs with c1 c2 c3 c4
  · exact e
  · exact e
  · exact e
  · exact e
  · exfalso; omega

/-- **C207.** Every element of the grid, boundary layers and corners included, has the value of the nearest sample of the model. -/
theorem medium_nearest (g : Geo) (m : Int → Int → K) (hx : 1 ≤ g.nx) (hz : 1 ≤ g.nz) {ix iz : Int} (h1 : g.ox ≤ ix) (h2 : ix < ex g)
    (h3 : g.oz ≤ iz) (h4 : iz < ez g) :
    medium g m ix iz = some (m (nearest g.nx (ix - g.ox - layer g g.lef)) (nearest g.nz (iz - g.oz - layer g g.top))) := by
  have hl : layer g g.lef = if g.lef then (g.ntap : Int) else 0 := rfl
  have hr : layer g g.rig = if g.rig then (g.ntap : Int) else 0 := rfl
  have ht : layer g g.top = if g.top then (g.ntap : Int) else 0 := rfl
  have hb : layer g g.bot = if g.bot then (g.ntap : Int) else 0 := rfl
  have hex : ex g = g.nx + g.ox + layer g g.lef + layer g g.rig := rfl
  have hez : ez g = g.nz + g.oz + layer g g.top + layer g g.bot := rfl
  have P := fun ix iz => place_eq (ix := ix) (iz := iz) g m (fun _ _ => none)
  have n0 : (0 : Int) ≤ g.ntap := Int.natCast_nonneg _
  -- columns of the model, then the two sides, for the rows of the model
  have L : ∀ ix iz, g.ox ≤ ix → ix < g.nx + g.ox + layer g g.lef → 0 ≤ iz - g.oz - layer g g.top →
      iz - g.oz - layer g g.top < g.nz → left g (place g m fun _ _ => none) ix iz =
        some (m (nearest g.nx (ix - g.ox - layer g g.lef)) (iz - g.oz - layer g g.top)) := by
    intro ix iz a b c d
    have ez' : iz < ez g := by
      rw [hez, hb]; split <;> omega
    have oz' : g.oz ≤ iz := by
      rw [ht] at c; split at c <;> omega
    unfold left
    by_cases hc : g.lef
    · rw [if_pos hc] at hl ⊢
      unfold loop
      by_cases hi : ix < g.ox + g.ntap
      · rw [if_pos ⟨a, hi, oz', ez'⟩]
        beta_reduce
        rw [P _ _ (by omega) (by omega) c d]
        unfold nearest
        by_cases k : ix - g.ox - layer g g.lef < 0
        · rw [if_pos k, show g.ox + (g.ntap : Int) - g.ox - layer g g.lef = 0 by omega]
        · omega
      · rw [if_neg (by omega), P _ _ (by omega) (by omega) c d]
        unfold nearest
        rw [if_neg (by omega), if_neg (by omega)]
    · rw [if_neg hc] at hl ⊢
      rw [P _ _ (by omega) (by omega) c d]
      unfold nearest
      rw [if_neg (by omega), if_neg (by omega)]
  have R : ∀ ix iz, g.ox ≤ ix → ix < ex g → 0 ≤ iz - g.oz - layer g g.top →
      iz - g.oz - layer g g.top < g.nz → right g (left g (place g m fun _ _ => none)) ix iz =
        some (m (nearest g.nx (ix - g.ox - layer g g.lef)) (iz - g.oz - layer g g.top)) := by
    intro ix iz a b c d
    have ez' : iz < ez g := by
      rw [hez, hb]; split <;> omega
    have oz' : g.oz ≤ iz := by
      rw [ht] at c; split at c <;> omega
    have l0 : 0 ≤ layer g g.lef := by rw [hl]; split <;> omega
    unfold right
    by_cases hc : g.rig
    · rw [if_pos hc] at hr ⊢
      unfold loop
      by_cases hi : ex g - g.ntap ≤ ix
      · rw [if_pos ⟨hi, b, oz', ez'⟩]
        beta_reduce
        rw [L _ _ (by omega) (by omega) c d]
        unfold nearest
        rw [if_neg (by omega), if_neg (by omega), if_neg (by omega), if_pos (by omega),
          show ex g - (g.ntap : Int) - 1 - g.ox - layer g g.lef = g.nx - 1 by omega]
      · rw [if_neg (by omega), L _ _ a (by omega) c d]
    · rw [if_neg hc] at hr ⊢
      exact L _ _ a (by omega) c d
  have T : ∀ ix iz, g.ox ≤ ix → ix < ex g → g.oz ≤ iz →
      iz < g.nz + g.oz + layer g g.top → above g (right g (left g (place g m fun _ _ => none))) ix iz =
        some (m (nearest g.nx (ix - g.ox - layer g g.lef)) (nearest g.nz (iz - g.oz - layer g g.top))) := by
    intro ix iz a b c d
    unfold above
    by_cases hc : g.top
    · rw [if_pos hc] at ht ⊢
      unfold loop
      by_cases hi : iz < g.oz + g.ntap
      · rw [if_pos ⟨a, b, c, hi⟩]
        beta_reduce
        rw [R _ _ a b (by omega) (by omega)]
        rw [show g.oz + (g.ntap : Int) - g.oz - layer g g.top = 0 by omega,
          show nearest g.nz (iz - g.oz - layer g g.top) = 0 by unfold nearest; rw [if_pos (by omega)]]
      · rw [if_neg (by omega), R _ _ a b (by omega) (by omega),
          show nearest g.nz (iz - g.oz - layer g g.top) = iz - g.oz - layer g g.top by
            unfold nearest; rw [if_neg (by omega), if_neg (by omega)]]
    · rw [if_neg hc] at ht ⊢
      rw [R _ _ a b (by omega) (by omega),
          show nearest g.nz (iz - g.oz - layer g g.top) = iz - g.oz - layer g g.top by
            unfold nearest; rw [if_neg (by omega), if_neg (by omega)]]
  have t0 : 0 ≤ layer g g.top := by rw [ht]; split <;> omega
  unfold medium below
  by_cases hc : g.bot
  · rw [if_pos hc] at hb ⊢
    unfold loop
    by_cases hi : ez g - g.ntap ≤ iz
    · rw [if_pos ⟨h1, h2, hi, h4⟩]
      beta_reduce
      rw [T _ _ h1 h2 (by omega) (by omega)]
      rw [show ez g - (g.ntap : Int) - 1 - g.oz - layer g g.top = g.nz - 1 by omega,
        show nearest g.nz ((g.nz : Int) - 1) = g.nz - 1 by unfold nearest; rw [if_neg (by omega), if_neg (by omega)],
        show nearest g.nz (iz - g.oz - layer g g.top) = g.nz - 1 by unfold nearest; rw [if_neg (by omega), if_pos (by omega)]]
    · rw [if_neg (by omega), T _ _ h1 h2 h3 (by omega)]
  · rw [if_neg hc] at hb ⊢
    exact T _ _ h1 h2 h3 (by omega)

/-! ## Constants -/

/-- `c0`, `mu0`, `eps0` (fdemmodc/readEmModel.c:52-54, em4.c:77-79, getEmParameters.c:165-167); in C `10e-7` is `10⁻⁶`. -/
noncomputable def c0 : ℝ := 299792458
noncomputable def mu0 : ℝ := 4 * Real.pi * (10 * (1 / 10 ^ 7))
noncomputable def eps0 : ℝ := 1 / (c0 * c0 * mu0)

/-- The value of `eprs` (fdemmodc/readEmModel.c:133) for relative permittivity `er`, and of `mu` (line 57). -/
noncomputable def eprs (dt dx er : ℝ) : ℝ := dt / dx / (er * eps0)
noncomputable def mu (dt dx : ℝ) : ℝ := dt / dx / mu0

theorem mu0_pos : 0 < mu0 := by unfold mu0; have := Real.pi_pos; positivity

/-- **C208.** The waves travel with the velocity of light over the root of the permittivity: the product of the two coefficients of
the scheme is `(c dt/dx)²` with `c² = c0²/er`. -/
theorem wave_velocity (dt dx er : ℝ) (hd : 0 < dx) (he : 0 < er) :
    eprs dt dx er * mu dt dx = (299792458 ^ 2 / er) * (dt / dx) ^ 2 := by
  have hm := mu0_pos
  unfold eprs mu eps0 c0
  field_simp

/-- **C208 violated.** The magnetic constant is ten times the `4π·10⁻⁷ H/m` of vacuum and the electric constant a tenth of its value,
so the electric field of a given magnetic field is ten times too large. -/
theorem constants_wrong : mu0 = 10 * (4 * Real.pi / 10 ^ 7) ∧ eps0 = 1 / 10 * (1 / (299792458 ^ 2 * (4 * Real.pi / 10 ^ 7))) ∧
    mu0 / eps0 = 100 * ((4 * Real.pi / 10 ^ 7) / (1 / (299792458 ^ 2 * (4 * Real.pi / 10 ^ 7)))) := by
  have hp := Real.pi_pos
  refine ⟨?_, ?_, ?_⟩
  · unfold mu0; ring
  · unfold eps0 mu0 c0; field_simp
  · unfold eps0 mu0 c0; field_simp; norm_num

/-! Cases that meet the hypotheses. -/
example : (List.range 7).map (fun i : Nat => medium ⟨0, 0, 3, 2, 2, true, true, true, false⟩ (fun a b => (a, b)) i 0) =
    [some (0, 0), some (0, 0), some (0, 0), some (1, 0), some (2, 0), some (2, 0), some (2, 0)] := by decide +kernel
example : medium ⟨1, 1, 3, 2, 2, true, true, true, true⟩ (fun a b => (a, b)) 7 6 = some (2, 1) :=
  medium_nearest ⟨1, 1, 3, 2, 2, true, true, true, true⟩ (fun a b => (a, b)) (by decide) (by decide) (by decide) (by decide) (by decide)
    (by decide)
example : eprs 1 2 4 * mu 1 2 = (299792458 ^ 2 / 4) * (1 / 2) ^ 2 := wave_velocity 1 2 4 (by norm_num) (by norm_num)

end Verif.Em.Medium

import Mathlib.Data.Rat.Floor
import Mathlib.Tactic.Linarith
import Mathlib.Tactic.Ring
import Mathlib.Tactic.NormNum

/-!
# C214, C215: where fdelmodc3D puts the model, the sources and the receivers

fdelmodc3D/readModel3D.c, applySource3D.c, getRecTimes3D.c, pressure grid.  Positions are grid indices.  A type of boundary of 2 or 4
is an absorbing layer of `ntap` points.
-/

namespace Verif.Fd3.Place

/-- Origin of the pressure grid, size of the model, length of the layers, and types of the six sides. -/
structure Grid where
  ox : Int
  oy : Int
  oz : Int
  nx : Int
  ny : Int
  nz : Int
  ntap : Int
  top : Int
  lef : Int
  fro : Int
  bac : Int

/-- A position `(ix, iy, iz)`. -/
abbrev Pos := Int × Int × Int

/-- `if (c) io += bnd.ntap`. -/
def add (g : Grid) (c : Bool) : Int := if c then g.ntap else 0

/-- Where readModel3D puts sample `(0,0,0)` of the model (fdelmodc3D/readModel3D.c:73-92). -/
def modelOrigin (g : Grid) : Pos :=
  (g.ox + add g (g.lef == 4 || g.lef == 2), g.oy + add g (g.fro == 4 || g.fro == 2), g.oz + add g (g.top == 4 || g.top == 2))

/-- `ibndx`, `ibndy`, `ibndz` of the pressure source (fdelmodc3D/applySource3D.c:52-59). -/
def sourceOrigin (g : Grid) : Pos :=
  (g.ox + add g (g.lef == 4 || g.lef == 2), g.oy + add g (g.bac == 4 || g.fro == 2), g.oz + add g (g.top == 4 || g.top == 2))

/-- The same of the receivers (fdelmodc3D/getRecTimes3D.c:33-38). -/
def receiverOrigin (g : Grid) : Pos :=
  (g.ox + add g (g.lef == 4 || g.lef == 2), g.oy + add g (g.bac == 4 || g.fro == 2), g.oz + add g (g.top == 4 || g.top == 2))

/-- Array index of sample `j` of the model. -/
def modelAt (g : Grid) (j : Pos) : Pos := ((modelOrigin g).1 + j.1, (modelOrigin g).2.1 + j.2.1, (modelOrigin g).2.2 + j.2.2)

/-- Array index of receiver at node `r` (fdelmodc3D/getRecTimes3D.c:59-61). -/
def receiverAt (g : Grid) (r : Pos) : Pos :=
  (r.1 + (receiverOrigin g).1, r.2.1 + (receiverOrigin g).2.1, r.2.2 + (receiverOrigin g).2.2)

/-- Array index of source `isrc` of a shot at node `s`, if it is used: point sources (fdelmodc3D/applySource3D.c:111-115, 133-134). -/
def sourceAt (g : Grid) (s : Pos) (isrc : Int) : Option Pos :=
  let ix := s.1 + (sourceOrigin g).1 + isrc
  let iy := s.2.1 + (sourceOrigin g).2.1 + isrc
  let iz := s.2.2 + (sourceOrigin g).2.2
  if ix - (sourceOrigin g).1 < 0 ∨ g.nx < ix - (sourceOrigin g).1 ∨ iy - (sourceOrigin g).2.1 < 0 ∨ g.ny < iy - (sourceOrigin g).2.1
  then none else some (ix, iy, iz)

/-- The node is one of the model. -/
def Inside (g : Grid) (s : Pos) : Prop := 0 ≤ s.1 ∧ s.1 < g.nx ∧ 0 ≤ s.2.1 ∧ s.2.1 < g.ny ∧ 0 ≤ s.2.2 ∧ s.2.2 < g.nz

/-- The front has an absorbing layer exactly if the test of sources and receivers says so. -/
def Consistent (g : Grid) : Prop := (g.fro = 4 ∨ g.fro = 2) ↔ (g.bac = 4 ∨ g.fro = 2)

theorem origin_eq {g : Grid} (h : Consistent g) : sourceOrigin g = modelOrigin g := by
  unfold sourceOrigin modelOrigin
  have e : (g.bac == 4 || g.fro == 2) = (g.fro == 4 || g.fro == 2) := by
    rw [Bool.eq_iff_iff]
    simp only [Bool.or_eq_true, beq_iff_eq]
    exact h.symm
  rw [e]

/-- **C214.** A source at a node of the model acts at the array element of that node, and a receiver records it there, for all types
of left, right, top and bottom side.  Missing: front and back of different types (`place_front_only`, `place_back_only`). -/
theorem place_nodes_partial (g : Grid) (s : Pos) (h : Consistent g) (hs : Inside g s) :
    sourceAt g s 0 = some (modelAt g s) ∧ receiverAt g s = modelAt g s := by
  obtain ⟨h1, h2, h3, h4, -, -⟩ := hs
  have e := origin_eq h
  have e' : receiverOrigin g = modelOrigin g := e
  constructor
  · unfold sourceAt modelAt
    dsimp only
    rw [if_neg (by omega), e]
    congr 1
    ext <;> dsimp only <;> omega
  · unfold receiverAt modelAt
    rw [e']
    ext <;> dsimp only <;> omega

/-- **C214.** The test agrees with the model exactly when front and back are both taper (4), the front is a PML (2), or neither is: the
combinations with a wrong place are those with the front 4 and the back not, or the back 4 and the front neither 4 nor 2. -/
theorem place_when (g : Grid) : Consistent g ↔ ¬ (g.fro = 4 ∧ g.bac ≠ 4) ∧ ¬ (g.bac = 4 ∧ g.fro ≠ 4 ∧ g.fro ≠ 2) := by
  unfold Consistent
  omega

/-- **C214 violated.** With a layer at the front and another side than a taper at the back, every source and receiver is `ntap`
points before its node of the model. -/
theorem place_front_only (g : Grid) (s : Pos) (hf : g.fro = 4) (hb : g.bac ≠ 4) (hs : Inside g s) :
    (∃ p, sourceAt g s 0 = some p ∧ p.2.1 = (modelAt g s).2.1 - g.ntap) ∧ (receiverAt g s).2.1 = (modelAt g s).2.1 - g.ntap := by
  obtain ⟨h1, h2, h3, h4, -, -⟩ := hs
  have a : (sourceOrigin g).2.1 = g.oy := by simp [sourceOrigin, add, hf, hb]
  have b : (modelOrigin g).2.1 = g.oy + g.ntap := by simp [modelOrigin, add, hf]
  have c : (receiverOrigin g).2.1 = g.oy := a
  constructor
  · unfold sourceAt
    dsimp only
    rw [if_neg (by omega)]
    refine ⟨_, rfl, ?_⟩
    unfold modelAt
    dsimp only
    omega
  · unfold receiverAt modelAt
    dsimp only
    omega

/-- **C214 violated.** With a taper at the back and no layer at the front they are `ntap` points after it. -/
theorem place_back_only (g : Grid) (s : Pos) (hb : g.bac = 4) (hf : g.fro ≠ 4) (hf2 : g.fro ≠ 2) (hs : Inside g s) :
    (∃ p, sourceAt g s 0 = some p ∧ p.2.1 = (modelAt g s).2.1 + g.ntap) ∧ (receiverAt g s).2.1 = (modelAt g s).2.1 + g.ntap := by
  obtain ⟨h1, h2, h3, h4, -, -⟩ := hs
  have a : (sourceOrigin g).2.1 = g.oy + g.ntap := by simp [sourceOrigin, add, hb]
  have b : (modelOrigin g).2.1 = g.oy := by simp [modelOrigin, add, hf, hf2]
  have c : (receiverOrigin g).2.1 = g.oy + g.ntap := a
  constructor
  · unfold sourceAt
    dsimp only
    rw [if_neg (by omega)]
    refine ⟨_, rfl, ?_⟩
    unfold modelAt
    dsimp only
    omega
  · unfold receiverAt modelAt
    dsimp only
    omega

/-- **C214 violated.** A source one node after the last of the model is not left out. -/
theorem place_outside (g : Grid) (s : Pos) (h : s.1 = g.nx) (hx : 0 ≤ g.nx) (hy : 0 ≤ s.2.1) (hy' : s.2.1 ≤ g.ny) :
    ¬ Inside g s ∧ (sourceAt g s 0).isSome := by
  refine ⟨fun hi => by have := hi.2.1; omega, ?_⟩
  unfold sourceAt
  dsimp only
  rw [if_neg (by omega)]
  rfl

/-- **C214.** Sources two nodes or more after the last in `x` or `y`, or before the first, are left out. -/
theorem place_left_out (g : Grid) (s : Pos) (h : s.1 < 0 ∨ g.nx < s.1 ∨ s.2.1 < 0 ∨ g.ny < s.2.1) : sourceAt g s 0 = none := by
  unfold sourceAt
  dsimp only
  rw [if_pos (by omega)]

/-- **C214.** The point sources of a shot lie on a diagonal: each is one node further in `x` and `y`. -/
theorem place_diagonal (g : Grid) (s : Pos) (isrc : Int) (hc : Consistent g) (h : Inside g (s.1 + isrc, s.2.1 + isrc, s.2.2)) :
    sourceAt g s isrc = some (modelAt g (s.1 + isrc, s.2.1 + isrc, s.2.2)) := by
  obtain ⟨h1, h2, h3, h4, -, -⟩ := h
  have e := origin_eq hc
  dsimp only at h1 h2 h3 h4
  unfold sourceAt modelAt
  dsimp only
  rw [if_neg (by omega), e]
  congr 1
  ext <;> dsimp only <;> omega

/-! ## Amplitude (fdelmodc3D/applySource3D.c:116-132) -/

/-- `src_ampl` at step `itime`; `none` is `continue`. -/
def amplitude (w : Int → ℚ) (dt tbeg tend : ℚ) (itime : Nat) : Option ℚ :=
  let time := itime * dt - tbeg
  let id1 := ⌊time / dt⌋
  let id2 := id1 + 1
  if time < 0 ∨ tend ≤ itime * dt then none else some (w id1 * (id2 - time / dt) + w id2 * (time / dt - id1))

/-- **C215.** During the time of the source its amplitude is the wavelet at the time since its begin, interpolated linearly between
two samples: between them in size, and the sample itself at a whole number of steps. -/
theorem amplitude_linear (w : Int → ℚ) (dt tbeg tend : ℚ) (itime : Nat) (hd : 0 < dt) (h1 : tbeg ≤ itime * dt)
    (h2 : itime * dt < tend) : ∃ (a : ℚ) (k : Int) (f : ℚ), amplitude w dt tbeg tend itime = some a ∧ 0 ≤ k ∧ 0 ≤ f ∧ f < 1 ∧
      itime * dt - tbeg = (k + f) * dt ∧ a = (1 - f) * w k + f * w (k + 1) := by
  have h0 : 0 ≤ (itime * dt - tbeg) / dt := div_nonneg (by linarith) hd.le
  have l := Int.floor_le ((itime * dt - tbeg) / dt)
  have u := Int.lt_floor_add_one ((itime * dt - tbeg) / dt)
  refine ⟨w ⌊(itime * dt - tbeg) / dt⌋ * ((⌊(itime * dt - tbeg) / dt⌋ + 1 : Int) - (itime * dt - tbeg) / dt) +
    w (⌊(itime * dt - tbeg) / dt⌋ + 1) * ((itime * dt - tbeg) / dt - ⌊(itime * dt - tbeg) / dt⌋),
    ⌊(itime * dt - tbeg) / dt⌋, (itime * dt - tbeg) / dt - ⌊(itime * dt - tbeg) / dt⌋, ?_, Int.floor_nonneg.mpr h0, by linarith,
    by linarith, ?_, ?_⟩
  · unfold amplitude
    dsimp only
    rw [if_neg (by intro h; rcases h with h | h <;> linarith)]
  · rw [add_sub_cancel, div_mul_cancel₀ _ hd.ne']
  · push_cast; ring

/-- **C215.** Before its begin and from its end on a source is silent. -/
theorem amplitude_silent (w : Int → ℚ) (dt tbeg tend : ℚ) (itime : Nat) (h : itime * dt < tbeg ∨ tend ≤ itime * dt) :
    amplitude w dt tbeg tend itime = none := by
  unfold amplitude
  dsimp only
  rw [if_pos (by rcases h with h | h; exact Or.inl (by linarith); exact Or.inr h)]

/-! Cases that meet the hypotheses. -/
example : sourceAt ⟨1, 1, 1, 50, 40, 30, 20, 4, 4, 4, 4⟩ (5, 6, 7) 0 = some (26, 27, 28) := by decide +kernel
example : Consistent ⟨1, 1, 1, 50, 40, 30, 20, 4, 4, 4, 4⟩ ∧ Inside ⟨1, 1, 1, 50, 40, 30, 20, 4, 4, 4, 4⟩ (5, 6, 7) := by
  unfold Consistent Inside; decide
example : (receiverAt ⟨1, 1, 1, 50, 40, 30, 20, 4, 4, 4, 1⟩ (5, 6, 7)).2.1 = 7 ∧
    (modelAt ⟨1, 1, 1, 50, 40, 30, 20, 4, 4, 4, 1⟩ (5, 6, 7)).2.1 = 27 := by decide +kernel
example : amplitude (fun k => k) 2 1 100 3 = some (5 / 2) := by decide +kernel

end Verif.Fd3.Place

import Verif.Base.Loop
import Mathlib.Tactic.Ring
import Mathlib.Tactic.NormNum
import Mathlib.Tactic.Linarith
import Mathlib.Algebra.Order.Field.Rat

/-!
# C24: is a shot modelled independently of the shots before it?

Models the shot loop of `fdelmodc/fdelmodc.c:522-770`: allocation (`:353-373`, `:414-420`), the
`memset`s at the start of a shot (`:528-541`), the reset of the CPML memory at time step 0
(`boundaries.c:232-241, 350-359, 1406-1414, 1493-1501`), the time loop (`:572-722`), the output of
the receivers (`:744`) and beams (`:749`), and the `memset`s of the receiver arrays (`:753-767`).

The finite-difference kernel is an arbitrary function of the allocated wavefield cells, so the
positive theorem holds for every kernel; the negative theorem uses the memory-variable update of
`viscoacoustic4.c:147-172`.
-/

namespace Verif.Fd
open Verif

/-- Dynamic wavefield arrays. `psi` stands for the CPML memory arrays of `boundaries.c`. -/
inductive Arr | vx | vz | tzz | txx | txz | r | p | q | psi
deriving DecidableEq, Repr

/-- What determines the allocation: `mod.ischeme`, `mod.nfw`, `sizem = mod.nax*mod.naz`. -/
structure Scheme where
  ischeme : Int
  nfw : Nat
  sizem : Nat

/-- Allocated length, fdelmodc.c:358-362 (`q` for the visco-acoustic scheme), 367-374
(visco-elastic), 412-418 and boundaries.c:145-148. -/
def alloc (c : Scheme) : Arr → Nat
  | .vx | .vz | .tzz | .psi => c.sizem
  | .txx | .txz => if c.ischeme > 2 then c.sizem else 0
  | .r | .p => if c.ischeme = 4 then c.sizem else 0
  | .q => if c.ischeme = 2 then c.nfw * c.sizem else if c.ischeme = 4 then c.sizem else 0

/-- Number of leading elements set to zero at the start of a shot, fdelmodc.c:528-541 and, for
`psi`, boundaries.c:235-238. -/
def cleared (c : Scheme) : Arr → Nat
  | .vx | .vz | .tzz | .psi => c.sizem
  | .txx | .txz => if c.ischeme > 2 then c.sizem else 0
  | .r | .p => if c.ischeme = 4 then c.sizem else 0
  | .q => if c.ischeme = 2 then c.sizem else if c.ischeme = 4 then c.sizem else 0

/-- Contents of the wavefield arrays. -/
abbrev Fields := Arr → Nat → ℚ

/-- The `memset`s. -/
def reset (c : Scheme) (f : Fields) : Fields := fun a i => if i < cleared c a then 0 else f a i

/-- Two states agree on all allocated cells. -/
def Agree (c : Scheme) (f g : Fields) : Prop := ∀ a i, i < alloc c a → f a i = g a i

/-- The physics of one shot: `step it` is a call of the FD kernel, `obs it` what `getRecTimes` adds
to the receiver array, `energy it` what `getBeamTimes` adds to the beam array. -/
structure Kernel where
  nt : Nat
  step : Nat → Fields → Fields
  obs : Nat → Fields → Nat → ℚ
  energy : Nat → Fields → Nat → ℚ

/-- The kernel uses nothing but the allocated cells. -/
def Kernel.Local (c : Scheme) (k : Kernel) : Prop := ∀ it f g, Agree c f g →
  Agree c (k.step it f) (k.step it g) ∧ k.obs it f = k.obs it g ∧ k.energy it f = k.energy it g

/-- Run state: wavefields, receiver array, beam array. -/
structure RunState where
  f : Fields
  recv : Nat → ℚ
  beam : Nat → ℚ

/-- One time step, fdelmodc.c:572-722. -/
def timeStep (k : Kernel) (it : Nat) (s : RunState) : RunState :=
  let f := k.step it s.f
  { f := f, recv := fun i => s.recv i + k.obs it f i, beam := fun i => s.beam i + k.energy it f i }

/-- One shot: returns the state for the next shot and the written receiver and beam records. -/
def shot (c : Scheme) (k : Kernel) (s : RunState) : RunState × (Nat → ℚ) × (Nat → ℚ) :=
  let s := forN k.nt (timeStep k) { s with f := reset c s.f }
  ({ s with recv := fun _ => 0 }, s.recv, s.beam)

/-- The shot loop: list of written receiver and beam records. -/
def shots (c : Scheme) : List Kernel → RunState → List ((Nat → ℚ) × (Nat → ℚ))
  | [], _ => []
  | k :: ks, s => (shot c k s).2 :: shots c ks (shot c k s).1

/-- All arrays are allocated with `calloc`. -/
def start : RunState := ⟨fun _ _ => 0, fun _ => 0, fun _ => 0⟩

theorem reset_agree (c : Scheme) (hc : c.ischeme ≠ 2 ∨ c.nfw ≤ 1) (f : Fields) :
    Agree c (reset c f) (fun _ _ => 0) := by
  intro a i hi
  unfold reset
  have : alloc c a ≤ cleared c a := by
    cases a <;> simp only [alloc, cleared] <;> try exact le_refl _
    split
    · rename_i h
      have : c.nfw ≤ 1 := hc.resolve_left (fun h' => h' h)
      calc c.nfw * c.sizem ≤ 1 * c.sizem := Nat.mul_le_mul_right _ this
        _ = c.sizem := Nat.one_mul _
    · exact le_refl _
  rw [if_pos (lt_of_lt_of_le hi this)]

theorem timeLoop_agree (c : Scheme) (k : Kernel) (hk : k.Local c) (n : Nat) (s t : RunState)
    (h : Agree c s.f t.f) (hr : s.recv = t.recv) :
    Agree c (forN n (timeStep k) s).f (forN n (timeStep k) t).f ∧
      (forN n (timeStep k) s).recv = (forN n (timeStep k) t).recv := by
  induction n with
  | zero => exact ⟨h, hr⟩
  | succ n ih =>
    rw [forN_succ, forN_succ]
    obtain ⟨h1, h2, _⟩ := hk n _ _ ih.1
    generalize forN n (timeStep k) s = s' at *
    generalize forN n (timeStep k) t = t' at *
    unfold timeStep
    refine ⟨h1, ?_⟩
    dsimp only
    funext i
    -- `obs` is applied to the stepped fields
    obtain ⟨_, ho, _⟩ := hk n _ _ h1
    rw [ih.2, ho]

theorem shot_indep (c : Scheme) (hc : c.ischeme ≠ 2 ∨ c.nfw ≤ 1) (k : Kernel) (hk : k.Local c)
    (s : RunState) (hr : s.recv = fun _ => 0) : (shot c k s).2.1 = (shot c k start).2.1 := by
  unfold shot
  dsimp only
  refine (timeLoop_agree c k hk k.nt _ _ ?_ ?_).2
  · intro a i hi
    dsimp only
    rw [reset_agree c hc s.f a i hi, reset_agree c hc start.f a i hi]
  · exact hr

theorem shots_indep (c : Scheme) (hc : c.ischeme ≠ 2 ∨ c.nfw ≤ 1) (ks : List Kernel) :
    (∀ k ∈ ks, k.Local c) → ∀ s : RunState, (s.recv = fun _ => 0) →
    (shots c ks s).map Prod.fst = ks.map (fun k => (shot c k start).2.1) := by
  induction ks with
  | nil => intro _ s _; rfl
  | cons k ks ih =>
    intro hk s hr
    simp only [shots, List.map_cons]
    rw [shot_indep c hc k (hk k (List.mem_cons_self)) s hr,
      ih (fun k' h' => hk k' (List.mem_cons_of_mem _ h')) _ rfl]

/-- **C24 (partial).**  For every FD kernel and every list of shots, the receiver record of each
shot is the one obtained by modelling it alone — for all schemes except the visco-acoustic one with
more than one relaxation mechanism.  Missing: that scheme (refuted by `visco_shots_dependent`) and
the beam files (refuted by `beams_accumulate`). -/
theorem shots_independent_partial (c : Scheme) (hc : c.ischeme ≠ 2 ∨ c.nfw ≤ 1) (ks : List Kernel)
    (hk : ∀ k ∈ ks, k.Local c) :
    (shots c ks start).map Prod.fst = ks.map (fun k => (shot c k start).2.1) :=
  shots_indep c hc ks hk start rfl

/-- Non-vacuity: a two-cell elastic kernel with coupling and a source is local. -/
example : Kernel.Local ⟨3, 0, 2⟩
    { nt := 5, step := fun it f a i => if i < 2 then f .vx i + f .txz (1 - i) + it else f a i,
      obs := fun _ f _ => f .vx 0, energy := fun _ f _ => f .vz 1 } := by
  intro it f g h
  refine ⟨?_, ?_, ?_⟩
  · intro a i hi
    have hi2 : i < 2 := by cases a <;> simp [alloc] at hi <;> omega
    simp only [hi2, if_true]
    rw [h .vx i (by simpa [alloc] using hi2), h .txz (1 - i) (by simp [alloc]; omega)]
  · funext _; exact h .vx 0 (by simp [alloc])
  · funext _; exact h .vz 1 (by simp [alloc])

/-! ## The visco-acoustic scheme -/

/-- viscoacoustic4.c:152-170 for one mechanism `imech` of the cell `cell = ix*n1+iz`:
`idx = ix*n1*nfw + iz*nfw = cell*nfw`, parameters `tss`, `tep` (per element), `weight`, `l2m`. -/
def viscoMech (nfw : Nat) (tss tep : Nat → ℚ) (weight : Nat → ℚ) (l2m : ℚ) (dt divv : ℚ)
    (cell imech : Nat) (f : Fields) : Fields :=
  let idx := cell * nfw
  let tssi := tss (imech + idx)
  let Tpp := tssi * tep (imech + idx)
  let p1 := f .tzz cell - (l2m * Tpp * divv + weight imech * f .q (imech + idx))
  let Tlm := (1 - Tpp) * tssi * l2m
  let nom := 1 / (1 + 1/2 * tssi * dt)
  let q1 := nom * (f .q (imech + idx) * (1 - 1/2 * tssi * dt) + 1/2 * Tlm * divv * dt)
  let p2 := p1 - weight imech * q1
  fun a i => if a = .q ∧ i = imech + idx then q1 else if a = .tzz ∧ i = cell then p2 else f a i

/-- The loop over cells and mechanisms, viscoacoustic4.c:131-175, for given divergence of the
velocity. -/
def viscoSweep (c : Scheme) (tss tep weight : Nat → ℚ) (l2m dt : ℚ) (divv : Nat → ℚ)
    (f : Fields) : Fields :=
  forN c.sizem (fun cell f =>
    forN c.nfw (fun imech f => viscoMech c.nfw tss tep weight l2m dt (divv cell) cell imech f) f) f

/-- The memory variables of every cell in the upper part of the array survive the `memset`. -/
theorem visco_memory_survives (c : Scheme) (hc : c.ischeme = 2) (f : Fields) (i : Nat)
    (hi : c.sizem ≤ i) : reset c f .q i = f .q i := by
  unfold reset
  have : cleared c .q = c.sizem := by simp [cleared, hc]
  rw [this, if_neg (by omega)]

/-- A visco-acoustic shot of one time step on a grid of two cells, two mechanisms; `amp` is the
velocity divergence in cell 1 (where the source is); the receiver is in cell 1. -/
def viscoShot (amp : ℚ) : Kernel where
  nt := 1
  step := fun _ f => viscoSweep ⟨2, 2, 2⟩ (fun _ => 1) (fun _ => 1/2) (fun _ => 1/2) 1 (1/10)
    (fun cell => if cell = 1 then amp else 0) f
  obs := fun _ f _ => f .tzz 1
  energy := fun _ _ _ => 0

/-- C24 fails for the visco-acoustic scheme with two mechanisms: a silent shot (zero source)
records a non-zero pressure when it is modelled after another shot. -/
theorem visco_shots_dependent :
    ((shots ⟨2, 2, 2⟩ [viscoShot 0] start).map (fun o => o.1 0) = [0]) ∧
    ((shots ⟨2, 2, 2⟩ [viscoShot 1, viscoShot 0] start).map (fun o => o.1 0)).getLast? ≠ some 0 := by
  constructor <;> decide +kernel

/-- Beam arrays are never cleared: the beam record of a later shot is the sum over all shots so
far. -/
theorem beams_accumulate (c : Scheme) (k : Kernel) (s : RunState) (i : Nat) :
    (shot c k s).2.2 i = s.beam i + (shot c k { s with beam := fun _ => 0 }).2.2 i ∧
    (shot c k s).1.beam i = (shot c k s).2.2 i := by
  refine ⟨?_, rfl⟩
  unfold shot
  dsimp only
  have key : ∀ n, (forN n (timeStep k) { s with f := reset c s.f }).f =
      (forN n (timeStep k) ⟨reset c s.f, s.recv, fun _ => 0⟩).f ∧
      (forN n (timeStep k) { s with f := reset c s.f }).beam i =
        s.beam i + (forN n (timeStep k) ⟨reset c s.f, s.recv, fun _ => 0⟩).beam i := by
    intro n
    induction n with
    | zero => simp
    | succ n ih =>
      rw [forN_succ, forN_succ]
      generalize forN n (timeStep k) { s with f := reset c s.f } = s' at *
      generalize forN n (timeStep k) ⟨reset c s.f, s.recv, fun _ => 0⟩ = t' at *
      unfold timeStep
      dsimp only
      rw [ih.1, ih.2]
      exact ⟨rfl, by ring⟩
  exact (key k.nt).2

end Verif.Fd

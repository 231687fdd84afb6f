import Verif.Base.Loop
import Mathlib.Algebra.Order.Floor.Ring
import Mathlib.Data.Rat.Floor
import Mathlib.Tactic.Linarith
import Mathlib.Tactic.Positivity
import Mathlib.Tactic.NormNum

/-!
# C22 and C25: which process models which shot, and which shots are kept

Models `fdelmodc/fdelmodc.c:513-515` (MPI split of the shot loop) and
`fdelmodc/getParameters.c:606-613` (list of shot positions).
-/

namespace Verif.Fd
open Verif

/-! ## MPI split -/

/-- Single precision arithmetic is modelled by an arbitrary rounding function: `rnd` is applied to
the exact result of every `float` operation.  Assumed: monotone, and relative error at most `2^-23`
(IEEE single precision, round to nearest, has `2^-24`; no overflow or underflow for these
magnitudes). -/
structure FloatRounding (rnd : ℚ → ℚ) : Prop where
  mono : ∀ x y, x ≤ y → rnd x ≤ rnd y
  err : ∀ x, 0 ≤ x → x - x / 2^23 ≤ rnd x

/-- fdelmodc.c:513 `npeshot = MAX((((float)shot.n)/((float)npes)), 1.0);`
(the conversions of `shot.n` and `npes` are exact below 2^24). -/
def npeshot (rnd : ℚ → ℚ) (n npes : Nat) : ℚ := max (rnd ((n:ℚ) / npes)) 1

/-- fdelmodc.c:514 `is0=ceil(pe*npeshot);` -/
def is0 (rnd : ℚ → ℚ) (n npes pe : Nat) : Int := ⌈rnd (pe * npeshot rnd n npes)⌉

/-- fdelmodc.c:515 `is1=MIN(ceil((pe+1)*npeshot), shot.n);` -/
def is1 (rnd : ℚ → ℚ) (n npes pe : Nat) : Int :=
  min ⌈rnd (((pe + 1 : Nat):ℚ) * npeshot rnd n npes)⌉ n

/-- Process `pe` models shot `ishot`: fdelmodc.c:522 `for (ishot=is0; ishot<is1; ishot++)`. -/
def models (rnd : ℚ → ℚ) (n npes pe : Nat) (ishot : Int) : Prop :=
  is0 rnd n npes pe ≤ ishot ∧ ishot < is1 rnd n npes pe

theorem bound_mono {rnd : ℚ → ℚ} (h : FloatRounding rnd) (n npes : Nat) {a b : Nat} (hab : a ≤ b) :
    ⌈rnd ((a:ℚ) * npeshot rnd n npes)⌉ ≤ ⌈rnd ((b:ℚ) * npeshot rnd n npes)⌉ := by
  apply Int.ceil_le_ceil
  apply h.mono
  have h1 : (1:ℚ) ≤ npeshot rnd n npes := le_max_right _ _
  have h2 : (a:ℚ) ≤ b := by exact_mod_cast hab
  nlinarith

/-- The upper end of the last process reaches the last shot. -/
theorem last_bound {rnd : ℚ → ℚ} (h : FloatRounding rnd) (n npes : Nat) (hp : 0 < npes)
    (hn : n ≤ 2^21) : (n:Int) ≤ ⌈rnd ((npes:ℚ) * npeshot rnd n npes)⌉ := by
  have hpq : (0:ℚ) < npes := by exact_mod_cast hp
  have hnq : (n:ℚ) ≤ 2^21 := by exact_mod_cast hn
  have hn0 : (0:ℚ) ≤ n := by positivity
  have h1 : (n:ℚ)/npes - (n:ℚ)/npes / 2^23 ≤ npeshot rnd n npes :=
    le_trans (h.err _ (by positivity)) (le_max_left _ _)
  have h2 : (n:ℚ) - n / 2^23 ≤ npes * npeshot rnd n npes := by
    have : (npes:ℚ) * ((n:ℚ)/npes - (n:ℚ)/npes / 2^23) = n - n / 2^23 := by field_simp
    nlinarith
  have h3 := h.err ((npes:ℚ) * npeshot rnd n npes) (by
    have : (0:ℚ) ≤ n - n/2^23 := by linarith [hn0]
    linarith)
  have h4 : ((n:ℚ) - n/2^23) - ((n:ℚ) - n/2^23)/2^23 ≤ rnd ((npes:ℚ) * npeshot rnd n npes) := by
    refine le_trans ?_ h3
    generalize (npes:ℚ) * npeshot rnd n npes = y at *
    linarith
  have h5 : ((n:ℚ) - 1) < rnd ((npes:ℚ) * npeshot rnd n npes) := by
    refine lt_of_lt_of_le ?_ h4
    linarith
  have h6 : ((n:Int) - 1 : Int) < ⌈rnd ((npes:ℚ) * npeshot rnd n npes)⌉ := by
    rw [Int.lt_ceil]; push_cast; exact h5
  omega

/-- **C22.**  For every rounding of the single precision arithmetic, every number of shots up to
`2^21` and every number of processes: each shot is modelled by exactly one process, and no process
models a shot number outside the list. -/
theorem every_shot_once {rnd : ℚ → ℚ} (h : FloatRounding rnd) (h0 : rnd 0 = 0) (n npes : Nat)
    (hp : 0 < npes) (hn : n ≤ 2^21) :
    (∀ ishot : Int, 0 ≤ ishot → ishot < n → ∃! pe : Nat, pe < npes ∧ models rnd n npes pe ishot) ∧
    (∀ pe : Nat, ∀ ishot, models rnd n npes pe ishot → 0 ≤ ishot ∧ ishot < n) := by
  set B : Nat → Int := fun a => ⌈rnd ((a:ℚ) * npeshot rnd n npes)⌉ with hB
  have hmono : ∀ {a b : Nat}, a ≤ b → B a ≤ B b := fun hab => bound_mono h n npes hab
  have hB0 : B 0 = 0 := by simp [hB, h0]
  have hBn : (n:Int) ≤ B npes := last_bound h n npes hp hn
  have hm : ∀ pe ishot, models rnd n npes pe ishot ↔ B pe ≤ ishot ∧ ishot < min (B (pe+1)) n := by
    intro pe ishot; rfl
  constructor
  · intro i hi0 hin
    -- the largest a with B a ≤ i
    have hex : ∃ a, i < B a := ⟨npes, by omega⟩
    classical
    have hfs := Nat.find_spec hex
    have hmin := fun m (hm : m < Nat.find hex) => Nat.find_min hex hm
    have hpos : 0 < Nat.find hex := by
      rcases Nat.eq_zero_or_pos (Nat.find hex) with h1 | h1
      · rw [h1, hB0] at hfs; omega
      · exact h1
    have hle : Nat.find hex ≤ npes := Nat.find_min' hex (by omega)
    refine ⟨Nat.find hex - 1, ⟨by omega, ?_⟩, ?_⟩
    · rw [hm]
      have := hmin (Nat.find hex - 1) (by omega)
      rw [show Nat.find hex - 1 + 1 = Nat.find hex by omega]
      omega
    · rintro pe ⟨hpe, hmod⟩
      rw [hm] at hmod
      have h1 : Nat.find hex ≤ pe + 1 := Nat.find_min' hex (by omega)
      have h2 : ¬ Nat.find hex ≤ pe := fun hc => by
        have := hmono hc; omega
      omega
  · intro pe i hmod
    rw [hm] at hmod
    have := hmono (Nat.zero_le pe)
    omega

/-- Exact arithmetic is an admissible rounding; with it 7 shots on 3 processes are split 3,2,2. -/
example : FloatRounding id := ⟨fun _ _ h => h, fun x hx => by simp; positivity⟩
example : (List.range 3).map (fun pe => (is0 id 7 3 pe, is1 id 7 3 pe)) = [(0,3), (3,5), (5,7)] := by
  decide +kernel
/-- An inexact rounding also satisfies the hypotheses: chopping to 24 binary digits after the point. -/
example : FloatRounding (fun x => x - x / 2^23) :=
  ⟨fun x y h => by linarith, fun x _ => le_refl _⟩

/-! ## The list of shot positions -/

/-- State of the loop `getParameters.c:608-613`: the current value of `shot->n` and the positions
stored so far (newest last); `done` records that the loop condition failed. -/
structure ShotLoop where
  n : Int
  pos : List (Int × Int) := []
deriving DecidableEq, Repr

/-- One iteration, getParameters.c:609-612 (executed only while `is < shot->n`). -/
def shotStep (ix0 iz0 idx idz nx nz : Int) (is : Nat) (s : ShotLoop) : ShotLoop :=
  if (is:Int) < s.n then
    let x := ix0 + is * idx
    let z := iz0 + is * idz
    let n1 := if x > nx - 1 then (is:Int) - 1 else s.n
    let n2 := if z > nz - 1 then (is:Int) - 1 else n1
    { n := n2, pos := s.pos ++ [(x, z)] }
  else s

/-- The whole loop for `shot->n = N` requested shots.  (`is` never exceeds `N`, because `shot->n`
only decreases.) -/
def shotList (ix0 iz0 idx idz nx nz : Int) (N : Nat) : ShotLoop :=
  forN N (shotStep ix0 iz0 idx idz nx nz) { n := N }

/-- Specification: shot `is` lies inside the model. -/
def Inside (ix0 iz0 idx idz nx nz : Int) (is : Nat) : Prop :=
  ix0 + is * idx ≤ nx - 1 ∧ iz0 + is * idz ≤ nz - 1

theorem shotList_prefix (ix0 iz0 idx idz nx nz : Int) (N m : Nat) (hm : m ≤ N)
    (h : ∀ k, k < m → Inside ix0 iz0 idx idz nx nz k) :
    forN m (shotStep ix0 iz0 idx idz nx nz) { n := N } =
      { n := N, pos := (List.range m).map fun k : Nat => (ix0 + k * idx, iz0 + k * idz) } := by
  induction m with
  | zero => rfl
  | succ m ih =>
    rw [forN_succ, ih (by omega) (fun k hk => h k (by omega))]
    obtain ⟨h1, h2⟩ := h m (by omega)
    unfold shotStep
    dsimp only
    rw [if_pos (by omega), if_neg (by omega), if_neg (by omega), List.range_succ, List.map_append]
    rfl

/-- **C25 (partial).**  If every requested shot is inside the model all are kept, at the requested
positions. -/
theorem all_shots_kept_partial (ix0 iz0 idx idz nx nz : Int) (N : Nat)
    (h : ∀ k, k < N → Inside ix0 iz0 idx idz nx nz k) :
    shotList ix0 iz0 idx idz nx nz N =
      { n := N, pos := (List.range N).map fun k : Nat => (ix0 + k * idx, iz0 + k * idz) } :=
  shotList_prefix ix0 iz0 idx idz nx nz N N (le_refl _) h

example : (shotList 10 0 5 0 101 51 4) = { n := 4, pos := [(10,0),(15,0),(20,0),(25,0)] } := by decide

/-- If shot `m` is the first one outside the model, the code keeps `m-1` shots: the last shot that
does fit (number `m-1`) is dropped as well. -/
theorem shots_kept_when_line_leaves_model (ix0 iz0 idx idz nx nz : Int) (N m : Nat) (hm : m < N)
    (h : ∀ k, k < m → Inside ix0 iz0 idx idz nx nz k) (hout : ¬ Inside ix0 iz0 idx idz nx nz m) :
    (shotList ix0 iz0 idx idz nx nz N).n = (m:Int) - 1 := by
  have key : ∀ j, m + 1 + j ≤ N →
      (forN (m + 1 + j) (shotStep ix0 iz0 idx idz nx nz) { n := N }).n = (m:Int) - 1 := by
    intro j
    induction j with
    | zero =>
      intro _
      rw [Nat.add_zero, forN_succ, shotList_prefix _ _ _ _ _ _ N m (by omega) h]
      unfold shotStep Inside at *
      dsimp only
      rw [if_pos (by omega)]
      dsimp only
      split
      · rfl
      · split
        · rfl
        · omega
    | succ j ih =>
      intro hj
      have := ih (by omega)
      rw [← Nat.add_assoc, forN_succ]
      generalize forN (m + 1 + j) (shotStep ix0 iz0 idx idz nx nz) { n := N } = s at *
      unfold shotStep
      rw [if_neg (by rw [this]; push_cast; omega)]
      exact this
  have := key (N - (m+1)) (by omega)
  rwa [show m + 1 + (N - (m+1)) = N by omega] at this

/-- C25 fails: 100 grid points, shots at 0, 30, 60, 90, 120: four fit, three are modelled. -/
theorem shots_lost : (shotList 0 0 30 0 100 100 5).n = 3 ∧
    ∀ k, k < 4 → Inside 0 0 30 0 100 100 k := by
  refine ⟨by decide, ?_⟩
  intro k hk
  unfold Inside
  omega

/-- What remains true for every shot line: a kept shot is inside the model. -/
theorem kept_shots_inside (ix0 iz0 idx idz nx nz : Int) (N k : Nat)
    (hk : (k:Int) < (shotList ix0 iz0 idx idz nx nz N).n) : Inside ix0 iz0 idx idz nx nz k := by
  by_contra hc
  classical
  have hex : ∃ k, ¬ Inside ix0 iz0 idx idz nx nz k := ⟨k, hc⟩
  have hmin : ∀ j, j < Nat.find hex → Inside ix0 iz0 idx idz nx nz j :=
    fun j hj => not_not.mp (Nat.find_min hex hj)
  have hle : Nat.find hex ≤ k := Nat.find_min' hex hc
  by_cases hN : Nat.find hex < N
  · rw [shots_kept_when_line_leaves_model _ _ _ _ _ _ N _ hN hmin (Nat.find_spec hex)] at hk
    omega
  · rw [all_shots_kept_partial _ _ _ _ _ _ N (fun j hj => hmin j (by omega))] at hk
    dsimp only at hk
    omega

example : Inside 0 0 30 0 100 100 2 := kept_shots_inside 0 0 30 0 100 100 5 2 (by decide)

/-- The first shot can be outside (its position is clipped to `nx`, not to `nx-1`,
getParameters.c:595); then `shot->n` becomes -1. -/
theorem first_shot_outside : (shotList 100 0 30 0 100 100 5).n = -1 := by decide

end Verif.Fd

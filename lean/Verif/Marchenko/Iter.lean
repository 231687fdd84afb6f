import Verif.Base.Loop
import Verif.Fft.KissDft
import Mathlib.Data.Real.Basic
import Mathlib.Algebra.BigOperators.Group.Finset.Basic
import Mathlib.Algebra.BigOperators.Intervals
import Mathlib.Algebra.BigOperators.Ring.Finset
import Mathlib.Tactic.Ring
import Mathlib.Tactic.FieldSimp
import Mathlib.Tactic.Linarith

/-!
# C21: the Marchenko iteration (marchenko/marchenko.c:452-640)

A field is indexed by focal point, trace and time sample; the flat index `l*nxs*nts+i*nts+j` of the C arrays
is split into its three parts (this simplification is the only one made to the loops: each nest of loops
over `l`, `i`, `j` assigns every element once and is written as one pointwise update).
The kernel of the synthesis (multiplication with the reflection response) is an arbitrary operator `R` on
fields over the operator grid, and the mutes are arbitrary operators that work on the `npos` traces.
-/

namespace Verif.Marchenko.Iter
open Verif Finset

noncomputable section

/-- focal point, trace, time sample -/
abbrev Field := Nat → Nat → Nat → ℝ

/-- The inputs of the iteration. -/
structure Par where
  Nfoc : Nat
  npos : Nat
  nts : Nat
  G_d : Field
  ixpos : Nat → Nat
  /-- multiplication with the reflection response and integration, synthesis.c:141-240 -/
  R : Field → Field
  /-- `applyMute(…,-above,…)` or `applyMute_plane(…,iter)`, marchenko.c:507-512 -/
  mute : Nat → Field → Field
  /-- `above==-2` and the mute with `above=0` of line 524 -/
  extra : Bool
  mute0 : Field → Field

/-- element inside the loops -/
def Par.In (p : Par) (l i j : Nat) : Prop := l < p.Nfoc ∧ i < p.npos ∧ j < p.nts
instance (p : Par) (l i j : Nat) : Decidable (p.In l i j) := by unfold Par.In; infer_instance

/-- A nest of loops assigning `g` to the elements `l<Nfoc`, `i<npos`, `j<nts`. -/
def Par.assign (p : Par) (f g : Field) : Field := fun l i j => if p.In l i j then g l i j else f l i j

/-- `j=0` stays, `j>=1` becomes `nts-j`. -/
def rev (nts j : Nat) : Nat := if j = 0 then 0 else nts - j

/-- The operator in the synthesis, synthesis.c:97-131: on the first call all traces of `Top`, on later calls
trace `i` of `Top` placed at `ixpos[i]`, all other traces zero; `mode=-1` takes the complex conjugate of the
spectrum, i.e. time reversal (see `conj_is_reversal`). -/
def Par.operator (p : Par) (first : Bool) (mode : Int) (Top : Field) : Field :=
  let t : Field := if mode = -1 then fun l i j => Top l i (rev p.nts j) else Top
  if first then t
  else forN p.npos (fun i F => fun l ix j => if ix = p.ixpos i then t l i j else F l ix j) (fun _ _ _ => 0)

/-- Variables of `main` that the iteration changes (`first` is the static variable of `synthesis`). -/
structure St where
  Ni : Field
  f2p : Field
  f1plus : Field
  f1min : Field
  pmin : Field
  iRN : Field
  first : Bool

/-- marchenko.c:219-226 (calloc) and 452-465. -/
def Par.init (p : Par) : St where
  Ni := p.G_d
  f2p := p.assign (fun _ _ _ => 0) (fun l i j => p.G_d l (p.ixpos i) j)
  f1plus := p.assign (fun _ _ _ => 0) (fun l i j => p.G_d l (p.ixpos i) j)
  f1min := fun _ _ _ => 0
  pmin := fun _ _ _ => 0
  iRN := fun _ _ _ => 0
  first := true

/-- marchenko.c:474-503: `synthesis(Ni)`, `Ni(t) = -iRN(-t)`, `pmin += iRN`. -/
def Par.synth (p : Par) (s : St) : St :=
  let iRN := p.R (p.operator s.first 1 s.Ni)
  { s with
    first := false
    iRN := iRN
    Ni := p.assign s.Ni (fun l i j => -iRN l (p.ixpos i) (rev p.nts j))
    pmin := p.assign s.pmin (fun l i j => s.pmin l i j + iRN l (p.ixpos i) j) }

/-- marchenko.c:514-550: the updates of the focusing functions. -/
def Par.update (p : Par) (iter : Nat) (s : St) : St :=
  let s := if iter % 2 = 0 then
      let f := p.assign s.f1min (fun l i j => s.f1min l i j - s.Ni l i (rev p.nts j))
      { s with f1min := if p.extra then p.mute0 f else f }
    else { s with f1plus := p.assign s.f1plus (fun l i j => s.f1plus l i j + s.Ni l i j) }
  { s with f2p := p.assign s.f2p (fun l i j => s.f2p l i j + s.Ni l i j) }

/-- One iteration, marchenko.c:468-556. -/
def Par.step (p : Par) (iter : Nat) (s : St) : St :=
  let s := p.synth s
  p.update iter { s with Ni := p.mute iter s.Ni }

/-- `niter` iterations. -/
def Par.run (p : Par) (niter : Nat) : St := forN niter (fun k => p.step k) p.init

/-- The Green's function before its mute, marchenko.c:559-572 (traces whose mute time is beyond `nts/2` are
zeroed there; those are left out). -/
def Par.green (p : Par) (s : St) : Field :=
  p.assign (fun _ _ _ => 0) (fun l i j => s.f2p l i (rev p.nts j) + s.pmin l i j)

/-- `Gmin` before its mute, marchenko.c:575-598. -/
def Par.Gmin (p : Par) (s : St) : Field :=
  let iRN := p.R (p.operator s.first 1 s.f1plus)
  p.assign (fun _ _ _ => 0) (fun l i j => iRN l (p.ixpos i) j - s.f1min l i j)

/-- `Gplus` before its mute, marchenko.c:609-628. -/
def Par.Gplus (p : Par) (s : St) : Field :=
  let iRN := p.R (p.operator s.first (-1) s.f1min)
  p.assign (fun _ _ _ => 0) (fun l i j => -iRN l (p.ixpos i) j + s.f1plus l i (rev p.nts j))

/-! ### Specification: the terms of the Neumann series -/

/-- A field given on the `npos` traces, placed on the operator grid. -/
def Par.place (p : Par) (f : Field) : Field := p.operator false 1 f

/-- `N_k`: minus the time-reversed, muted response to the previous term; the zeroth previous term is the direct
field. -/
def Par.term (p : Par) : Nat → Field
  | 0 => p.mute 0 fun l i j => -p.R p.G_d l (p.ixpos i) (rev p.nts j)
  | k+1 => p.mute (k+1) fun l i j => -p.R (p.place (p.term k)) l (p.ixpos i) (rev p.nts j)

/-- The response in iteration `k`: `R` applied to the previous term. -/
def Par.response (p : Par) : Nat → Field
  | 0 => fun l i j => p.R p.G_d l (p.ixpos i) j
  | k+1 => fun l i j => p.R (p.place (p.term k)) l (p.ixpos i) j

/-- Fields that agree on the traces and samples in use. -/
def Par.Agree (p : Par) (f g : Field) : Prop := ∀ l i j, p.In l i j → f l i j = g l i j

/-- The mute looks only at, and the response depends only on, the traces and samples in use. -/
structure Par.Local (p : Par) : Prop where
  mute : ∀ k f g, p.Agree f g → p.Agree (p.mute k f) (p.mute k g)
  R : ∀ f g, (∀ l ix j, l < p.Nfoc → j < p.nts → f l ix j = g l ix j) →
    ∀ l ix j, l < p.Nfoc → j < p.nts → p.R f l ix j = p.R g l ix j

theorem rev_lt {nts j : Nat} (h : j < nts) : rev nts j < nts := by unfold rev; split <;> omega
theorem rev_rev {nts j : Nat} (h : j < nts) : rev nts (rev nts j) = j := by
  unfold rev; split <;> split <;> omega

theorem operator_congr (p : Par) (mode : Int) {f g : Field} (h : p.Agree f g) (l ix j : Nat) (hl : l < p.Nfoc)
    (hj : j < p.nts) : p.operator false mode f l ix j = p.operator false mode g l ix j := by
  unfold Par.operator
  simp only [Bool.false_eq_true, if_false]
  have key : ∀ n, n ≤ p.npos →
      forN n (fun i (F : Field) => fun l ix j => if ix = p.ixpos i then
        (if mode = -1 then fun l i j => f l i (rev p.nts j) else f : Field) l i j else F l ix j) (fun _ _ _ => 0) l ix j =
      forN n (fun i (F : Field) => fun l ix j => if ix = p.ixpos i then
        (if mode = -1 then fun l i j => g l i (rev p.nts j) else g : Field) l i j else F l ix j) (fun _ _ _ => 0) l ix j := by
    intro n
    induction n with
    | zero => intro _; rfl
    | succ n ih =>
      intro hn
      rw [forN_succ, forN_succ]
      split
      · split
        · exact h l n _ ⟨hl, by omega, rev_lt hj⟩
        · exact h l n j ⟨hl, by omega, hj⟩
      · exact ih (by omega)
  exact key _ (le_refl _)

theorem step_Ni_f1 (p : Par) (iter : Nat) (s : St) :
    (p.step iter s).Ni = p.mute iter (p.synth s).Ni ∧ (p.step iter s).first = false ∧
    (p.step iter s).pmin = (p.synth s).pmin := by
  unfold Par.step Par.update
  dsimp only
  split <;> exact ⟨rfl, rfl, rfl⟩

/-- **C21.** After every number `n` of iterations, on every trace and sample:
`f2` is the direct field plus all terms, `f1+` the direct field plus the odd terms, `f1-` minus the sum of
the time-reversed even terms, and `p-` the sum of the responses. -/
theorem iteration_sums_partial (p : Par) (hloc : p.Local) (hx : p.extra = false) (n : Nat) (l i j : Nat)
    (hin : p.In l i j) :
    (p.run n).f2p l i j = p.G_d l (p.ixpos i) j + ∑ k ∈ range n, p.term k l i j ∧
    (p.run n).f1plus l i j = p.G_d l (p.ixpos i) j + ∑ k ∈ (range n).filter (fun k => k % 2 = 1), p.term k l i j ∧
    (p.run n).f1min l i j = -∑ k ∈ (range n).filter (fun k => k % 2 = 0), p.term k l i (rev p.nts j) ∧
    (p.run n).pmin l i j = ∑ k ∈ range n, p.response k l i j := by
  -- the terms
  have hN : ∀ n, (p.run n).first = (n == 0) ∧
      (n = 0 → (p.run n).Ni = p.G_d) ∧ (∀ k, n = k + 1 → p.Agree (p.run n).Ni (p.term k)) ∧
      (∀ l i j, p.In l i j → p.R (p.operator (p.run n).first 1 (p.run n).Ni) l (p.ixpos i) j = p.response n l i j) := by
    intro n
    induction n with
    | zero =>
      exact ⟨rfl, fun _ => rfl, fun k h => absurd h (by omega), fun _ _ _ _ => rfl⟩
    | succ n ih =>
      obtain ⟨i1, i2, i3, i4⟩ := ih
      have hr : p.run (n+1) = p.step n (p.run n) := rfl
      obtain ⟨s1, s2, s3⟩ := step_Ni_f1 p n (p.run n)
      have hag : p.Agree (p.run (n+1)).Ni (p.term n) := by
        rw [hr, s1]
        have e : p.Agree (p.synth (p.run n)).Ni (fun l i j => -p.response n l i (rev p.nts j)) := by
          intro l i j h
          unfold Par.synth Par.assign
          dsimp only
          rw [if_pos h, i4 l i (rev p.nts j) ⟨h.1, h.2.1, rev_lt h.2.2⟩]
        have := hloc.mute n _ _ e
        cases n with
        | zero => exact this
        | succ k => exact this
      refine ⟨by rw [hr, s2]; rfl, fun h => absurd h (by omega), fun k hk => ?_, ?_⟩
      · have : k = n := by omega
        subst this; exact hag
      · intro l i j h
        rw [hr, s2, ← hr]
        exact hloc.R _ _ (fun l ix j hl hj => operator_congr p 1 hag l ix j hl hj) l _ j h.1 h.2.2
  -- the sums
  induction n generalizing l i j with
  | zero =>
    refine ⟨?_, ?_, ?_, rfl⟩
    · rw [sum_range_zero, add_zero]; exact if_pos hin
    · rw [range_zero, filter_empty, sum_empty, add_zero]; exact if_pos hin
    · rw [range_zero, filter_empty, sum_empty, neg_zero]; rfl
  | succ n ih =>
    obtain ⟨h1, h2, h3, h4⟩ := ih l i j hin
    have hr : p.run (n+1) = p.step n (p.run n) := rfl
    have hag := (hN (n+1)).2.2.1 n rfl
    obtain ⟨s1, s2, s3⟩ := step_Ni_f1 p n (p.run n)
    rw [hr, s1] at hag
    have hag1 := hag l i j hin
    have hag2 := hag l i (rev p.nts j) ⟨hin.1, hin.2.1, rev_lt hin.2.2⟩
    rw [range_add_one, filter_insert, filter_insert, sum_insert (by simp), sum_insert (by simp)]
    have hpm : (p.run (n+1)).pmin l i j = p.response n l i j + ∑ k ∈ range n, p.response k l i j := by
      rw [hr, s3]
      unfold Par.synth Par.assign
      dsimp only
      rw [if_pos hin, (hN n).2.2.2 l i j hin, h4]; ring
    by_cases he : n % 2 = 0
    · have ho : ¬ n % 2 = 1 := by omega
      rw [if_neg ho, if_pos he, sum_insert (by simp)]
      refine ⟨?_, ?_, ?_, hpm⟩
      · rw [hr]
        unfold Par.step Par.update
        simp only [he, if_true, Par.assign, if_pos hin]
        rw [hag1]
        have : (p.synth (p.run n)).f2p = (p.run n).f2p := rfl
        rw [this, h1]; ring
      · rw [hr]
        unfold Par.step Par.update
        simp only [he, if_true]
        exact h2
      · rw [hr]
        unfold Par.step Par.update
        simp only [he, if_true, hx, Bool.false_eq_true, if_false, Par.assign, if_pos hin]
        rw [hag2]
        have : (p.synth (p.run n)).f1min = (p.run n).f1min := rfl
        rw [this, h3]; ring
    · have ho : n % 2 = 1 := by omega
      rw [if_pos ho, if_neg he, sum_insert (by simp)]
      refine ⟨?_, ?_, ?_, hpm⟩
      · rw [hr]
        unfold Par.step Par.update
        simp only [he, if_false, Par.assign, if_pos hin]
        rw [hag1]
        have : (p.synth (p.run n)).f2p = (p.run n).f2p := rfl
        rw [this, h1]; ring
      · rw [hr]
        unfold Par.step Par.update
        simp only [he, if_false, Par.assign, if_pos hin]
        rw [hag1]
        have : (p.synth (p.run n)).f1plus = (p.run n).f1plus := rfl
        rw [this, h2]; ring
      · rw [hr]
        unfold Par.step Par.update
        simp only [he, if_false]
        exact h3

/-- **C21.** Hence always `f2(t) = f1+(t) - f1-(-t)`. -/
theorem f2_from_f1_partial (p : Par) (hloc : p.Local) (hx : p.extra = false) (n : Nat) (l i j : Nat) (hin : p.In l i j) :
    (p.run n).f2p l i j = (p.run n).f1plus l i j - (p.run n).f1min l i (rev p.nts j) := by
  have hin' : p.In l i (rev p.nts j) := ⟨hin.1, hin.2.1, rev_lt hin.2.2⟩
  obtain ⟨h1, h2, _, _⟩ := iteration_sums_partial p hloc hx n l i j hin
  obtain ⟨_, _, h3, _⟩ := iteration_sums_partial p hloc hx n l i _ hin'
  rw [h1, h2, h3, rev_rev hin.2.2]
  have := sum_filter_add_sum_filter_not (range n) (fun k => k % 2 = 1) (fun k => p.term k l i j)
  rw [← this]
  have e : (range n).filter (fun k => ¬ k % 2 = 1) = (range n).filter (fun k => k % 2 = 0) := by
    apply filter_congr; intro k _; omega
  rw [e]; ring

/-! ### Linear response: the two ways to compute the Green's function -/

/-- `R` is linear. -/
structure Linear (R : Field → Field) : Prop where
  add : ∀ f g l i j, R (fun l i j => f l i j + g l i j) l i j = R f l i j + R g l i j
  neg : ∀ f l i j, R (fun l i j => -f l i j) l i j = -R f l i j

theorem operator_pointwise (p : Par) (mode : Int) (f : Field) (l ix j : Nat) :
    p.operator false mode f l ix j =
      forN p.npos (fun i v => if ix = p.ixpos i then f l i (if mode = -1 then rev p.nts j else j) else v) 0 := by
  unfold Par.operator
  simp only [Bool.false_eq_true, if_false]
  induction p.npos with
  | zero => rfl
  | succ n ih =>
    rw [forN_succ, forN_succ]
    by_cases h : ix = p.ixpos n
    · rw [if_pos h, if_pos h]; split <;> rfl
    · rw [if_neg h, if_neg h]; exact ih

theorem operator_add (p : Par) (f g : Field) (l ix j : Nat) :
    p.operator false 1 (fun l i j => f l i j + g l i j) l ix j =
      p.operator false 1 f l ix j + p.operator false 1 g l ix j := by
  simp only [operator_pointwise, show ¬ (1:Int) = -1 from by decide, if_false]
  induction p.npos with
  | zero => simp
  | succ n ih => simp only [forN_succ]; split <;> [rfl; exact ih]

theorem operator_neg_rev (p : Par) (f : Field) (l ix j : Nat) :
    p.operator false 1 (fun l i j => -f l i (rev p.nts j)) l ix j = -p.operator false (-1) f l ix j := by
  simp only [operator_pointwise, show ¬ (1:Int) = -1 from by decide, if_false, if_true]
  induction p.npos with
  | zero => simp
  | succ n ih => simp only [forN_succ]; split <;> [rfl; exact ih]

/-- **C21.** For a linear response and at least one iteration, the up- and down-going Green's functions add up to
the full Green's function plus the response to the last term, which the full one does not contain
(marchenko.c adds the responses before the last update of `f2`); provided the direct field is zero outside
the synthesis positions. -/
theorem green_decomposition_partial (p : Par) (hloc : p.Local) (hx : p.extra = false) (hR : Linear p.R) (n : Nat)
    (hG : ∀ l ix j, l < p.Nfoc → j < p.nts →
      p.G_d l ix j = p.place (fun l i j => p.G_d l (p.ixpos i) j) l ix j)
    (l i j : Nat) (hin : p.In l i j) :
    p.Gmin (p.run (n+1)) l i j + p.Gplus (p.run (n+1)) l i j =
      p.green (p.run (n+1)) l i j + p.R (p.place (p.term n)) l (p.ixpos i) j := by
  have hin' : p.In l i (rev p.nts j) := ⟨hin.1, hin.2.1, rev_lt hin.2.2⟩
  have hfirst : (p.run (n+1)).first = false := (step_Ni_f1 p n (p.run n)).2.1
  have hf2 := f2_from_f1_partial p hloc hx (n+1)
  -- response of f2 = response of all terms
  have key : ∀ m, ∀ l ix j, l < p.Nfoc → j < p.nts →
      p.R (p.place (fun l i j => p.G_d l (p.ixpos i) j + ∑ k ∈ range m, p.term k l i j)) l ix j =
      p.R p.G_d l ix j + ∑ k ∈ range m, p.R (p.place (p.term k)) l ix j := by
    intro m
    induction m with
    | zero =>
      intro l ix j hl hj
      rw [sum_range_zero, add_zero]
      apply hloc.R _ _ _ l ix j hl hj
      intro l ix j hl hj
      rw [hG l ix j hl hj]
      unfold Par.place
      apply operator_congr p 1 _ l ix j hl hj
      intro l i j _
      simp
    | succ m ih =>
      intro l ix j hl hj
      rw [sum_range_succ, ← add_assoc, ← ih l ix j hl hj, ← hR.add]
      apply hloc.R _ _ _ l ix j hl hj
      intro l ix j hl hj
      unfold Par.place
      rw [← operator_add]
      apply operator_congr p 1 _ l ix j hl hj
      intro l i j _
      beta_reduce
      rw [sum_range_succ, add_assoc]
  obtain ⟨h1, h2, h3, h4⟩ := iteration_sums_partial p hloc hx (n+1) l i j hin
  have hresp : ∀ m, ∑ k ∈ range (m+1), p.response k l i j =
      p.R p.G_d l (p.ixpos i) j + ∑ k ∈ range m, p.R (p.place (p.term k)) l (p.ixpos i) j := by
    intro m
    rw [sum_range_succ', add_comm]; rfl
  -- total response of the decomposed functions
  have htot : p.R (p.operator false 1 (p.run (n+1)).f1plus) l (p.ixpos i) j -
      p.R (p.operator false (-1) (p.run (n+1)).f1min) l (p.ixpos i) j =
      p.R p.G_d l (p.ixpos i) j + ∑ k ∈ range (n+1), p.R (p.place (p.term k)) l (p.ixpos i) j := by
    rw [← key (n+1) l _ j hin.1 hin.2.2, sub_eq_add_neg, ← hR.neg, ← hR.add]
    apply hloc.R _ _ _ l _ j hin.1 hin.2.2
    intro l ix j hl hj
    rw [← operator_neg_rev, ← operator_add]
    unfold Par.place
    apply operator_congr p 1 _ l ix j hl hj
    intro l i j h
    beta_reduce
    rw [← (iteration_sums_partial p hloc hx (n+1) l i j h).1, hf2 l i j h]; ring
  unfold Par.Gmin Par.Gplus Par.green Par.assign
  dsimp only
  rw [if_pos hin, if_pos hin, if_pos hin, hfirst, h4, hresp n, hf2 l i _ hin', rev_rev hin.2.2]
  rw [sum_range_succ] at htot
  linarith

/-! ### Conjugating a spectrum reverses time -/

/-- For a real trace of `n` samples the complex conjugate of its spectrum is the spectrum of the time-reversed
trace (used for `mode=-1`). -/
theorem conj_is_reversal (n : Nat) (hn : 0 < n) (x : Nat → ℝ) (k : Nat) :
    (starRingEnd ℂ) (Fft.dft (-1) n (fun j => (x j : ℂ)) k) = Fft.dft (-1) n (fun j => (x (rev n j) : ℂ)) k := by
  obtain ⟨n, rfl⟩ : ∃ m, n = m + 1 := ⟨n - 1, by omega⟩
  unfold Fft.dft
  rw [map_sum, sum_range_succ', sum_range_succ']
  congr 1
  · rw [← sum_range_reflect]
    apply sum_congr rfl
    intro j hj
    have hj' := mem_range.mp hj
    have hrev : rev (n+1) (j+1) = n - 1 - j + 1 := by unfold rev; rw [if_neg (by omega)]; omega
    beta_reduce
    rw [hrev, map_mul, Complex.conj_ofReal, ← Complex.exp_conj]
    congr 1
    rw [Complex.exp_eq_exp_iff_exists_int]
    refine ⟨k, ?_⟩
    have hc : ((n - 1 - j + 1 : ℕ) : ℂ) = (n : ℂ) - j := by
      have : n - 1 - j + 1 = n - j := by omega
      rw [this, Nat.cast_sub (by omega)]
    have hne : ((n:ℂ) + 1) ≠ 0 := by exact_mod_cast Nat.succ_ne_zero n
    rw [hc]
    simp only [map_mul, map_div₀, Complex.conj_I, Complex.conj_ofReal, map_sub, map_add, Complex.conj_natCast,
      Int.reduceNeg, Int.cast_neg, Int.cast_one, map_neg, map_one, Nat.cast_add, Nat.cast_one, map_ofNat]
    field_simp
    push_cast
    ring
  · beta_reduce
    have h0 : rev (n+1) 0 = 0 := rfl
    rw [h0, map_mul, Complex.conj_ofReal, ← Complex.exp_conj]
    simp

/-- A non-trivial instance of the hypotheses: one focal point, two traces, four samples, the identity as
response and no muting. -/
def sample : Par where
  Nfoc := 1
  npos := 2
  nts := 4
  G_d := fun _ ix j => if ix < 2 then ix + j else 0
  ixpos := fun i => i
  R := fun f => f
  mute := fun _ f => f
  extra := false
  mute0 := fun f => f
example : sample.Local ∧ Linear sample.R ∧
    ∀ l ix j, l < sample.Nfoc → j < sample.nts →
      sample.G_d l ix j = sample.place (fun l i j => sample.G_d l (sample.ixpos i) j) l ix j := by
  refine ⟨⟨fun _ _ _ h => h, fun _ _ h => h⟩, ⟨fun _ _ _ _ _ => rfl, fun _ _ _ _ => rfl⟩, ?_⟩
  intro l ix j _ _
  unfold Par.place
  rw [operator_pointwise]
  change sample.G_d l ix j = (if ix = 1 then sample.G_d l 1 j else if ix = 0 then sample.G_d l 0 j else 0)
  split
  · next h => rw [h]
  · split
    · next h => rw [h]
    · have : ¬ ix < 2 := by omega
      exact if_neg this

end

end Verif.Marchenko.Iter

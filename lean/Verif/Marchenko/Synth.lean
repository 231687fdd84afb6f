import Verif.Base.ParProg
import Verif.Marchenko.Positions
import Mathlib.Data.Real.Basic
import Mathlib.Data.Complex.Basic
import Mathlib.Algebra.BigOperators.Group.Finset.Basic
import Mathlib.Algebra.BigOperators.Ring.Finset
import Mathlib.Tactic.Ring
import Mathlib.Tactic.Linarith
import Mathlib.Tactic.NormNum
import Mathlib.Tactic.IntervalCases

/-!
# C20: the parallel shot loops of the synthesis (marchenko/synthesis.c:141-240)

Every shot (iteration of the `omp for` loop) is a thread; its private variables `sum`, `rtrace` depend
only on arrays nobody writes in the parallel region, so only the accesses to the shared result `RNi` are
memory steps: a read and a separate write for every `+=`.
The inverse real FFT `cr1fft(sum, rtrace, ntfft, 1)` is an arbitrary function `inv` of the spectrum.
-/

namespace Verif.Marchenko
open Verif Verif.Par Finset

noncomputable section

/-- The inputs of the synthesis that are only read. -/
structure SynIn where
  nx : Nat
  nxs : Nat
  nts : Nat
  Nfoc : Nat
  nshots : Nat
  nwLow : Nat
  nwHigh : Nat
  scl : ℝ
  dx : ℝ
  dxsrc : ℝ
  /-- shot `k` passes the test `xsrc[k] < fxb || xsrc[k] > fxe` of line 154 -/
  inside : Nat → Bool
  /-- `ixsrc` of shot `k`, line 155 -/
  ixsrc : Nat → Int
  xnx : Nat → Nat
  /-- `ixrcv[k*nx+i]` -/
  ixrcv : Nat → Nat → Int
  /-- `Refl[k*nw*nx+m*nx+i]` -/
  Refl : Nat → Nat → Nat → ℂ
  /-- `Fop[l*nw*nxs+m*nxs+ix]` -/
  Fop : Nat → Nat → Int → ℂ
  /-- `cr1fft(sum, rtrace, ntfft, 1)` -/
  inv : (Nat → ℂ) → Nat → ℝ

/-- `sum[j]` after lines 161-172: zero outside `[nw_low,nw_high]`, inside accumulated over the traces of the
shot (`m = j-nw_low`). -/
def SynIn.sum (s : SynIn) (k l : Nat) (j : Nat) : ℂ :=
  if s.nwLow ≤ j ∧ j ≤ s.nwHigh then
    forN (s.xnx k) (fun i z =>
      let R := s.Refl k (j - s.nwLow) i
      let F := s.Fop l (j - s.nwLow) (s.ixrcv k i)
      ⟨z.re + (R.re * F.re - R.im * F.im), z.im + (R.im * F.re + R.re * F.im)⟩) 0
  else 0

/-- What shot `k` adds to sample `j` of its output trace for focal point `l`: `rtrace[j]*scl*dx`
(lines 175-179). -/
def SynIn.contrib (s : SynIn) (k l j : Nat) : ℝ := s.inv (s.sum k l) j * s.scl * s.dx

/-- `RNi[a] += c`. -/
def addTo (a : Int) (c : ℝ) : Instr Int ℝ := ⟨[a], a, fun r => r.headD 0 + c⟩

/-- Index `l*size+ix*nts+j` with `size=nxs*nts`. -/
def SynIn.at (s : SynIn) (l : Nat) (ix : Int) (j : Nat) : Int := l * (s.nxs * s.nts) + ix * s.nts + j

/-- The memory accesses of shot `k`, lines 153-181. -/
def SynIn.prog (s : SynIn) (k : Nat) : List (Instr Int ℝ) :=
  if k < s.nshots ∧ s.inside k then
    (List.range s.Nfoc).flatMap fun l =>
      (List.range s.nts).map fun j => addTo (s.at l (s.ixsrc k) j) (s.contrib k l j)
  else []

/-! ### Specification -/

/-- The discretised integral over the receivers, line 161-172, as a sum. -/
theorem SynIn.sum_eq (s : SynIn) (k l j : Nat) : s.sum k l j =
    if s.nwLow ≤ j ∧ j ≤ s.nwHigh then
      ∑ i ∈ range (s.xnx k), s.Refl k (j - s.nwLow) i * s.Fop l (j - s.nwLow) (s.ixrcv k i) else 0 := by
  unfold SynIn.sum
  split
  · have : ∀ n, forN n (fun i (z : ℂ) =>
        let R := s.Refl k (j - s.nwLow) i
        let F := s.Fop l (j - s.nwLow) (s.ixrcv k i)
        (⟨z.re + (R.re * F.re - R.im * F.im), z.im + (R.im * F.re + R.re * F.im)⟩ : ℂ)) 0 =
        ∑ i ∈ range n, s.Refl k (j - s.nwLow) i * s.Fop l (j - s.nwLow) (s.ixrcv k i) := by
      intro n
      induction n with
      | zero => rfl
      | succ n ih =>
        rw [forN_succ, ih, sum_range_succ]
        apply Complex.ext
        · simp only [Complex.add_re, Complex.mul_re]
        · simp only [Complex.add_im, Complex.mul_im]; ring
    exact this _
  · rfl

/-- What the result should be: at every position the sum of the contributions of the accepted shots at
that position, and zero elsewhere. -/
def SynIn.spec (s : SynIn) (l : Nat) (ix : Int) (j : Nat) : ℝ :=
  ∑ k ∈ range s.nshots, if s.inside k ∧ s.ixsrc k = ix then s.contrib k l j else 0

/-! ### Sequential execution -/

theorem list_range_sum (f : Nat → ℝ) (n : Nat) : ((List.range n).map f).sum = ∑ i ∈ range n, f i := by
  induction n with
  | zero => rfl
  | succ n ih => rw [List.range_succ, List.map_append, List.sum_append, ih, sum_range_succ]; simp

theorem seqInstr_addTo (a : Int) (c : ℝ) (m : Int → ℝ) (b : Int) :
    seqInstr (addTo a c) m b = m b + if b = a then c else 0 := by
  unfold seqInstr addTo store
  by_cases h : b = a
  · subst h; simp
  · simp [h]

theorem seqProg_addTo (p : List (Int × ℝ)) : ∀ (m : Int → ℝ) (b : Int),
    seqProg (p.map fun q => addTo q.1 q.2) m b = m b + (p.map fun q => if b = q.1 then q.2 else 0).sum := by
  induction p with
  | nil => intro m b; simp [seqProg]
  | cons q p ih =>
    intro m b
    have : seqProg ((q :: p).map fun q => addTo q.1 q.2) m =
        seqProg (p.map fun q => addTo q.1 q.2) (seqInstr (addTo q.1 q.2) m) := rfl
    rw [this, ih, seqInstr_addTo, List.map_cons, List.sum_cons]
    ring

/-- Addresses are unique. -/
theorem SynIn.at_inj (s : SynIn) {l l' j j' : Nat} {ix ix' : Int} (hj : j < s.nts) (hj' : j' < s.nts)
    (h0 : 0 ≤ ix) (h1 : ix < s.nxs) (h0' : 0 ≤ ix') (h1' : ix' < s.nxs)
    (h : s.at l ix j = s.at l' ix' j') : l = l' ∧ ix = ix' ∧ j = j' := by
  unfold SynIn.at at h
  have e1 : (l * (s.nxs * s.nts) + ix * s.nts + j : Int) = ((l * s.nxs + ix) * s.nts + j) := by ring
  have e2 : (l' * (s.nxs * s.nts) + ix' * s.nts + j' : Int) = ((l' * s.nxs + ix') * s.nts + j') := by ring
  rw [e1, e2] at h
  have hn : (0:Int) < s.nts := by omega
  have hx : (0:Int) < s.nxs := by omega
  have d1 : ((l * s.nxs + ix) * s.nts + j : Int) / s.nts = l * s.nxs + ix := by
    rw [Int.add_comm, Int.add_mul_ediv_right _ _ (by omega), Int.ediv_eq_zero_of_lt (by omega) (by omega)]; ring
  have d2 : ((l' * s.nxs + ix') * s.nts + j' : Int) / s.nts = l' * s.nxs + ix' := by
    rw [Int.add_comm, Int.add_mul_ediv_right _ _ (by omega), Int.ediv_eq_zero_of_lt (by omega) (by omega)]; ring
  rw [h, d2] at d1
  have f1 : ((l:Int) * s.nxs + ix) / s.nxs = l := by
    rw [Int.add_comm, Int.add_mul_ediv_right _ _ (by omega), Int.ediv_eq_zero_of_lt (by omega) (by omega)]; ring
  have f2 : ((l':Int) * s.nxs + ix') / s.nxs = l' := by
    rw [Int.add_comm, Int.add_mul_ediv_right _ _ (by omega), Int.ediv_eq_zero_of_lt (by omega) (by omega)]; ring
  rw [← d1, f2] at f1
  have hl : l = l' := by omega
  subst hl
  have hix : ix = ix' := by omega
  subst hix
  exact ⟨rfl, rfl, by omega⟩

/-- All accepted shots fall on operator positions (see `accepted_in_range`). -/
def SynIn.OnGrid (s : SynIn) : Prop :=
  ∀ k, k < s.nshots → s.inside k → 0 ≤ s.ixsrc k ∧ s.ixsrc k < s.nxs

theorem SynIn.shot_effect (s : SynIn) (hg : s.OnGrid) (k : Nat) (m : Int → ℝ) (l : Nat) (hl : l < s.Nfoc)
    (ix : Int) (h0 : 0 ≤ ix) (h1 : ix < s.nxs) (j : Nat) (hj : j < s.nts) :
    seqProg (s.prog k) m (s.at l ix j) =
      m (s.at l ix j) + if k < s.nshots ∧ s.inside k ∧ s.ixsrc k = ix then s.contrib k l j else 0 := by
  unfold SynIn.prog
  by_cases hc : k < s.nshots ∧ s.inside k
  · rw [if_pos hc]
    have hmap : ((List.range s.Nfoc).flatMap fun l =>
        (List.range s.nts).map fun j => addTo (s.at l (s.ixsrc k) j) (s.contrib k l j)) =
        ((List.range s.Nfoc).flatMap fun l =>
          (List.range s.nts).map fun j => (s.at l (s.ixsrc k) j, s.contrib k l j)).map fun q => addTo q.1 q.2 := by
      rw [List.map_flatMap]
      congr 1
      funext l
      rw [List.map_map]
      rfl
    rw [hmap, seqProg_addTo]
    congr 1
    obtain ⟨g0, g1⟩ := hg k hc.1 hc.2
    rw [List.map_flatMap, List.flatMap_def, List.sum_flatten, List.map_map]
    have inner : ∀ l', l' < s.Nfoc → (((List.range s.nts).map fun j => (s.at l' (s.ixsrc k) j, s.contrib k l' j)).map
        fun q => if s.at l ix j = q.1 then q.2 else 0).sum =
        if l' = l ∧ s.ixsrc k = ix then s.contrib k l j else 0 := by
      intro l' hl'
      rw [List.map_map]
      have e : ((List.range s.nts).map ((fun q : Int × ℝ => if s.at l ix j = q.1 then q.2 else 0) ∘
          fun j => (s.at l' (s.ixsrc k) j, s.contrib k l' j))).sum =
          ∑ j' ∈ range s.nts, if s.at l ix j = s.at l' (s.ixsrc k) j' then s.contrib k l' j' else 0 := by
        rw [list_range_sum]; rfl
      rw [e]
      by_cases hq : l' = l ∧ s.ixsrc k = ix
      · rw [if_pos hq]
        obtain ⟨q1, q2⟩ := hq
        subst q1
        rw [q2, Finset.sum_eq_single j]
        · rw [if_pos rfl]
        · intro b hb hbj
          rw [if_neg]
          intro he
          exact hbj (s.at_inj hj (mem_range.mp hb) h0 h1 h0 h1 he).2.2.symm
        · intro hn; exact absurd (mem_range.mpr hj) hn
      · rw [if_neg hq]
        apply Finset.sum_eq_zero
        intro b hb
        rw [if_neg]
        intro he
        have := s.at_inj hj (mem_range.mp hb) h0 h1 g0 g1 he
        exact hq ⟨this.1.symm, this.2.1.symm⟩
    have e2 : ((List.range s.Nfoc).map (List.sum ∘ fun l' => ((List.range s.nts).map fun j =>
        (s.at l' (s.ixsrc k) j, s.contrib k l' j)).map fun q => if s.at l ix j = q.1 then q.2 else 0)).sum =
        ∑ l' ∈ range s.Nfoc, if l' = l ∧ s.ixsrc k = ix then s.contrib k l j else 0 := by
      rw [list_range_sum]
      exact Finset.sum_congr rfl fun a ha => inner a (mem_range.mp ha)
    refine e2.trans ?_
    rw [Finset.sum_eq_single l]
    · simp only [hc, true_and]
    · intro b _ hb
      rw [if_neg (fun h => hb h.1)]
    · intro hn; exact absurd (mem_range.mpr hl) hn
  · rw [if_neg hc, if_neg (fun h => hc ⟨h.1, h.2.1⟩)]
    simp [seqProg]

/-- The sequential loop over all shots computes the specified sums. -/
theorem SynIn.sequential (s : SynIn) (hg : s.OnGrid) (l : Nat) (hl : l < s.Nfoc)
    (ix : Int) (h0 : 0 ≤ ix) (h1 : ix < s.nxs) (j : Nat) (hj : j < s.nts) :
    ((List.range s.nshots).foldl (fun m k => seqProg (s.prog k) m) fun _ => 0) (s.at l ix j) = s.spec l ix j := by
  have key : ∀ n, n ≤ s.nshots →
      ((List.range n).foldl (fun m k => seqProg (s.prog k) m) fun _ => (0:ℝ)) (s.at l ix j) =
      ∑ k ∈ range n, if s.inside k ∧ s.ixsrc k = ix then s.contrib k l j else 0 := by
    intro n
    induction n with
    | zero => intro _; rfl
    | succ n ih =>
      intro hn
      rw [List.range_succ, List.foldl_append, sum_range_succ, ← ih (by omega)]
      simp only [List.foldl_cons, List.foldl_nil]
      rw [s.shot_effect hg n _ l hl ix h0 h1 j hj]
      congr 1
      have : n < s.nshots := by omega
      simp only [this, true_and]
  exact key _ (le_refl _)

/-! ### The parallel loop -/

theorem SynIn.writes (s : SynIn) (k : Nat) (a : Int) :
    (Writes s.prog k a ∨ Reads s.prog k a) →
      k < s.nshots ∧ s.inside k ∧ ∃ l j, l < s.Nfoc ∧ j < s.nts ∧ a = s.at l (s.ixsrc k) j := by
  intro h
  have hi : ∃ i ∈ s.prog k, a ∈ i.reads ∨ i.dst = a := by
    rcases h with ⟨i, h1, h2⟩ | ⟨i, h1, h2⟩
    · exact ⟨i, h1, Or.inr h2⟩
    · exact ⟨i, h1, Or.inl h2⟩
  obtain ⟨i, h1, h2⟩ := hi
  unfold SynIn.prog at h1
  by_cases hc : k < s.nshots ∧ s.inside k
  · rw [if_pos hc] at h1
    simp only [List.mem_flatMap, List.mem_map, List.mem_range] at h1
    obtain ⟨l, hl, j, hj, he⟩ := h1
    refine ⟨hc.1, hc.2, l, j, hl, hj, ?_⟩
    rw [← he] at h2
    simp only [addTo, List.mem_singleton] at h2
    rcases h2 with q | q
    · exact q
    · exact q.symm
  · rw [if_neg hc] at h1
    exact absurd h1 (by simp)

/-- The accepted shots are at different positions. -/
def SynIn.DistinctPositions (s : SynIn) : Prop :=
  ∀ k k', k < s.nshots → k' < s.nshots → s.inside k → s.inside k' → s.ixsrc k = s.ixsrc k' → k = k'

theorem SynIn.raceFree (s : SynIn) (hg : s.OnGrid) (hd : s.DistinctPositions) : RaceFree s.prog := by
  have key : ∀ t u a, t ≠ u → Writes s.prog t a → ¬ (Writes s.prog u a ∨ Reads s.prog u a) := by
    intro t u a htu h1 h2
    obtain ⟨a1, a2, l, j, hl, hj, e⟩ := s.writes t a (Or.inl h1)
    obtain ⟨b1, b2, l', j', hl', hj', e'⟩ := s.writes u a h2
    obtain ⟨g0, g1⟩ := hg t a1 a2
    obtain ⟨g0', g1'⟩ := hg u b1 b2
    have := s.at_inj hj hj' g0 g1 g0' g1' (e ▸ e')
    exact htu (hd t u a1 b1 a2 b2 this.2.1)
  intro t u a htu h1
  exact ⟨fun h => key t u a htu h1 (Or.inl h), fun h => key t u a htu h1 (Or.inr h)⟩

/-- **C20.** If the accepted shots lie at different operator positions, every complete schedule of the
parallel loop, started on the zeroed result array, leaves at every focal point, position and time exactly the
contribution sum of the shots at that position. -/
theorem synthesis_schedule_independent (s : SynIn) (hg : s.OnGrid) (hd : s.DistinctPositions) (sched : List Nat)
    (hdone : Done (progSys s.prog) (exec (progSys s.prog) sched (start fun _ => 0)))
    (l : Nat) (hl : l < s.Nfoc) (ix : Int) (h0 : 0 ≤ ix) (h1 : ix < s.nxs) (j : Nat) (hj : j < s.nts) :
    (exec (progSys s.prog) sched (start fun _ => 0)).mem (s.at l ix j) = s.spec l ix j := by
  rw [par_eq_seq (s.raceFree hg hd) (fun _ => 0) (List.range s.nshots) List.nodup_range (by
    intro t ht
    unfold SynIn.prog
    rw [if_neg]
    rw [List.mem_range] at ht
    exact fun h => ht h.1) sched hdone]
  exact s.sequential hg l hl ix h0 h1 j hj

/-- Two shots at the same position: one focal point, one sample, contributions 1 and 2. -/
def twoShots : SynIn where
  nx := 1
  nxs := 1
  nts := 1
  Nfoc := 1
  nshots := 2
  nwLow := 0
  nwHigh := 0
  scl := 1
  dx := 1
  dxsrc := 1
  inside := fun _ => true
  ixsrc := fun _ => 0
  xnx := fun _ => 1
  ixrcv := fun _ _ => 0
  Refl := fun k _ _ => (k : ℂ) + 1
  Fop := fun _ _ _ => 1
  inv := fun z _ => (z 0).re

/-- **C20, the excluded case.** With two shots at one position a complete schedule exists that loses the
contribution of one of them. -/
theorem synthesis_lost_update :
    ∃ sched : List Nat, Done (progSys twoShots.prog) (exec (progSys twoShots.prog) sched (start fun _ => 0)) ∧
      (exec (progSys twoShots.prog) sched (start fun _ => 0)).mem (twoShots.at 0 0 0) ≠ twoShots.spec 0 0 0 := by
  have hat : twoShots.at 0 0 0 = 0 := rfl
  have c0 : ∀ k, twoShots.contrib k 0 0 = k + 1 := by
    intro k
    unfold SynIn.contrib
    have : twoShots.sum k 0 0 = (k:ℂ) + 1 := by
      rw [SynIn.sum_eq]
      simp [twoShots]
    change (twoShots.sum k 0 0).re * 1 * 1 = _
    rw [this]; simp
  have hp : ∀ k, k < 2 → twoShots.prog k = [addTo 0 (k + 1)] := by
    intro k hk
    unfold SynIn.prog
    rw [if_pos ⟨hk, rfl⟩]
    change [addTo _ (twoShots.contrib k 0 0)] = _
    rw [c0 k]; rfl
  have hp2 : ∀ k, ¬ k < 2 → twoShots.prog k = [] := by
    intro k hk
    unfold SynIn.prog
    rw [if_neg]
    exact fun h => hk h.1
  have s0 : ∀ m, progSys twoShots.prog 0 (0, []) m = some ((0, [m 0]), m) := by
    intro m; unfold progSys; rw [hp 0 (by omega)]; rfl
  have s1 : ∀ m, progSys twoShots.prog 1 (0, []) m = some ((0, [m 0]), m) := by
    intro m; unfold progSys; rw [hp 1 (by omega)]; rfl
  have t0 : ∀ m v, progSys twoShots.prog 0 (0, [v]) m = some ((1, []), store m 0 (v + ((0:ℕ) + 1))) := by
    intro m v; unfold progSys; rw [hp 0 (by omega)]; rfl
  have t1 : ∀ m v, progSys twoShots.prog 1 (0, [v]) m = some ((1, []), store m 0 (v + ((1:ℕ) + 1))) := by
    intro m v; unfold progSys; rw [hp 1 (by omega)]; rfl
  have hex : exec (progSys twoShots.prog) [0, 1, 0, 1] (start fun _ => 0) =
      ⟨fun u => if u = 1 then (1, []) else if u = 0 then (1, []) else (0, []), store (store (fun _ => 0) 0 (0 + ((0:ℕ) + 1))) 0 (0 + ((1:ℕ) + 1))⟩ := by
    unfold exec start
    simp only [List.foldl_cons, List.foldl_nil]
    simp only [step, s0, s1, t0, t1, if_true, if_false, Nat.one_ne_zero, Nat.zero_ne_one]
    congr 1
    funext u
    split
    · rfl
    · split
      · rfl
      · next h1 h2 => simp [h1, h2]
  refine ⟨[0, 1, 0, 1], ?_, ?_⟩
  · rw [hex]
    intro t
    apply progSys_end
    dsimp only
    by_cases h2 : t < 2
    · rw [hp t h2]
      interval_cases t <;> simp
    · rw [hp2 t h2]; simp
  · rw [hex, hat]
    have hspec : twoShots.spec 0 0 0 = 3 := by
      unfold SynIn.spec
      change ∑ k ∈ range 2, _ = _
      rw [sum_range_succ, sum_range_succ, sum_range_zero, c0, c0]
      simp [twoShots]; norm_num
    rw [hspec]
    unfold store
    norm_num

/-- The hypotheses of the positive theorem hold for two shots at two positions. -/
def twoShotsApart : SynIn := { twoShots with nxs := 2, ixsrc := fun k => k }
example : twoShotsApart.OnGrid ∧ twoShotsApart.DistinctPositions :=
  ⟨fun k hk _ => ⟨Int.natCast_nonneg k, by
      have h : k < 2 := hk
      change (k:Int) < ((2:Nat):Int)
      omega⟩, fun k k' _ _ _ _ h => Int.ofNat_inj.mp h⟩

/-! ### The reciprocal loop (lines 205-240)

Iteration `k` writes only position `ixsrc = k`; no two iterations can collide. -/

/-- `RNi[a] = ixmask*(RNi[a]+c)` (line 232). -/
def maskAdd (a : Int) (mask c : ℝ) : Instr Int ℝ := ⟨[a], a, fun r => mask * (r.headD 0 + c)⟩

/-- Iteration `k` of the reciprocal loop: `contrib k l j` is `rtrace[j]*scl*dxsrc`, skipped when
`isxcount[k]==0` (line 207). -/
def reciProg (nxs nts Nfoc : Nat) (isxcount : Nat → Int) (ixmask : Nat → ℝ) (contrib : Nat → Nat → Nat → ℝ)
    (k : Nat) : List (Instr Int ℝ) :=
  if k < nxs ∧ isxcount k ≠ 0 then
    (List.range Nfoc).flatMap fun (l : Nat) =>
      (List.range nts).map fun (j : Nat) =>
        maskAdd ((l:Int) * (nxs * nts) + (k:Int) * nts + j) (ixmask k) (contrib k l j)
  else []

/-- **C20, reciprocal part.** The reciprocal loop gives the same result under every complete schedule,
whatever the acquisition geometry. -/
theorem reciprocal_schedule_independent (nxs nts Nfoc : Nat) (isxcount : Nat → Int) (ixmask : Nat → ℝ)
    (contrib : Nat → Nat → Nat → ℝ) (m0 : Int → ℝ) (sched : List Nat)
    (hdone : Done (progSys (reciProg nxs nts Nfoc isxcount ixmask contrib))
      (exec (progSys (reciProg nxs nts Nfoc isxcount ixmask contrib)) sched (start m0))) :
    (exec (progSys (reciProg nxs nts Nfoc isxcount ixmask contrib)) sched (start m0)).mem =
      (List.range nxs).foldl (fun m k => seqProg (reciProg nxs nts Nfoc isxcount ixmask contrib k) m) m0 := by
  apply par_eq_seq _ m0 (List.range nxs) List.nodup_range _ sched hdone
  · have hw : ∀ k a, (Writes (reciProg nxs nts Nfoc isxcount ixmask contrib) k a ∨
        Reads (reciProg nxs nts Nfoc isxcount ixmask contrib) k a) →
        k < nxs ∧ ∃ l j : Nat, j < nts ∧ a = (l:Int) * (nxs * nts) + (k:Int) * nts + (j:Nat) := by
      intro k a h
      have hi : ∃ i ∈ reciProg nxs nts Nfoc isxcount ixmask contrib k, a ∈ i.reads ∨ i.dst = a := by
        rcases h with ⟨i, h1, h2⟩ | ⟨i, h1, h2⟩
        · exact ⟨i, h1, Or.inr h2⟩
        · exact ⟨i, h1, Or.inl h2⟩
      obtain ⟨i, h1, h2⟩ := hi
      unfold reciProg at h1
      by_cases hc : k < nxs ∧ isxcount k ≠ 0
      · rw [if_pos hc] at h1
        simp only [List.mem_flatMap, List.mem_map, List.mem_range] at h1
        obtain ⟨l, hl, j, hj, he⟩ := h1
        refine ⟨hc.1, l, j, hj, ?_⟩
        rw [← he] at h2
        simp only [maskAdd, List.mem_singleton] at h2
        rcases h2 with q | q
        · exact q
        · exact q.symm
      · rw [if_neg hc] at h1
        exact absurd h1 (by simp)
    have key : ∀ t u a, t ≠ u → Writes (reciProg nxs nts Nfoc isxcount ixmask contrib) t a →
        ¬ (Writes (reciProg nxs nts Nfoc isxcount ixmask contrib) u a ∨
          Reads (reciProg nxs nts Nfoc isxcount ixmask contrib) u a) := by
      intro t u a htu h1 h2
      obtain ⟨a1, l, j, hj, e⟩ := hw t a (Or.inl h1)
      obtain ⟨b1, l', j', hj', e'⟩ := hw u a h2
      have := SynIn.at_inj { twoShots with nxs := nxs, nts := nts } (l := l) (l' := l') (ix := (t:Int)) (ix' := (u:Int))
        hj hj' (Int.natCast_nonneg _) (Int.ofNat_lt.mpr a1) (Int.natCast_nonneg _) (Int.ofNat_lt.mpr b1) (e.symm.trans e')
      exact htu (Int.ofNat_inj.mp this.2.1)
    intro t u a htu h1
    exact ⟨fun h => key t u a htu h1 (Or.inl h), fun h => key t u a htu h1 (Or.inr h)⟩
  · intro t ht
    unfold reciProg
    rw [if_neg]
    rw [List.mem_range] at ht
    exact fun h => ht h.1

/-- Complete schedules of the reciprocal loop exist. -/
example (nxs nts Nfoc : Nat) (isxcount : Nat → Int) (ixmask : Nat → ℝ) (contrib : Nat → Nat → Nat → ℝ) (m0 : Int → ℝ) :
    ∃ sched, Done (progSys (reciProg nxs nts Nfoc isxcount ixmask contrib))
      (exec (progSys (reciProg nxs nts Nfoc isxcount ixmask contrib)) sched (start m0)) :=
  complete_schedule_exists _ m0 (List.range nxs) List.nodup_range (by
    intro t ht
    unfold reciProg
    rw [if_neg]
    rw [List.mem_range] at ht
    exact fun h => ht h.1)

end

end Verif.Marchenko

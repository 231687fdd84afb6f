import Verif.Marchenko.Synth
import Verif.Vmar.Props

/-!
# The 3D synthesis (marchenko3D/synthesis3D.c: synthesis3D)

The parallel loop over shots has the shape of the two-dimensional one (`SynIn`, C20) with the flat position
`iy*nxs+ix`, so it is written as an instance of it.  `rc1fft` and `cr1fft` are the exact sums that C80 proves of
the library.  `nts = ntfft` as in marchenko3D.c:398.
-/

namespace Verif.M3D
open Verif Verif.Marchenko Verif.Par Conv Fft Finset

noncomputable section

/-- The arguments of `synthesis3D`. -/
structure Syn where
  nxs : ℕ
  nys : ℕ
  nt : ℕ
  Nfoc : ℕ
  nshots : ℕ
  nwLow : ℕ
  nwHigh : ℕ
  dt : ℝ
  dx : ℝ
  dy : ℝ
  norm : ℤ
  mode : ℤ
  /-- the static variable `first` -/
  first : Bool
  /-- shot `k` passes the test of line 237 -/
  inside : ℕ → Bool
  /-- grid position of shot `k` (line 238) -/
  pos : ℕ → ℤ × ℤ
  xnx : ℕ → ℕ
  /-- `(ixrcv[k*nxy+i], iyrcv[k*nxy+i])` -/
  rcv : ℕ → ℕ → ℤ × ℤ
  /-- `Refl[k*nw*nxy+m*nxy+i]` -/
  Refl : ℕ → ℕ → ℕ → ℂ
  Top : ℕ → ℕ → ℕ → ℝ
  npos : ℕ
  /-- `(ixpos[i], iypos[i])` -/
  ipos : ℕ → ℤ × ℤ

/-- `iy*nxs+ix`. -/
def Syn.flat (s : Syn) (q : ℤ × ℤ) : ℤ := q.2 * s.nxs + q.1

/-- The spectrum of a trace, imaginary part times `mode` (lines 192-198, 210-213). -/
def Syn.ctrace (s : Syn) (l i f : ℕ) : ℂ :=
  let c := spectrum s.nt (s.Top l i) f
  ⟨c.re, s.mode * c.im⟩

/-- `Fop[l*nxys*nw+m*nxys+g]` after lines 184-215: the first time the traces of the whole grid, later trace
`i` at position `i` of the list and zero elsewhere. -/
def Syn.Fop (s : Syn) (l m : ℕ) (g : ℤ) : ℂ :=
  if s.first then (if 0 ≤ g ∧ g < (s.nxs * s.nys : ℕ) then s.ctrace l g.toNat (s.nwLow + m) else 0)
  else forN s.npos (fun i (F : ℤ → ℂ) => fun g => if g = s.flat (s.ipos i) then s.ctrace l i (s.nwLow + m) else F g) (fun _ => 0) g

/-- `scl`, lines 156-161. -/
def Syn.scl (s : Syn) : ℝ := if s.norm = 0 then s.dt * s.dx * s.dy / s.nt else 1 / s.nt

/-- The parallel region, lines 225-272, as an instance of the loop of C20: position `iy*nxs+ix`, scale factor `scl`,
`cr1fft` the exact sum. -/
def Syn.loop (s : Syn) : SynIn where
  nx := 0
  nxs := s.nxs * s.nys
  nts := s.nt
  Nfoc := s.Nfoc
  nshots := s.nshots
  nwLow := s.nwLow
  nwHigh := s.nwHigh
  scl := s.scl
  dx := 1
  dxsrc := 1
  inside := s.inside
  ixsrc k := s.flat (s.pos k)
  xnx := s.xnx
  ixrcv k i := s.flat (s.rcv k i)
  Refl := s.Refl
  Fop := s.Fop
  inv c t := (dft 1 s.nt (Vmar.herm s.nt c) t).re

/-! ## Specification -/

/-- On the operator grid. -/
def Syn.OnGrid (s : Syn) (q : ℤ × ℤ) : Prop := (0 ≤ q.1 ∧ q.1 < s.nxs) ∧ (0 ≤ q.2 ∧ q.2 < s.nys)

/-- The operator at a grid position: of a field on the whole grid, or of one given at listed positions. -/
def Spec.field (s : Syn) (l : ℕ) (q : ℤ × ℤ) (t : ℕ) : ℝ :=
  if s.first then s.Top l (q.2 * s.nxs + q.1).toNat t else ∑ i ∈ range s.npos, if s.ipos i = q then s.Top l i t else 0

/-- The same, reversed in time for `mode = -1`. -/
def Spec.operator (s : Syn) (l : ℕ) (q : ℤ × ℤ) : ℕ → ℝ :=
  if s.mode = -1 then rev s.nt (Spec.field s l q) else Spec.field s l q

/-- Weight of the integral over receivers and time. -/
def Spec.weight (s : Syn) : ℝ := if s.norm = 0 then s.dt * s.dx * s.dy else 1

/-- What is needed: shots, receivers and listed positions on the grid, no two at the same position; the
reflection response `r` of shot `k` at receiver `i` has no energy outside the frequency band. -/
structure Syn.Ok (s : Syn) (r : ℕ → ℕ → ℕ → ℝ) : Prop where
  nt_pos : 0 < s.nt
  mode : s.mode = 1 ∨ s.mode = -1
  shots : ∀ k, k < s.nshots → s.inside k → s.OnGrid (s.pos k)
  distinct : ∀ k k', k < s.nshots → k' < s.nshots → s.inside k → s.inside k' → s.pos k = s.pos k' → k = k'
  rcv : ∀ k, k < s.nshots → ∀ i, i < s.xnx k → s.OnGrid (s.rcv k i)
  list : ∀ i, i < s.npos → s.OnGrid (s.ipos i)
  nodup : ∀ i j, i < s.npos → j < s.npos → s.ipos i = s.ipos j → i = j
  refl : ∀ k, k < s.nshots → ∀ i, i < s.xnx k → ∀ f, s.nwLow ≤ f → f ≤ s.nwHigh →
    s.Refl k (f - s.nwLow) i = spectrum s.nt (r k i) f
  band : ∀ k, k < s.nshots → ∀ i, i < s.xnx k → ∀ f, f ≤ s.nt / 2 → ¬ (s.nwLow ≤ f ∧ f ≤ s.nwHigh) →
    spectrum s.nt (r k i) f = 0

/-! ## Lemmas -/

theorem flat_inj {s : Syn} {q q' : ℤ × ℤ} (h : s.OnGrid q) (h' : s.OnGrid q') (e : s.flat q = s.flat q') : q = q' := by
  unfold Syn.flat at e
  obtain ⟨⟨a, b⟩, c, d⟩ := h
  obtain ⟨⟨a', b'⟩, c', d'⟩ := h'
  have hn : (0 : ℤ) < s.nxs := by omega
  have d1 : (q.2 * s.nxs + q.1) / s.nxs = q.2 := by
    rw [Int.add_comm, Int.add_mul_ediv_right _ _ (by omega), Int.ediv_eq_zero_of_lt a b]; ring
  have d2 : (q'.2 * s.nxs + q'.1) / s.nxs = q'.2 := by
    rw [Int.add_comm, Int.add_mul_ediv_right _ _ (by omega), Int.ediv_eq_zero_of_lt a' b']; ring
  have h2 : q.2 = q'.2 := by rw [← d1, ← d2, e]
  rw [h2] at e
  exact Prod.ext (by omega) h2

theorem flat_range {s : Syn} {q : ℤ × ℤ} (h : s.OnGrid q) : 0 ≤ s.flat q ∧ s.flat q < (s.nxs * s.nys : ℕ) := by
  obtain ⟨⟨a, b⟩, c, d⟩ := h
  unfold Syn.flat
  have h1 : 0 ≤ q.2 * s.nxs := mul_nonneg c (by omega)
  have h2 : (q.2 + 1) * s.nxs ≤ s.nys * s.nxs := mul_le_mul_of_nonneg_right (by omega) (by omega)
  have h3 : (q.2 + 1) * (s.nxs : ℤ) = q.2 * s.nxs + s.nxs := by ring
  refine ⟨by omega, ?_⟩
  push_cast
  rw [mul_comm (s.nxs : ℤ)]
  omega

theorem forN_place (s : Syn) (c : ℕ → ℂ) (n : ℕ) (hl : ∀ i, i < n → s.OnGrid (s.ipos i))
    (hd : ∀ i j, i < n → j < n → s.ipos i = s.ipos j → i = j) (q : ℤ × ℤ) (hq : s.OnGrid q) :
    forN n (fun i (F : ℤ → ℂ) => fun g => if g = s.flat (s.ipos i) then c i else F g) (fun _ => 0) (s.flat q) =
      ∑ i ∈ range n, if s.ipos i = q then c i else 0 := by
  induction n with
  | zero => rfl
  | succ n ih =>
    rw [forN_succ, sum_range_succ]
    by_cases h : s.ipos n = q
    · rw [if_pos (by rw [h]), if_pos h]
      symm
      rw [add_eq_right]
      refine sum_eq_zero fun i hi => ?_
      have hi := mem_range.mp hi
      rw [if_neg]
      intro e
      have := hd i n (by omega) (by omega) (e.trans h.symm)
      omega
    · rw [if_neg (fun e => h (flat_inj (hl n (by omega)) hq e.symm)), if_neg h, add_zero,
        ih (fun i hi => hl i (by omega)) (fun i j hi hj => hd i j (by omega) (by omega))]

theorem ctrace_sum {s : Syn} (f : ℕ) (hm : s.mode = 1 ∨ s.mode = -1) (hN : 0 < s.nt) (x : ℕ → ℝ)
    (c : ℂ) (hc : c = spectrum s.nt x f) :
    (⟨c.re, s.mode * c.im⟩ : ℂ) = spectrum s.nt (if s.mode = -1 then rev s.nt x else x) f := by
  rcases hm with h | h
  · rw [h, if_neg (by norm_num), hc]
    apply Complex.ext <;> simp
  · rw [h, if_pos rfl, spectrum_rev _ hN, hc]
    apply Complex.ext <;> simp

theorem Fop_spec {s : Syn} {r : ℕ → ℕ → ℕ → ℝ} (h : s.Ok r) (l m : ℕ) {q : ℤ × ℤ} (hq : s.OnGrid q) :
    s.Fop l m (s.flat q) = spectrum s.nt (Spec.operator s l q) (s.nwLow + m) := by
  unfold Spec.operator
  by_cases hf : s.first = true
  · unfold Syn.Fop
    rw [if_pos hf, if_pos (flat_range hq)]
    unfold Syn.ctrace
    refine (ctrace_sum _ h.mode h.nt_pos (Spec.field s l q) _ ?_)
    congr 1
    funext t
    unfold Spec.field
    rw [if_pos hf]
    rfl
  · unfold Syn.Fop
    rw [if_neg hf, forN_place s (fun i => s.ctrace l i (s.nwLow + m)) s.npos h.list h.nodup q hq]
    rw [← ctrace_sum _ h.mode h.nt_pos (Spec.field s l q) _ rfl]
    have e : spectrum s.nt (Spec.field s l q) (s.nwLow + m) =
        ∑ i ∈ range s.npos, if s.ipos i = q then spectrum s.nt (s.Top l i) (s.nwLow + m) else 0 := by
      have : Spec.field s l q = fun t => ∑ i ∈ range s.npos, if s.ipos i = q then s.Top l i t else 0 := by
        funext t; unfold Spec.field; rw [if_neg hf]
      rw [this, Vmar.spectrum_sum s.nt s.npos (fun i t => if s.ipos i = q then s.Top l i t else 0)]
      refine sum_congr rfl fun i _ => ?_
      split_ifs with hi
      · rfl
      · simp [Conv.spectrum]
    rw [e]
    unfold Syn.ctrace
    apply Complex.ext
    · simp only [Complex.re_sum]
      refine sum_congr rfl fun i _ => ?_
      split_ifs <;> simp
    · simp only [Complex.im_sum, mul_sum]
      refine sum_congr rfl fun i _ => ?_
      split_ifs <;> simp

theorem contrib_spec {s : Syn} {r : ℕ → ℕ → ℕ → ℝ} (h : s.Ok r) (k l j : ℕ) (hk : k < s.nshots) (hj : j < s.nt) :
    s.loop.contrib k l j =
      Spec.weight s * ∑ i ∈ range (s.xnx k), cconv s.nt (r k i) (Spec.operator s l (s.rcv k i)) j := by
  unfold SynIn.contrib
  have e : s.loop.inv (s.loop.sum k l) j = s.nt * ∑ i ∈ range (s.xnx k), cconv s.nt (r k i) (Spec.operator s l (s.rcv k i)) j := by
    show (dft 1 s.nt (Vmar.herm s.nt (s.loop.sum k l)) j).re = _
    refine Vmar.herm_trace h.nt_pos _ (fun t => ∑ i ∈ range (s.xnx k), cconv s.nt (r k i) (Spec.operator s l (s.rcv k i)) t)
      (fun f hf => ?_) j hj
    rw [Vmar.spectrum_sum s.nt (s.xnx k) (fun i t => cconv s.nt (r k i) (Spec.operator s l (s.rcv k i)) t), SynIn.sum_eq]
    show (if s.nwLow ≤ f ∧ f ≤ s.nwHigh then ∑ i ∈ range (s.xnx k), s.Refl k (f - s.nwLow) i *
      s.Fop l (f - s.nwLow) (s.flat (s.rcv k i)) else 0) = _
    by_cases hb : s.nwLow ≤ f ∧ f ≤ s.nwHigh
    · rw [if_pos hb]
      refine sum_congr rfl fun i hi => ?_
      have hi := mem_range.mp hi
      rw [Fop_spec h l _ (h.rcv k hk i hi), h.refl k hk i hi f hb.1 hb.2, show s.nwLow + (f - s.nwLow) = f by omega]
      exact (spectrum_cconv _ h.nt_pos _ _ _).symm
    · rw [if_neg hb]
      symm
      refine sum_eq_zero fun i hi => ?_
      rw [spectrum_cconv _ h.nt_pos, h.band k hk i (mem_range.mp hi) f hf hb, zero_mul]
  rw [e]
  show _ * s.scl * 1 = _
  have hn : (s.nt : ℝ) ≠ 0 := by have := h.nt_pos; positivity
  unfold Syn.scl Spec.weight
  split_ifs <;> field_simp

/-! ## C167 -/

/-- **C167.** If the shots lie at different grid positions, the synthesis gives, for every schedule of the
parallel loop, at the grid position of every accepted shot the integral over its receivers and over time of the
reflection response convolved with the operator (correlated for `mode = -1`), and zero at all other positions. -/
theorem synthesis3D_integral {s : Syn} {r : ℕ → ℕ → ℕ → ℝ} (h : s.Ok r) (sched : List Nat)
    (hdone : Done (progSys s.loop.prog) (exec (progSys s.loop.prog) sched (start fun _ => 0)))
    (l : ℕ) (hl : l < s.Nfoc) (q : ℤ × ℤ) (hq : s.OnGrid q) (j : ℕ) (hj : j < s.nt) :
    (exec (progSys s.loop.prog) sched (start fun _ => 0)).mem (s.loop.at l (q.2 * s.nxs + q.1) j) =
      ∑ k ∈ range s.nshots, if s.inside k ∧ s.pos k = q then
        Spec.weight s * ∑ i ∈ range (s.xnx k), cconv s.nt (r k i) (Spec.operator s l (s.rcv k i)) j else 0 := by
  have hg : s.loop.OnGrid := fun k hk hi => flat_range (h.shots k hk hi)
  have hd : s.loop.DistinctPositions := fun k k' hk hk' hi hi' e =>
    h.distinct k k' hk hk' hi hi' (flat_inj (h.shots k hk hi) (h.shots k' hk' hi') e)
  have hr := flat_range hq
  rw [synthesis_schedule_independent s.loop hg hd sched hdone l hl (q.2 * s.nxs + q.1) hr.1 hr.2 j hj]
  unfold SynIn.spec
  refine sum_congr rfl fun k hk => ?_
  have hk : k < s.nshots := mem_range.mp hk
  refine if_congr ?_ (contrib_spec h k l j hk hj) rfl
  constructor
  · rintro ⟨a, b⟩
    exact ⟨a, flat_inj (h.shots k hk a) hq b⟩
  · rintro ⟨a, b⟩
    exact ⟨a, by show s.flat (s.pos k) = _; rw [b]; rfl⟩

/-- Two shots at the two positions of a grid of two rows; the operator is given at one listed position. -/
def twoRows : Syn where
  nxs := 1
  nys := 2
  nt := 2
  Nfoc := 1
  nshots := 2
  nwLow := 0
  nwHigh := 1
  dt := 1 / 4
  dx := 10
  dy := 10
  norm := 0
  mode := -1
  first := false
  inside := fun _ => true
  pos := fun k => (0, k)
  xnx := fun _ => 1
  rcv := fun k _ => (0, k)
  Refl := fun k m _ => spectrum 2 (fun t => k + t) m
  Top := fun _ _ t => t + 1
  npos := 1
  ipos := fun _ => (0, 1)

theorem twoRows_ok : twoRows.Ok (fun k _ t => k + t) where
  nt_pos := by decide
  mode := Or.inr rfl
  shots k hk _ := by
    have hk : k < 2 := hk
    exact ⟨⟨le_rfl, show (0 : ℤ) < (1 : ℕ) by decide⟩, Int.natCast_nonneg k, show (k : ℤ) < (2 : ℕ) by omega⟩
  distinct k k' _ _ _ _ e := by
    have : (k : ℤ) = k' := congrArg Prod.snd e
    exact_mod_cast this
  rcv k hk i _ := by
    have hk : k < 2 := hk
    exact ⟨⟨le_rfl, show (0 : ℤ) < (1 : ℕ) by decide⟩, Int.natCast_nonneg k, show (k : ℤ) < (2 : ℕ) by omega⟩
  list i _ := ⟨⟨le_rfl, show (0 : ℤ) < (1 : ℕ) by decide⟩, show (0 : ℤ) ≤ 1 by decide, show (1 : ℤ) < (2 : ℕ) by decide⟩
  nodup i j hi hj _ := by
    have hi : i < 1 := hi
    have hj : j < 1 := hj
    omega
  refl k _ i _ f _ _ := rfl
  band k _ i _ f hf hb := by
    have hf : f ≤ 1 := hf
    exact absurd ⟨Nat.zero_le f, hf⟩ hb

/-- A complete schedule of this case exists: shot after shot. -/
example (sched : List Nat) (hdone : Done (progSys twoRows.loop.prog) (exec (progSys twoRows.loop.prog) sched (start fun _ => 0))) :=
  synthesis3D_integral twoRows_ok sched hdone 0 (by decide) (0, 1) (twoRows_ok.list 0 (by decide)) 1 (by decide)

end

end Verif.M3D

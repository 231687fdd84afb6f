import Mathlib.Algebra.BigOperators.Intervals
import Verif.Snap.ReshapeProps

/-!
# C200, C201: combine_induced, the sum of delayed snapshot files (utils/combine_induced.c)

Each of the `nzs` files holds `nt` snapshots of `nxyz` samples; file `is` starts `nshift*is` time steps later.  Samples are numbers
of any commutative additive monoid.  Loads and stores outside an array end the program (`none`).  The loops over `iy`, `ix`, `iz`
run over all `nxyz` samples of a snapshot and are one loop here.  Not modelled: reading, header fields, `shift` and `dtshift`
(printed only).
-/

namespace Verif.Snap

universe u
variable {K : Type u}

/-- Iterations of one file: time and sample (utils/combine_induced.c:188-197 with `mute`, 200-209 without). -/
def induIter (mute : Bool) (ntOut nxyz ishift : Nat) : List (Nat × Nat) :=
  ((List.range ntOut).filter fun it => !mute || decide (ishift ≤ it)).flatMap fun it => (List.range nxyz).map fun c => (it, c)

/-- `outdata[it*nxyz+c] += loopdata[(it-ishift+nt/2)*nxyz+c]` for all iterations; the index of the load can be negative. -/
def induFile [Add K] (mute : Bool) (nt nxyz ishift : Nat) (loop out : Nat → K) : Option (Nat → K) :=
  (induIter mute (nt / 2 + 1) nxyz ishift).foldlM (fun o p =>
    let i : Int := ((p.1 : Int) - ishift + (nt / 2 : Nat)) * nxyz + p.2
    if p.1 * nxyz + p.2 < (nt / 2 + 1) * nxyz ∧ 0 ≤ i ∧ i < (nt * nxyz : Nat) then
      some (store o (p.1 * nxyz + p.2) (o (p.1 * nxyz + p.2) + loop i.toNat))
    else none) out

/-- The loop over the files with one thread (utils/combine_induced.c:167-213); `nxy` is the size of `sx`, `sy`, `sz`
(utils/combine_induced.c:142-144), which are stored into at index `is`. -/
def induced [Add K] [Zero K] (mute : Bool) (nxy nt nxyz nshift nzs : Nat) (file : Nat → Nat → K) : Option (Nat → K) :=
  (List.range nzs).foldlM (fun o is => if is < nxy then induFile mute nt nxyz (nshift * is) (file is) o else none) fun _ => 0

/-! ## One element with several threads

The loop over the files is a parallel loop, `outdata` is shared and `+=` is a load followed by a store. -/

/-- A load (`false`) or a store (`true`) of the element by the thread of file `t`. -/
abbrev Ev := Nat × Bool

/-- Execution: the element and the register of each thread; `v t` is what file `t` adds. -/
def exec [Add K] (v : Nat → K) : List Ev → K × (Nat → K) → K × (Nat → K)
  | [], s => s
  | (t, false) :: es, (x, r) => exec v es (x, fun u => if u = t then x else r u)
  | (t, true) :: es, (_, r) => exec v es (r t + v t, r)

/-- A schedule of `N` threads: each of them loads and then stores, once. -/
def Sched (N : Nat) (es : List Ev) : Prop :=
  ∀ t, es.filter (fun e => e.1 = t) = if t < N then [(t, false), (t, true)] else []

/-! ## Lemmas -/

theorem mem_induIter {mute : Bool} {ntOut nxyz ishift it c : Nat} :
    (it, c) ∈ induIter mute ntOut nxyz ishift ↔ it < ntOut ∧ (mute = true → ishift ≤ it) ∧ c < nxyz := by
  unfold induIter
  simp only [List.mem_flatMap, List.mem_filter, List.mem_range, List.mem_map, Prod.mk.injEq, Bool.or_eq_true, Bool.not_eq_true',
    decide_eq_true_eq]
  constructor
  · rintro ⟨a, ⟨h1, h2⟩, b, h3, rfl, rfl⟩
    exact ⟨h1, fun h => by rcases h2 with h2 | h2; · rw [h] at h2; cases h2
                           · exact h2, h3⟩
  · rintro ⟨h1, h2, h3⟩
    refine ⟨it, ⟨h1, ?_⟩, c, h3, rfl, rfl⟩
    cases mute
    · exact Or.inl rfl
    · exact Or.inr (h2 rfl)

theorem induIter_nodup (mute : Bool) (ntOut nxyz ishift : Nat) : (induIter mute ntOut nxyz ishift).Nodup := by
  unfold induIter
  rw [List.nodup_flatMap]
  refine ⟨fun a _ => ?_, ?_⟩
  · exact List.Nodup.map (fun x y h => (Prod.mk.inj h).2) List.nodup_range
  · have : ((List.range ntOut).filter fun it => !mute || decide (ishift ≤ it)).Nodup := List.nodup_range.filter _
    refine this.imp ?_
    intro a b hab
    show List.Disjoint _ _
    intro x hx hy
    rw [List.mem_map] at hx hy
    obtain ⟨_, _, rfl⟩ := hx
    obtain ⟨_, _, e⟩ := hy
    exact hab (Prod.mk.inj e).1.symm

/-- Distinct elements are added to, each once. -/
theorem add_spec [Add K] {n m : Nat} (f : Nat × Nat → Nat) (g : Nat × Nat → Int) (loop : Nat → K) (L : List (Nat × Nat))
    (out : Nat → K) (hn : L.Nodup) (hf : ∀ x ∈ L, ∀ y ∈ L, f x = f y → x = y) (hb : ∀ x ∈ L, f x < n ∧ 0 ≤ g x ∧ g x < m) :
    ∃ o, L.foldlM (fun o p => if f p < n ∧ 0 ≤ g p ∧ g p < m then some (store o (f p) (o (f p) + loop (g p).toNat)) else none) out
        = some o ∧ (∀ x ∈ L, o (f x) = out (f x) + loop (g x).toNat) ∧ ∀ i, (∀ x ∈ L, f x ≠ i) → o i = out i := by
  induction L generalizing out with
  | nil => exact ⟨out, rfl, by simp, fun _ _ => rfl⟩
  | cons x L ih =>
    rw [List.nodup_cons] at hn
    obtain ⟨o, h1, h2, h3⟩ := ih (store out (f x) (out (f x) + loop (g x).toNat)) hn.2
      (fun y hy z hz => hf y (by simp [hy]) z (by simp [hz])) (fun y hy => hb y (by simp [hy]))
    refine ⟨o, ?_, ?_, ?_⟩
    · rw [List.foldlM_cons, if_pos (hb x (by simp))]; exact h1
    · intro y hy
      rcases List.mem_cons.mp hy with rfl | hy'
      · rw [h3 _ fun z hz e => hn.1 (by rw [← hf z (by simp [hz]) y (by simp) e]; exact hz)]
        unfold store; rw [if_pos rfl]
      · rw [h2 y hy']
        unfold store
        rw [if_neg fun e => hn.1 (by rw [← hf y (by simp [hy']) x (by simp) e]; exact hy')]
    · intro i hi
      rw [h3 i fun y hy => hi y (by simp [hy])]
      unfold store; rw [if_neg fun e => hi x (by simp) e.symm]

theorem add_none [Add K] {n m : Nat} (f : Nat × Nat → Nat) (g : Nat × Nat → Int) (loop : Nat → K) (L : List (Nat × Nat))
    (out : Nat → K) (h : ∃ x ∈ L, ¬ (f x < n ∧ 0 ≤ g x ∧ g x < m)) :
    L.foldlM (fun o p => if f p < n ∧ 0 ≤ g p ∧ g p < m then some (store o (f p) (o (f p) + loop (g p).toNat)) else none) out
      = none := by
  induction L generalizing out with
  | nil => obtain ⟨x, hx, -⟩ := h; simp at hx
  | cons a L ih =>
    rw [List.foldlM_cons]
    by_cases hc : f a < n ∧ 0 ≤ g a ∧ g a < m
    · rw [if_pos hc]
      obtain ⟨x, hx, hb⟩ := h
      rcases List.mem_cons.mp hx with rfl | hx
      · exact absurd hc hb
      · exact ih _ ⟨x, hx, hb⟩
    · rw [if_neg hc]; rfl

theorem load_bounds {nt nxyz it s c : Nat} (h1 : s ≤ it) (h2 : it - s + nt / 2 < nt) (hc : c < nxyz) :
    ((it : Int) - s + (nt / 2 : Nat)) * nxyz + c = (((it - s + nt / 2) * nxyz + c : Nat) : Int) ∧
    (it - s + nt / 2) * nxyz + c < nt * nxyz := by
  refine ⟨?_, digit_lt h2 hc⟩
  push_cast
  rw [Nat.cast_sub h1]

/-- One file, muted. -/
theorem induFile_spec [Add K] (nt nxyz s : Nat) (loop out : Nat → K) (h : nt % 2 = 1 ∨ 0 < s) :
    ∃ o, induFile true nt nxyz s loop out = some o ∧ ∀ it c, it < nt / 2 + 1 → c < nxyz →
      (s ≤ it → o (it * nxyz + c) = out (it * nxyz + c) + loop ((it - s + nt / 2) * nxyz + c)) ∧
      (it < s → o (it * nxyz + c) = out (it * nxyz + c)) := by
  have hb : ∀ it, it < nt / 2 + 1 → s ≤ it → it - s + nt / 2 < nt := by
    intro it h1 h2
    rcases h with h | h <;> omega
  obtain ⟨o, h1, h2, h3⟩ := add_spec (n := (nt / 2 + 1) * nxyz) (m := nt * nxyz) (fun p => p.1 * nxyz + p.2)
    (fun p => ((p.1 : Int) - s + (nt / 2 : Nat)) * nxyz + p.2) loop (induIter true (nt / 2 + 1) nxyz s) out (induIter_nodup ..)
    (by
      rintro ⟨a, b⟩ hx ⟨c, d⟩ hy e
      rw [mem_induIter] at hx hy
      obtain ⟨r1, r2⟩ := digit_inj hx.2.2 hy.2.2 e
      exact Prod.ext r1 r2)
    (by
      rintro ⟨a, b⟩ hx
      rw [mem_induIter] at hx
      obtain ⟨e, l⟩ := load_bounds (hx.2.1 rfl) (hb a hx.1 (hx.2.1 rfl)) hx.2.2
      refine ⟨digit_lt hx.1 hx.2.2, ?_, ?_⟩
      · show 0 ≤ ((a : Int) - s + (nt / 2 : Nat)) * nxyz + b
        rw [e]; omega
      · show ((a : Int) - s + (nt / 2 : Nat)) * nxyz + b < (nt * nxyz : Nat)
        rw [e]; exact_mod_cast l)
  refine ⟨o, ?_, fun it c hi hc => ⟨fun hs => ?_, fun hs => ?_⟩⟩
  · exact h1
  · have := h2 (it, c) (mem_induIter.mpr ⟨hi, fun _ => hs, hc⟩)
    dsimp only at this
    rw [(load_bounds hs (hb it hi hs) hc).1, Int.toNat_natCast] at this
    exact this
  · apply h3
    rintro ⟨a, b⟩ hx e
    rw [mem_induIter] at hx
    obtain ⟨r1, r2⟩ := digit_inj hx.2.2 hc e
    have := hx.2.1 rfl
    omega

/-! ## Properties -/

/-- C200: with one thread and an odd number of snapshots per file, snapshot `it` of the output is the sum over the files of their
snapshot at the time `it - nshift*is` after the middle one, for the files that have started; the program stays in its arrays if
there are at most as many files as traces in a snapshot. -/
theorem induced_sum_partial [AddCommMonoid K] (nxy nt nxyz nshift nzs : Nat) (file : Nat → Nat → K) (hx : nzs ≤ nxy)
    (ht : nt % 2 = 1) :
    ∃ o, induced true nxy nt nxyz nshift nzs file = some o ∧ ∀ it c, it < nt / 2 + 1 → c < nxyz →
      o (it * nxyz + c) = ∑ is ∈ Finset.range nzs,
        if nshift * is ≤ it then file is ((it - nshift * is + nt / 2) * nxyz + c) else 0 := by
  unfold induced
  induction nzs with
  | zero => exact ⟨fun _ => 0, rfl, fun it c _ _ => by simp⟩
  | succ m ih =>
    obtain ⟨o, h1, h2⟩ := ih (by omega)
    obtain ⟨o', g1, g2⟩ := induFile_spec nt nxyz (nshift * m) (file m) o (Or.inl ht)
    refine ⟨o', ?_, fun it c hi hc => ?_⟩
    · rw [List.range_succ, List.foldlM_append, h1]
      show ((if m < nxy then induFile true nt nxyz (nshift * m) (file m) o else none) >>= fun s => some s) = _
      rw [if_pos (by omega), g1]; rfl
    · rw [Finset.sum_range_succ, ← h2 it c hi hc]
      by_cases hs : nshift * m ≤ it
      · rw [if_pos hs, (g2 it c hi hc).1 hs]
      · rw [if_neg hs, (g2 it c hi hc).2 (by omega), add_zero]

/-- C200 (violation): with an even number of snapshots per file the program reads a snapshot after the last one of the first file,
with and without muting. -/
theorem induced_even [Add K] [Zero K] (mute : Bool) (nxy nt nxyz nshift nzs : Nat) (file : Nat → Nat → K) (hz : 0 < nzs)
    (hc : 0 < nxyz) (ht : nt % 2 = 0) : induced mute nxy nt nxyz nshift nzs file = none := by
  obtain ⟨m, rfl⟩ : ∃ m, nzs = m + 1 := ⟨nzs - 1, by omega⟩
  have hf : ∀ out, induFile mute nt nxyz (nshift * 0) (file 0) out = none := by
    intro out
    have key := add_none (n := (nt / 2 + 1) * nxyz) (m := nt * nxyz) (fun p => p.1 * nxyz + p.2)
      (fun p => ((p.1 : Int) - (nshift * 0 : Nat) + (nt / 2 : Nat)) * nxyz + p.2) (file 0)
      (induIter mute (nt / 2 + 1) nxyz (nshift * 0)) out
      ⟨(nt / 2, 0), mem_induIter.mpr ⟨by omega, fun _ => by omega, hc⟩, fun hb => by
        have h3 := hb.2.2
        dsimp only at h3
        have e : ((nt / 2 : Nat) : Int) - (nshift * 0 : Nat) + (nt / 2 : Nat) = (nt : Int) := by omega
        rw [e] at h3
        push_cast at h3
        omega⟩
    exact key
  unfold induced
  rw [List.range_succ_eq_map, List.foldlM_cons]
  by_cases h0 : 0 < nxy
  · rw [if_pos h0, hf]; rfl
  · rw [if_neg h0]; rfl

/-- C200 (violation): more files than traces in a snapshot: the arrays of source positions are too short. -/
theorem induced_many_files [AddCommMonoid K] (nxy nt nxyz nshift nzs : Nat) (file : Nat → Nat → K) (hx : nxy < nzs)
    (ht : nt % 2 = 1) : induced true nxy nt nxyz nshift nzs file = none := by
  obtain ⟨o, h1, -⟩ := induced_sum_partial nxy nt nxyz nshift nxy file le_rfl ht
  unfold induced at *
  obtain ⟨d, rfl⟩ : ∃ d, nzs = nxy + 1 + d := ⟨nzs - nxy - 1, by omega⟩
  rw [List.range_add, List.foldlM_append, List.range_succ, List.foldlM_append, h1]
  show ((if nxy < nxy then _ else none) >>= fun s => some s) >>= _ = none
  rw [if_neg (by omega)]
  rfl

theorem filter_range (N t : Nat) : (List.range N).filter (fun i => i = t) = if t < N then [t] else [] := by
  induction N with
  | zero => rfl
  | succ N ih =>
    rw [List.range_succ, List.filter_append, ih]
    by_cases h : N = t
    · subst h
      rw [if_neg (by omega), if_pos (by omega)]
      simp
    · rw [List.filter_cons_of_neg (by simpa using h), List.filter_nil, List.append_nil]
      by_cases h2 : t < N
      · rw [if_pos h2, if_pos (by omega)]
      · rw [if_neg h2, if_neg (by omega)]

theorem filter_map (N t : Nat) (b : Bool) :
    ((List.range N).map fun i => ((i, b) : Ev)).filter (fun e => e.1 = t) = if t < N then [(t, b)] else [] := by
  rw [List.filter_map]
  have : ((fun e : Ev => decide (e.1 = t)) ∘ fun i => ((i, b) : Ev)) = fun i => decide (i = t) := rfl
  rw [this, filter_range]
  split <;> rfl

theorem exec_append [Add K] (v : Nat → K) (a b : List Ev) (s : K × (Nat → K)) : exec v (a ++ b) s = exec v b (exec v a s) := by
  induction a generalizing s with
  | nil => rfl
  | cons e a ih =>
    obtain ⟨t, k⟩ := e
    obtain ⟨x, r⟩ := s
    cases k
    · exact ih _
    · exact ih _

theorem exec_loads [Add K] (v : Nat → K) (N : Nat) (x : K) (r : Nat → K) :
    (exec v ((List.range N).map fun i => (i, false)) (x, r)).1 = x ∧
    ∀ t < N, (exec v ((List.range N).map fun i => (i, false)) (x, r)).2 t = x := by
  induction N with
  | zero => exact ⟨rfl, fun t h => by omega⟩
  | succ N ih =>
    rw [List.range_succ, List.map_append, exec_append]
    obtain ⟨h1, h2⟩ := ih
    obtain ⟨x', r', e⟩ : ∃ x' r', exec v ((List.range N).map fun i => (i, false)) (x, r) = (x', r') := ⟨_, _, rfl⟩
    rw [e] at h1 h2 ⊢
    refine ⟨h1, fun t ht => ?_⟩
    show (if t = N then x' else r' t) = x
    split
    · exact h1
    · exact h2 t (by omega)

theorem exec_stores [Add K] (v : Nat → K) (N : Nat) (x : K) (r : Nat → K) :
    exec v ((List.range N).map fun i => (i, true)) (x, r) = (if N = 0 then x else r (N - 1) + v (N - 1), r) := by
  induction N with
  | zero => rfl
  | succ N ih =>
    rw [List.range_succ, List.map_append, exec_append, ih]
    show (r N + v N, r) = _
    rw [if_neg (show ¬ N + 1 = 0 by omega), Nat.add_sub_cancel]

/-- C201: one thread, or threads that do not overlap, give the sum. -/
theorem induced_no_overlap [AddCommMonoid K] (N : Nat) (v : Nat → K) (x : K) (r : Nat → K) :
    ∃ es, Sched N es ∧ (exec v es (x, r)).1 = x + ∑ t ∈ Finset.range N, v t := by
  refine ⟨(List.range N).flatMap fun t => [(t, false), (t, true)], fun t => ?_, ?_⟩
  · induction N with
    | zero => rfl
    | succ N ih =>
      rw [List.range_succ, List.flatMap_append, List.filter_append, ih]
      by_cases h : N = t
      · subst h
        rw [if_neg (by omega), if_pos (by omega)]
        simp
      · by_cases h2 : t < N
        · rw [if_pos h2, if_pos (by omega)]
          simp [h]
        · rw [if_neg h2, if_neg (by omega)]
          simp [h]
  · induction N with
    | zero => simp [exec]
    | succ N ih =>
      rw [List.range_succ, List.flatMap_append, exec_append, Finset.sum_range_succ, ← add_assoc, ← ih]
      obtain ⟨x', r', e⟩ : ∃ x' r', exec v ((List.range N).flatMap fun t => [(t, false), (t, true)]) (x, r) = (x', r') :=
        ⟨_, _, rfl⟩
      rw [e]
      show (if N = N then x' else r' N) + v N = x' + v N
      rw [if_pos rfl]

/-- C201 (violation): the threads of all files may load an element before any of them stores it; then only the last file is in
the sum. -/
theorem induced_race [AddCommMonoid K] (N : Nat) (hN : 0 < N) (v : Nat → K) (x : K) (r : Nat → K) :
    ∃ es, Sched N es ∧ (exec v es (x, r)).1 = x + v (N - 1) := by
  refine ⟨((List.range N).map fun i => (i, false)) ++ (List.range N).map fun i => (i, true), fun t => ?_, ?_⟩
  · rw [List.filter_append, filter_map, filter_map]
    by_cases h : t < N
    · rw [if_pos h, if_pos h, if_pos h]; rfl
    · rw [if_neg h, if_neg h, if_neg h]; rfl
  · rw [exec_append]
    obtain ⟨h1, h2⟩ := exec_loads v N x r
    obtain ⟨x', r', e⟩ : ∃ x' r', exec v ((List.range N).map fun i => (i, false)) (x, r) = (x', r') := ⟨_, _, rfl⟩
    rw [e] at h1 h2 ⊢
    rw [exec_stores, if_neg (by omega)]
    exact congrArg (· + v (N - 1)) (h2 (N - 1) (by omega))

/-! ## The hypotheses are met -/

/-- Two files of three snapshots of one sample, the second one step later. -/
example : (induced true 2 3 1 1 2 (fun k i => (10 * k + i + 1 : Int))).map (fun o => [o 0, o 1]) = some [2, 15] := by
  decide +kernel
example : induced true 2 4 1 1 2 (fun k i => (10 * k + i + 1 : Int)) = none := induced_even true 2 4 1 1 2 _ (by omega) (by omega) rfl
/-- Three files of one each: the sum is 3, the race gives 1. -/
example : ∃ es, Sched 3 es ∧ (exec (fun _ => (1 : Int)) es (0, fun _ => 0)).1 = 1 :=
  induced_race 3 (by omega) (fun _ => (1 : Int)) 0 fun _ => 0

end Verif.Snap

import Verif.Base.Write
import Verif.Base.Num
import Mathlib.Data.List.Sort
import Mathlib.Data.Finset.Image
import Mathlib.Data.Finset.Card
import Mathlib.Data.Finset.Range
import Mathlib.Tactic.Linarith
import Mathlib.Tactic.Ring
import Mathlib.Tactic.FieldSimp

/-!
# C19: the lateral positions of the synthesis result (marchenko/synthesis.c: synthesisPositions)

Coordinates are rationals in place of float; `1.001*fxsb` is the exact product.  Messages are not
modelled (with verbose>=3 the message of line 492 additionally reads `count[*npos]`, one element beyond
the array when all `nxs` positions are used).
-/

namespace Verif.Marchenko
open Verif

/-- `linearsearch`, synthesis.c:541-550, started at element `j`. -/
def linearsearchFrom (array : Buf Int) (N : Nat) (value : Int) (j : Nat) : Option Nat :=
  if j < N then
    (array.rd j).bind fun a => if value ≠ a then linearsearchFrom array N value (j+1) else some j
  else some j
termination_by N - j

/-- `linearsearch`, synthesis.c:541-550. -/
def linearsearch (array : Buf Int) (N : Nat) (value : Int) : Option Nat := linearsearchFrom array N value 0

/-- The variables `ixpos`, `count`, `*npos`. -/
structure PosSt where
  ixpos : Buf Int
  count : Buf Int
  npos : Nat

/-- Add `n` traces at position `ix` (synthesis.c:482-490 and 507-515). -/
def addPos (ix n : Int) (s : PosSt) : Option PosSt :=
  (linearsearch s.ixpos s.npos ix).bind fun j =>
  if j < s.npos then
    (s.count.rd j).bind fun c => (s.count.wr j (c + n)).map fun count => { s with count := count }
  else
    (s.ixpos.wr s.npos ix).bind fun ixpos =>
    (s.count.rd s.npos).bind fun c => (s.count.wr s.npos (c + n)).map fun count =>
      { ixpos := ixpos, count := count, npos := s.npos + 1 }

/-- Lower end of the accepted source positions (synthesis.c:452-453). -/
def fxbOf (fxsb : ℚ) : ℚ := if fxsb < 0 then 1001/1000 * fxsb else 999/1000 * fxsb
/-- Upper end of the accepted source positions (synthesis.c:454-455). -/
def fxeOf (fxse : ℚ) : ℚ := if fxse > 0 then 1001/1000 * fxse else 999/1000 * fxse

/-- `ixsrc = NINT((xsrc[k] - fxsb)/dxs)` (synthesis.c:467, 155). -/
def ixsrcOf (fxsb dxs x : ℚ) : Int := NINT ((x - fxsb) / dxs)

/-- The elements of an int array. -/
def elems (b : Buf Int) (n : Nat) : List Int := (List.range n).map fun (j : Nat) => b.val j

/-- `synthesisPositions`, synthesis.c:447-539.  `ixpos` and `count` have `nxs` elements (marchenko.c:235,
synthesis.c:457).  The result is the sorted list `ixpos[0..npos)` (`qsort`, modelled by an insertion sort) and the
updated `isxcount`. -/
def synthesisPositions (nxs nshots : Nat) (xsrc : Nat → ℚ) (xnx : Nat → Int) (fxsb fxse dxs : ℚ)
    (isxcount : Buf Int) (countmin : Int) (reci : Int) : Option (List Int × Buf Int) :=
  let s0 : PosSt := ⟨⟨nxs, fun _ => 0⟩, ⟨nxs, fun _ => 0⟩, 0⟩
  (if reci = 0 ∨ reci = 1 then
    forNM nshots (fun k s =>
      if xsrc k ≥ fxbOf fxsb ∧ xsrc k ≤ fxeOf fxse then addPos (ixsrcOf fxsb dxs (xsrc k)) (xnx k) s else some s) s0
   else some s0).bind fun s =>
  (if reci ≠ 0 then
    forNM nxs (fun k (p : PosSt × Buf Int) =>
      (p.2.rd k).bind fun c =>
      if c ≥ countmin then (addPos k c p.1).map fun s => (s, p.2)
      else (p.2.wr k 0).map fun isx => (p.1, isx)) (s, isxcount)
   else some (s, isxcount)).map fun p =>
  ((elems p.1.ixpos p.1.npos).insertionSort (· ≤ ·), p.2)

/-! ### The list under construction -/

theorem linearsearchFrom_spec (array : Buf Int) (N : Nat) (v : Int) (hN : N ≤ array.size) :
    ∀ d j, N - j = d → j ≤ N → (∀ i : Nat, i < j → array.val i ≠ v) →
    ∃ r, linearsearchFrom array N v j = some r ∧ r ≤ N ∧ (r < N → array.val r = v) ∧
      (r = N → ∀ i : Nat, i < N → array.val i ≠ v) := by
  intro d
  induction d with
  | zero =>
    intro j hd hj hi
    have hjN : j = N := by omega
    refine ⟨j, ?_, hj, fun h => by omega, fun _ => by rw [← hjN]; exact hi⟩
    rw [linearsearchFrom, if_neg (by omega)]
  | succ d ih =>
    intro j hd hj hi
    rw [linearsearchFrom, if_pos (by omega), Buf.rd_ok ⟨by omega, by omega⟩]
    simp only [Option.bind_some]
    by_cases hc : v = array.val j
    · rw [if_neg (by simpa using hc)]
      exact ⟨j, rfl, hj, fun _ => hc.symm, fun h => by omega⟩
    · rw [if_pos (by simpa using hc)]
      refine ih (j+1) (by omega) (by omega) ?_
      intro i h1
      by_cases h2 : i = j
      · subst h2; exact fun h => hc h.symm
      · exact hi i (by omega)

theorem linearsearch_spec (array : Buf Int) (N : Nat) (v : Int) (hN : N ≤ array.size) :
    ∃ r, linearsearch array N v = some r ∧ r ≤ N ∧ (r < N → array.val r = v) ∧
      (r = N → ∀ i : Nat, i < N → array.val i ≠ v) :=
  linearsearchFrom_spec array N v hN N 0 (by omega) (by omega) (fun i h => absurd h (Nat.not_lt_zero _))

/-- Invariant: the list so far is duplicate-free, lies in `[0,nxs)` and has exactly the members `M`. -/
structure PosInv (nxs : Nat) (M : Int → Prop) (s : PosSt) : Prop where
  size1 : s.ixpos.size = nxs
  size2 : s.count.size = nxs
  nodup : (elems s.ixpos s.npos).Nodup
  range : ∀ x ∈ elems s.ixpos s.npos, 0 ≤ x ∧ x < nxs
  mem : ∀ x, x ∈ elems s.ixpos s.npos ↔ M x

theorem mem_elems {b : Buf Int} {n : Nat} {x : Int} : x ∈ elems b n ↔ ∃ j : Nat, j < n ∧ b.val j = x := by
  simp [elems]

/-- A duplicate-free list of integers in `[0,n)` has at most `n` members. -/
theorem nodup_length_le {l : List Int} {n : Nat} (hn : l.Nodup) (hr : ∀ x ∈ l, 0 ≤ x ∧ x < n) : l.length ≤ n := by
  have h1 : l.toFinset ⊆ (Finset.range n).image (fun k : Nat => (k : Int)) := by
    intro x hx
    rw [List.mem_toFinset] at hx
    obtain ⟨h1, h2⟩ := hr x hx
    rw [Finset.mem_image]
    exact ⟨x.toNat, by rw [Finset.mem_range]; omega, by omega⟩
  have h2 := Finset.card_le_card h1
  rw [List.toFinset_card_of_nodup hn] at h2
  exact le_trans h2 (le_trans Finset.card_image_le (by rw [Finset.card_range]))

theorem PosInv.npos_le {nxs : Nat} {M : Int → Prop} {s : PosSt} (h : PosInv nxs M s) : s.npos ≤ nxs := by
  have := nodup_length_le h.nodup h.range
  simpa [elems] using this

theorem elems_congr {b b' : Buf Int} {n : Nat} (h : ∀ j : Nat, j < n → b.val j = b'.val j) :
    elems b n = elems b' n := by
  unfold elems
  apply List.map_congr_left
  intro j hj
  exact h j (List.mem_range.mp hj)

theorem addPos_inv {nxs : Nat} {M : Int → Prop} {s : PosSt} (h : PosInv nxs M s) {ix n : Int}
    (h0 : 0 ≤ ix) (h1 : ix < nxs) :
    ∃ s', addPos ix n s = some s' ∧ PosInv nxs (fun x => M x ∨ x = ix) s' := by
  have hle := h.npos_le
  obtain ⟨r, r1, r2, r3, r4⟩ := linearsearch_spec s.ixpos s.npos ix (by rw [h.size1]; exact hle)
  unfold addPos
  rw [r1]
  simp only [Option.bind_some]
  by_cases hr : r < s.npos
  · rw [if_pos hr]
    have hok : s.count.ok r := ⟨by omega, by rw [h.size2]; omega⟩
    rw [Buf.rd_ok hok]
    simp only [Option.bind_some]
    rw [Buf.wr_ok hok]
    refine ⟨_, rfl, h.size1, h.size2, h.nodup, h.range, ?_⟩
    intro x
    rw [h.mem]
    constructor
    · exact Or.inl
    · rintro (q | q)
      · exact q
      · rw [← h.mem, q, mem_elems]; exact ⟨r, hr, r3 hr⟩
  · rw [if_neg hr]
    have hrn : r = s.npos := by omega
    have hnew := r4 hrn
    have hnot : ix ∉ elems s.ixpos s.npos := by
      rw [mem_elems]; rintro ⟨j, j1, j2⟩; exact hnew j j1 j2
    have hlt : s.npos < nxs := by
      have := nodup_length_le (l := ix :: elems s.ixpos s.npos) (n := nxs)
        (List.nodup_cons.mpr ⟨hnot, h.nodup⟩) (by
          intro x hx
          rcases List.mem_cons.mp hx with q | q
          · subst q; exact ⟨h0, h1⟩
          · exact h.range x q)
      simp [elems] at this
      omega
    have hok : s.count.ok s.npos := ⟨by omega, by rw [h.size2]; omega⟩
    have hok2 : s.ixpos.ok s.npos := ⟨by omega, by rw [h.size1]; omega⟩
    rw [Buf.rd_ok hok, Buf.wr_ok hok2]
    simp only [Option.bind_some]
    rw [Buf.wr_ok hok]
    refine ⟨_, rfl, ?_⟩
    have hel : elems { s.ixpos with val := fun k => if k = (s.npos:Int) then ix else s.ixpos.val k } (s.npos + 1)
        = elems s.ixpos s.npos ++ [ix] := by
      unfold elems
      rw [List.range_succ, List.map_append]
      congr 1
      · apply List.map_congr_left
        intro j hj
        have := List.mem_range.mp hj
        dsimp only
        rw [if_neg (by omega)]
      · simp
    refine ⟨h.size1, h.size2, ?_, ?_, ?_⟩
    · dsimp only
      rw [hel, List.nodup_append]
      refine ⟨h.nodup, by simp, ?_⟩
      intro a ha b hb
      rw [List.mem_singleton] at hb
      subst hb
      intro he; subst he; exact hnot ha
    · dsimp only
      rw [hel]
      intro x hx
      rcases List.mem_append.mp hx with q | q
      · exact h.range x q
      · rw [List.mem_singleton] at q; subst q; exact ⟨h0, h1⟩
    · dsimp only
      rw [hel]
      intro x
      rw [List.mem_append, h.mem, List.mem_singleton]

/-! ### Specification and theorems -/

/-- Shot `k` is accepted. -/
def InAperture (fxsb fxse x : ℚ) : Prop := fxbOf fxsb ≤ x ∧ x ≤ fxeOf fxse

/-- The positions the documentation promises: those of the accepted shots (reci 0 or 1) and the
reciprocal positions with enough traces (reci 1 or 2). -/
def IsPosition (nxs nshots : Nat) (xsrc : Nat → ℚ) (fxsb fxse dxs : ℚ) (isxcount : Buf Int) (countmin reci : Int)
    (x : Int) : Prop :=
  ((reci = 0 ∨ reci = 1) ∧ ∃ k, k < nshots ∧ InAperture fxsb fxse (xsrc k) ∧ x = ixsrcOf fxsb dxs (xsrc k)) ∨
  (reci ≠ 0 ∧ ∃ k : Nat, k < nxs ∧ x = k ∧ countmin ≤ isxcount.val k)

/-- **C19** (for acquisitions whose accepted shots fall on the `nxs` operator positions).  The returned
list is strictly increasing and its members are exactly the promised positions; the reciprocal positions
with too few traces get count zero. -/
theorem positions_sorted_and_complete_partial (nxs nshots : Nat) (xsrc : Nat → ℚ) (xnx : Nat → Int) (fxsb fxse dxs : ℚ)
    (isxcount : Buf Int) (countmin reci : Int) (hsize : nxs ≤ isxcount.size)
    (hr : ∀ k, k < nshots → InAperture fxsb fxse (xsrc k) →
      0 ≤ ixsrcOf fxsb dxs (xsrc k) ∧ ixsrcOf fxsb dxs (xsrc k) < nxs) :
    ∃ l isx, synthesisPositions nxs nshots xsrc xnx fxsb fxse dxs isxcount countmin reci = some (l, isx) ∧
      l.Pairwise (· < ·) ∧
      (∀ x, x ∈ l ↔ IsPosition nxs nshots xsrc fxsb fxse dxs isxcount countmin reci x) ∧
      (∀ k : Nat, k < nxs →
        isx.val k = if reci ≠ 0 ∧ isxcount.val k < countmin then 0 else isxcount.val k) := by
  classical
  unfold synthesisPositions
  extract_lets s0
  have i0 : PosInv nxs (fun _ => False) s0 :=
    ⟨rfl, rfl, by simp [elems, s0], by simp [elems, s0], by simp [elems, s0]⟩
  -- the shots
  have st1 : ∃ s, (if reci = 0 ∨ reci = 1 then
      forNM nshots (fun k s =>
        if xsrc k ≥ fxbOf fxsb ∧ xsrc k ≤ fxeOf fxse then addPos (ixsrcOf fxsb dxs (xsrc k)) (xnx k) s else some s) s0
      else some s0) = some s ∧
      PosInv nxs (fun x => (reci = 0 ∨ reci = 1) ∧
        ∃ k, k < nshots ∧ InAperture fxsb fxse (xsrc k) ∧ x = ixsrcOf fxsb dxs (xsrc k)) s := by
    by_cases hc : reci = 0 ∨ reci = 1
    · rw [if_pos hc]
      have key := forNM_inv (n := nshots) (s := s0) (body := fun k s =>
        if xsrc k ≥ fxbOf fxsb ∧ xsrc k ≤ fxeOf fxse then addPos (ixsrcOf fxsb dxs (xsrc k)) (xnx k) s else some s)
        (fun m s => PosInv nxs (fun x => ∃ k, k < m ∧ InAperture fxsb fxse (xsrc k) ∧ x = ixsrcOf fxsb dxs (xsrc k)) s)
        (by
          refine ⟨i0.size1, i0.size2, i0.nodup, i0.range, ?_⟩
          intro x; rw [i0.mem]; simp)
        (by
          intro m hm s hs
          by_cases ha : xsrc m ≥ fxbOf fxsb ∧ xsrc m ≤ fxeOf fxse
          · rw [if_pos ha]
            obtain ⟨s', e1, e2⟩ := addPos_inv hs (n := xnx m) (hr m hm ha).1 (hr m hm ha).2
            refine ⟨s', e1, e2.size1, e2.size2, e2.nodup, e2.range, ?_⟩
            intro x
            rw [e2.mem]
            constructor
            · rintro (⟨k, k1, k2⟩ | q)
              · exact ⟨k, by omega, k2⟩
              · exact ⟨m, by omega, ha, q⟩
            · rintro ⟨k, k1, k2, k3⟩
              by_cases hk : k = m
              · subst hk; exact Or.inr k3
              · exact Or.inl ⟨k, by omega, k2, k3⟩
          · rw [if_neg ha]
            refine ⟨s, rfl, hs.size1, hs.size2, hs.nodup, hs.range, ?_⟩
            intro x
            rw [hs.mem]
            constructor
            · rintro ⟨k, k1, k2⟩; exact ⟨k, by omega, k2⟩
            · rintro ⟨k, k1, k2, k3⟩
              by_cases hk : k = m
              · subst hk; exact absurd k2 ha
              · exact ⟨k, by omega, k2, k3⟩)
      obtain ⟨s, e1, e2⟩ := key
      refine ⟨s, e1, e2.size1, e2.size2, e2.nodup, e2.range, ?_⟩
      intro x; rw [e2.mem]; simp only [hc, true_and]
    · rw [if_neg hc]
      refine ⟨s0, rfl, i0.size1, i0.size2, i0.nodup, i0.range, ?_⟩
      intro x; rw [i0.mem]; simp only [hc, false_and]
  obtain ⟨s, e1, hs⟩ := st1
  rw [e1]
  simp only [Option.bind_some]
  -- the reciprocal positions
  have st2 : ∃ p, (if reci ≠ 0 then
      forNM nxs (fun k (p : PosSt × Buf Int) =>
        (p.2.rd k).bind fun c =>
        if c ≥ countmin then (addPos k c p.1).map fun s => (s, p.2)
        else (p.2.wr k 0).map fun isx => (p.1, isx)) (s, isxcount)
      else some (s, isxcount)) = some p ∧
      PosInv nxs (IsPosition nxs nshots xsrc fxsb fxse dxs isxcount countmin reci) p.1 ∧
      (∀ k : Nat, k < nxs →
        p.2.val k = if reci ≠ 0 ∧ isxcount.val k < countmin then 0 else isxcount.val k) := by
    by_cases hc : reci ≠ 0
    · rw [if_pos hc]
      have key := forNM_inv (n := nxs) (s := (s, isxcount)) (body := fun k (p : PosSt × Buf Int) =>
        (p.2.rd k).bind fun c =>
        if c ≥ countmin then (addPos k c p.1).map fun s => (s, p.2)
        else (p.2.wr k 0).map fun isx => (p.1, isx))
        (fun m p => PosInv nxs (fun x => ((reci = 0 ∨ reci = 1) ∧
            ∃ k, k < nshots ∧ InAperture fxsb fxse (xsrc k) ∧ x = ixsrcOf fxsb dxs (xsrc k)) ∨
            (∃ k : Nat, k < m ∧ x = k ∧ countmin ≤ isxcount.val k)) p.1 ∧ p.2.size = isxcount.size ∧
          (∀ k : Nat, p.2.val k = if k < m ∧ isxcount.val k < countmin then 0 else isxcount.val k))
        (by
          refine ⟨⟨hs.size1, hs.size2, hs.nodup, hs.range, ?_⟩, rfl, ?_⟩
          · intro x; rw [hs.mem]; simp
          · intro k; simp)
        (by
          rintro m hm ⟨s1, isx⟩ ⟨g1, g2, g3⟩
          dsimp only at g1 g2 g3 ⊢
          have hok : isx.ok m := ⟨by omega, by omega⟩
          rw [Buf.rd_ok hok]
          simp only [Option.bind_some]
          have hv : isx.val m = isxcount.val m := by
            rw [g3 m, if_neg (by omega)]
          rw [hv]
          by_cases hcm : isxcount.val m ≥ countmin
          · rw [if_pos hcm]
            obtain ⟨s', f1, f2⟩ := addPos_inv g1 (ix := (m:Int)) (n := isxcount.val m) (by omega) (by omega)
            rw [f1]
            refine ⟨_, rfl, ⟨f2.size1, f2.size2, f2.nodup, f2.range, ?_⟩, g2, ?_⟩
            · intro x
              rw [f2.mem]
              constructor
              · rintro ((q | ⟨k, k1, k2⟩) | q)
                · exact Or.inl q
                · exact Or.inr ⟨k, by omega, k2⟩
                · exact Or.inr ⟨m, by omega, q, hcm⟩
              · rintro (q | ⟨k, k1, k2, k3⟩)
                · exact Or.inl (Or.inl q)
                · by_cases hk : k = m
                  · subst hk; exact Or.inr k2
                  · exact Or.inl (Or.inr ⟨k, by omega, k2, k3⟩)
            · intro k
              rw [g3 k]
              by_cases hk : k = m
              · subst hk; rw [if_neg (by omega), if_neg (by omega)]
              · by_cases hk2 : k < m ∧ isxcount.val k < countmin
                · rw [if_pos hk2, if_pos (by omega)]
                · rw [if_neg hk2, if_neg (by omega)]
          · rw [if_neg hcm, Buf.wr_ok hok]
            refine ⟨_, rfl, ⟨g1.size1, g1.size2, g1.nodup, g1.range, ?_⟩, g2, ?_⟩
            · intro x
              rw [g1.mem]
              constructor
              · rintro (q | ⟨k, k1, k2⟩)
                · exact Or.inl q
                · exact Or.inr ⟨k, by omega, k2⟩
              · rintro (q | ⟨k, k1, k2, k3⟩)
                · exact Or.inl q
                · by_cases hk : k = m
                  · subst hk; exact absurd k3 hcm
                  · exact Or.inr ⟨k, by omega, k2, k3⟩
            · intro k
              dsimp only
              by_cases hk : k = m
              · subst hk; rw [if_pos rfl, if_pos (by omega)]
              · rw [if_neg (by omega), g3 k]
                by_cases hk2 : k < m ∧ isxcount.val k < countmin
                · rw [if_pos hk2, if_pos (by omega)]
                · rw [if_neg hk2, if_neg (by omega)])
      obtain ⟨p, q1, q2, _, q3⟩ := key
      refine ⟨p, q1, ⟨q2.size1, q2.size2, q2.nodup, q2.range, ?_⟩, ?_⟩
      · intro x; rw [q2.mem]; unfold IsPosition; simp only [hc, ne_eq, not_false_eq_true, true_and]
      · intro k hk
        rw [q3 k]
        simp only [hk, hc, ne_eq, not_false_eq_true, true_and]
    · rw [if_neg hc]
      refine ⟨_, rfl, ⟨hs.size1, hs.size2, hs.nodup, hs.range, ?_⟩, ?_⟩
      · intro x; rw [hs.mem]; unfold IsPosition; simp only [hc, false_and, or_false]
      · intro k _; simp only [hc, false_and, if_false]
  obtain ⟨p, q1, q2, q3⟩ := st2
  rw [q1]
  refine ⟨_, _, rfl, ?_, ?_, q3⟩
  · have hsorted := List.pairwise_insertionSort (r := (· ≤ · : Int → Int → Prop)) (elems p.1.ixpos p.1.npos)
    have hnd : ((elems p.1.ixpos p.1.npos).insertionSort (· ≤ ·)).Nodup :=
      (List.perm_insertionSort _ _).nodup_iff.mpr q2.nodup
    refine (List.Pairwise.and hsorted hnd).imp ?_
    rintro a b ⟨h1, h2⟩
    omega
  · intro x
    rw [(List.perm_insertionSort _ _).mem_iff, q2.mem]

/-- When the aperture margin of one per mille is smaller than half a grid step, every accepted shot falls on
an operator position: this is the hypothesis of `positions_sorted_and_complete_partial`. -/
theorem accepted_in_range (nxs : Nat) (fxsb fxse dxs x : ℚ) (hd : 0 < dxs)
    (he : fxse = fxsb + (nxs - 1) * dxs) (h1 : |fxsb| < 500 * dxs) (h2 : |fxse| < 500 * dxs)
    (hx : InAperture fxsb fxse x) : 0 ≤ ixsrcOf fxsb dxs x ∧ ixsrcOf fxsb dxs x < nxs := by
  obtain ⟨hb, hee⟩ := hx
  rw [abs_lt] at h1 h2
  have hlo : -(1/2) < (x - fxsb) / dxs := by
    rw [lt_div_iff₀ hd]
    unfold fxbOf at hb
    split at hb <;> linarith
  have hhi : (x - fxsb) / dxs < (nxs:ℚ) - 1/2 := by
    rw [div_lt_iff₀ hd]
    unfold fxeOf at hee
    have e1 : ((nxs:ℚ) - 1/2) * dxs = (nxs - 1) * dxs + 1/2 * dxs := by ring
    rw [e1]
    split at hee <;> linarith
  unfold ixsrcOf NINT
  generalize (x - fxsb) / dxs = q at hlo hhi
  split
  · next hq =>
    constructor
    · rw [Int.le_floor]; push_cast; linarith
    · rw [Int.floor_lt]; push_cast; linarith
  · next hq =>
    have hq' : q ≤ 0 := not_lt.mp hq
    constructor
    · have : -1 < ⌈q - 1/2⌉ := by rw [Int.lt_ceil]; push_cast; linarith
      omega
    · have h3 : ⌈q - 1/2⌉ ≤ 0 := by rw [Int.ceil_le]; push_cast; linarith
      have h4 : 0 < nxs := by
        by_contra h
        have : nxs = 0 := by omega
        subst this
        push_cast at hhi
        linarith
      omega

/-- The plain reading of C19: every position in the list is one of the operator's `nxs` traces. -/
def PositionsOnOperator (nxs : Nat) (l : List Int) : Prop := ∀ x ∈ l, 0 ≤ x ∧ x < nxs

/-- **C19 is refuted**: an acquisition around x=-10000 with 10 m spacing.  A shot one grid step outside the
operator's aperture is accepted because of the relative margin and is given position -1. -/
theorem position_minus_one :
    ∃ l isx, synthesisPositions 21 2 (fun k => if k = 0 then -10010 else -10000) (fun _ => 21)
      (-10000) (-9800) 10 ⟨21, fun _ => 0⟩ 0 0 = some (l, isx) ∧ ¬ PositionsOnOperator 21 l := by
  have h : (synthesisPositions 21 2 (fun k => if k = 0 then -10010 else -10000) (fun _ => 21)
      (-10000) (-9800) 10 ⟨21, fun _ => 0⟩ 0 0).map (fun p => p.1) = some [-1, 0] := by decide +kernel
  cases hs : synthesisPositions 21 2 (fun k => if k = 0 then -10010 else -10000) (fun _ => 21)
      (-10000) (-9800) 10 ⟨21, fun _ => 0⟩ 0 0 with
  | none => rw [hs] at h; exact absurd h (by simp)
  | some p =>
    rw [hs] at h
    refine ⟨p.1, p.2, rfl, ?_⟩
    have hl : p.1 = [-1, 0] := by simpa using h
    rw [hl]
    intro hp
    have := (hp (-1) (by simp)).1
    omega

/-- With all operator positions in use the extra position is written outside `ixpos`. -/
theorem position_overflow :
    synthesisPositions 1 2 (fun k => if k = 0 then -10000 else -10001) (fun _ => 1)
      (-10000) (-10000) 1 ⟨1, fun _ => 0⟩ 0 0 = none := by decide +kernel

/-- Hypotheses of the positive theorem met by a line with a repeated shot, and one with reciprocity. -/
example : ∀ k, k < 4 → InAperture 0 20 ((fun k : Nat => if k = 0 then (20:ℚ) else if k = 1 then 0 else if k = 2 then 20 else 40) k) →
    0 ≤ ixsrcOf 0 10 ((fun k : Nat => if k = 0 then (20:ℚ) else if k = 1 then 0 else if k = 2 then 20 else 40) k) ∧
    ixsrcOf 0 10 ((fun k : Nat => if k = 0 then (20:ℚ) else if k = 1 then 0 else if k = 2 then 20 else 40) k) < (3:Nat) :=
  fun _ _ h => accepted_in_range 3 0 20 10 _ (by norm_num) (by norm_num) (by norm_num) (by norm_num [abs_lt]) h
example : (synthesisPositions 3 4 (fun k => if k = 0 then 20 else if k = 1 then 0 else if k = 2 then 20 else 40)
    (fun _ => 3) 0 20 10 ⟨3, fun i => i⟩ 1 1).map (fun p => (p.1, p.2.val 0, p.2.val 1)) = some ([0,1,2], 0, 1) := by
  decide +kernel

end Verif.Marchenko

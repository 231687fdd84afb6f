import Mathlib.Tactic.Linarith
import Mathlib.Tactic.Ring
import Mathlib.Order.Basic

/-!
# C198, C199: extend3D (utils/extend3D.c) and changevalue (utils/changevalue.c)

extend3D: the model `cp` (one block of `nx` traces of `nz` samples) is copied for one position `y`, moved down by `iz0` samples.
Loads and stores outside a block end the program (`none`).  Not modelled: the files and headers; `iz0` itself, the rounded depth of
the interface, at most `nz` (utils/extend3D.c:169).

changevalue: the samples of a file; numbers of any linear order.  Not modelled: headers, which are copied, and the length of a
trace, which the program takes from the first one.
-/

namespace Verif.Util.Ext3

universe u
variable {K : Type u}

/-- `out[o] = cp[i]` in blocks of `n` elements. -/
def mv (n : Int) (cp : Int → K) (out : Int → K) (o i : Int) : Option (Int → K) :=
  if 0 ≤ o ∧ o < n ∧ 0 ≤ i ∧ i < n then some fun j => if j = o then cp i else out j else none

/-- The two loops over one trace, as the list of (target, source) samples (utils/extend3D.c:173-180):
`iz = nz-1 .. iz0+1` and `iz = iz0 .. 0`. -/
def moves (nz iz0 ix : Int) : List (Int × Int) :=
  ((List.range (nz - 1 - iz0).toNat).map fun t : Nat => (ix * nz + (nz - 1 - t), ix * nz + (nz - 1 - t) - iz0)) ++
    (List.range (iz0 + 1).toNat).map fun t : Nat => (ix * nz + (iz0 - t), ix * nz + 0)

/-- All traces at one `y` (utils/extend3D.c:171-190). -/
def extend (nx : Nat) (nz iz0 : Int) (cp out : Int → K) : Option (Int → K) :=
  ((List.range nx).flatMap fun ix : Nat => moves nz iz0 ix).foldlM (fun o m => mv (nz * nx) cp o m.1 m.2) out

/-- Samples of changevalue (utils/changevalue.c:85-89). -/
def change [LinearOrder K] (rmin rmax value : K) (tr : List K) : List K :=
  tr.map fun t => if t ≥ rmin ∧ t ≤ rmax then value else t

/-! ## Lemmas -/

theorem foldlM_none (n : Int) (cp : Int → K) (L : List (Int × Int)) (out : Int → K)
    (h : ∃ m ∈ L, ¬ (0 ≤ m.1 ∧ m.1 < n ∧ 0 ≤ m.2 ∧ m.2 < n)) : L.foldlM (fun o m => mv n cp o m.1 m.2) out = none := by
  induction L generalizing out with
  | nil => obtain ⟨m, hm, -⟩ := h; simp at hm
  | cons a L ih =>
    rw [List.foldlM_cons]
    by_cases hc : 0 ≤ a.1 ∧ a.1 < n ∧ 0 ≤ a.2 ∧ a.2 < n
    · rw [mv, if_pos hc]
      obtain ⟨m, hm, hn⟩ := h
      rcases List.mem_cons.mp hm with rfl | hm
      · exact absurd hc hn
      · exact ih _ ⟨m, hm, hn⟩
    · rw [mv, if_neg hc]; rfl

theorem foldlM_spec (n : Int) (cp : Int → K) (L : List (Int × Int)) (out : Int → K)
    (h : ∀ m ∈ L, 0 ≤ m.1 ∧ m.1 < n ∧ 0 ≤ m.2 ∧ m.2 < n) (hf : ∀ m ∈ L, ∀ m' ∈ L, m.1 = m'.1 → m.2 = m'.2) :
    ∃ o, L.foldlM (fun o m => mv n cp o m.1 m.2) out = some o ∧ (∀ m ∈ L, o m.1 = cp m.2) ∧
      ∀ j, (∀ m ∈ L, m.1 ≠ j) → o j = out j := by
  induction L generalizing out with
  | nil => exact ⟨out, rfl, by simp, fun _ _ => rfl⟩
  | cons a L ih =>
    obtain ⟨o, h1, h2, h3⟩ := ih (fun j => if j = a.1 then cp a.2 else out j) (fun m hm => h m (by simp [hm]))
      (fun m hm m' hm' => hf m (by simp [hm]) m' (by simp [hm']))
    refine ⟨o, ?_, ?_, ?_⟩
    · rw [List.foldlM_cons, mv, if_pos (h a (by simp))]; exact h1
    · intro m hm
      rcases List.mem_cons.mp hm with rfl | hm'
      · by_cases he : ∃ z ∈ L, z.1 = m.1
        · obtain ⟨z, hz, e⟩ := he
          rw [← e, h2 z hz, hf z (by simp [hz]) m (by simp) e]
        · push Not at he
          rw [h3 _ he, if_pos rfl]
      · exact h2 m hm'
    · intro j hj
      rw [h3 j fun m hm => hj m (by simp [hm]), if_neg fun e => hj a (by simp) e.symm]

theorem mem_moves {nz iz0 ix : Int} {m : Int × Int} :
    m ∈ moves nz iz0 ix ↔ (∃ iz, iz0 < iz ∧ iz < nz ∧ m = (ix * nz + iz, ix * nz + iz - iz0)) ∨
      ∃ iz, 0 ≤ iz ∧ iz ≤ iz0 ∧ m = (ix * nz + iz, ix * nz) := by
  unfold moves
  rw [List.mem_append, List.mem_map, List.mem_map]
  constructor
  · rintro (⟨t, ht, rfl⟩ | ⟨t, ht, rfl⟩) <;> rw [List.mem_range] at ht
    · exact Or.inl ⟨nz - 1 - t, by omega, by omega, rfl⟩
    · exact Or.inr ⟨iz0 - t, by omega, by omega, by rw [Int.add_zero]⟩
  · rintro (⟨iz, h1, h2, rfl⟩ | ⟨iz, h1, h2, rfl⟩)
    · refine Or.inl ⟨(nz - 1 - iz).toNat, by rw [List.mem_range]; omega, ?_⟩
      rw [show nz - 1 - ((nz - 1 - iz).toNat : Int) = iz by omega]
    · refine Or.inr ⟨(iz0 - iz).toNat, by rw [List.mem_range]; omega, ?_⟩
      rw [show iz0 - ((iz0 - iz).toNat : Int) = iz by omega, Int.add_zero]

theorem trace_inj {nz a b i k : Int} (hi : 0 ≤ i ∧ i < nz) (hk : 0 ≤ k ∧ k < nz) (h : a * nz + i = b * nz + k) : a = b ∧ i = k := by
  have e1 := congrArg (· / nz) h
  beta_reduce at e1
  rw [Int.add_comm, Int.add_mul_ediv_right _ _ (by omega), Int.add_comm (b * nz), Int.add_mul_ediv_right _ _ (by omega),
    Int.ediv_eq_zero_of_lt hi.1 hi.2, Int.ediv_eq_zero_of_lt hk.1 hk.2] at e1
  have : a = b := by omega
  subst this
  exact ⟨rfl, by omega⟩

theorem trace_lt {nz ix iz : Int} {nx : Nat} (h0 : 0 ≤ ix) (hx : ix < nx) (hz : 0 ≤ iz ∧ iz < nz) :
    0 ≤ ix * nz + iz ∧ ix * nz + iz < nz * nx := by
  have p : 0 ≤ ix * nz := Int.mul_nonneg h0 (by omega)
  have q : (ix + 1) * nz ≤ nx * nz := Int.mul_le_mul_of_nonneg_right (by omega) (by omega)
  rw [Int.add_mul, Int.one_mul] at q
  rw [Int.mul_comm nz]
  omega

/-! ## Properties -/

/-- C198: for an interface inside the model, sample `iz` of every trace is the sample `iz - iz0` of the same input trace, and above
the interface the first sample of the trace. -/
theorem extend_shifts (nx : Nat) (nz iz0 : Int) (cp out : Int → K) (h0 : 0 ≤ iz0) (hz : iz0 < nz) :
    ∃ o, extend nx nz iz0 cp out = some o ∧ ∀ ix iz : Int, 0 ≤ ix → ix < nx → 0 ≤ iz → iz < nz →
      o (ix * nz + iz) = cp (ix * nz + max (iz - iz0) 0) := by
  have hmem : ∀ m, m ∈ ((List.range nx).flatMap fun ix : Nat => moves nz iz0 ix) ↔ ∃ ix iz : Int, 0 ≤ ix ∧ ix < nx ∧ 0 ≤ iz ∧
      iz < nz ∧ m = (ix * nz + iz, ix * nz + max (iz - iz0) 0) := by
    intro m
    rw [List.mem_flatMap]
    constructor
    · rintro ⟨ix, hx, hm⟩
      rw [List.mem_range] at hx
      rw [mem_moves] at hm
      rcases hm with ⟨iz, a, b, rfl⟩ | ⟨iz, a, b, rfl⟩
      · exact ⟨ix, iz, by omega, by omega, by omega, b, by rw [max_eq_left (by omega)]; congr 1; omega⟩
      · exact ⟨ix, iz, by omega, by omega, a, by omega, by rw [max_eq_right (by omega), Int.add_zero]⟩
    · rintro ⟨ix, iz, a, b, c, d, rfl⟩
      refine ⟨ix.toNat, by rw [List.mem_range]; omega, ?_⟩
      rw [mem_moves, Int.toNat_of_nonneg a]
      by_cases hc : iz0 < iz
      · exact Or.inl ⟨iz, hc, d, by rw [max_eq_left (by omega)]; congr 1; omega⟩
      · exact Or.inr ⟨iz, c, by omega, by rw [max_eq_right (by omega), Int.add_zero]⟩
  obtain ⟨o, h1, h2, -⟩ := foldlM_spec (nz * nx) cp ((List.range nx).flatMap fun ix : Nat => moves nz iz0 ix) out
    (by
      intro m hm
      obtain ⟨ix, iz, a, b, c, d, rfl⟩ := (hmem m).mp hm
      have p := trace_lt a b ⟨c, d⟩
      have hm' : 0 ≤ max (iz - iz0) 0 ∧ max (iz - iz0) 0 < nz := by omega
      have q := trace_lt a b hm'
      exact ⟨p.1, p.2, q.1, q.2⟩)
    (by
      intro m hm m' hm' e
      obtain ⟨ix, iz, a, b, c, d, rfl⟩ := (hmem m).mp hm
      obtain ⟨jx, jz, a', b', c', d', rfl⟩ := (hmem m').mp hm'
      obtain ⟨rfl, rfl⟩ := trace_inj ⟨c, d⟩ ⟨c', d'⟩ e
      rfl)
  refine ⟨o, h1, fun ix iz a b c d => ?_⟩
  exact h2 _ ((hmem _).mpr ⟨ix, iz, a, b, c, d, rfl⟩)

/-- C198 (violation): an interface at or below the last sample (the program limits it to `nz`, one too many) or above the first one
makes the program leave its arrays. -/
theorem extend_outside (nx : Nat) (nz iz0 : Int) (cp out : Int → K) (hx : 0 < nx) (hn : 0 < nz) (h : iz0 < 0 ∨ nz ≤ iz0) :
    extend nx nz iz0 cp out = none := by
  unfold extend
  apply foldlM_none
  have e : ((nx - 1 : Nat) : Int) * nz = nz * nx - nz := by
    rw [Int.ofNat_sub hx]; push_cast; ring
  rcases h with h | h
  · refine ⟨(((nx - 1 : Nat) : Int) * nz + (nz - 1), ((nx - 1 : Nat) : Int) * nz + (nz - 1) - iz0), ?_, fun hb => ?_⟩
    · rw [List.mem_flatMap]
      exact ⟨nx - 1, by rw [List.mem_range]; omega, mem_moves.mpr (Or.inl ⟨nz - 1, by omega, by omega, rfl⟩)⟩
    · dsimp only at hb
      omega
  · refine ⟨(((nx - 1 : Nat) : Int) * nz + nz, ((nx - 1 : Nat) : Int) * nz), ?_, fun hb => ?_⟩
    · rw [List.mem_flatMap]
      exact ⟨nx - 1, by rw [List.mem_range]; omega, mem_moves.mpr (Or.inr ⟨nz, by omega, by omega, rfl⟩)⟩
    · dsimp only at hb
      omega

/-- C199: sample by sample: a value in the closed range becomes `value`, any other stays. -/
theorem change_samples [LinearOrder K] (rmin rmax value : K) (tr : List K) :
    (change rmin rmax value tr).length = tr.length ∧ ∀ (i : Nat) (t : K), tr[i]? = some t →
      ((rmin ≤ t ∧ t ≤ rmax) → (change rmin rmax value tr)[i]? = some value) ∧
      ((t < rmin ∨ rmax < t) → (change rmin rmax value tr)[i]? = some t) := by
  unfold change
  refine ⟨List.length_map .., fun i t h => ⟨fun hr => ?_, fun hr => ?_⟩⟩
  · rw [List.getElem?_map, h, Option.map_some, if_pos hr]
  · rw [List.getElem?_map, h, Option.map_some, if_neg]
    rintro ⟨a, b⟩
    rcases hr with hr | hr
    · exact absurd (lt_of_lt_of_le hr a) (lt_irrefl _)
    · exact absurd (lt_of_lt_of_le hr b) (lt_irrefl _)

/-- C199: applying the program again with the same parameters changes nothing. -/
theorem change_twice [LinearOrder K] (rmin rmax value : K) (tr : List K) :
    change rmin rmax value (change rmin rmax value tr) = change rmin rmax value tr := by
  unfold change
  rw [List.map_map]
  apply List.map_congr_left
  intro t _
  rw [Function.comp_apply]
  by_cases h : t ≥ rmin ∧ t ≤ rmax
  · rw [if_pos h, ite_self]
  · rw [if_neg h, if_neg h]

/-! ## The hypotheses are met -/

/-- Two traces of three samples, the interface at sample 1. -/
example : (extend 2 3 1 (fun i => i + 10) (fun _ => (0 : Int))).map (fun o => [o 0, o 1, o 2, o 3, o 4, o 5]) =
    some [10, 10, 11, 13, 13, 14] := by decide +kernel
example : extend 2 3 3 (fun i => i + 10) (fun _ => (0 : Int)) = none := extend_outside 2 3 3 _ _ (by omega) (by omega) (by omega)
example : change 1500 1600 2000 [(1400 : Int), 1500, 1600, 1601] = [1400, 2000, 2000, 1601] := by decide

end Verif.Util.Ext3

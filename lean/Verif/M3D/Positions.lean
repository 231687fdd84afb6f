import Verif.Marchenko.Positions

/-!
# The lateral positions of the 3D synthesis (marchenko3D/synthesis3D.c: synthesisPositions3D)

Coordinates are rationals in place of float.  `ixpos[0..npos)` and `iypos[0..npos)` are one list of pairs; the
arrays have room for `nxs*nys` (marchenko3D.c:366-367), a further pair is `none`.  `count` is
only used for messages and is left out.
-/

namespace Verif.M3D
open Verif Verif.Marchenko

/-- `linearsearch`, synthesis3D.c:121-130: the first element equal to `v`, or the length. -/
def search : List Int → Int → Nat
  | [], _ => 0
  | x :: xs, v => if v ≠ x then search xs v + 1 else 0

/-- Lines 90-101 for an accepted shot at `(ix,iy)`. -/
def addPos (nxs cap : Nat) (q : Int × Int) (l : List (Int × Int)) : Option (List (Int × Int)) :=
  let j := search (l.map Prod.fst) q.1
  let i := search (l.map Prod.snd) q.2
  if i * nxs + j < l.length then some l
  else if l.length < cap then some (l ++ [q]) else none

/-- The arguments that matter: extent and sampling of the operator grid, the shots. -/
structure Args where
  nxs : Nat
  nys : Nat
  fxsb : ℚ
  fxse : ℚ
  fysb : ℚ
  fyse : ℚ
  dxs : ℚ
  dys : ℚ
  nshots : Nat
  xsrc : Nat → ℚ
  ysrc : Nat → ℚ

/-- The test of lines 87-88 with the bounds of lines 39-46. -/
def Args.inside (a : Args) (k : Nat) : Prop :=
  (a.xsrc k ≥ fxbOf a.fxsb ∧ a.xsrc k ≤ fxeOf a.fxse) ∧ (a.ysrc k ≥ fxbOf a.fysb ∧ a.ysrc k ≤ fxeOf a.fyse)

instance (a : Args) (k : Nat) : Decidable (a.inside k) := by unfold Args.inside; infer_instance

/-- `(ixsrc, iysrc)` of shot `k`, lines 61-62. -/
def Args.pos (a : Args) (k : Nat) : Int × Int :=
  (ixsrcOf a.fxsb a.dxs (a.xsrc k), ixsrcOf a.fysb a.dys (a.ysrc k))

/-- `synthesisPositions3D`, synthesis3D.c:32-119, for `reci` 0 or 1. -/
def Args.positions (a : Args) : Option (List (Int × Int)) :=
  forNM a.nshots (fun k l => if a.inside k then addPos a.nxs (a.nxs * a.nys) (a.pos k) l else some l) []

/-! ## Specification -/

namespace Spec

/-- The list has every grid position of an accepted shot, nothing else, and nothing twice. -/
def Complete (a : Args) (l : List (Int × Int)) : Prop :=
  l.Nodup ∧ ∀ q, q ∈ l ↔ ∃ k, k < a.nshots ∧ a.inside k ∧ q = a.pos k

end Spec

/-! ## Lemmas -/

theorem search_le (l : List Int) (v : Int) : search l v ≤ l.length := by
  induction l with
  | nil => simp [search]
  | cons x xs ih => unfold search; split <;> simp; omega

theorem search_lt_iff (l : List Int) (v : Int) : search l v < l.length ↔ v ∈ l := by
  induction l with
  | nil => simp [search]
  | cons x xs ih =>
    unfold search
    split
    · next h => simp only [List.length_cons, Nat.add_lt_add_iff_right, ih, List.mem_cons]; tauto
    · next h => simp at h; simp [h]

theorem le_search (m : Nat) (f : Nat → Int) (v : Int) (b : Nat) (hb : b ≤ m) (h : ∀ k, k < b → f k ≠ v) :
    b ≤ search ((List.range m).map f) v := by
  induction m generalizing f b with
  | zero => omega
  | succ m ih =>
    cases b with
    | zero => omega
    | succ b =>
      rw [List.range_succ_eq_map, List.map_cons, List.map_map]
      unfold search
      rw [if_pos (fun e => h 0 (by omega) e.symm)]
      have := ih (f ∘ Nat.succ) b (by omega) (fun k hk => h (k + 1) (by omega))
      omega

theorem search_eq (m : Nat) (f : Nat → Int) (v : Int) (b : Nat) (hb : b < m) (h : ∀ k, k < b → f k ≠ v) (he : f b = v) :
    search ((List.range m).map f) v = b := by
  induction m generalizing f b with
  | zero => omega
  | succ m ih =>
    rw [List.range_succ_eq_map, List.map_cons, List.map_map]
    unfold search
    cases b with
    | zero => rw [if_neg (by simp [he])]
    | succ b =>
      rw [if_pos (fun e => h 0 (by omega) e.symm)]
      rw [ih (f ∘ Nat.succ) b (by omega) (fun k hk => h (k + 1) (by omega)) he]

/-! ## C166 -/

/-- **C166 (part).** Shots on one line: the list is complete.  Also for the general acquisition in
raster order (`raster_complete_partial`); what is missing is every other order, see
`position_lost`, `position_repeated`, `positions_overflow`. -/
theorem line_complete_partial (a : Args) (y : Int) (hy : ∀ k, k < a.nshots → a.inside k → (a.pos k).2 = y) (hn : 0 < a.nys)
    (hx : ∀ k, k < a.nshots → a.inside k → 0 ≤ (a.pos k).1 ∧ (a.pos k).1 < a.nxs) :
    ∃ l, a.positions = some l ∧ Spec.Complete a l := by
  have key := forNM_inv (n := a.nshots) (s := ([] : List (Int × Int)))
    (body := fun k l => if a.inside k then addPos a.nxs (a.nxs * a.nys) (a.pos k) l else some l)
    (fun m l => (l.map Prod.fst).Nodup ∧ (∀ q ∈ l, q.2 = y) ∧ (∀ q ∈ l, 0 ≤ q.1 ∧ q.1 < a.nxs) ∧
      ∀ q, q ∈ l ↔ ∃ k, k < m ∧ a.inside k ∧ q = a.pos k)
    ⟨by simp, by simp, by simp, by simp⟩
    (by
      rintro m hm l ⟨h1, h2, h3, h4⟩
      by_cases hin : a.inside m
      · rw [if_pos hin]
        have hi : search (l.map Prod.snd) (a.pos m).2 = 0 := by
          cases l with
          | nil => rfl
          | cons q l =>
            rw [List.map_cons, search, if_neg]
            rw [hy m hm hin, h2 q (by simp)]; simp
        unfold addPos
        simp only [hi, Nat.zero_mul, Nat.zero_add]
        have hlen : l.length = (l.map Prod.fst).length := by simp
        have hiff : search (l.map Prod.fst) (a.pos m).1 < l.length ↔ a.pos m ∈ l := by
          rw [hlen, search_lt_iff, List.mem_map]
          constructor
          · rintro ⟨q, q1, q2⟩
            have : q = a.pos m := Prod.ext q2 (by rw [h2 q q1, hy m hm hin])
            rwa [← this]
          · intro h; exact ⟨_, h, rfl⟩
        by_cases hc : a.pos m ∈ l
        · rw [if_pos (hiff.mpr hc)]
          refine ⟨l, rfl, h1, h2, h3, fun q => ?_⟩
          rw [h4]
          constructor
          · rintro ⟨k, k1, k2⟩; exact ⟨k, by omega, k2⟩
          · rintro ⟨k, k1, k2, k3⟩
            by_cases hk : k = m
            · subst hk; rw [k3]; exact (h4 _).mp hc
            · exact ⟨k, by omega, k2, k3⟩
        · rw [if_neg (fun h => hc (hiff.mp h))]
          have hnot : (a.pos m).1 ∉ l.map Prod.fst := by
            rw [← search_lt_iff, ← hlen, hiff]; exact hc
          have hnd : ((a.pos m).1 :: l.map Prod.fst).Nodup := List.nodup_cons.mpr ⟨hnot, h1⟩
          have hle := nodup_length_le (n := a.nxs) hnd (by
            intro x hx'
            rcases List.mem_cons.mp hx' with q | q
            · rw [q]; exact hx m hm hin
            · obtain ⟨z, z1, rfl⟩ := List.mem_map.mp q; exact h3 z z1)
          simp only [List.length_cons, List.length_map] at hle
          have hcap : l.length < a.nxs * a.nys := by
            have := Nat.le_mul_of_pos_right a.nxs hn
            omega
          rw [if_pos hcap]
          refine ⟨_, rfl, ?_, ?_, ?_, ?_⟩
          · rw [List.map_append, List.nodup_append]
            refine ⟨h1, by simp, ?_⟩
            intro u hu v hv
            simp only [List.map_cons, List.map_nil, List.mem_singleton] at hv
            subst hv
            intro e; subst e; exact hnot hu
          · intro q hq
            rcases List.mem_append.mp hq with hq | hq
            · exact h2 q hq
            · rw [List.mem_singleton] at hq; subst hq; exact hy m hm hin
          · intro q hq
            rcases List.mem_append.mp hq with hq | hq
            · exact h3 q hq
            · rw [List.mem_singleton] at hq; subst hq; exact hx m hm hin
          · intro q
            rw [List.mem_append, h4, List.mem_singleton]
            constructor
            · rintro (⟨k, k1, k2⟩ | q)
              · exact ⟨k, by omega, k2⟩
              · exact ⟨m, by omega, hin, q⟩
            · rintro ⟨k, k1, k2, k3⟩
              by_cases hk : k = m
              · subst hk; exact Or.inr k3
              · exact Or.inl ⟨k, by omega, k2, k3⟩
      · rw [if_neg hin]
        refine ⟨l, rfl, h1, h2, h3, fun q => ?_⟩
        rw [h4]
        constructor
        · rintro ⟨k, k1, k2⟩; exact ⟨k, by omega, k2⟩
        · rintro ⟨k, k1, k2, k3⟩
          by_cases hk : k = m
          · subst hk; exact absurd k2 hin
          · exact ⟨k, by omega, k2, k3⟩)
  obtain ⟨l, e, h1, -, -, h4⟩ := key
  exact ⟨l, e, h1.of_map, h4⟩

/-- The list after `m` shots in raster order, `w` shots in a row. -/
theorem raster_list (nxs cap w : Nat) (hnx : 0 < nxs) (hw : 0 < w) (X Y : Nat → Int)
    (hX : ∀ c d, c < w → d < w → X c = X d → c = d) (hY : ∀ r t, Y r = Y t → r = t) (m : Nat) (hm : m ≤ cap) :
    forNM m (fun k l => addPos nxs cap (X (k % w), Y (k / w)) l) [] =
      some ((List.range m).map fun k => (X (k % w), Y (k / w))) := by
  induction m with
  | zero => rfl
  | succ m ih =>
    rw [forNM_succ, ih (by omega)]
    simp only [Option.bind_some]
    unfold addPos
    simp only [List.map_map, List.length_map, List.length_range]
    have hj : m % w ≤ search ((List.range m).map (Prod.fst ∘ fun k => (X (k % w), Y (k / w)))) (X (m % w)) := by
      refine le_search m _ _ _ (Nat.mod_le _ _) fun k hk e => ?_
      have hlt := Nat.mod_lt m hw
      have := hX _ _ (Nat.mod_lt k hw) hlt e
      rw [Nat.mod_eq_of_lt (by omega)] at this
      omega
    have hi : m / w * w ≤ search ((List.range m).map (Prod.snd ∘ fun k => (X (k % w), Y (k / w)))) (Y (m / w)) := by
      refine le_search m _ _ _ (Nat.div_mul_le_self _ _) fun k hk e => ?_
      have := hY _ _ e
      have h1 : k / w < m / w := (Nat.div_lt_iff_lt_mul hw).mpr hk
      omega
    rw [if_neg, if_pos (by omega), List.range_succ, List.map_append]
    · rfl
    · have h1 := Nat.div_add_mod m w
      rw [Nat.mul_comm] at h1
      have h2 := Nat.le_mul_of_pos_right (search ((List.range m).map (Prod.snd ∘ fun k => (X (k % w), Y (k / w)))) (Y (m / w))) hnx
      omega

/-- **C166 (part).** Shots in raster order without repetition: shot `k` lies in column `k % w` and row
`k / w`; different columns and rows are different grid positions.  The list is complete. -/
theorem raster_complete_partial (a : Args) (w : Nat) (hw : 0 < w) (hnx : 0 < a.nxs) (X Y : Nat → Int)
    (hX : ∀ c d, c < w → d < w → X c = X d → c = d) (hY : ∀ r t, Y r = Y t → r = t)
    (hin : ∀ k, k < a.nshots → a.inside k ∧ a.pos k = (X (k % w), Y (k / w))) (hcap : a.nshots ≤ a.nxs * a.nys) :
    ∃ l, a.positions = some l ∧ Spec.Complete a l := by
  have e : a.positions = some ((List.range a.nshots).map fun k => (X (k % w), Y (k / w))) := by
    rw [← raster_list a.nxs (a.nxs * a.nys) w hnx hw X Y hX hY a.nshots hcap]
    unfold Args.positions
    have : ∀ n, n ≤ a.nshots → forNM n (fun k l => if a.inside k then addPos a.nxs (a.nxs * a.nys) (a.pos k) l else some l) [] =
        forNM n (fun k l => addPos a.nxs (a.nxs * a.nys) (X (k % w), Y (k / w)) l) [] := by
      intro n hn
      induction n with
      | zero => rfl
      | succ n ih =>
        rw [forNM_succ, forNM_succ, ih (by omega)]
        simp only [if_pos (hin n (by omega)).1, (hin n (by omega)).2]
    exact this _ le_rfl
  refine ⟨_, e, ?_, fun q => ?_⟩
  · refine List.Nodup.map_on ?_ List.nodup_range
    intro k hk m hm he
    rw [Prod.mk.injEq] at he
    have h1 := hX _ _ (Nat.mod_lt k hw) (Nat.mod_lt m hw) he.1
    have h2 := hY _ _ he.2
    rw [← Nat.div_add_mod k w, ← Nat.div_add_mod m w, h1, h2]
  · rw [List.mem_map]
    constructor
    · rintro ⟨k, k1, rfl⟩
      rw [List.mem_range] at k1
      exact ⟨k, k1, (hin k k1).1, (hin k k1).2.symm⟩
    · rintro ⟨k, k1, -, rfl⟩
      exact ⟨k, List.mem_range.mpr k1, (hin k k1).2.symm⟩

theorem nint_near (q : ℚ) : |(NINT q : ℚ) - q| ≤ 1 / 2 := by
  unfold NINT
  rw [abs_le]
  split
  · have h1 := Int.floor_le (q + 1/2); have h2 := Int.lt_floor_add_one (q + 1/2)
    constructor <;> linarith
  · have h1 := Int.le_ceil (q - 1/2); have h2 := Int.ceil_lt_add_one (q - 1/2)
    constructor <;> linarith

/-- **C166.** The position of a shot is the nearest one of the grid, in both directions with their own origin and
step. -/
theorem pos_nearest (a : Args) (k : Nat) (hx : 0 < a.dxs) (hy : 0 < a.dys) :
    |a.fxsb + (a.pos k).1 * a.dxs - a.xsrc k| ≤ a.dxs / 2 ∧ |a.fysb + (a.pos k).2 * a.dys - a.ysrc k| ≤ a.dys / 2 := by
  have key : ∀ f d x : ℚ, 0 < d → |f + (ixsrcOf f d x : ℚ) * d - x| ≤ d / 2 := by
    intro f d x hd
    have h := nint_near ((x - f) / d)
    have e : f + (ixsrcOf f d x : ℚ) * d - x = ((NINT ((x - f) / d) : ℚ) - (x - f) / d) * d := by
      unfold ixsrcOf; rw [sub_mul, div_mul_cancel₀ _ hd.ne']; ring
    rw [e, abs_mul, abs_of_pos hd]
    calc _ ≤ 1 / 2 * d := mul_le_mul_of_nonneg_right h hd.le
      _ = d / 2 := by ring
  exact ⟨key _ _ _ hx, key _ _ _ hy⟩

/-- A grid of `nxs` by `nys` unit cells from the origin and shots at whole positions. -/
def unit (nxs nys : Nat) (shots : List (Nat × Nat)) : Args where
  nxs := nxs
  nys := nys
  fxsb := 0
  fxse := nxs
  fysb := 0
  fyse := nys
  dxs := 1
  dys := 1
  nshots := shots.length
  xsrc k := (shots.getD k (0, 0)).1
  ysrc k := (shots.getD k (0, 0)).2

/-- **C166 (defect).** A third shot is taken for a repetition although no shot was at its position: the search
compares the two coordinates with different shots. -/
theorem position_lost : (unit 2 2 [(0, 0), (1, 1), (1, 0)]).positions = some [(0, 0), (1, 1)] ∧
    (∀ k, k < 3 → (unit 2 2 [(0, 0), (1, 1), (1, 0)]).inside k) ∧ (unit 2 2 [(0, 0), (1, 1), (1, 0)]).pos 2 = (1, 0) := by
  decide +kernel

/-- **C166 (defect).** A repeated shot is listed twice. -/
theorem position_repeated : (unit 2 2 [(0, 0), (0, 1), (0, 1)]).positions = some [(0, 0), (0, 1), (0, 1)] := by
  decide +kernel

/-- **C166 (defect).** On every grid that the shots fill in raster order, one more shot at a row `iy` with
`iy*nxs*nxs+ix >= nxs*nys`, for instance any in the second row if `nys <= nxs`, is stored beyond the end of
the arrays. -/
theorem positions_overflow (nxs nys : Nat) (X Y : Nat → Int)
    (hX : ∀ c d, c < nxs → d < nxs → X c = X d → c = d) (hY : ∀ r t, Y r = Y t → r = t) (ix iy : Nat) (hx : ix < nxs) (hy : iy < nys)
    (h : nxs * nys ≤ iy * nxs * nxs + ix) :
    forNM (nxs * nys + 1) (fun k l => addPos nxs (nxs * nys)
      (if k < nxs * nys then (X (k % nxs), Y (k / nxs)) else (X ix, Y iy)) l) [] = none := by
  have e : forNM (nxs * nys) (fun k l => addPos nxs (nxs * nys)
      (if k < nxs * nys then (X (k % nxs), Y (k / nxs)) else (X ix, Y iy)) l) [] =
      some ((List.range (nxs * nys)).map fun k => (X (k % nxs), Y (k / nxs))) := by
    rw [← raster_list nxs (nxs * nys) nxs (by omega) (by omega) X Y hX hY (nxs * nys) le_rfl]
    have : ∀ n, n ≤ nxs * nys → forNM n (fun k l => addPos nxs (nxs * nys)
        (if k < nxs * nys then (X (k % nxs), Y (k / nxs)) else (X ix, Y iy)) l) [] =
        forNM n (fun k l => addPos nxs (nxs * nys) (X (k % nxs), Y (k / nxs)) l) [] := by
      intro n hn
      induction n with
      | zero => rfl
      | succ n ih =>
        rw [forNM_succ, forNM_succ, ih (by omega)]
        simp only [if_pos (show n < nxs * nys by omega)]
    exact this _ le_rfl
  rw [forNM_succ, e]
  simp only [Option.bind_some, if_neg (lt_irrefl (nxs * nys))]
  unfold addPos
  simp only [List.map_map, List.length_map, List.length_range]
  have hiy : iy * nxs < nxs * nys := by rw [Nat.mul_comm nxs nys]; exact (Nat.mul_lt_mul_right (by omega)).mpr hy
  have hixn : ix < nxs * nys := lt_of_lt_of_le hx (Nat.le_mul_of_pos_right _ (by omega))
  have hj : search ((List.range (nxs * nys)).map (Prod.fst ∘ fun k => (X (k % nxs), Y (k / nxs)))) (X ix) = ix := by
    refine search_eq _ _ _ _ hixn (fun k hk e => ?_) ?_
    · have := hX _ _ (Nat.mod_lt k (by omega)) hx e
      rw [Nat.mod_eq_of_lt (by omega)] at this
      omega
    · simp only [Function.comp_apply, Nat.mod_eq_of_lt hx]
  have hi : search ((List.range (nxs * nys)).map (Prod.snd ∘ fun k => (X (k % nxs), Y (k / nxs)))) (Y iy) = iy * nxs := by
    refine search_eq _ _ _ _ hiy (fun k hk e => ?_) ?_
    · have := hY _ _ e
      have h1 : k / nxs < iy := (Nat.div_lt_iff_lt_mul (by omega)).mpr hk
      omega
    · simp only [Function.comp_apply]
      rw [Nat.mul_div_cancel _ (by omega)]
  rw [hi, hj, if_neg (by omega), if_neg (by omega)]

/-! ## Cases -/

example := line_complete_partial (unit 3 1 [(0, 0), (2, 0), (0, 0)]) 0 (by decide +kernel) (by decide) (by decide +kernel)

example : (unit 3 1 [(0, 0), (2, 0), (0, 0)]).positions = some [(0, 0), (2, 0)] := by decide +kernel

example := raster_complete_partial (unit 3 2 [(0, 0), (1, 0), (0, 1), (1, 1)]) 2 (by decide) (by decide) (fun c => c) (fun r => r)
  (by intro c d _ _ h; exact_mod_cast h) (by intro c d h; exact_mod_cast h) (by decide +kernel) (by decide)

example := positions_overflow 2 2 (fun c => c) (fun r => r) (by intro c d _ _ h; exact_mod_cast h) (by intro c d h; exact_mod_cast h) 0 1
  (by decide) (by decide) (by decide)

end Verif.M3D

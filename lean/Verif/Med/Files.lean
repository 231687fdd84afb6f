import Verif.Med.Info

/-!
# Model of reading the medium files (readModel.c:82-99, 121-131, 197-228)

A file is the list of its traces; every trace of every file has `nz` samples (the program warns about other files and goes on), so a
header says nothing else.  `nx` is the number of traces of the velocity file (getModelInfo.c:60-62).  Files with quality factors are
left out.  The arrays: `none` is an element that was never set.
-/

namespace Verif.Med.Files

variable {K : Type}

/-- `cp`, `ro`, `cs`: column and row. -/
structure Arrs (K : Type) where
  cp : Int → Int → Option K
  ro : Int → Int → Option K
  cs : Int → Int → Option K

/-- How the program goes on after reading. -/
inductive Res (K : Type)
  /-- an assertion failed or an error was reported -/
  | stop
  /-- undefined behaviour: outside an array, or a value that was never set -/
  | undef
  | done (m : Arrs K)

/-- `fread(&cp[i*nz], sizeof(float), hdr.ns, fpcp)`: column `i` becomes the trace. -/
def col (m : Int → Int → Option K) (i : Int) (t : List K) : Int → Int → Option K :=
  fun x z => if x = i then (if 0 ≤ z then t[z.toNat]? else none) else m x z

/-- The loop `while (tracesToDo)` (readModel.c:121-131, 197-216); `tracesToDo` is never changed, so the loop ends when one of the files has
no further header.  The lists are what is left of the files, the first trace of each has its header read. -/
def readLoop (elastic : Bool) (nx : Int) : Int → List (List K) → List (List K) → List (List K) → Arrs K → Res K
  | i, c :: cp, r :: ro, s, m =>
    if nx ≤ i then .undef
    else
      let m := { m with cp := col m.cp i c, ro := col m.ro i r }
      if elastic then
        match s with
        | [] => .stop
        | t :: cs =>
          let m := { m with cs := col m.cs i t }
          if cp.isEmpty then .done m else if ro.isEmpty then .done m else if cs.isEmpty then .done m
          else readLoop elastic nx (i + 1) cp ro cs m
      else if cp.isEmpty then .done m else if ro.isEmpty then .done m
      else readLoop elastic nx (i + 1) cp ro s m
  | _, _, _, _, _ => .stop

/-- The check for zero densities (readModel.c:223-228), column by column: `some true` if one is found, `none` if a value was never
set. -/
def zeroIn [Zero K] [DecidableEq K] (ro : Int → Int → Option K) (nz : Int) : List Int → Option Bool
  | [] => some false
  | k :: ks => (ro (k / nz) (k % nz)).bind fun v => if v = 0 then some true else zeroIn ro nz ks

/-- Reading and checking (readModel.c:82-99, 121-228): `ro`, `cp` from `malloc`, `cs` from `calloc`. -/
def readFiles [Zero K] [DecidableEq K] (elastic : Bool) (nz : Int) (cp ro cs : List (List K)) : Res K :=
  if cp = [] ∨ ro = [] ∨ (elastic = true ∧ cs = []) then .stop
  else
    match readLoop elastic cp.length 0 cp ro cs ⟨fun _ _ => none, fun _ _ => none, fun _ _ => some 0⟩ with
    | .done m =>
      match zeroIn m.ro nz ((List.range (nz * cp.length).toNat).map Int.ofNat) with
      | none => .undef
      | some true => .stop
      | some false => .done m
    | r => r

/-! ## Specification -/

/-- Every trace has `nz` samples. -/
def Full (nz : Nat) (f : List (List K)) : Prop := ∀ t ∈ f, t.length = nz

/-- Sample `j` of trace `i`. -/
def at' (f : List (List K)) (i j : Nat) : Option K := (f[i]?).bind (·[j]?)

/-! ## Proofs -/

private theorem col_at {m : Int → Int → Option K} {i : Int} {t : List K} (x : Int) (z : Nat) :
    col m i t x z = if x = i then t[z]? else m x z := by
  unfold col
  by_cases h : x = i
  · rw [if_pos h, if_pos h, if_pos (by omega)]; rfl
  · rw [if_neg h, if_neg h]

/-- The loop stores the traces of the files until the shortest ends. -/
private theorem loop (elastic : Bool) (nx : Int) (cp ro cs : List (List K)) (i : Nat) (m : Arrs K) (hc : cp ≠ []) (hr : ro ≠ [])
    (hs : elastic = true → cs ≠ []) (hn : i + cp.length ≤ nx) : ∃ m', readLoop elastic nx i cp ro cs m = .done m' ∧
      ∃ n : Nat, 1 ≤ n ∧ n ≤ cp.length ∧ n ≤ ro.length ∧ (elastic = true → n ≤ cs.length) ∧
        (n = cp.length ∨ n = ro.length ∨ (elastic = true ∧ n = cs.length)) ∧
        (∀ k j : Nat, m'.cp k j = if i ≤ k ∧ k < i + n then at' cp (k - i) j else m.cp k j) ∧
        (∀ k j : Nat, m'.ro k j = if i ≤ k ∧ k < i + n then at' ro (k - i) j else m.ro k j) ∧
        (∀ k j : Nat, m'.cs k j = if elastic = true ∧ i ≤ k ∧ k < i + n then at' cs (k - i) j else m.cs k j) := by
  induction cp generalizing ro cs i m with
  | nil => exact absurd rfl hc
  | cons c cp ih =>
    match ro, hr with
    | r :: ro, _ =>
      have hi : ¬ nx ≤ (i : Int) := by simp only [List.length_cons] at hn; push_cast at hn; omega
      -- what one pass leaves, if the loop ends with it
      have fin1 : ∀ (cpl : List (List K)) (t : List K) (f : Int → Int → Option K) (k j : Nat),
          col f (i : Int) t k j = if i ≤ k ∧ k < i + 1 then at' (t :: cpl) (k - i) j else f k j := by
        intro cpl t f k j
        rw [col_at]
        by_cases hk : k = i
        · subst hk; simp [at']
        · rw [if_neg (by omega), if_neg (by omega)]
      -- several passes
      have fin2 : ∀ (cpl : List (List K)) (t : List K) (f : Int → Int → Option K) (n k j : Nat),
          (if i + 1 ≤ k ∧ k < i + 1 + n then at' cpl (k - (i + 1)) j else col f (i : Int) t k j) =
            if i ≤ k ∧ k < i + (n + 1) then at' (t :: cpl) (k - i) j else f k j := by
        intro cpl t f n k j
        rw [col_at]
        by_cases hk : k = i
        · subst hk; rw [if_neg (by omega), if_pos rfl, if_pos (by omega)]; simp [at']
        · by_cases h2 : i + 1 ≤ k ∧ k < i + 1 + n
          · rw [if_pos h2, if_pos (by omega)]
            have : k - i = (k - (i + 1)) + 1 := by omega
            rw [this]; simp [at']
          · rw [if_neg h2, if_neg (by omega), if_neg (by omega)]
      cases elastic with
      | false =>
        unfold readLoop
        simp only [if_neg hi, Bool.false_eq_true, if_false]
        by_cases h1 : cp = []
        · subst h1
          refine ⟨_, rfl, 1, le_refl _, by simp, by simp, by simp, by simp, fin1 [] c m.cp, fin1 ro r m.ro, by simp⟩
        · by_cases h2 : ro = []
          · subst h2
            simp only [List.isEmpty_eq_false_iff.2 h1, Bool.false_eq_true, if_false, List.isEmpty_nil, if_true]
            refine ⟨_, rfl, 1, le_refl _, by simp, by simp, by simp, by simp, fin1 cp c m.cp, fin1 [] r m.ro, by simp⟩
          · simp only [List.isEmpty_eq_false_iff.2 h1, List.isEmpty_eq_false_iff.2 h2, Bool.false_eq_true, if_false]
            obtain ⟨m', e, n, n1, n2, n3, _, n5, v1, v2, v3⟩ := ih ro cs (i + 1) { m with cp := col m.cp i c, ro := col m.ro i r } h1 h2
              (by simp) (by simp only [List.length_cons] at hn; push_cast at hn ⊢; omega)
            refine ⟨m', by push_cast at e; exact e, n + 1, by omega, by simp; omega, by simp; omega, by simp, ?_, ?_, ?_, ?_⟩
            · simp at n5 ⊢; omega
            · intro k j; rw [v1 k j]; exact fin2 cp c m.cp n k j
            · intro k j; rw [v2 k j]; exact fin2 ro r m.ro n k j
            · intro k j; rw [v3 k j]; simp
      | true =>
        match cs, hs rfl with
        | t :: cs, _ =>
          unfold readLoop
          simp only [if_neg hi, if_true]
          by_cases h1 : cp = []
          · subst h1
            simp only [List.isEmpty_nil, if_true]
            refine ⟨_, rfl, 1, le_refl _, by simp, by simp, by simp, by simp, fin1 [] c m.cp, fin1 ro r m.ro, ?_⟩
            intro k j; simp only [true_and]; exact fin1 cs t m.cs k j
          · by_cases h2 : ro = []
            · subst h2
              simp only [List.isEmpty_eq_false_iff.2 h1, Bool.false_eq_true, if_false, List.isEmpty_nil, if_true]
              refine ⟨_, rfl, 1, le_refl _, by simp, by simp, by simp, by simp, fin1 cp c m.cp, fin1 [] r m.ro, ?_⟩
              intro k j; simp only [true_and]; exact fin1 cs t m.cs k j
            · by_cases h3 : cs = []
              · subst h3
                simp only [List.isEmpty_eq_false_iff.2 h1, List.isEmpty_eq_false_iff.2 h2, Bool.false_eq_true, if_false, List.isEmpty_nil, if_true]
                refine ⟨_, rfl, 1, le_refl _, by simp, by simp, by simp, by simp, fin1 cp c m.cp, fin1 ro r m.ro, ?_⟩
                intro k j; simp only [true_and]; exact fin1 [] t m.cs k j
              · simp only [List.isEmpty_eq_false_iff.2 h1, List.isEmpty_eq_false_iff.2 h2, List.isEmpty_eq_false_iff.2 h3,
                  Bool.false_eq_true, if_false]
                obtain ⟨m', e, n, n1, n2, n3, n4, n5, v1, v2, v3⟩ := ih ro cs (i + 1)
                  { m with cp := col m.cp i c, ro := col m.ro i r, cs := col m.cs i t } h1 h2 (fun _ => h3)
                  (by simp only [List.length_cons] at hn; push_cast at hn ⊢; omega)
                have n4' := n4 rfl
                refine ⟨m', by push_cast at e; exact e, n + 1, by omega, by simp; omega, by simp; omega, by simp; omega, ?_, ?_, ?_, ?_⟩
                · simp at n5 ⊢; omega
                · intro k j; rw [v1 k j]; exact fin2 cp c m.cp n k j
                · intro k j; rw [v2 k j]; exact fin2 ro r m.ro n k j
                · intro k j; rw [v3 k j]; simp only [true_and]; exact fin2 cs t m.cs n k j

section
variable [Zero K] [DecidableEq K]

private theorem zeroIn_false (f : Int → Int → Option K) (nz : Int) (l : List Int) (h : ∀ k ∈ l, ∃ v, f (k / nz) (k % nz) = some v ∧ v ≠ 0) :
    zeroIn f nz l = some false := by
  induction l with
  | nil => rfl
  | cons k l ih =>
    obtain ⟨v, h1, h2⟩ := h k (by simp)
    unfold zeroIn
    rw [h1]
    simp only [Option.bind_some, if_neg h2]
    exact ih fun k hk => h k (by simp [hk])

private theorem zeroIn_true (f : Int → Int → Option K) (nz : Int) (l : List Int) (h : ∀ k ∈ l, ∃ v, f (k / nz) (k % nz) = some v)
    (h0 : ∃ k ∈ l, f (k / nz) (k % nz) = some 0) : zeroIn f nz l = some true := by
  induction l with
  | nil => obtain ⟨k, hk, _⟩ := h0; simp at hk
  | cons k l ih =>
    obtain ⟨v, h1⟩ := h k (by simp)
    unfold zeroIn
    rw [h1]
    simp only [Option.bind_some]
    by_cases hv : v = 0
    · rw [if_pos hv]
    · rw [if_neg hv]
      apply ih (fun k hk => h k (by simp [hk]))
      obtain ⟨k', hk', e⟩ := h0
      rcases List.mem_cons.1 hk' with rfl | hk'
      · rw [h1] at e; exact absurd (Option.some.inj e) hv
      · exact ⟨k', hk', e⟩

private theorem zeroIn_none (f : Int → Int → Option K) (nz : Int) (l : List Int) (h0 : ∃ k ∈ l, f (k / nz) (k % nz) = none)
    (h : ∀ k ∈ l, f (k / nz) (k % nz) ≠ some 0) : zeroIn f nz l = none := by
  induction l with
  | nil => obtain ⟨k, hk, _⟩ := h0; simp at hk
  | cons k l ih =>
    unfold zeroIn
    cases h1 : f (k / nz) (k % nz) with
    | none => rfl
    | some v =>
      have hv : v ≠ 0 := by intro hv; subst hv; exact h k (by simp) h1
      simp only [Option.bind_some, if_neg hv]
      apply ih
      · obtain ⟨k', hk', e⟩ := h0
        rcases List.mem_cons.1 hk' with rfl | hk'
        · rw [h1] at e; cases e
        · exact ⟨k', hk', e⟩
      · exact fun k hk => h k (by simp [hk])

omit [Zero K] [DecidableEq K] in
private theorem at_some {nz : Nat} {f : List (List K)} (hf : Full nz f) {i j : Nat} (hi : i < f.length) (hj : j < nz) :
    ∃ v, at' f i j = some v ∧ v ∈ f.flatten := by
  have hl : (f[i]).length = nz := hf _ (List.getElem_mem hi)
  refine ⟨f[i][j]'(by omega), ?_, ?_⟩
  · simp [at', hi, hl, hj]
  · exact List.mem_flatten.2 ⟨f[i], List.getElem_mem hi, List.getElem_mem _⟩

/-- **The model is what the files say**: with as many density (and S velocity) traces as velocity traces, or more, column `i` of every
array is trace `i` of its file; a zero density anywhere stops the program. -/
theorem files_read (elastic : Bool) {nz : Nat} (hz : 0 < nz) {cp ro cs : List (List K)} (hc : cp ≠ []) (h2 : Full nz ro)
    (hr : cp.length ≤ ro.length) (hs : elastic = true → cp.length ≤ cs.length) (hpos : ∀ v ∈ ro.flatten, v ≠ 0) :
    ∃ m, readFiles elastic nz cp ro cs = .done m ∧ ∀ i j : Nat, i < cp.length → m.cp i j = at' cp i j ∧ m.ro i j = at' ro i j ∧
      m.cs i j = if elastic = true then at' cs i j else some 0 := by
  have hl : 0 < cp.length := List.length_pos_of_ne_nil hc
  have hro : ro ≠ [] := by intro h; rw [h] at hr; simp at hr; exact hc hr
  have hcs : elastic = true → cs ≠ [] := by intro he h; have := hs he; rw [h] at this; simp at this; exact hc this
  obtain ⟨m, e, n, n1, n2, n3, n4, n5, v1, v2, v3⟩ := loop elastic cp.length cp ro cs 0
    ⟨fun _ _ => none, fun _ _ => none, fun _ _ => some 0⟩ hc hro hcs (by simp)
  have hn : n = cp.length := by
    rcases n5 with h | h | ⟨he, h⟩
    · exact h
    · omega
    · have := hs he; omega
  subst hn
  refine ⟨m, ?_, fun i j hi => ?_⟩
  · unfold readFiles
    rw [if_neg (by
      rintro (h | h | ⟨h, h'⟩)
      · exact hc h
      · exact hro h
      · exact hcs h h')]
    rw [show ((0 : Nat) : Int) = 0 from rfl] at e
    rw [e]
    dsimp only
    rw [zeroIn_false]
    intro k hk
    obtain ⟨k', hk', rfl⟩ := List.mem_map.1 hk
    rw [List.mem_range] at hk'
    have hk2 : k' < nz * cp.length := by
      have e3 : ((nz : Int) * cp.length).toNat = nz * cp.length := by rw [← Nat.cast_mul, Int.toNat_natCast]
      omega
    have q1 : k' / nz < cp.length := Nat.div_lt_of_lt_mul hk2
    have q2 : k' % nz < nz := Nat.mod_lt _ hz
    have e1 : (Int.ofNat k') / (nz : Int) = ((k' / nz : Nat) : Int) := by simp
    have e2 : (Int.ofNat k') % (nz : Int) = ((k' % nz : Nat) : Int) := by simp
    rw [e1, e2, v2, if_pos ⟨Nat.zero_le _, by rw [Nat.zero_add]; exact q1⟩]
    obtain ⟨v, a, b⟩ := at_some h2 (i := k' / nz - 0) (j := k' % nz) (by rw [Nat.sub_zero]; exact lt_of_lt_of_le q1 hr) q2
    exact ⟨v, a, hpos v b⟩
  · rw [v1, v2, v3, if_pos (by omega), if_pos (by omega)]
    refine ⟨by simp, by simp, ?_⟩
    by_cases he : elastic = true
    · rw [if_pos ⟨he, by omega⟩, if_pos he]; simp
    · rw [if_neg (fun h => he h.1), if_neg he]

/-- **A zero density stops the program.** -/
theorem zero_density_stops (elastic : Bool) {nz : Nat} (hz : 0 < nz) {cp ro cs : List (List K)} (hc : cp ≠ []) (h2 : Full nz ro)
    (hr : ro.length = cp.length) (hs : elastic = true → cp.length ≤ cs.length) (h0 : (0 : K) ∈ ro.flatten) :
    readFiles elastic nz cp ro cs = .stop := by
  have hl : 0 < cp.length := List.length_pos_of_ne_nil hc
  have hro : ro ≠ [] := by intro h; rw [h] at hr; simp at hr; exact hc (List.length_eq_zero_iff.1 hr.symm)
  have hcs : elastic = true → cs ≠ [] := by intro he h; have := hs he; rw [h] at this; simp at this; exact hc this
  obtain ⟨m, e, n, n1, n2, n3, n4, n5, v1, v2, v3⟩ := loop elastic cp.length cp ro cs 0
    ⟨fun _ _ => none, fun _ _ => none, fun _ _ => some 0⟩ hc hro hcs (by simp)
  have hn : n = cp.length := by
    rcases n5 with h | h | ⟨he, h⟩
    · exact h
    · omega
    · have := hs he; omega
  subst hn
  unfold readFiles
  rw [if_neg (by
    rintro (h | h | ⟨h, h'⟩)
    · exact hc h
    · exact hro h
    · exact hcs h h')]
  rw [show ((0 : Nat) : Int) = 0 from rfl] at e
  rw [e]
  dsimp only
  have e3 : ((nz : Int) * cp.length).toNat = nz * cp.length := by rw [← Nat.cast_mul, Int.toNat_natCast]
  have cell : ∀ k' : Nat, k' < nz * cp.length → m.ro (Int.ofNat k' / (nz : Int)) (Int.ofNat k' % (nz : Int)) = at' ro (k' / nz) (k' % nz) := by
    intro k' hk'
    have q1 : k' / nz < cp.length := Nat.div_lt_of_lt_mul hk'
    have e1 : (Int.ofNat k') / (nz : Int) = ((k' / nz : Nat) : Int) := by simp
    have e2 : (Int.ofNat k') % (nz : Int) = ((k' % nz : Nat) : Int) := by simp
    rw [e1, e2, v2, if_pos ⟨Nat.zero_le _, by rw [Nat.zero_add]; exact q1⟩]; simp
  rw [zeroIn_true]
  · intro k hk
    obtain ⟨k', hk', rfl⟩ := List.mem_map.1 hk
    rw [List.mem_range, e3] at hk'
    rw [cell k' hk']
    obtain ⟨v, a, _⟩ := at_some h2 (i := k' / nz) (j := k' % nz) (by rw [hr]; exact Nat.div_lt_of_lt_mul hk') (Nat.mod_lt _ hz)
    exact ⟨v, a⟩
  · obtain ⟨t, ht, hv⟩ := List.mem_flatten.1 h0
    obtain ⟨i, hi, rfl⟩ := List.getElem_of_mem ht
    obtain ⟨j, hj, hj2⟩ := List.getElem_of_mem hv
    have hl2 : (ro[i]).length = nz := h2 _ (List.getElem_mem hi)
    have hlt : nz * i + j < nz * cp.length := by
      have : nz * (i + 1) ≤ nz * cp.length := Nat.mul_le_mul_left _ (by omega)
      rw [Nat.mul_add] at this; omega
    refine ⟨Int.ofNat (nz * i + j), List.mem_map.2 ⟨nz * i + j, List.mem_range.2 (by rw [e3]; exact hlt), rfl⟩, ?_⟩
    rw [cell _ hlt]
    have d1 : (nz * i + j) / nz = i := by rw [Nat.mul_add_div hz, Nat.div_eq_of_lt (by omega)]; omega
    have d2 : (nz * i + j) % nz = j := by rw [Nat.mul_add_mod]; exact Nat.mod_eq_of_lt (by omega)
    rw [d1, d2]
    simp [at', hi, hj, hj2]

/-- **Too short a density or S velocity file: values that were never set are used** (the program only warns). -/
theorem short_file_undefined (elastic : Bool) {nz : Nat} (hz : 0 < nz) {cp ro cs : List (List K)} (hro : ro ≠ []) (h2 : Full nz ro)
    (hcs : elastic = true → cs ≠ []) (hshort : ro.length < cp.length ∨ (elastic = true ∧ cs.length < cp.length))
    (hpos : ∀ v ∈ ro.flatten, v ≠ 0) : readFiles elastic nz cp ro cs = .undef := by
  have hc : cp ≠ [] := by
    intro h
    subst h
    rcases hshort with h | ⟨_, h⟩ <;> simp at h
  obtain ⟨m, e, n, n1, n2, n3, n4, n5, v1, v2, v3⟩ := loop elastic cp.length cp ro cs 0
    ⟨fun _ _ => none, fun _ _ => none, fun _ _ => some 0⟩ hc hro hcs (by simp)
  have hn : n < cp.length := by
    rcases hshort with h | ⟨he, h⟩
    · omega
    · have := n4 he; omega
  unfold readFiles
  rw [if_neg (by
    rintro (h | h | ⟨h, h'⟩)
    · exact hc h
    · exact hro h
    · exact hcs h h')]
  rw [show ((0 : Nat) : Int) = 0 from rfl] at e
  rw [e]
  dsimp only
  have e3 : ((nz : Int) * cp.length).toNat = nz * cp.length := by rw [← Nat.cast_mul, Int.toNat_natCast]
  have cell : ∀ k' : Nat, m.ro (Int.ofNat k' / (nz : Int)) (Int.ofNat k' % (nz : Int)) =
      if k' / nz < n then at' ro (k' / nz) (k' % nz) else none := by
    intro k'
    have e1 : (Int.ofNat k') / (nz : Int) = ((k' / nz : Nat) : Int) := by simp
    have e2 : (Int.ofNat k') % (nz : Int) = ((k' % nz : Nat) : Int) := by simp
    rw [e1, e2, v2]; simp
  rw [zeroIn_none]
  · refine ⟨Int.ofNat (nz * n), List.mem_map.2 ⟨nz * n, List.mem_range.2 ?_, rfl⟩, ?_⟩
    · rw [e3]; exact Nat.mul_lt_mul_of_pos_left hn hz
    · rw [cell, Nat.mul_div_cancel_left _ hz, if_neg (by omega)]
  · intro k hk
    obtain ⟨k', _, rfl⟩ := List.mem_map.1 hk
    rw [cell]
    split
    · rename_i h
      obtain ⟨v, a, b⟩ := at_some h2 (i := k' / nz) (j := k' % nz) (lt_of_lt_of_le h n3) (Nat.mod_lt _ hz)
      rw [a]
      intro hc
      exact hpos v b (Option.some.inj hc)
    · simp

end

/-- Three columns of two points; a density file with the same, and one with a column missing. -/
example : Full 2 [[1000, 1000], [1000, 1200], [1000, (1300 : Int)]] ∧ (∀ v ∈ [[1000, 1000], [1000, 1200], [1000, (1300 : Int)]].flatten, v ≠ 0) := by
  unfold Full; decide
example : readFiles false 2 [[1500, 1600], [1500, 1700], [1500, (1800 : Int)]] [[1000, 1000], [1000, 1200]] [] = .undef :=
  short_file_undefined false (by decide) (by decide) (by unfold Full; decide) (by decide) (by decide) (by decide)
example : readFiles false 2 [[1500, (1600 : Int)]] [[1000, 0]] [] = .stop :=
  zero_density_stops false (by decide) (by decide) (by unfold Full; decide) (by decide) (by decide) (by decide)

end Verif.Med.Files

import Verif.Basop.Filter

/-!
# The choice of the operation, and the operations in the time domain
-/

namespace Verif.Basop

open Finset Verif Verif.Conv

/-! ### The documented names -/

/-- The names of the self-documentation, with the operation each stands for (basop.c:90-119). -/
def documented : List (String × Op) :=
  [("shift", .shift), ("rot", .rot), ("hilb", .hilb), ("env", .env), ("conjg", .conjg), ("jom", .jom), ("jkx", .jkx), ("jkz", .jkz), ("sk", .sk),
   ("jom_i", .jomI), ("jkx_i", .jkxI), ("jkz_i", .jkzI), ("sk_i", .skI), ("ghost", .ghost), ("sjom", .sjom), ("sjom_i", .sjomI), ("rma", .rma),
   ("rmat", .rmat), ("inv", .inv), ("nrot", .nrot), ("k_i", .kI), ("som_i", .somI), ("som", .som), ("deca1", .deca1), ("deca2", .deca2),
   ("kfilt", .kfilt), ("kill", .kill), ("scaletraces", .scaletraces), ("killno", .killno), ("killof", .killfo)]

/-- **C126 (partial).** Every documented name but two selects its operation. -/
theorem dispatch_documented_partial : ∀ p ∈ documented, p.1 ≠ "scaletraces" → p.1 ≠ "killof" → dispatch p.1.toList = some p.2 := by decide

/-- The two that do not: `scaletraces` does not fit into the array of ten characters, and `killof` selects nothing. -/
theorem dispatch_defects : dispatch "scaletraces".toList = none ∧ dispatch "killof".toList = some .none ∧
    dispatch "killfo".toList = some .killfo := by decide

/-- The numbers 1 to 30 select the operations of the list. -/
theorem dispatch_numbers : ∀ j : Fin documented.length, dispatch (Nat.toDigits 10 (j.val + 1)) = some (documented.get j).2 := by decide

/-- A choice is copied within the array just when it has at most nine characters. -/
theorem dispatch_fits (c : List Char) : dispatch c ≠ none ↔ c.length ≤ 9 := by
  unfold dispatch
  by_cases h : c.length + 1 ≤ 10
  · rw [if_pos h]; simp; omega
  · rw [if_neg h]; simp; omega

/-- The name and the number of each operation. -/
def Op.names : Op → List String
  | .shift => ["shift", "1"]
  | .rot => ["rot", "2"]
  | .hilb => ["hilb", "3"]
  | .env => ["env", "4"]
  | .conjg => ["conjg", "5"]
  | .jom => ["jom", "6"]
  | .jomI => ["jom_i", "10"]
  | .jkx => ["jkx", "7"]
  | .jkxI => ["jkx_i", "11"]
  | .jkz => ["jkz", "8"]
  | .jkzI => ["jkz_i", "12"]
  | .sk => ["sk", "9"]
  | .skI => ["sk_i", "13"]
  | .ghost => ["ghost", "14"]
  | .sjom => ["sjom", "15"]
  | .sjomI => ["sjom_i", "16"]
  | .rma => ["rma", "17"]
  | .rmat => ["rmat", "18"]
  | .inv => ["inv", "19"]
  | .nrot => ["nrot", "20"]
  | .kI => ["k_i", "21"]
  | .somI => ["som_i", "22"]
  | .som => ["som", "23"]
  | .deca1 => ["deca1", "24"]
  | .deca2 => ["deca2", "25"]
  | .kfilt => ["kfilt", "26"]
  | .kill => ["kill", "27"]
  | .scaletraces => ["scaletraces", "28"]
  | .killno => ["killno", "29"]
  | .killfo => ["killfo", "30"]
  | .none => []

theorem ite_named {c : List Char} {b : Bool} {r rest : Op} (h1 : b = true → ∃ s ∈ r.names, s.toList <:+: c)
    (h2 : rest = .none ∨ ∃ s ∈ rest.names, s.toList <:+: c) :
    (if b then r else rest) = .none ∨ ∃ s ∈ (if b then r else rest : Op).names, s.toList <:+: c := by
  cases b
  · exact h2
  · exact Or.inr (h1 rfl)

/-- **C126.** An operation is selected only by a choice that is, or contains, its name or its number; any other choice leaves the data as it
is. -/
theorem chain_named (c : List Char) : chain c = .none ∨ ∃ s ∈ (chain c).names, s.toList <:+: c := by
  unfold chain
  iterate 30
    refine ite_named (fun h => by
      simp only [strstr, streq, Bool.or_eq_true, decide_eq_true_eq] at h
      rcases h with h | h
      · first
          | exact ⟨_, .head _, h⟩
          | exact ⟨_, .head _, h ▸ List.infix_refl _⟩
      · first
          | exact ⟨_, .tail _ (.head _), h⟩
          | exact ⟨_, .tail _ (.head _), h ▸ List.infix_refl _⟩) ?_
  exact Or.inl rfl

/-! ### Averages -/

theorem sum_forN (n : ℕ) (f : ℕ → ℝ) (a : ℝ) : forN n (fun i a => a + f i) a = a + ∑ i ∈ range n, f i := by
  induction n with
  | zero => simp
  | succ n ih => rw [forN_succ, ih, sum_range_succ, add_assoc]

theorem sum_forN2 (m n : ℕ) (f : ℕ → ℕ → ℝ) (a : ℝ) :
    forN m (fun i a => forN n (fun j a => a + f i j) a) a = a + ∑ i ∈ range m, ∑ j ∈ range n, f i j := by
  induction m with
  | zero => simp
  | succ m ih => rw [forN_succ, sum_forN, ih, sum_range_succ, add_assoc]

/-- A double loop that replaces every element of the gather once. -/
theorem rows_val {α : Type*} (nsam nrec : ℕ) (F : ℕ → ℕ → α → α) (d : ℕ → α) :
    (∀ i j, i < nrec → j < nsam →
      forN nrec (fun ix d => forN nsam (fun it d => aset d (ix * nsam + it) (F ix it (d (ix * nsam + it)))) d) d (i * nsam + j) = F i j (d (i * nsam + j))) ∧
    ∀ m, nrec * nsam ≤ m → forN nrec (fun ix d => forN nsam (fun it d => aset d (ix * nsam + it) (F ix it (d (ix * nsam + it)))) d) d m = d m := by
  have inner : ∀ (n ix : ℕ) (d : ℕ → α) (m : ℕ), forN n (fun it d => aset d (ix * nsam + it) (F ix it (d (ix * nsam + it)))) d m =
      if ix * nsam ≤ m ∧ m < ix * nsam + n then F ix (m - ix * nsam) (d m) else d m := by
    intro n ix d m
    induction n with
    | zero => rw [if_neg (by omega)]; rfl
    | succ n ih =>
      rw [forN_succ]
      by_cases hm : m = ix * nsam + n
      · subst hm
        rw [if_pos (by omega)]
        rw [if_neg (by omega)] at ih
        simp only [aset, if_pos]
        rw [ih, Nat.add_sub_cancel_left]
      · simp only [aset, if_neg hm]
        rw [ih]
        by_cases h : ix * nsam ≤ m ∧ m < ix * nsam + n
        · rw [if_pos h, if_pos (by omega)]
        · rw [if_neg h, if_neg (by omega)]
  have outer : ∀ (n : ℕ), (∀ i j, i < n → j < nsam →
      forN n (fun ix d => forN nsam (fun it d => aset d (ix * nsam + it) (F ix it (d (ix * nsam + it)))) d) d (i * nsam + j) = F i j (d (i * nsam + j))) ∧
      ∀ m, n * nsam ≤ m → forN n (fun ix d => forN nsam (fun it d => aset d (ix * nsam + it) (F ix it (d (ix * nsam + it)))) d) d m = d m := by
    intro n
    induction n with
    | zero => exact ⟨fun i j hi _ => by omega, fun m _ => rfl⟩
    | succ n ih =>
      have e : (n + 1) * nsam = n * nsam + nsam := by ring
      refine ⟨fun i j hi hj => ?_, fun m hm => ?_⟩
      · rw [forN_succ, inner]
        by_cases h : i = n
        · subst h
          rw [if_pos (by omega), Nat.add_sub_cancel_left, ih.2 _ (by omega)]
        · have hi' : i < n := by omega
          have := row_le hi' hj
          rw [if_neg (by omega), ih.1 i j hi' hj]
      · rw [forN_succ, inner, if_neg (by omega), ih.2 m (by omega)]
  exact outer nrec

/-- **C130.** Choice `rma`: from every sample of the gather the average of all its samples is subtracted; the result has average zero. -/
theorem rma_spec (nsam nrec : ℕ) (h : 0 < nrec * nsam) (data : ℕ → ℝ) :
    (∀ i j, i < nrec → j < nsam → rma nsam nrec data (i * nsam + j) =
      data (i * nsam + j) - (∑ i ∈ range nrec, ∑ j ∈ range nsam, data (i * nsam + j)) / (nrec * nsam)) ∧
    ∑ i ∈ range nrec, ∑ j ∈ range nsam, rma nsam nrec data (i * nsam + j) = 0 := by
  have hv : ∀ i j, i < nrec → j < nsam → rma nsam nrec data (i * nsam + j) =
      data (i * nsam + j) - (∑ i ∈ range nrec, ∑ j ∈ range nsam, data (i * nsam + j)) / (nrec * nsam) := fun i j hi hj => by
    unfold rma
    rw [(rows_val nsam nrec (fun _ _ x => x - _) data).1 i j hi hj, sum_forN2, zero_add]
    push_cast
    rfl
  refine ⟨hv, ?_⟩
  rw [sum_congr rfl (fun i hi => sum_congr rfl (fun j hj => hv i j (mem_range.mp hi) (mem_range.mp hj)))]
  simp only [sum_sub_distrib, sum_const, card_range, nsmul_eq_mul]
  have h1 : (nrec : ℝ) ≠ 0 := by exact_mod_cast (Nat.pos_of_mul_pos_right h).ne'
  have h2 : (nsam : ℝ) ≠ 0 := by exact_mod_cast (Nat.pos_of_mul_pos_left h).ne'
  field_simp
  ring

/-- **C130.** Choice `rmat`: the same for every trace. -/
theorem rmat_spec (nsam nrec : ℕ) (h : 0 < nsam) (data : ℕ → ℝ) :
    (∀ i j, i < nrec → j < nsam → rmat nsam nrec data (i * nsam + j) = data (i * nsam + j) - (∑ j ∈ range nsam, data (i * nsam + j)) / nsam) ∧
    ∀ i, i < nrec → ∑ j ∈ range nsam, rmat nsam nrec data (i * nsam + j) = 0 := by
  have one : ∀ (i : ℕ) (d : ℕ → ℝ) (a : ℝ) (m : ℕ), forN nsam (fun it d => aset d (i * nsam + it) (d (i * nsam + it) - a)) d m =
      if i * nsam ≤ m ∧ m < i * nsam + nsam then d m - a else d m := by
    intro i d a m
    have key : ∀ n, forN n (fun it d => aset d (i * nsam + it) (d (i * nsam + it) - a)) d m =
        if i * nsam ≤ m ∧ m < i * nsam + n then d m - a else d m := by
      intro n
      induction n with
      | zero => rw [if_neg (by omega)]; rfl
      | succ n ih =>
        rw [forN_succ]
        by_cases hm : m = i * nsam + n
        · subst hm
          rw [if_pos (by omega)]
          rw [if_neg (by omega)] at ih
          simp only [aset, if_pos]
          rw [ih]
        · simp only [aset, if_neg hm]
          rw [ih]
          by_cases h : i * nsam ≤ m ∧ m < i * nsam + n
          · rw [if_pos h, if_pos (by omega)]
          · rw [if_neg h, if_neg (by omega)]
    exact key nsam
  have key : ∀ n, (∀ i j, i < n → j < nsam → rmat nsam n data (i * nsam + j) = data (i * nsam + j) - (∑ j ∈ range nsam, data (i * nsam + j)) / nsam) ∧
      ∀ m, n * nsam ≤ m → rmat nsam n data m = data m := by
    intro n
    induction n with
    | zero => exact ⟨fun i j hi _ => by omega, fun m _ => rfl⟩
    | succ n ih =>
      have e : (n + 1) * nsam = n * nsam + nsam := by ring
      have es : rmat nsam (n + 1) data = forN nsam (fun it d => aset d (n * nsam + it) (d (n * nsam + it) -
          (∑ j ∈ range nsam, data (n * nsam + j)) / nsam)) (rmat nsam n data) := by
        unfold rmat
        rw [forN_succ]
        dsimp only
        rw [sum_forN, zero_add]
        change forN nsam (fun it d => aset d (n * nsam + it) (d (n * nsam + it) - (∑ j ∈ range nsam, rmat nsam n data (n * nsam + j)) / nsam)) (rmat nsam n data) = _
        rw [sum_congr rfl (fun j _ => ih.2 (n * nsam + j) (by omega))]
        rfl
      refine ⟨fun i j hi hj => ?_, fun m hm => ?_⟩
      · rw [es, one]
        by_cases h : i = n
        · subst h
          rw [if_pos (by omega), ih.2 _ (by omega)]
        · have hi' : i < n := by omega
          have := row_le hi' hj
          rw [if_neg (by omega), ih.1 i j hi' hj]
      · rw [es, one, if_neg (by omega), ih.2 m (by omega)]
  refine ⟨(key nrec).1, fun i hi => ?_⟩
  rw [sum_congr rfl (fun j hj => (key nrec).1 i j hi (mem_range.mp hj)), sum_sub_distrib, sum_const, card_range, nsmul_eq_mul]
  have : (nsam : ℝ) ≠ 0 := by exact_mod_cast h.ne'
  field_simp
  ring

/-! ### Rotation -/

theorem forNM_aset {α : Type*} (n : ℕ) (idx : ℕ → ℕ) (val : ℕ → α) (P : ℕ → Prop) [DecidablePred P] (hP : ∀ i, i < n → P i) (d : ℕ → α) :
    forNM n (fun it d => if P it then some (aset d (idx it) (val it)) else none) d = some (forN n (fun it d => aset d (idx it) (val it)) d) := by
  induction n with
  | zero => rfl
  | succ n ih =>
    rw [forNM_succ, ih (fun i hi => hP i (by omega)), forN_succ]
    simp only [Option.bind_some, if_pos (hP n (by omega))]

/-- One trace, for a rotation by `r` samples to the right. -/
theorem rotateTrace_val {α : Type*} (nsam r base lend : ℕ) (hr : r ≤ nsam) (hl : base + nsam ≤ lend) (data : ℕ → α) :
    ∃ o, rotateTrace nsam r base lend data = some o ∧ (∀ t, t < nsam → o (base + (t + r) % nsam) = data (base + t)) ∧
      ∀ m, (m < base ∨ base + nsam ≤ m) → o m = data m := by
  unfold rotateTrace
  rw [if_pos hl]
  dsimp only
  rw [forNM_aset ((nsam : ℤ) - r).toNat (fun it => ((base : ℤ) + r + it).toNat) (fun it => data (base + it)) _ (fun i hi => by omega) data, Option.bind_some,
    forNM_aset ((r : ℤ)).toNat (fun it => base + it) (fun it => data (base + ((nsam : ℤ) - r + it).toNat)) _ (fun i hi => by omega)]
  have w := (Writes.forN (n := ((nsam : ℤ) - r).toNat) (fun it _ => Writes.aset (((base : ℤ) + r + it).toNat) (data (base + it)))).comp
    (Writes.forN (n := ((r : ℤ)).toNat) (fun it _ => Writes.aset (base + it) (data (base + ((nsam : ℤ) - r + it).toNat))))
  refine ⟨_, rfl, fun t ht => ?_, fun m hm => ?_⟩
  · refine w.val data ?_ ?_
    · by_cases h : t + r < nsam
      · left
        exact ⟨t, by omega, by rw [Nat.mod_eq_of_lt h]; omega, rfl⟩
      · right
        refine ⟨t + r - nsam, by omega, ?_, ?_⟩
        · rw [Nat.mod_eq_sub_mod (by omega), Nat.mod_eq_of_lt (by omega)]
        · congr 2; omega
    · have hmod : (t + r) % nsam = if t + r < nsam then t + r else t + r - nsam := by
        split
        · rename_i h; exact Nat.mod_eq_of_lt h
        · rw [Nat.mod_eq_sub_mod (by omega), Nat.mod_eq_of_lt (by omega)]
      rintro v (⟨i, hi, e, rfl⟩ | ⟨i, hi, e, rfl⟩)
      · rw [hmod] at e
        split at e
        · congr 1; omega
        · exfalso; omega
      · rw [hmod] at e
        split at e
        · exfalso; omega
        · congr 1; omega
  · refine w.frame data ?_
    rintro v (⟨i, hi, e, _⟩ | ⟨i, hi, e, _⟩) <;> omega

/-- **C130.** `timeRotate` by `r` samples, `0 ≤ r ≤ nsam`: every trace is rotated `r` samples to the right. -/
theorem timeRotate_spec {α : Type*} (nsam nrec r lend : ℕ) (hr : r ≤ nsam) (hl : nrec * nsam ≤ lend) (data : ℕ → α) :
    ∃ o, timeRotate nsam nrec r lend data = some o ∧ (∀ i t, i < nrec → t < nsam → o (i * nsam + (t + r) % nsam) = data (i * nsam + t)) ∧
      ∀ m, nrec * nsam ≤ m → o m = data m := by
  unfold timeRotate
  induction nrec with
  | zero => exact ⟨data, rfl, fun i t hi _ => by omega, fun _ _ => rfl⟩
  | succ n ih =>
    have e : (n + 1) * nsam = n * nsam + nsam := by ring
    obtain ⟨o, eo, a, f⟩ := ih (by omega)
    obtain ⟨o', eo', a', f'⟩ := rotateTrace_val nsam r (n * nsam) lend hr (by omega) o
    refine ⟨o', by rw [forNM_succ, eo]; exact eo', fun i t hi ht => ?_, fun m hm => ?_⟩
    · by_cases h : i = n
      · subst h
        rw [a' t ht, f _ (by omega)]
      · have hi' : i < n := by omega
        have hm : (t + r) % nsam < nsam := Nat.mod_lt _ (by omega)
        have := row_le hi' hm
        rw [f' _ (Or.inl this), a i t hi' ht]
    · rw [f' m (Or.inr (by omega)), f m (by omega)]

/-- A rotation by a negative number of samples (to the left) writes before the array. -/
theorem timeRotate_negative {α : Type*} (nsam nrec r lend : ℕ) (hr : 0 < r) (hn : 0 < nrec) (data : ℕ → α) : timeRotate nsam nrec (-(r : ℤ)) lend data = none := by
  have one : ∀ d : ℕ → α, rotateTrace nsam (-(r : ℤ)) (0 * nsam) lend d = none := fun d => by
    unfold rotateTrace
    split
    · dsimp only
      obtain ⟨k, hk⟩ : ∃ k, ((nsam : ℤ) - -(r : ℤ)).toNat = k + 1 := ⟨nsam + r - 1, by omega⟩
      rw [hk]
      have hz : ∀ n, forNM (n + 1) (fun it (d' : ℕ → α) => if 0 ≤ ((0 * nsam : ℕ) : ℤ) + -(r : ℤ) + it ∧ ((0 * nsam : ℕ) : ℤ) + -(r : ℤ) + it < lend ∧ it < nsam then
          some (aset d' (((0 * nsam : ℕ) : ℤ) + -(r : ℤ) + it).toNat (d (0 * nsam + it))) else none) d = none := fun n => by
        induction n with
        | zero =>
          rw [forNM_succ]
          show (if _ then _ else _) = _
          rw [if_neg (by push_cast; omega)]
        | succ n ih => rw [forNM_succ, ih]; rfl
      rw [hz k]
      rfl
    · rfl
  unfold timeRotate
  obtain ⟨k, rfl⟩ : ∃ k, nrec = k + 1 := ⟨nrec - 1, by omega⟩
  induction k with
  | zero => rw [forNM_succ]; exact one data
  | succ k ih => rw [forNM_succ, ih (by omega)]; rfl

/-- **C130 (partial).** Choice `nrot` rotates by no sample at all, whatever the parameter `nrot` is, when `trot` is not given and the sampling
interval is below two seconds. -/
theorem nrotOf_ignored_partial (nrot : ℤ) (d1 : ℝ) (h : 0 < d1) (h2 : d1 < 2) : nrotOf nrot 0 d1 = 0 := by
  unfold nrotOf
  dsimp only
  rw [if_neg (lt_irrefl _)]
  have e : toInt (0 - 1 / 2 * d1) = 0 := by
    unfold toInt
    rw [if_neg (by linarith), Int.ceil_eq_iff]
    constructor <;> push_cast <;> linarith
  rw [e]
  simp [toInt]

/-- The same for every `trot` that, with half a sampling interval, is below one second. -/
theorem nrotOf_trot (nrot : ℤ) (trot d1 : ℝ) (h : 0 < d1) (ht : 0 < trot) (h2 : trot + d1 / 2 < 1) : nrotOf nrot trot d1 = 0 := by
  unfold nrotOf
  dsimp only
  rw [if_pos ht]
  have e : toInt (trot + 1 / 2 * d1) = 0 := by
    unfold toInt
    rw [if_pos (by linarith), Int.floor_eq_iff]
    constructor <;> push_cast <;> linarith
  rw [e]
  simp [toInt]

/-! ### Padding in two directions -/

/-- **C131.** `pad2d_data` packs the traces at the distance of their own length: the padded array starts with the data as they are, and what
follows is zero only for part of the array; the rest keeps what was in the memory. -/
theorem pad2d_flat {α : Type*} (zero : α) (nsam nrec nsamout nrecout : ℕ) (hs : nsam ≤ nsamout) (hr : nrec ≤ nrecout) (hn : 0 < nrec) (data o : ℕ → α) (m : ℕ) :
    pad2d zero nsam nrec nsamout nrecout data o m =
      if m < nrec * nsam then data m else if m < (nrecout - 1) * nsam + nsamout then zero else o m := by
  have first : ∀ n m, forN n (fun ix o =>
      forN (nsamout - nsam) (fun d o => aset o (ix * nsam + (nsam + d)) zero)
        (forN nsam (fun it o => aset o (ix * nsam + it) (data (ix * nsam + it))) o)) o m =
      if m < n * nsam then data m else if 0 < n ∧ m < (n - 1) * nsam + nsamout then zero else o m := by
    intro n
    induction n with
    | zero => intro m; rw [if_neg (by omega), if_neg (by omega)]; rfl
    | succ n ih =>
      intro m
      have e : (n + 1) * nsam = n * nsam + nsam := by ring
      rw [forN_succ]
      generalize forN n _ o = p at ih
      have w := (Writes.forN (n := nsam) (fun it _ => Writes.aset (n * nsam + it) (data (n * nsam + it)))).comp
        (Writes.forN (n := nsamout - nsam) (fun d _ => Writes.aset (n * nsam + (nsam + d)) zero))
      rw [Nat.add_sub_cancel]
      by_cases h1 : m < n * nsam
      · rw [if_pos (by omega)]
        refine (w.frame p ?_).trans ?_
        · rintro v (⟨i, hi, e, _⟩ | ⟨i, hi, e, _⟩) <;> omega
        · rw [ih, if_pos h1]
      · by_cases h2 : m < n * nsam + nsam
        · rw [if_pos (by omega)]
          refine w.val p (Or.inl ⟨m - n * nsam, by omega, by omega, by congr 1; omega⟩) ?_
          rintro v (⟨i, hi, e, rfl⟩ | ⟨i, hi, e, rfl⟩)
          · rw [e]
          · omega
        · rw [if_neg (by omega)]
          by_cases h3 : m < n * nsam + nsamout
          · rw [if_pos (by omega)]
            refine w.val p (Or.inr ⟨m - (n * nsam + nsam), by omega, by omega, rfl⟩) ?_
            rintro v (⟨i, hi, e, rfl⟩ | ⟨i, hi, e, rfl⟩)
            · omega
            · rfl
          · rw [if_neg (by omega)]
            refine (w.frame p ?_).trans ?_
            · rintro v (⟨i, hi, e, _⟩ | ⟨i, hi, e, _⟩) <;> omega
            · have hle : (n - 1) * nsam ≤ n * nsam := Nat.mul_le_mul_right _ (by omega)
              rw [ih, if_neg h1, if_neg (by omega)]
  have second : ∀ k, ∀ m, forN k (fun d o => forN nsamout (fun it o => aset o ((nrec + d) * nsam + it) zero) o)
      (forN nrec (fun ix o =>
        forN (nsamout - nsam) (fun d o => aset o (ix * nsam + (nsam + d)) zero)
          (forN nsam (fun it o => aset o (ix * nsam + it) (data (ix * nsam + it))) o)) o) m =
      if m < nrec * nsam then data m else if m < (nrec + k - 1) * nsam + nsamout then zero else o m := by
    intro k
    induction k with
    | zero =>
      intro m
      rw [Nat.add_zero]
      refine (first nrec m).trans ?_
      by_cases h1 : m < nrec * nsam
      · rw [if_pos h1, if_pos h1]
      · rw [if_neg h1, if_neg h1]
        by_cases h2 : m < (nrec - 1) * nsam + nsamout
        · rw [if_pos ⟨hn, h2⟩, if_pos h2]
        · rw [if_neg (fun h => h2 h.2), if_neg h2]
    | succ k ih =>
      intro m
      rw [forN_succ]
      generalize forN k _ _ = p at ih
      have w := Writes.forN (n := nsamout) (fun it _ => Writes.aset ((nrec + k) * nsam + it) zero)
      have hge : nrec * nsam ≤ (nrec + k) * nsam := Nat.mul_le_mul_right _ (by omega)
      have hge2 : (nrec + k - 1) * nsam + nsam = (nrec + k) * nsam := by
        rw [← Nat.succ_mul]; congr 1; omega
      rw [show nrec + (k + 1) - 1 = nrec + k by omega]
      by_cases h1 : (nrec + k) * nsam ≤ m ∧ m < (nrec + k) * nsam + nsamout
      · rw [if_neg (by omega), if_pos h1.2]
        refine w.val p ⟨m - (nrec + k) * nsam, by omega, by omega, rfl⟩ ?_
        rintro v ⟨_, _, _, rfl⟩
        rfl
      · refine (w.frame p ?_).trans ?_
        · rintro v ⟨i, hi, e, _⟩; omega
        · rw [ih]
          by_cases h2 : m < nrec * nsam
          · rw [if_pos h2, if_pos h2]
          · rw [if_neg h2, if_neg h2]
            by_cases h3 : m < (nrec + k) * nsam
            · rw [if_pos (by omega), if_pos (by omega)]
            · rw [if_neg (by omega), if_neg (by omega)]
  have := second (nrecout - nrec) m
  rw [show nrec + (nrecout - nrec) - 1 = nrecout - 1 by omega] at this
  exact this

/-- **C131 (partial).** So the padding is right when the number of samples is one the transform takes as it is. -/
theorem pad2d_good_partial {α : Type*} (zero : α) (nsam nrec nrecout : ℕ) (hr : nrec ≤ nrecout) (hn : 0 < nrec) (data o : ℕ → α) (i j : ℕ) (hi : i < nrecout)
    (hj : j < nsam) : pad2d zero nsam nrec nsam nrecout data o (i * nsam + j) = if i < nrec then data (i * nsam + j) else zero := by
  rw [pad2d_flat zero nsam nrec nsam nrecout le_rfl hr hn]
  by_cases h : i < nrec
  · rw [if_pos h, if_pos (row_le h hj)]
  · have h1 := Nat.mul_le_mul_right nsam (show nrec ≤ i by omega)
    have h2 := row_le hi hj
    have h3 : (nrecout - 1) * nsam + nsam = nrecout * nsam := by rw [← Nat.succ_mul]; congr 1; omega
    rw [if_neg (by omega), if_neg h, if_pos (by omega)]

/-- Otherwise the second trace of the padded gather does not start with the second trace of the data but with a later sample of it, or with
zero. -/
theorem pad2d_misplaced {α : Type*} (zero : α) (nsam nrec nsamout nrecout : ℕ) (hs : nsam < nsamout) (hr : nrec ≤ nrecout) (hn : 2 ≤ nrec)
    (h2 : nsamout < 2 * nsam) (data o : ℕ → α) :
    pad2d zero nsam nrec nsamout nrecout data o (1 * nsamout + 0) = data (1 * nsam + (nsamout - nsam)) := by
  rw [pad2d_flat zero nsam nrec nsamout nrecout hs.le hr (by omega)]
  have := Nat.mul_le_mul_right nsam hn
  rw [if_pos (by omega)]
  congr 1
  omega

/-- And the end of the padded gather, which the transform reads, is what was in the memory. -/
theorem pad2d_uninitialised {α : Type*} (zero : α) (nsam nrec nsamout nrecout : ℕ) (hs : nsam < nsamout) (hr : nrec ≤ nrecout) (hn : 0 < nrec)
    (hr2 : 2 ≤ nrecout) (data o : ℕ → α) :
    pad2d zero nsam nrec nsamout nrecout data o (nrecout * nsamout - 1) = o (nrecout * nsamout - 1) := by
  rw [pad2d_flat zero nsam nrec nsamout nrecout hs.le hr hn]
  obtain ⟨k, rfl⟩ : ∃ k, nrecout = k + 2 := ⟨nrecout - 2, by omega⟩
  have e1 : (k + 2) * nsamout = (k + 1) * nsamout + nsamout := by ring
  have e2 : (k + 2 - 1) * nsam < (k + 1) * nsamout := by
    rw [show k + 2 - 1 = k + 1 by omega]; exact Nat.mul_lt_mul_of_pos_left hs (by omega)
  have e3 : nrec * nsam ≤ (k + 2) * nsam := Nat.mul_le_mul_right _ hr
  have e4 : (k + 2) * nsam = (k + 2 - 1) * nsam + nsam := by
    rw [show k + 2 - 1 = k + 1 by omega]; ring
  rw [if_neg (by omega), if_neg (by omega)]

/-! ### Killing traces -/

/-- **C132.** Choices `killno` and `killfo`: the traces whose position differs from the shot number by less (more) than `killno` become zero,
the others stay. -/
theorem killOffset_spec (far : Bool) (fldr killno : ℤ) (nsam nrec : ℕ) (data : ℕ → ℝ) (i j : ℕ) (hi : i < nrec) (hj : j < nsam) :
    killOffset far fldr killno nsam nrec data (i * nsam + j) =
      if (far = false ∧ |fldr - i| < killno) ∨ (far = true ∧ killno < |fldr - i|) then 0 else data (i * nsam + j) := by
  have e : killOffset far fldr killno nsam nrec data =
      forN nrec (fun ix d => forN nsam (fun it d => aset d (ix * nsam + it)
        (if (if far then |fldr - ix| > killno else |fldr - ix| < killno) then d (ix * nsam + it) * 0 else d (ix * nsam + it))) d) data := by
    unfold killOffset
    congr 1
    funext ix d
    by_cases h : (if far then |fldr - (ix : ℤ)| > killno else |fldr - (ix : ℤ)| < killno)
    · simp only [if_pos h]
    · simp only [if_neg h]
      have : ∀ n, forN n (fun it d => aset d (ix * nsam + it) (d (ix * nsam + it))) d = d := fun n => by
        induction n with
        | zero => rfl
        | succ n ih =>
          rw [forN_succ, ih]
          funext m
          by_cases hm : m = ix * nsam + n
          · simp only [aset, hm, if_pos]
          · simp only [aset, if_neg hm]
      exact (this nsam).symm
  rw [e, (rows_val nsam nrec (fun ix _ x => if (if far then |fldr - (ix : ℤ)| > killno else |fldr - (ix : ℤ)| < killno) then x * 0 else x) data).1 i j hi hj]
  cases far
  · simp
  · simp [gt_iff_lt]

theorem atoi_digits (n : ℕ) : atoi (Nat.toDigits 10 n) = n := by
  have := Nat.ofDigitChars_ten_toDigits (n := n)
  rw [Nat.ofDigitChars_eq_foldl] at this
  exact this

theorem killScan_digits (l buf rest : List Char) (h : ∀ c ∈ l, c.isDigit) : killScan buf (l ++ rest) = killScan (buf ++ l) rest := by
  induction l generalizing buf with
  | nil => simp
  | cons c t ih =>
    rw [List.cons_append, killScan, if_pos (h c (by simp)), ih _ (fun c hc => h c (by simp [hc])), List.append_assoc, List.singleton_append]

/-- A file of numbers, every one followed by one separator (a newline, blank or comma). -/
def numbersFile (l : List (ℕ × Char)) : List Char := (l.map fun p => Nat.toDigits 10 p.1 ++ [p.2]).flatten

/-- **C132.** A file of numbers, every one followed by exactly one character that is not a digit, is read as those numbers; digits after the
last separator are not read. -/
theorem killScan_numbers (l : List (ℕ × Char)) (hl : ∀ p ∈ l, ¬ p.2.isDigit) (tail : List Char) (ht : ∀ c ∈ tail, c.isDigit) :
    killScan [] (numbersFile l ++ tail) = l.map Prod.fst := by
  induction l with
  | nil =>
    have := killScan_digits tail [] [] ht
    rw [List.append_nil] at this
    simpa [numbersFile, killScan] using this
  | cons p t ih =>
    have e : numbersFile (p :: t) ++ tail = Nat.toDigits 10 p.1 ++ (p.2 :: (numbersFile t ++ tail)) := by
      simp [numbersFile]
    rw [e, killScan_digits _ _ _ (fun c hc => Nat.isDigit_of_mem_toDigits (by decide) (by decide) hc), List.nil_append, killScan,
      if_neg (hl p (by simp)), ih (fun q hq => hl q (by simp [hq])), atoi_digits]
    rfl

/-- A second separator (an empty line, a carriage return) counts as the number 0. -/
theorem killScan_empty (c : Char) (hc : ¬ c.isDigit) (rest : List Char) : killScan [] (c :: rest) = 0 :: killScan [] rest := by
  rw [killScan, if_neg hc]
  rfl

theorem killList_val (nrec : ℕ) (l : List ℕ) : ∀ t : ℕ → ℝ,
    l.foldlM (fun t i => if i < nrec then some (aset t i 0) else Option.none) t =
      if ∀ i ∈ l, i < nrec then some (fun i => if i ∈ l then 0 else t i) else none := by
  induction l with
  | nil => intro t; simp
  | cons a l ih =>
    intro t
    rw [List.foldlM_cons]
    by_cases h : a < nrec
    · rw [if_pos h]
      change List.foldlM _ (aset t a 0) l = _
      rw [ih]
      by_cases h2 : ∀ i ∈ l, i < nrec
      · rw [if_pos h2, if_pos (by simpa [h] using h2)]
        congr 1
        funext i
        by_cases h3 : i ∈ l
        · rw [if_pos h3, if_pos (by simp [h3])]
        · by_cases h4 : i = a
          · subst h4; simp [aset]
          · simp [h3, h4, aset]
      · rw [if_neg h2, if_neg (fun h3 => h2 fun i hi => h3 i (by simp [hi]))]
    · rw [if_neg h, if_neg (fun h3 => h (h3 a (by simp)))]
      rfl

/-- **C132.** Choice `kill` with `dim=0`: with a file of numbers of traces in the gather, counted from zero, every one followed by one
separator, exactly these traces become zero. -/
theorem killTraces_spec (nsam nrec : ℕ) (fldr : ℤ) (l : List (ℕ × Char)) (hl : ∀ p ∈ l, ¬ p.2.isDigit ∧ p.1 < nrec) (data : ℕ → ℝ) :
    ∃ o, killTraces nsam nrec fldr 0 (numbersFile l) data = some o ∧
      ∀ i j, i < nrec → j < nsam → o (i * nsam + j) = if i ∈ l.map Prod.fst then 0 else data (i * nsam + j) := by
  have h1 := killScan_numbers l (fun p hp => (hl p hp).1) [] (by simp)
  rw [List.append_nil] at h1
  unfold killTraces killList
  rw [h1, killList_val, if_pos (by intro i hi; obtain ⟨p, hp, rfl⟩ := List.mem_map.mp hi; exact (hl p hp).2), Option.bind_some, if_pos rfl]
  refine ⟨_, rfl, fun i j hi hj => ?_⟩
  rw [(rows_val nsam nrec (fun ix _ x => x * (if ix ∈ l.map Prod.fst then (0 : ℝ) else 1)) data).1 i j hi hj]
  split <;> simp

/-- With `dim=1` (the default) the whole gather becomes zero when its shot number is listed, and stays otherwise. -/
theorem killTraces_shots (nsam nrec : ℕ) (fldr : ℕ) (hf : fldr < nrec) (l : List (ℕ × Char)) (hl : ∀ p ∈ l, ¬ p.2.isDigit ∧ p.1 < nrec) (data : ℕ → ℝ) :
    ∃ o, killTraces nsam nrec fldr 1 (numbersFile l) data = some o ∧
      ∀ i j, i < nrec → j < nsam → o (i * nsam + j) = if fldr ∈ l.map Prod.fst then 0 else data (i * nsam + j) := by
  have h1 := killScan_numbers l (fun p hp => (hl p hp).1) [] (by simp)
  rw [List.append_nil] at h1
  unfold killTraces killList
  rw [h1, killList_val, if_pos (by intro i hi; obtain ⟨p, hp, rfl⟩ := List.mem_map.mp hi; exact (hl p hp).2), Option.bind_some, if_neg (by decide),
    if_pos rfl, if_neg (by omega)]
  refine ⟨_, rfl, fun i j hi hj => ?_⟩
  rw [(rows_val nsam nrec (fun _ _ x => x * (if (fldr : ℤ).toNat ∈ l.map Prod.fst then (0 : ℝ) else 1)) data).1 i j hi hj, Int.toNat_natCast]
  split <;> simp

/-- A shot number that is not below the number of traces of the gather is used as an index outside the list: shot numbers count from 1 and
there may be more shots than traces. -/
theorem killTraces_shots_outside (nsam nrec : ℕ) (fldr : ℤ) (h : 0 < nrec) (hs : 0 < nsam) (hf : nrec ≤ fldr) (file : List Char) (data : ℕ → ℝ) :
    killTraces nsam nrec fldr 1 file data = none := by
  unfold killTraces
  cases killList nrec file with
  | none => rfl
  | some t => rw [Option.bind_some, if_neg (by decide), if_pos rfl, if_pos ⟨h, hs, by omega⟩]

/-- A trace number outside the gather is used as an index all the same. -/
theorem killTraces_outside (nsam nrec : ℕ) (fldr dim : ℤ) (l : List (ℕ × Char)) (hl : ∀ p ∈ l, ¬ p.2.isDigit) (h : ∃ p ∈ l, nrec ≤ p.1) (data : ℕ → ℝ) :
    killTraces nsam nrec fldr dim (numbersFile l) data = none := by
  have h1 := killScan_numbers l hl [] (by simp)
  rw [List.append_nil] at h1
  unfold killTraces killList
  obtain ⟨p, hp, hn⟩ := h
  rw [h1, killList_val, if_neg (fun h => absurd (h p.1 (List.mem_map_of_mem hp)) (by omega))]
  rfl

/-! ### The time of the first sample -/

/-- **C130.** Choice `shift` on a file of `n` gathers: the time of the first sample of gather `k`, counted from zero, is not
`f1+shift` but `f1+(k+1)·shift`. -/
theorem shiftF1_val (shift f1 : ℝ) (n k : ℕ) (hk : k < n) : (shiftF1 shift f1 n)[k]? = some (f1 + (k + 1) * shift) := by
  induction n generalizing f1 k with
  | zero => omega
  | succ n ih =>
    rw [shiftF1]
    cases k with
    | zero => simp
    | succ k =>
      rw [List.getElem?_cons_succ, ih _ _ (by omega)]
      push_cast
      congr 1
      ring

/-! ### The hypotheses are met -/

example : numbersFile [(3, '\n'), (12, '\n')] = "3\n12\n".toList := by decide

example : killScan [] "3\n12".toList = [3] := killScan_numbers [(3, '\n')] (by decide) ['1', '2'] (by decide)

example : killScan [] "3\r\n12\n".toList = [3, 0, 12] := by decide

example : ∃ o, timeRotate 4 2 1 8 (fun n : ℕ => n) = some o ∧ o 0 = 3 ∧ o 5 = 4 := by
  obtain ⟨o, e, h, _⟩ := timeRotate_spec 4 2 1 8 (by omega) (by omega) (fun n : ℕ => n)
  exact ⟨o, e, h 0 3 (by omega) (by omega), h 1 0 (by omega) (by omega)⟩

example : pad2d 0 5 2 6 2 (fun n => n) (fun _ => 99) 6 = 6 := pad2d_misplaced 0 5 2 6 2 (by omega) le_rfl le_rfl (by omega) _ _

example : pad2d 0 5 2 6 2 (fun n => n) (fun _ => 99) 11 = 99 := pad2d_uninitialised 0 5 2 6 2 (by omega) le_rfl (by omega) (by omega) _ _

example : killOffset false 3 2 1 6 (fun _ => 1) 1 = 1 ∧ killOffset false 3 2 1 6 (fun _ => 1) 4 = 0 := by
  refine ⟨?_, ?_⟩
  · rw [killOffset_spec false 3 2 1 6 _ 1 0 (by omega) (by omega)]; simp
  · rw [killOffset_spec false 3 2 1 6 _ 4 0 (by omega) (by omega)]; simp

end Verif.Basop

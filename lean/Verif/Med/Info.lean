import Mathlib.Analysis.SpecialFunctions.Pow.Real
import Mathlib.Order.Bounds.Basic
import Mathlib.Tactic.Linarith
import Mathlib.Tactic.NormNum

/-!
# Model of getModelInfo.c and of the stability and dispersion check of getParameters.c (fdelmodc)

A file is its list of traces, a trace the list of its samples (real numbers instead of `float`).  The headers enter only with
the number of samples.
-/

namespace Verif.Med.Info

/-- `i=0; cmin=trace[0]; while ( ( (cmin==0.0) && zeroch) && (i<hdr.ns) ) cmin=trace[i++];` (getModelInfo.c:75-76); the list is
what is left of the trace. -/
noncomputable def skipZero (zeroch : Bool) : ℝ → List ℝ → ℝ
  | c, [] => c
  | c, x :: xs => if c = 0 ∧ zeroch = true then skipZero zeroch x xs else c

/-- `MAX` and `MIN` of par.h. -/
noncomputable def MAX (x y : ℝ) : ℝ := if x > y then x else y
noncomputable def MIN (x y : ℝ) : ℝ := if x < y then x else y

/-- One sample (getModelInfo.c:85-92); the state is `*min`, `*max`. -/
noncomputable def sample (zeroch : Bool) (s : ℝ × ℝ) (x : ℝ) : ℝ × ℝ :=
  let mx := MAX x s.2
  let cmin := MIN x s.1
  if zeroch then
    if cmin ≠ 0 then (MIN s.1 cmin, mx) else (s.1, mx)
  else (cmin, mx)

/-- `*min` and `*max` (getModelInfo.c:65-96).  `none`: there is no trace (the assertion on the header fails), or the first trace
has no samples (`trace[0]` was never set). -/
noncomputable def modelInfo (zeroch : Bool) : List (List ℝ) → Option (ℝ × ℝ)
  | [] => none
  | [] :: _ => none
  | (x :: xs) :: ts =>
    let c := skipZero zeroch x (x :: xs)
    some ((((x :: xs) :: ts).flatten).foldl (sample zeroch) (c, c))

/-- `dispfactor` (getParameters.c:231-242). `none`: not set. -/
def dispfactor (iorder : Int) : Option ℝ :=
  if iorder = 2 then some 10 else if iorder = 4 ∨ iorder = 6 then some 5 else if iorder = 16 then some 2 else none

/-- `stabfactor` (getParameters.c:231-242). -/
noncomputable def stabfactor (iorder : Int) : Option ℝ :=
  if iorder = 2 then some (1 / Real.sqrt 2) else if iorder = 4 ∨ iorder = 6 then some (606 / 1000)
  else if iorder = 16 then some (45 / 100) else none

/-- `cmin` (getParameters.c:288-294). -/
noncomputable def cminOf (ischeme : Int) (cp_min cs_min : ℝ) : ℝ :=
  if ischeme ≤ 2 then cp_min
  else if cs_min < 1 / 10 ^ 20 ∨ cp_min < cs_min then cp_min else cs_min

/-- What the run is started with: the two velocity files (`cs` is read for the elastic schemes only), sampling and the maximum
frequency of the wavelet. -/
structure Run where
  iorder : Int
  ischeme : Int
  cp : List (List ℝ)
  cs : List (List ℝ)
  dx : ℝ
  dt : ℝ
  fmax : ℝ

/-- The S velocity is read from a file (getParameters.c:122). -/
def Run.elastic (r : Run) : Prop := r.ischeme > 2 ∧ r.ischeme ≠ 5
instance (r : Run) : Decidable r.elastic := by unfold Run.elastic; infer_instance

/-- `cs_min`: from the file, or 0 (getParameters.c:122-139). -/
noncomputable def Run.csMin (r : Run) : Option ℝ :=
  if r.elastic then (modelInfo true r.cs).map Prod.fst else some 0

/-- The program goes on after both checks (getParameters.c:317-336, without `disable_check`): `some true`; it stops with an
error message: `some false`; `none`: something that was never set is used. -/
noncomputable def Run.accepted (r : Run) : Option Bool := do
  let disp ← dispfactor r.iorder
  let stab ← stabfactor r.iorder
  let cp ← modelInfo true r.cp
  let csm ← r.csMin
  let cmin := cminOf r.ischeme cp.1 csm
  return !(decide (cp.2 > r.dx * stab / r.dt)) && !(decide (r.fmax > cmin / (r.dx * disp)))

/-! ## The smallest and the largest sample -/

theorem MAX_eq (x y : ℝ) : MAX x y = max x y := by
  unfold MAX; rw [max_def]; split_ifs <;> linarith
theorem MIN_eq (x y : ℝ) : MIN x y = min x y := by
  unfold MIN; rw [min_def]; split_ifs <;> linarith

theorem skipZero_mem (z : Bool) (c : ℝ) (l : List ℝ) : skipZero z c l = c ∨ skipZero z c l ∈ l := by
  induction l generalizing c with
  | nil => exact Or.inl rfl
  | cons x xs ih =>
    unfold skipZero
    split
    · rcases ih x with h | h
      · rw [h]; simp
      · simp [h]
    · simp

theorem skipZero_false (c : ℝ) (l : List ℝ) : skipZero false c l = c := by
  cases l <;> simp [skipZero]

theorem skipZero_ne (c : ℝ) (l : List ℝ) (h : c ≠ 0 ∨ ∃ x ∈ l, x ≠ 0) : skipZero true c l ≠ 0 := by
  induction l generalizing c with
  | nil => simpa [skipZero] using h
  | cons x xs ih =>
    unfold skipZero
    split
    · rename_i hc
      apply ih
      rcases h with h | ⟨y, hy, hy0⟩
      · exact absurd hc.1 h
      · rcases List.mem_cons.1 hy with rfl | hy
        · exact Or.inl hy0
        · exact Or.inr ⟨y, hy, hy0⟩
    · rename_i hc
      simpa using hc

theorem skipZero_zero (c : ℝ) (l : List ℝ) (hc : c = 0) (h : ∀ x ∈ l, x = 0) : skipZero true c l = 0 := by
  induction l generalizing c with
  | nil => simpa [skipZero] using hc
  | cons x xs ih =>
    unfold skipZero
    rw [if_pos ⟨hc, rfl⟩]
    exact ih x (h x (by simp)) (fun y hy => h y (by simp [hy]))

theorem fold_max (z : Bool) (l : List ℝ) (s : ℝ × ℝ) :
    (l.foldl (sample z) s).2 = l.foldl max s.2 := by
  induction l generalizing s with
  | nil => rfl
  | cons x l ih =>
    rw [List.foldl_cons, List.foldl_cons, ih]
    congr 1
    unfold sample
    cases z
    · simp [MAX_eq, max_comm]
    · simp only [if_true]
      split <;> simp [MAX_eq, max_comm]

theorem foldl_max_spec (l : List ℝ) (a : ℝ) :
    (l.foldl max a = a ∨ l.foldl max a ∈ l) ∧ a ≤ l.foldl max a ∧ ∀ x ∈ l, x ≤ l.foldl max a := by
  induction l generalizing a with
  | nil => simp
  | cons x l ih =>
    rw [List.foldl_cons]
    obtain ⟨h1, h2, h3⟩ := ih (max a x)
    refine ⟨?_, le_trans (le_max_left a x) h2, ?_⟩
    · rcases h1 with h | h
      · rcases max_choice a x with h' | h' <;> rw [h'] at h ⊢
        · exact Or.inl h
        · exact Or.inr (by rw [h]; simp)
      · exact Or.inr (by simp [h])
    · intro y hy
      rcases List.mem_cons.1 hy with rfl | hy
      · exact le_trans (le_max_right a _) h2
      · exact h3 y hy

/-- **The largest value** reported is the largest sample of the file, whatever the flag. -/
theorem info_max {z : Bool} {ts : List (List ℝ)} {mn mx : ℝ} (h : modelInfo z ts = some (mn, mx)) :
    IsGreatest {x | x ∈ ts.flatten} mx := by
  match ts, h with
  | (x :: xs) :: ts, h =>
    unfold modelInfo at h
    have h2 := congrArg Prod.snd (Option.some.inj h)
    rw [fold_max] at h2
    dsimp only at h2
    set l := ((x :: xs) :: ts).flatten with hl
    obtain ⟨a, b, c⟩ := foldl_max_spec l (skipZero z x (x :: xs))
    rw [h2] at a b c
    have hmem : skipZero z x (x :: xs) ∈ l := by
      rcases skipZero_mem z x (x :: xs) with h | h
      · rw [h, hl]; simp
      · rw [hl, List.flatten_cons]; exact List.mem_append_left _ h
    refine ⟨?_, c⟩
    rcases a with a | a
    · show mx ∈ l; rw [a]; exact hmem
    · exact a

theorem foldl_min_spec (l : List ℝ) (a : ℝ) :
    (l.foldl min a = a ∨ l.foldl min a ∈ l) ∧ l.foldl min a ≤ a ∧ ∀ x ∈ l, l.foldl min a ≤ x := by
  induction l generalizing a with
  | nil => simp
  | cons x l ih =>
    rw [List.foldl_cons]
    obtain ⟨h1, h2, h3⟩ := ih (min a x)
    refine ⟨?_, le_trans h2 (min_le_left a x), ?_⟩
    · rcases h1 with h | h
      · rcases min_choice a x with h' | h' <;> rw [h'] at h ⊢
        · exact Or.inl h
        · exact Or.inr (by rw [h]; simp)
      · exact Or.inr (by simp [h])
    · intro y hy
      rcases List.mem_cons.1 hy with rfl | hy
      · exact le_trans h2 (min_le_right a _)
      · exact h3 y hy

/-- **The smallest value, zeroes counted** (density file). -/
theorem info_min {ts : List (List ℝ)} {mn mx : ℝ} (h : modelInfo false ts = some (mn, mx)) :
    IsLeast {x | x ∈ ts.flatten} mn := by
  match ts, h with
  | (x :: xs) :: ts, h =>
    unfold modelInfo at h
    have h2 := congrArg Prod.fst (Option.some.inj h)
    dsimp only at h2
    rw [skipZero_false] at h2
    set l := ((x :: xs) :: ts).flatten with hl
    have key : ∀ (l : List ℝ) (s : ℝ × ℝ), (l.foldl (sample false) s).1 = l.foldl min s.1 := by
      intro l
      induction l with
      | nil => intro s; rfl
      | cons x l ih => intro s; rw [List.foldl_cons, List.foldl_cons, ih]; congr 1; simp [sample, MIN_eq, min_comm]
    rw [key] at h2
    dsimp only at h2
    obtain ⟨a, b, c⟩ := foldl_min_spec l x
    rw [h2] at a b c
    refine ⟨?_, c⟩
    rcases a with a | a
    · show mn ∈ l; rw [a, hl]; simp
    · exact a

/-- With the flag, from a positive start: the smallest of the start and the non-zero samples. -/
theorem fold_min_true (l : List ℝ) (s : ℝ × ℝ) (hs : 0 < s.1) (hl : ∀ x ∈ l, 0 ≤ x) :
    (l.foldl (sample true) s).1 = (l.filter (· ≠ 0)).foldl min s.1 := by
  induction l generalizing s with
  | nil => rfl
  | cons x l ih =>
    rw [List.foldl_cons]
    have hx := hl x (by simp)
    have hl' : ∀ y ∈ l, 0 ≤ y := fun y hy => hl y (by simp [hy])
    by_cases h0 : x = 0
    · have e : (sample true s x).1 = s.1 := by
        simp only [sample, if_true, MIN_eq, h0]
        rw [min_eq_left hs.le]; simp
      rw [ih _ (by rw [e]; exact hs) hl', e, List.filter_cons_of_neg (by simp [h0])]
    · have hpos : 0 < x := lt_of_le_of_ne hx (Ne.symm h0)
      have hm : 0 < min x s.1 := lt_min hpos hs
      have e : (sample true s x).1 = min s.1 x := by
        simp only [sample, if_true, MIN_eq]
        rw [if_pos hm.ne']
        dsimp only
        rw [min_comm x, ← min_assoc, min_self]
      rw [ih _ (by rw [e, min_comm]; exact hm) hl', e, List.filter_cons_of_pos (by simp [h0]), List.foldl_cons]

/-- **The smallest value, zeroes left out** (velocity files), if the first trace has a non-zero sample. -/
theorem info_min_nonzero_partial {ts : List (List ℝ)} {mn mx : ℝ} (h : modelInfo true ts = some (mn, mx))
    (hpos : ∀ x ∈ ts.flatten, 0 ≤ x) (h1 : ∃ x ∈ ts.headD [], x ≠ 0) :
    IsLeast {x | x ∈ ts.flatten ∧ x ≠ 0} mn := by
  match ts, h with
  | (x :: xs) :: ts, h =>
    unfold modelInfo at h
    have h2 := congrArg Prod.fst (Option.some.inj h)
    dsimp only at h2
    have hne : skipZero true x (x :: xs) ≠ 0 := skipZero_ne _ _ (Or.inr (by simpa using h1))
    set l := ((x :: xs) :: ts).flatten with hl
    have hmem : skipZero true x (x :: xs) ∈ l := by
      rcases skipZero_mem true x (x :: xs) with h | h
      · rw [h, hl]; simp
      · rw [hl, List.flatten_cons]; exact List.mem_append_left _ h
    have hp : 0 < skipZero true x (x :: xs) := lt_of_le_of_ne (hpos _ hmem) (Ne.symm hne)
    rw [fold_min_true l _ hp hpos] at h2
    dsimp only at h2
    obtain ⟨a, b, c⟩ := foldl_min_spec (l.filter (· ≠ 0)) (skipZero true x (x :: xs))
    rw [h2] at a b c
    constructor
    · show mn ∈ l ∧ mn ≠ 0
      rcases a with a | a
      · rw [a]; exact ⟨hmem, hne⟩
      · simpa using a
    · rintro y ⟨hy, hy0⟩
      exact c y (by simp [hy, hy0])

/-- **A first trace of zeroes hides the smallest value**: then zero is reported, whatever the other traces hold. -/
theorem info_min_zero {ts : List (List ℝ)} {mn mx : ℝ} (h : modelInfo true ts = some (mn, mx))
    (hpos : ∀ x ∈ ts.flatten, 0 ≤ x) (h1 : ∀ x ∈ ts.headD [], x = 0) : mn = 0 := by
  match ts, h with
  | (x :: xs) :: ts, h =>
    unfold modelInfo at h
    have h2 := congrArg Prod.fst (Option.some.inj h)
    dsimp only at h2
    have h1' : ∀ y ∈ x :: xs, y = 0 := by simpa using h1
    rw [skipZero_zero x _ (h1' x (by simp)) h1'] at h2
    rw [← h2]
    have key : ∀ (l : List ℝ) (s : ℝ × ℝ), (∀ y ∈ l, 0 ≤ y) → s.1 = 0 → (l.foldl (sample true) s).1 = 0 := by
      intro l
      induction l with
      | nil => intro s _ hs; exact hs
      | cons y l ih =>
        intro s hy hs
        rw [List.foldl_cons]
        apply ih _ (fun z hz => hy z (by simp [hz]))
        simp only [sample, if_true, MIN_eq, hs]
        rw [min_eq_right (hy y (by simp))]
        simp
    exact key _ _ hpos rfl

/-! ## The check -/

/-- What acceptance means. -/
theorem accepted_iff {r : Run} (h : r.accepted = some true) : ∃ disp stab cp csm, dispfactor r.iorder = some disp ∧
    stabfactor r.iorder = some stab ∧ modelInfo true r.cp = some cp ∧ r.csMin = some csm ∧
    cp.2 ≤ r.dx * stab / r.dt ∧ r.fmax ≤ cminOf r.ischeme cp.1 csm / (r.dx * disp) := by
  unfold Run.accepted at h
  cases h1 : dispfactor r.iorder with
  | none => simp [h1] at h
  | some disp =>
    cases h2 : stabfactor r.iorder with
    | none => simp [h1, h2] at h
    | some stab =>
      cases h3 : modelInfo true r.cp with
      | none => simp [h1, h2, h3] at h
      | some cp =>
        cases h4 : r.csMin with
        | none => simp [h1, h2, h3, h4] at h
        | some csm =>
          simp [h1, h2, h3, h4] at h
          exact ⟨disp, stab, cp, csm, rfl, rfl, rfl, rfl, h.1, h.2⟩

/-- The Courant number allowed to the schemes of each order: `1/√2`, `0.606`, `0.606`, `0.45`. -/
def Allowed (iorder : Int) (stab : ℝ) : Prop :=
  (iorder = 2 ∧ stab = 1 / Real.sqrt 2) ∨ ((iorder = 4 ∨ iorder = 6) ∧ stab = 606 / 1000) ∨ (iorder = 16 ∧ stab = 45 / 100)

/-- Grid points per wavelength demanded of each order: 10, 5, 5, 2. -/
def Demanded (iorder : Int) (disp : ℝ) : Prop :=
  (iorder = 2 ∧ disp = 10) ∨ ((iorder = 4 ∨ iorder = 6) ∧ disp = 5) ∨ (iorder = 16 ∧ disp = 2)

theorem stabfactor_allowed {o : Int} {s : ℝ} (h : stabfactor o = some s) : Allowed o s := by
  unfold stabfactor at h
  unfold Allowed
  split_ifs at h with a b c
  · exact Or.inl ⟨a, (Option.some.inj h).symm⟩
  · exact Or.inr (Or.inl ⟨b, (Option.some.inj h).symm⟩)
  · exact Or.inr (Or.inr ⟨c, (Option.some.inj h).symm⟩)

theorem dispfactor_demanded {o : Int} {s : ℝ} (h : dispfactor o = some s) : Demanded o s := by
  unfold dispfactor at h
  unfold Demanded
  split_ifs at h with a b c
  · exact Or.inl ⟨a, (Option.some.inj h).symm⟩
  · exact Or.inr (Or.inl ⟨b, (Option.some.inj h).symm⟩)
  · exact Or.inr (Or.inr ⟨c, (Option.some.inj h).symm⟩)

/-- **Accepted runs respect the Courant number of the program at every point**: `cp dt / dx` is at most the number allowed to the order. -/
theorem courant_everywhere {r : Run} (h : r.accepted = some true) (hdt : 0 < r.dt) :
    ∃ stab, Allowed r.iorder stab ∧ ∀ c ∈ r.cp.flatten, c * r.dt ≤ stab * r.dx := by
  obtain ⟨disp, stab, ⟨mn, mx⟩, csm, _, h2, h3, _, h5, _⟩ := accepted_iff h
  refine ⟨stab, stabfactor_allowed h2, fun c hc => ?_⟩
  have hm := (info_max h3).2 hc
  rw [le_div_iff₀ hdt] at h5
  have := mul_le_mul_of_nonneg_right hm hdt.le
  dsimp only at h5
  linarith

/-- **Accepted runs have enough points per wavelength**: at every point with a non-zero P velocity (acoustic) the shortest
wavelength `c/fmax` is at least the demanded number of grid points.  For the elastic schemes the S velocity counts as well.  Needed: the
first trace of each file has a non-zero sample, or (S velocity) all samples are zero. -/
theorem wavelength_everywhere_partial {r : Run} (h : r.accepted = some true) (hdx : 0 < r.dx) (hf : 0 < r.fmax)
    (hp : ∀ c ∈ r.cp.flatten, 0 ≤ c) (hp1 : ∃ c ∈ r.cp.headD [], c ≠ 0)
    (hs : r.elastic → ∀ c ∈ r.cs.flatten, c = 0 ∨ 1 / 10 ^ 20 ≤ c)
    (hs1 : r.elastic → (∃ c ∈ r.cs.headD [], c ≠ 0) ∨ ∀ c ∈ r.cs.flatten, c = 0) :
    ∃ disp, Demanded r.iorder disp ∧
      (∀ c ∈ r.cp.flatten, c ≠ 0 → disp * r.dx ≤ c / r.fmax) ∧
      (r.elastic → ∀ c ∈ r.cs.flatten, c ≠ 0 → disp * r.dx ≤ c / r.fmax) := by
  obtain ⟨disp, stab, ⟨mn, mx⟩, csm, h1, _, h3, h4, _, h6⟩ := accepted_iff h
  have hd : 0 < disp := by
    unfold dispfactor at h1
    split_ifs at h1 <;> · cases h1; norm_num
  have hmn := info_min_nonzero_partial h3 hp hp1
  have hmn0 : 0 < mn := lt_of_le_of_ne (hp mn hmn.1.1) (Ne.symm hmn.1.2)
  dsimp only at h6
  have hdd : 0 < r.dx * disp := mul_pos hdx hd
  rw [le_div_iff₀ hdd] at h6
  have fin : ∀ c, cminOf r.ischeme mn csm ≤ c → disp * r.dx ≤ c / r.fmax := by
    intro c hc
    rw [le_div_iff₀ hf]; nlinarith
  have hcp : cminOf r.ischeme mn csm ≤ mn := by
    unfold cminOf
    split_ifs with a b
    · exact le_refl _
    · exact le_refl _
    · push Not at b; exact b.2
  refine ⟨disp, dispfactor_demanded h1, fun c hc h0 => fin c (le_trans hcp (hmn.2 ⟨hc, h0⟩)), fun he c hc h0 => fin c ?_⟩
  unfold Run.csMin at h4
  rw [if_pos he] at h4
  cases h7 : modelInfo true r.cs with
  | none => rw [h7] at h4; simp at h4
  | some m =>
    obtain ⟨sm, sx⟩ := m
    rw [h7] at h4
    have h4' : sm = csm := by simpa using h4
    subst h4'
    have hs0 : ∀ c ∈ r.cs.flatten, 0 ≤ c := fun c hc => by
      rcases hs he c hc with h | h
      · exact h.ge
      · exact le_trans (by positivity) h
    rcases hs1 he with h8 | h8
    · have hsm := info_min_nonzero_partial h7 hs0 h8
      have hsm' : 1 / 10 ^ 20 ≤ sm := (hs he sm hsm.1.1).resolve_left hsm.1.2
      refine le_trans ?_ (hsm.2 ⟨hc, h0⟩)
      unfold cminOf
      have hi := he.1
      rw [if_neg (by omega)]
      split_ifs with b
      · rcases b with b | b
        · exact absurd hsm' (not_le.2 b)
        · exact b.le
      · exact le_refl _
    · exact absurd (h8 c hc) h0

/-- **A model whose first trace is all air (zero P velocity) is refused**, whatever the rest of the model, in the acoustic
schemes. -/
theorem air_column_refused {r : Run} (hs : r.ischeme ≤ 2) (hp : ∀ c ∈ r.cp.flatten, 0 ≤ c)
    (h0 : ∀ c ∈ r.cp.headD [], c = 0) (hf : 0 < r.fmax) : r.accepted ≠ some true := by
  intro h
  obtain ⟨disp, stab, ⟨mn, mx⟩, csm, _, _, h3, _, _, h6⟩ := accepted_iff h
  have := info_min_zero h3 hp h0
  subst this
  unfold cminOf at h6
  rw [if_pos hs] at h6
  dsimp only at h6
  rw [zero_div] at h6
  linarith

/-- An elastic model whose first trace is a fluid, with slow shear waves elsewhere. -/
noncomputable def slow : Run :=
  { iorder := 4, ischeme := 3, cp := [[2000], [2000]], cs := [[0], [100]], dx := 10, dt := 1 / 1000, fmax := 30 }

/-- **The dispersion check misses slow shear waves behind a fluid column**: the run is accepted although the shear wavelength
in the second trace is a third of a grid point (five are asked for). -/
theorem slow_shear_accepted : slow.accepted = some true ∧ (100 : ℝ) ∈ slow.cs.flatten ∧
    (100 : ℝ) / slow.fmax < 1 / 2 * slow.dx := by
  refine ⟨?_, by simp [slow], by norm_num [slow]⟩
  norm_num [Run.accepted, slow, dispfactor, stabfactor, modelInfo, Run.csMin, Run.elastic, skipZero, sample, MAX, MIN, cminOf]

/-- An ordinary acoustic model that is accepted, with the hypotheses of the theorems above. -/
noncomputable def fine : Run :=
  { iorder := 4, ischeme := 1, cp := [[0, 1500, 1600], [1700, 1800, 2000]], cs := [], dx := 5, dt := 1 / 1000, fmax := 40 }

example : fine.accepted = some true := by
  norm_num [Run.accepted, fine, dispfactor, stabfactor, modelInfo, Run.csMin, Run.elastic, skipZero, sample, MAX, MIN, cminOf]
example : (∀ c ∈ fine.cp.flatten, 0 ≤ c) ∧ ∃ c ∈ fine.cp.headD [], c ≠ 0 := by
  simp [fine]

end Verif.Med.Info

import Mathlib.Data.List.Basic
import Mathlib.Order.Bounds.Basic
import Mathlib.Tactic.Linarith
import Mathlib.Tactic.Ring

/-!
# C18: counting gathers in a data file (marchenko/getFileInfo.c)
-/

namespace Verif.Marchenko

/-- The header words of a trace that are used. -/
structure Hdr where
  /-- field record number -/
  fldr : Int
  /-- source coordinate -/
  sx : Int
  /-- receiver coordinate -/
  gx : Int
  /-- number of receivers in the gather, as written in the header -/
  trwf : Int := 0
deriving DecidableEq, Repr

/-- State of the scan. -/
structure Scan where
  /-- `*n2` -/
  n2 : Int
  /-- `igath` -/
  igath : Int
  /-- `*xmax` (before scaling) -/
  xmax : Int
  /-- `*xmin` (before scaling) -/
  xmin : Int
deriving DecidableEq, Repr

/-- `*xmax = MAX(MAX(hdr.gx,*xmax),hdr.sx); *xmin = MIN(MIN(hdr.gx,*xmin),hdr.sx)`
(getFileInfo.c:129-130, 141-142). -/
def Scan.extend (s : Scan) (h : Hdr) : Scan :=
  { s with xmax := max (max h.gx s.xmax) h.sx, xmin := min (min h.gx s.xmin) h.sx }

/-- The inner loop `while (one_shot)` of getFileInfo.c:133-150.  `cur` is the header in `hdr`, `rest` the
headers still in the file.  Returns the number of traces, the headers not consumed (after the
`fseeko(-TRCBYTES)` of line 160 that puts back the header of the next gather) and the state. -/
def inner (sx fldr : Int) : (itrace : Int) → (cur : Hdr) → (rest : List Hdr) → Scan → Int × List Hdr × Scan
  | itrace, cur, [], s => (itrace + 1, [], s.extend cur)
  | itrace, cur, h :: rest, s =>
    if sx ≠ h.sx ∨ fldr ≠ h.fldr then (itrace + 1, h :: rest, s.extend cur)
    else inner sx fldr (itrace + 1) h rest (s.extend cur)

theorem inner_length (sx fldr : Int) (rest : List Hdr) : ∀ (itrace : Int) (cur : Hdr) (s : Scan),
    (inner sx fldr itrace cur rest s).2.1.length ≤ rest.length := by
  induction rest with
  | nil => intro itrace cur s; simp [inner]
  | cons h rest ih =>
    intro itrace cur s
    rw [inner]
    split
    · simp
    · exact Nat.le_succ_of_le (ih _ _ _)

/-- The outer loop `while (!end_of_file)` of getFileInfo.c:121-166 on the headers still in the file.
(`itrace != 0` always holds at line 159.)  Only the header words are modelled: `dxrcv`, `dxsrc` and the
sample data do not influence the counts. -/
def outer (file : List Hdr) (s : Scan) : Scan :=
  match file with
  | [] => s
  | h :: rest =>
    let r := inner h.sx h.fldr 0 h rest (s.extend h)
    let s2 := if r.1 > 1 then { r.2.2 with n2 := max r.2.2.n2 r.1 } else r.2.2
    outer r.2.1 { s2 with igath := s2.igath + 1 }
termination_by file.length
decreasing_by
  exact Nat.lt_succ_of_le (inner_length h.sx h.fldr rest 0 h (s.extend h))

/-- `getFileInfo` called with `*ngath = 0`, getFileInfo.c:46-47, 111-169: `*n2 = 0`, `igath = 0`, extremes
initialised with the first trace.  The file has at least one trace (assert of line 42). -/
def getFileInfo (h : Hdr) (rest : List Hdr) : Scan :=
  outer (h :: rest) ⟨0, 0, h.gx, h.gx⟩

/-! ### Specification -/

/-- Two traces belong to the same gather. -/
def sameGather (a b : Hdr) : Prop := a.sx = b.sx ∧ a.fldr = b.fldr

instance (a b : Hdr) : Decidable (sameGather a b) := by unfold sameGather; infer_instance

/-- Number of positions where a new gather starts, after the first trace. -/
def changes : List Hdr → Int
  | a :: b :: l => (if sameGather a b then 0 else 1) + changes (b :: l)
  | _ => 0

/-- `b` consecutive traces of one gather occur in the file. -/
def RunIn (file : List Hdr) (m : Nat) : Prop :=
  ∃ a b c : List Hdr, file = a ++ b ++ c ∧ b.length = m ∧ ∀ x ∈ b, ∀ y ∈ b, sameGather x y

/-! ### The inner loop takes the maximal run -/

theorem inner_spec (sx fldr : Int) (rest : List Hdr) : ∀ (itrace : Int) (cur : Hdr) (s : Scan),
    ∃ run tail, rest = run ++ tail ∧
      (∀ x ∈ run, x.sx = sx ∧ x.fldr = fldr) ∧
      (∀ y, tail.head? = some y → ¬ (y.sx = sx ∧ y.fldr = fldr)) ∧
      inner sx fldr itrace cur rest s = (itrace + 1 + run.length, tail, (cur :: run).foldl Scan.extend s) := by
  induction rest with
  | nil => intro itrace cur s; exact ⟨[], [], rfl, by simp, by simp, by simp [inner]⟩
  | cons h rest ih =>
    intro itrace cur s
    rw [inner]
    by_cases hc : sx ≠ h.sx ∨ fldr ≠ h.fldr
    · refine ⟨[], h :: rest, rfl, by simp, ?_, by simp [hc]⟩
      intro y hy
      simp only [List.head?_cons, Option.some.injEq] at hy
      subst hy
      rintro ⟨h1, h2⟩
      rcases hc with hc | hc
      · exact hc h1.symm
      · exact hc h2.symm
    · obtain ⟨run, tail, e1, e2, e3, e4⟩ := ih (itrace + 1) h (s.extend cur)
      refine ⟨h :: run, tail, by simp [e1], ?_, e3, ?_⟩
      · push Not at hc
        intro x hx
        rcases List.mem_cons.mp hx with rfl | hx
        · exact ⟨hc.1.symm, hc.2.symm⟩
        · exact e2 x hx
      · rw [if_neg hc, e4]
        simp only [List.length_cons, List.foldl_cons, Prod.mk.injEq, and_true]
        push_cast; ring

theorem changes_run (a : Hdr) (run tail : List Hdr) (h : ∀ x ∈ run, x.sx = a.sx ∧ x.fldr = a.fldr)
    (ht : ∀ y, tail.head? = some y → ¬ (y.sx = a.sx ∧ y.fldr = a.fldr)) :
    changes (a :: (run ++ tail)) = if tail = [] then 0 else 1 + changes tail := by
  induction run generalizing a with
  | nil =>
    cases tail with
    | nil => simp [changes]
    | cons y tail =>
      have := ht y rfl
      rw [List.nil_append, changes, if_neg (by unfold sameGather; intro hh; exact this ⟨hh.1.symm, hh.2.symm⟩)]
      simp
  | cons b run ih =>
    obtain ⟨h1, h2⟩ := h b List.mem_cons_self
    rw [List.cons_append, changes, if_pos ⟨h1.symm, h2.symm⟩, zero_add]
    apply ih
    · intro x hx; rw [h1, h2]; exact h x (List.mem_cons_of_mem _ hx)
    · rw [h1, h2]; exact ht

/-- A run inside `block ++ tail`, where the block is one maximal gather, lies in the block or in the
tail. -/
theorem run_split (a : Hdr) (run tail : List Hdr) (h : ∀ x ∈ run, x.sx = a.sx ∧ x.fldr = a.fldr)
    (ht : ∀ y, tail.head? = some y → ¬ (y.sx = a.sx ∧ y.fldr = a.fldr)) (m : Nat)
    (hr : RunIn (a :: run ++ tail) m) : m ≤ run.length + 1 ∨ RunIn tail m := by
  obtain ⟨p, b, c, e, hl, hs⟩ := hr
  by_cases hp : p.length ≥ run.length + 1
  · -- the run starts behind the block
    right
    have hd : tail = (p.drop (run.length + 1)) ++ b ++ c := by
      have := congrArg (List.drop (run.length + 1)) e
      rw [List.drop_left' (by simp)] at this
      rw [this, List.append_assoc, List.drop_append_of_le_length (by omega), List.append_assoc]
    exact ⟨_, b, c, hd, hl, hs⟩
  · left
    by_contra hm
    -- then b contains both an element of the block and the first element of the tail
    have hb : p.length + b.length > run.length + 1 := by omega
    have hlen := congrArg List.length e
    simp only [List.cons_append, List.length_cons, List.length_append] at hlen
    have htl : 0 < tail.length := by omega
    obtain ⟨y, tl, rfl⟩ : ∃ y tl, tail = y :: tl := by
      cases tail with
      | nil => simp at htl
      | cons y tl => exact ⟨y, tl, rfl⟩
    have hy : y ∈ b := by
      have h1 : (a :: run ++ y :: tl)[run.length + 1]? = some y := by
        rw [List.getElem?_append_right (by simp)]; simp
      rw [e, List.append_assoc, List.getElem?_append_right (by omega),
        List.getElem?_append_left (by omega)] at h1
      exact List.mem_of_getElem? h1
    have hx : ∃ x ∈ b, x.sx = a.sx ∧ x.fldr = a.fldr := by
      have h1 : (a :: run ++ y :: tl)[p.length]? = (a :: run)[p.length]? := by
        rw [List.getElem?_append_left (by simp; omega)]
      rw [e, List.append_assoc, List.getElem?_append_right (le_refl _), Nat.sub_self,
        List.getElem?_append_left (by omega)] at h1
      have hb0 : 0 < b.length := by omega
      rw [List.getElem?_eq_getElem hb0] at h1
      refine ⟨b[0], List.getElem_mem hb0, ?_⟩
      have hmem : b[0] ∈ a :: run := List.mem_of_getElem? h1.symm
      rcases List.mem_cons.mp hmem with hh | hh
      · rw [hh]; exact ⟨rfl, rfl⟩
      · exact h _ hh
    obtain ⟨x, hx1, hx2, hx3⟩ := hx
    obtain ⟨q1, q2⟩ := hs x hx1 y hy
    exact ht y rfl ⟨by rw [← q1, hx2], by rw [← q2, hx3]⟩

theorem RunIn.block (a : Hdr) (run tail : List Hdr) (h : ∀ x ∈ run, x.sx = a.sx ∧ x.fldr = a.fldr) :
    RunIn (a :: run ++ tail) (run.length + 1) := by
  refine ⟨[], a :: run, tail, rfl, rfl, ?_⟩
  have hh : ∀ x ∈ a :: run, x.sx = a.sx ∧ x.fldr = a.fldr := by
    intro x hx
    rcases List.mem_cons.mp hx with rfl | hx
    · exact ⟨rfl, rfl⟩
    · exact h x hx
  intro x hx y hy
  obtain ⟨h1, h2⟩ := hh x hx
  obtain ⟨h3, h4⟩ := hh y hy
  exact ⟨by rw [h1, h3], by rw [h2, h4]⟩

theorem RunIn.behind (l tail : List Hdr) (m : Nat) (h : RunIn tail m) : RunIn (l ++ tail) m := by
  obtain ⟨a, b, c, e, h1, h2⟩ := h
  exact ⟨l ++ a, b, c, by rw [e]; simp, h1, h2⟩

theorem extend_igath (l : List Hdr) : ∀ s : Scan, (l.foldl Scan.extend s).igath = s.igath ∧
    (l.foldl Scan.extend s).n2 = s.n2 := by
  induction l with
  | nil => intro s; exact ⟨rfl, rfl⟩
  | cons a l ih => intro s; rw [List.foldl_cons]; exact ih _

theorem outer_spec (n : Nat) : ∀ (file : List Hdr), file.length ≤ n → ∀ s : Scan,
    (file ≠ [] → (outer file s).igath = s.igath + 1 + changes file) ∧ (file = [] → (outer file s).igath = s.igath) ∧
    s.n2 ≤ (outer file s).n2 ∧ (∀ m : Nat, 1 < m → RunIn file m → (m:Int) ≤ (outer file s).n2) ∧
    ((outer file s).n2 = s.n2 ∨ ∃ m : Nat, 1 < m ∧ RunIn file m ∧ (outer file s).n2 = m) := by
  induction n with
  | zero =>
    intro file hf s
    have : file = [] := List.length_eq_zero_iff.mp (by omega)
    subst this
    rw [outer]
    refine ⟨fun h => absurd rfl h, fun _ => rfl, le_refl _, ?_, Or.inl rfl⟩
    rintro m hm ⟨a, b, c, e, h1, _⟩
    have := congrArg List.length e
    simp at this
    omega
  | succ n ih =>
    intro file hf s
    cases file with
    | nil => exact ih [] (by simp) s
    | cons h rest =>
      obtain ⟨run, tail, e1, e2, e3, e4⟩ := inner_spec h.sx h.fldr rest 0 h (s.extend h)
      rw [outer, e4]
      dsimp only
      set s0 := (h :: run).foldl Scan.extend (s.extend h) with hs0
      have hx := extend_igath (h :: run) (s.extend h)
      rw [← hs0] at hx
      have hxi : s0.igath = s.igath := hx.1
      have hxn : s0.n2 = s.n2 := hx.2
      clear_value s0
      set cnt : Int := 0 + 1 + (run.length : Int) with hcnt
      set s1 : Scan := if cnt > 1 then { s0 with n2 := max s0.n2 cnt } else s0 with hs1
      have h1i : s1.igath = s.igath := by rw [hs1]; split <;> exact hxi
      have h1n : s1.n2 = if cnt > 1 then max s.n2 cnt else s.n2 := by
        rw [hs1]; split
        · show max s0.n2 cnt = _; rw [hxn]
        · exact hxn
      clear_value s1
      have hlt : tail.length ≤ n := by
        have := congrArg List.length e1
        simp only [List.length_append] at this
        simp only [List.length_cons] at hf
        omega
      obtain ⟨a1, a2, a3, a4, a5⟩ := ih tail hlt { s1 with igath := s1.igath + 1 }
      dsimp only at a1 a2 a3 a5
      refine ⟨fun _ => ?_, fun hh => absurd hh (by simp), ?_, ?_, ?_⟩
      · rw [e1, changes_run h run tail e2 e3]
        by_cases ht : tail = []
        · rw [if_pos ht, a2 ht, h1i]; ring
        · rw [if_neg ht, a1 ht, h1i]; ring
      · refine le_trans ?_ a3
        rw [h1n]; split
        · exact le_max_left _ _
        · exact le_refl _
      · intro m hm hr
        rw [e1] at hr
        rcases run_split h run tail e2 e3 m hr with hc | hc
        · refine le_trans ?_ a3
          rw [h1n, if_pos (by omega)]
          exact le_trans (by omega) (le_max_right _ _)
        · exact a4 m hm hc
      · rcases a5 with a5 | ⟨m, hm1, hm2, hm3⟩
        · rw [a5, h1n]
          split
          · rcases le_total s.n2 cnt with hc | hc
            · right
              refine ⟨run.length + 1, by omega, ?_, ?_⟩
              · rw [e1]; exact RunIn.block h run tail e2
              · rw [max_eq_right hc]; push_cast; omega
            · left; exact max_eq_left hc
          · left; rfl
        · right
          refine ⟨m, hm1, ?_, hm3⟩
          rw [e1]
          exact RunIn.behind (h :: run) tail m hm2

/-- **C18.** The number of gathers reported is one plus the number of places where the source
coordinate or the record number changes from one trace to the next, i.e. the number of maximal runs. -/
theorem ngath_counts_runs (h : Hdr) (rest : List Hdr) :
    (getFileInfo h rest).igath = 1 + changes (h :: rest) := by
  have := (outer_spec (h :: rest).length (h :: rest) (le_refl _) ⟨0, 0, h.gx, h.gx⟩).1 (by simp)
  unfold getFileInfo
  rw [this]; ring

example : (getFileInfo ⟨1,0,0,0⟩ [⟨1,0,10,0⟩, ⟨2,5,0,0⟩, ⟨2,5,10,0⟩, ⟨2,5,20,0⟩, ⟨3,0,0,0⟩]).igath = 3 := by
  rw [ngath_counts_runs]; decide

/-- **C18 (partial).** The gather length reported is the length of the longest run, provided some gather
has more than one trace.  Missing: files in which every gather has a single trace, for which the
reported length is 0 instead of 1 (`single_trace_gathers`). -/
theorem gather_length_partial (h : Hdr) (rest : List Hdr) (hm : ∃ m, 1 < m ∧ RunIn (h :: rest) m) :
    ∃ m : Nat, (getFileInfo h rest).n2 = m ∧ IsGreatest {m | RunIn (h :: rest) m} m := by
  obtain ⟨_, _, a3, a4, a5⟩ := outer_spec (h :: rest).length (h :: rest) (le_refl _) ⟨0, 0, h.gx, h.gx⟩
  obtain ⟨m0, hm1, hm2⟩ := hm
  have h0 := a4 m0 hm1 hm2
  unfold getFileInfo
  rcases a5 with a5 | ⟨m, b1, b2, b3⟩
  · rw [a5] at h0; dsimp only at h0; omega
  · refine ⟨m, b3, b2, ?_⟩
    intro k hk
    by_cases hk1 : 1 < k
    · have := a4 k hk1 hk
      rw [b3] at this
      exact_mod_cast this
    · omega

example : RunIn [⟨1,0,0,0⟩, ⟨2,5,0,0⟩, ⟨2,5,10,0⟩] 2 :=
  ⟨[⟨1,0,0,0⟩], [⟨2,5,0,0⟩, ⟨2,5,10,0⟩], [], rfl, rfl, by decide⟩

/-- **C18 is false** for files in which no two neighbouring traces belong to the same gather: the
reported gather length is 0, although the gathers have one trace. -/
theorem single_trace_gathers (h : Hdr) (rest : List Hdr) (hm : ∀ m, 1 < m → ¬ RunIn (h :: rest) m) :
    (getFileInfo h rest).n2 = 0 := by
  obtain ⟨_, _, a3, a4, a5⟩ := outer_spec (h :: rest).length (h :: rest) (le_refl _) ⟨0, 0, h.gx, h.gx⟩
  unfold getFileInfo
  rcases a5 with a5 | ⟨m, b1, b2, b3⟩
  · exact a5
  · exact absurd b2 (hm m b1)

example : (getFileInfo ⟨1,0,0,0⟩ [⟨2,5,0,0⟩, ⟨3,10,0,0⟩]) = ⟨0, 3, 10, 0⟩ := by
  simp [getFileInfo, outer, inner, Scan.extend]

/-! ### The extent of the survey -/

theorem outer_extent (n : Nat) : ∀ (file : List Hdr), file.length ≤ n → ∀ s : Scan,
    (outer file s).xmax = (file.flatMap fun h => [h.gx, h.sx]).foldl max s.xmax ∧
    (outer file s).xmin = (file.flatMap fun h => [h.gx, h.sx]).foldl min s.xmin := by
  have ext : ∀ (l : List Hdr) (s : Scan),
      (l.foldl Scan.extend s).xmax = (l.flatMap fun h => [h.gx, h.sx]).foldl max s.xmax ∧
      (l.foldl Scan.extend s).xmin = (l.flatMap fun h => [h.gx, h.sx]).foldl min s.xmin := by
    intro l
    induction l with
    | nil => intro s; exact ⟨rfl, rfl⟩
    | cons a l ih =>
      intro s
      obtain ⟨h1, h2⟩ := ih (s.extend a)
      rw [List.foldl_cons, h1, h2]
      simp only [List.flatMap_cons, List.foldl_append, List.foldl_cons, List.foldl_nil]
      constructor
      · congr 1
        show max (max a.gx s.xmax) a.sx = _
        rw [max_comm a.gx]
      · congr 1
        show min (min a.gx s.xmin) a.sx = _
        rw [min_comm a.gx]
  induction n with
  | zero =>
    intro file hf s
    have : file = [] := List.length_eq_zero_iff.mp (by omega)
    subst this
    rw [outer]; exact ⟨rfl, rfl⟩
  | succ n ih =>
    intro file hf s
    cases file with
    | nil => exact ih [] (by simp) s
    | cons h rest =>
      obtain ⟨run, tail, e1, e2, e3, e4⟩ := inner_spec h.sx h.fldr rest 0 h (s.extend h)
      have hlt : tail.length ≤ n := by
        have := congrArg List.length e1
        simp only [List.length_append] at this
        simp only [List.length_cons] at hf
        omega
      rw [outer, e4]
      dsimp only
      obtain ⟨b1, b2⟩ := ih tail hlt { (if (0 + 1 + (run.length:Int)) > 1 then
          { (h :: run).foldl Scan.extend (s.extend h) with
            n2 := max ((h :: run).foldl Scan.extend (s.extend h)).n2 (0 + 1 + (run.length:Int)) }
          else (h :: run).foldl Scan.extend (s.extend h)) with
        igath := (if (0 + 1 + (run.length:Int)) > 1 then
          { (h :: run).foldl Scan.extend (s.extend h) with
            n2 := max ((h :: run).foldl Scan.extend (s.extend h)).n2 (0 + 1 + (run.length:Int)) }
          else (h :: run).foldl Scan.extend (s.extend h)).igath + 1 }
      have hmx : (if (0 + 1 + (run.length:Int)) > 1 then
          { (h :: run).foldl Scan.extend (s.extend h) with
            n2 := max ((h :: run).foldl Scan.extend (s.extend h)).n2 (0 + 1 + (run.length:Int)) }
          else (h :: run).foldl Scan.extend (s.extend h)).xmax = ((h :: run).foldl Scan.extend (s.extend h)).xmax := by
        split <;> rfl
      have hmn : (if (0 + 1 + (run.length:Int)) > 1 then
          { (h :: run).foldl Scan.extend (s.extend h) with
            n2 := max ((h :: run).foldl Scan.extend (s.extend h)).n2 (0 + 1 + (run.length:Int)) }
          else (h :: run).foldl Scan.extend (s.extend h)).xmin = ((h :: run).foldl Scan.extend (s.extend h)).xmin := by
        split <;> rfl
      -- the first header is counted twice, which changes nothing
      have twice : (s.extend h).extend h = s.extend h := by
        unfold Scan.extend
        congr 1
        · dsimp only; omega
        · dsimp only; omega
      rw [b1, b2]
      dsimp only
      rw [hmx, hmn]
      obtain ⟨c1, c2⟩ := ext (h :: run) s
      have hfold : (h :: run).foldl Scan.extend (s.extend h) = (h :: run).foldl Scan.extend s := by
        rw [List.foldl_cons, List.foldl_cons, twice]
      rw [hfold, c1, c2, e1, ← List.cons_append, List.flatMap_append, List.foldl_append, List.foldl_append]
      exact ⟨rfl, rfl⟩

theorem foldl_max_spec (l : List Int) : ∀ a, (∀ x ∈ l, x ≤ l.foldl max a) ∧ a ≤ l.foldl max a ∧
    (l.foldl max a = a ∨ l.foldl max a ∈ l) := by
  induction l with
  | nil => intro a; exact ⟨by simp, le_refl _, Or.inl rfl⟩
  | cons b l ih =>
    intro a
    obtain ⟨h1, h2, h3⟩ := ih (max a b)
    rw [List.foldl_cons]
    refine ⟨?_, le_trans (le_max_left _ _) h2, ?_⟩
    · intro x hx
      rcases List.mem_cons.mp hx with rfl | hx
      · exact le_trans (le_max_right _ _) h2
      · exact h1 x hx
    · rcases h3 with h3 | h3
      · rw [h3]
        rcases le_total a b with hh | hh
        · right; rw [max_eq_right hh]; exact List.mem_cons_self
        · left; exact max_eq_left hh
      · right; exact List.mem_cons_of_mem _ h3

theorem foldl_min_spec (l : List Int) : ∀ a, (∀ x ∈ l, l.foldl min a ≤ x) ∧ l.foldl min a ≤ a ∧
    (l.foldl min a = a ∨ l.foldl min a ∈ l) := by
  induction l with
  | nil => intro a; exact ⟨by simp, le_refl _, Or.inl rfl⟩
  | cons b l ih =>
    intro a
    obtain ⟨h1, h2, h3⟩ := ih (min a b)
    rw [List.foldl_cons]
    refine ⟨?_, le_trans h2 (min_le_left _ _), ?_⟩
    · intro x hx
      rcases List.mem_cons.mp hx with rfl | hx
      · exact le_trans h2 (min_le_right _ _)
      · exact h1 x hx
    · rcases h3 with h3 | h3
      · rw [h3]
        rcases le_total a b with hh | hh
        · left; exact min_eq_left hh
        · right; rw [min_eq_right hh]; exact List.mem_cons_self
      · right; exact List.mem_cons_of_mem _ h3

/-- The reported extent is the smallest interval containing all source and receiver coordinates. -/
theorem extent_is_tight (h : Hdr) (rest : List Hdr) :
    IsGreatest {x | ∃ t ∈ h :: rest, x = t.gx ∨ x = t.sx} (getFileInfo h rest).xmax ∧
    IsLeast {x | ∃ t ∈ h :: rest, x = t.gx ∨ x = t.sx} (getFileInfo h rest).xmin := by
  obtain ⟨h1, h2⟩ := outer_extent (h :: rest).length (h :: rest) (le_refl _) ⟨0, 0, h.gx, h.gx⟩
  unfold getFileInfo
  rw [h1, h2]
  have mem : ∀ x, x ∈ (h :: rest).flatMap (fun h => [h.gx, h.sx]) ↔ ∃ t ∈ h :: rest, x = t.gx ∨ x = t.sx := by
    intro x
    rw [List.mem_flatMap]
    simp
  obtain ⟨m1, m2, m3⟩ := foldl_max_spec ((h :: rest).flatMap fun h => [h.gx, h.sx]) h.gx
  obtain ⟨n1, n2, n3⟩ := foldl_min_spec ((h :: rest).flatMap fun h => [h.gx, h.sx]) h.gx
  have hg : ∃ t ∈ h :: rest, h.gx = t.gx ∨ h.gx = t.sx := ⟨h, List.mem_cons_self, Or.inl rfl⟩
  refine ⟨⟨?_, fun x hx => m1 x ((mem x).mpr hx)⟩, ⟨?_, fun x hx => n1 x ((mem x).mpr hx)⟩⟩
  · rcases m3 with m3 | m3
    · rw [m3]; exact hg
    · exact (mem _).mp m3
  · rcases n3 with n3 | n3
    · rw [n3]; exact hg
    · exact (mem _).mp n3

example : (getFileInfo ⟨1,0,3,0⟩ [⟨1,0,7,0⟩, ⟨2,-5,4,0⟩]).xmax = 7 ∧
    (getFileInfo ⟨1,0,3,0⟩ [⟨1,0,7,0⟩, ⟨2,-5,4,0⟩]).xmin = -5 := by
  simp [getFileInfo, outer, inner, Scan.extend]

end Verif.Marchenko

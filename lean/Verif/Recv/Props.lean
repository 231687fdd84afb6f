import Mathlib.Tactic.Linarith
import Mathlib.Tactic.LinearCombination
import Mathlib.Tactic.Ring
import Mathlib.Tactic.Positivity
import Mathlib.Tactic.FieldSimp
import Mathlib.Tactic.NormNum
import Mathlib.Algebra.BigOperators.Group.List.Basic
import Verif.Recv.Model

/-! # Receiver positions: theorems -/

namespace Verif.Recv

set_option linter.unusedSectionVars false

open Verif

/-! ## Lists of calls -/

theorem mapM_ok {α β : Type} {f : α → Run β} {g : α → β} {l : List α} (h : ∀ x ∈ l, f x = .ok (g x)) : l.mapM f = .ok (l.map g) := by
  induction l with
  | nil => rfl
  | cons a l ih =>
    rw [List.mapM_cons, h a (by simp), ih (fun x hx => h x (by simp [hx]))]
    rfl

theorem mapM_inv {α β : Type} {f : α → Run β} {l : List α} {r : List β} (h : l.mapM f = .ok r) : List.Forall₂ (fun a b => f a = .ok b) l r := by
  induction l generalizing r with
  | nil => cases h; exact List.Forall₂.nil
  | cons a l ih =>
    rw [List.mapM_cons] at h
    cases ha : f a with
    | error e => rw [ha] at h; cases h
    | ok b =>
      cases hl : l.mapM f with
      | error e => rw [ha, hl] at h; cases h
      | ok bs =>
        rw [ha, hl] at h
        cases h
        exact List.Forall₂.cons ha (ih hl)

/-! ## Rounding -/

theorem NINT_near (q : ℚ) : |(NINT q : ℚ) - q| ≤ 1 / 2 := by
  unfold NINT
  rw [abs_le]
  split
  · have := Int.floor_le (q + 1 / 2); have := Int.lt_floor_add_one (q + 1 / 2)
    constructor <;> linarith
  · have := Int.le_ceil (q - 1 / 2); have := Int.ceil_lt_add_one (q - 1 / 2)
    constructor <;> linarith

theorem NINT_nonneg {q : ℚ} (h : 0 ≤ q) : 0 ≤ NINT q := by
  have := abs_le.1 (NINT_near q)
  have h' : (-1 : ℚ) < NINT q := by linarith
  have : (-1 : ℤ) < NINT q := by exact_mod_cast h'
  omega

theorem NINT_le {q : ℚ} {n : ℤ} (h : q ≤ n) : NINT q ≤ n := by
  have := abs_le.1 (NINT_near q)
  have h' : (NINT q : ℚ) < n + 1 := by linarith
  have : NINT q < n + 1 := by exact_mod_cast h'
  omega

/-! ## As many receivers as allocated -/

theorem lineCount_pos {e : Ends} {s : Option (ℚ × ℚ)} {n : ℤ} (h : lineCount e s = .ok n) : 1 ≤ n := by
  have key : ∀ q : ℚ, 1 ≤ NINT |q| + 1 := fun q => by have := NINT_nonneg (abs_nonneg q); omega
  unfold lineCount at h
  split at h
  · cases h
  · split at h
    · cases h; exact key _
    · split at h
      · cases h
      · cases h; exact key _

theorem lineRcv_length {m : Grid} {e : Ends} {s : Option (ℚ × ℚ)} {n : ℤ} {r : List Rcv} (h : lineRcv m e s n = .ok r) : r.length = n.toNat := by
  unfold lineRcv at h
  split at h
  · cases h
  · dsimp only at h
    split at h
    · split at h
      · cases h
      · cases h; simp
    · split at h
      · cases h
      · split at h
        · cases h
        · cases h; simp

theorem spacing_length {m : Grid} {p : Par} {n : ℕ} {r : List (Option (ℚ × ℚ)) × ℕ} (h : spacing m p n = .ok r) : r.1.length = n := by
  unfold spacing at h
  split at h
  · cases h
  · rename_i h0
    split at h
    · cases h; simp
    · split at h
      · cases h; simp
      · split at h
        · cases h
        · rename_i h1
          split at h
          · cases h
          · cases h
            simp only [ne_eq, not_not] at h1
            simp only [List.length_append, List.length_map, List.length_zip, List.length_replicate, h1, min_self]
            omega

theorem flatten_length {α : Type} {f : α × ℤ → Run (List Rcv)} (hf : ∀ a r, f a = .ok r → r.length = a.2.toNat) (ns : List ℤ) :
    ∀ (A : List α) (rs : List (List Rcv)), A.length = ns.length → (∀ n ∈ ns, 1 ≤ n) → List.Forall₂ (fun a b => f a = .ok b) (A.zip ns) rs →
      (rs.flatten.length : ℤ) = ns.sum := by
  induction ns with
  | nil => intro A rs hA _ h; rw [List.zip_nil_right] at h; cases h; rfl
  | cons n ns ih =>
    intro A rs hA hp h
    rcases A with _ | ⟨a, A⟩
    · simp at hA
    · rw [List.zip_cons_cons] at h
      cases h with
      | cons h1 h2 =>
        rename_i b bs
        rw [List.flatten_cons, List.length_append, List.sum_cons]
        push_cast
        rw [ih A bs (by simpa using hA) (fun n hn => hp n (by simp [hn])) h2, hf _ _ h1]
        have := hp n (by simp)
        dsimp only
        omega

theorem bind_ok {α β : Type} {r : Run α} {f : α → Run β} {b : β} (h : r.bind f = .ok b) : ∃ a, r = .ok a ∧ f a = .ok b := by
  cases r with
  | error e => cases h
  | ok a => exact ⟨a, rfl, h⟩

theorem counts_ok {m : Grid} {p : Par} {ns : List ℤ} (h : counts m p = .ok ns) : ns.length = (ends m p).length ∧ ∀ n ∈ ns, 1 ≤ n := by
  unfold counts at h
  obtain ⟨es, h1, h⟩ := bind_ok h
  obtain ⟨⟨ss, nd⟩, h2, h⟩ := bind_ok h
  obtain ⟨fs, h3, h4⟩ := bind_ok h
  have l1 := (mapM_inv h1).length_eq
  have l2 := spacing_length h2
  have l3 := (mapM_inv h3).length_eq
  have l4 := (mapM_inv h4).length_eq
  simp only [List.length_map, List.length_zipIdx, List.length_zip] at l1 l2 l3
  refine ⟨by rw [← l4, ← l3, l2, l1, min_self], ?_⟩
  intro n hn
  have := mapM_inv h4
  obtain ⟨i, hi, rfl⟩ := List.getElem_of_mem hn
  exact lineCount_pos (this.get (i := i) (by omega) hi)

/-- The receiver arrays are filled exactly: as many receivers are written as were allocated. -/
theorem recvPar_count (m : Grid) (p : Par) (n : ℤ) (rs : List Rcv) (h : recvPar m p = .ok (n, rs)) : (rs.length : ℤ) = n := by
  unfold recvPar at h
  split at h
  · cases h
  · rename_i ha
    split at h
    · cases h
    · dsimp only at h
      have lp : ((points m p).length : ℤ) = p.circle.length + p.text.length + p.xrcva.length := by
        simp only [ne_eq, not_not] at ha
        unfold points
        simp only [List.length_append, List.length_map, List.length_zip, ← ha, min_self]
        push_cast
        ring
      split at h
      · cases h; exact lp
      · obtain ⟨ns, h1, h⟩ := bind_ok h
        obtain ⟨r, h2, h⟩ := bind_ok h
        cases h
        rw [List.length_append]
        push_cast
        rw [lp]
        congr 1
        obtain ⟨c1, c2⟩ := counts_ok h1
        unfold lines at h2
        obtain ⟨⟨ss, nd⟩, e1, h2⟩ := bind_ok h2
        obtain ⟨q, e2, h2⟩ := bind_ok h2
        cases h2
        have l2 := spacing_length e1
        refine flatten_length (f := fun t : (Ends × Option (ℚ × ℚ)) × ℤ => lineRcv m t.1.1 t.1.2 t.2) (fun a r h => lineRcv_length h) ns _ q ?_ c2 (mapM_inv e2)
        simp only [List.length_map, List.length_zip] at l2 ⊢
        rw [l2, min_self, c1]

/-! ## Lines that fit -/

/-- A line that is asked for: ends, spacing, and the number of steps. -/
structure Line where
  x1 : ℚ
  x2 : ℚ
  z1 : ℚ
  z2 : ℚ
  dxr : ℚ
  dzr : ℚ
  k : ℕ

/-- The line lies in the model and has at least one step, of size `dxr` in x, or if this is 0 of size `dzr` in z. -/
structure Line.Good (m : Grid) (l : Line) : Prop where
  hx0 : m.x0 ≤ l.x1
  hx : l.x1 ≤ l.x2
  hx1 : l.x2 ≤ m.x1
  hz0 : m.z0 ≤ l.z1
  hz : l.z1 ≤ l.z2
  hz1 : l.z2 ≤ m.z1
  hk : 1 ≤ l.k
  step : (0 < l.dxr ∧ l.x2 - l.x1 = l.k * l.dxr) ∨ (l.dxr = 0 ∧ 0 < l.dzr ∧ l.z2 - l.z1 = l.k * l.dzr)

/-- Receivers at equal distances from one end to the other. -/
def Line.wanted (m : Grid) (l : Line) : List Rcv :=
  (List.range (l.k + 1)).map fun i : ℕ => mkRcv m (l.x1 - m.x0 + i * ((l.x2 - l.x1) / l.k)) (l.z1 - m.z0 + i * ((l.z2 - l.z1) / l.k))

/-- The ends as given. -/
def Line.ends (l : Line) : Ends := ⟨l.x1, l.x2, l.z1, l.z2⟩

section
variable {m : Grid} (hdx : 0 < m.dx) (hdz : 0 < m.dz)
include hdx hdz

theorem clip_good {l : Line} (g : l.Good m) : clipEnds m l.ends = l.ends := by
  have a1 := g.hx0; have a2 := g.hx; have a3 := g.hx1; have b1 := g.hz0; have b2 := g.hz; have b3 := g.hz1
  unfold Grid.x1 at a3; unfold Grid.z1 at b3
  unfold clipEnds Line.ends
  simp only
  rw [max_eq_right a1, max_eq_right (a1.trans a2), max_eq_right b1, max_eq_right (b1.trans b2), min_eq_right, min_eq_right, min_eq_right,
    min_eq_right] <;> nlinarith

omit hdx hdz in
theorem crop_good {l : Line} (g : l.Good m) : crop m l.ends = .ok l.ends := by
  have a1 := g.hx0; have a2 := g.hx; have a3 := g.hx1; have b1 := g.hz0; have b2 := g.hz; have b3 := g.hz1
  have key : ∀ s0 s1 a b : ℚ, s0 ≤ a → a ≤ b → b ≤ s1 → cropAxis s0 s1 a b = .ok (a, b) := fun s0 s1 a b h1 h2 h3 => by
    unfold cropAxis
    have n : ¬a < s0 := not_lt.2 h1
    dsimp only
    rw [if_neg (fun h => n h.1), if_neg (fun h => not_lt.2 (h2.trans h3) h.2), if_neg n, if_neg (not_lt.2 h2), if_neg (not_lt.2 h3)]
  unfold crop Line.ends
  dsimp only
  rw [key _ _ _ _ a1 a2 a3, key _ _ _ _ b1 b2 b3]
  rfl

/-- Count of a good line with the spacing as given. -/
theorem count_good {l : Line} (g : l.Good m) : lineCount l.ends (some (l.dxr, l.dzr)) = .ok (l.k + 1 : ℕ) := by
  unfold lineCount Line.ends
  dsimp only
  rcases g.step with ⟨h1, h2⟩ | ⟨h1, h2, h3⟩
  · rw [if_pos h1.ne', h2, mul_div_cancel_right₀ _ h1.ne', abs_of_nonneg (by positivity)]
    rw [show ((l.k : ℕ) : ℚ) = ((l.k : ℤ) : ℚ) by push_cast; rfl, NINT_int]
    rfl
  · rw [if_neg (by simp [h1]), if_neg h2.ne', h3, mul_div_cancel_right₀ _ h2.ne', abs_of_nonneg (by positivity)]
    rw [show ((l.k : ℕ) : ℚ) = ((l.k : ℤ) : ℚ) by push_cast; rfl, NINT_int]
    rfl

/-- The checks do not change the count of a good line. -/
theorem fix_good {l : Line} (g : l.Good m) : ∃ e s, fixLine m l.ends (l.dxr, l.dzr) = .ok (e, s) ∧ lineCount e (some s) = .ok (l.k + 1 : ℕ) := by
  have hc := count_good hdx hdz g
  have kp : (0 : ℚ) < l.k := by exact_mod_cast g.hk
  have one : ∀ (e : Ends) (dzr : ℚ), e.x1 = l.x1 → e.x2 = l.x2 → 0 < l.dxr → lineCount e (some (l.dxr, dzr)) = .ok (l.k + 1 : ℕ) := by
    intro e dzr h1 h2 hp
    unfold lineCount at hc ⊢
    dsimp only at hc ⊢
    rw [if_pos hp.ne'] at hc ⊢
    rw [h1, h2]
    exact hc
  unfold fixLine
  dsimp only
  rcases g.step with ⟨h1, h2⟩ | ⟨h1, h2, h3⟩
  · have ne : ¬l.ends.x1 = l.ends.x2 := by have := mul_pos kp h1; intro h; unfold Line.ends at h; dsimp only at h; rw [h] at h2; linarith
    have c : ¬(l.dxr = 0 ∧ (if l.dzr < 0 then m.dz else l.dzr) = 0) := fun h => h1.ne' h.1
    simp only [if_neg c]
    rw [if_neg (not_lt.2 h1.le), if_neg (fun h => ne h.1)]
    exact ⟨_, _, rfl, one _ _ rfl rfl h1⟩
  · have ne : ¬l.ends.z1 = l.ends.z2 := by have := mul_pos kp h2; intro h; unfold Line.ends at h; dsimp only at h; rw [h] at h3; linarith
    have c : ¬(l.dxr = 0 ∧ l.dzr = 0) := fun h => h2.ne' h.2
    simp only [if_neg (not_lt.2 h2.le), if_neg c]
    rw [if_neg (by rw [h1]; exact lt_irrefl _), if_neg (fun h => h.2 h1), if_neg (fun h => ne h.1)]
    exact ⟨_, _, rfl, hc⟩

theorem rcv_good {l : Line} (g : l.Good m) : lineRcv m l.ends (some (l.dxr, l.dzr)) (l.k + 1 : ℕ) = .ok (l.wanted m) := by
  have kp : (0 : ℚ) < l.k := by exact_mod_cast g.hk
  have hk := g.hk
  unfold lineRcv Line.ends Line.wanted
  dsimp only
  have e : (((l.k + 1 : ℕ) : ℤ) - 1 : ℤ) = (l.k : ℤ) := by push_cast; ring
  have e' : (((l.k : ℕ) : ℤ) : ℚ) = (l.k : ℚ) := by push_cast; rfl
  rw [e, e', Int.toNat_natCast]
  rcases g.step with ⟨h1, h2⟩ | ⟨h1, h2, h3⟩
  · rw [if_pos h1.ne', if_neg (by omega)]
    rw [h2, mul_div_cancel_left₀ _ kp.ne']
  · rw [if_neg (by simp [h1]), if_neg h2.ne', if_neg (by omega)]
    rw [h3, mul_div_cancel_left₀ _ kp.ne']

omit hdx hdz in
theorem mapM_map {α β γ : Type} (f : β → Run γ) (g : α → β) (l : List α) : (l.map g).mapM f = l.mapM fun x => f (g x) := by
  induction l with
  | nil => rfl
  | cons a l ih => rw [List.map_cons, List.mapM_cons, List.mapM_cons, ih]

omit hdx hdz in
theorem mapM_mapM {α β γ : Type} {f : α → Run β} {h : β → Run γ} {c : α → γ} {l : List α} (H : ∀ x ∈ l, ∃ y, f x = .ok y ∧ h y = .ok (c x)) :
    ∃ ys, l.mapM f = .ok ys ∧ ys.mapM h = .ok (l.map c) := by
  induction l with
  | nil => exact ⟨[], rfl, rfl⟩
  | cons a l ih =>
    obtain ⟨y, e1, e2⟩ := H a (by simp)
    obtain ⟨ys, e3, e4⟩ := ih fun x hx => H x (by simp [hx])
    refine ⟨y :: ys, ?_, ?_⟩
    · rw [List.mapM_cons, e1, e3]; rfl
    · rw [List.mapM_cons, e2, e4]; rfl

/-- Both passes for good lines, whatever the number of lines that is checked. -/
theorem lines_good {p : Par} {ls : List Line} (hg : ∀ l ∈ ls, l.Good m) (he : ends m p = ls.map Line.ends) {nd : ℕ}
    (hs : spacing m p ls.length = .ok (ls.map fun l => some (l.dxr, l.dzr), nd)) :
    counts m p = .ok (ls.map fun l => ((l.k + 1 : ℕ) : ℤ)) ∧
      lines m p (ls.map fun l => ((l.k + 1 : ℕ) : ℤ)) = .ok (ls.flatMap (Line.wanted m)) := by
  have ec : (ls.map Line.ends).map (clipEnds m) = ls.map Line.ends := by
    rw [List.map_map]
    exact List.map_congr_left fun l hl => clip_good hdx hdz (hg l hl)
  constructor
  · unfold counts
    rw [he, ec, mapM_map, mapM_ok (g := Line.ends) fun l hl => crop_good (hg l hl)]
    change (spacing m p (ls.map Line.ends).length).bind _ = _
    rw [List.length_map, hs]
    change Except.bind (List.mapM _ ((List.map Line.ends ls).zip (ls.map fun l : Line => some (l.dxr, l.dzr))).zipIdx) _ = _
    rw [List.zip_map', List.zipIdx_map, mapM_map]
    obtain ⟨ys, e1, e2⟩ := mapM_mapM (l := ls.zipIdx) (c := fun t => ((t.1.k + 1 : ℕ) : ℤ)) (h := fun t : Ends × Option (ℚ × ℚ) => lineCount t.1 t.2)
      (f := fun t => fixAt m nd (Prod.map (fun l : Line => (l.ends, some (l.dxr, l.dzr))) id t).2
        (Prod.map (fun l : Line => (l.ends, some (l.dxr, l.dzr))) id t).1.1 (Prod.map (fun l : Line => (l.ends, some (l.dxr, l.dzr))) id t).1.2)
      (fun t ht => by
        have g : t.1.Good m := hg _ (List.fst_mem_of_mem_zipIdx ht)
        unfold fixAt
        by_cases c : t.2 < nd
        · obtain ⟨e, s, h1, h2⟩ := fix_good hdx hdz g
          refine ⟨(e, some s), ?_, h2⟩
          simp only [Prod.map, id, if_pos c, h1]
          rfl
        · exact ⟨(t.1.ends, some (t.1.dxr, t.1.dzr)), if_neg c, count_good hdx hdz g⟩)
    rw [e1]
    refine e2.trans (congrArg _ ?_)
    conv_rhs => rw [← List.zipIdx_map_fst 0 ls]
    rw [List.map_map]
    rfl
  · unfold lines
    rw [he, ec]
    change (spacing m p (ls.map Line.ends).length).bind _ = _
    rw [List.length_map, hs]
    change Except.bind (List.mapM _ (((List.map Line.ends ls).zip (ls.map fun l : Line => some (l.dxr, l.dzr))).zip (ls.map fun l : Line => ((l.k + 1 : ℕ) : ℤ)))) _ = _
    rw [List.zip_map', List.zip_map', mapM_map, mapM_ok (g := Line.wanted m) fun l hl => rcv_good hdx hdz (hg l hl)]
    change Except.ok _ = _
    rw [List.flatMap_def]

/-- Parameters that ask for the lines `ls`, one `dxrcv` and one `dzrcv` for each line, with any other receivers. -/
structure Asks (p : Par) (ls : List Line) : Prop where
  some : ls ≠ []
  arr : p.xrcva.length = p.zrcva.length
  x1 : p.xrcv1 = ls.map Line.x1
  x2 : p.xrcv2 = ls.map Line.x2
  z1 : p.zrcv1 = ls.map Line.z1
  z2 : p.zrcv2 = ls.map Line.z2

omit hdx hdz in
theorem Asks.ends {p : Par} {ls : List Line} (a : Asks p ls) : ends m p = ls.map Line.ends := by
  unfold Recv.ends
  rw [if_neg (by rw [a.x1]; simpa using a.some), a.x1, a.x2, a.z1, a.z2, List.zip_map', List.zip_map', List.zip_map', List.map_map]
  rfl

theorem recvPar_asks {p : Par} {ls : List Line} (a : Asks p ls) (hg : ∀ l ∈ ls, l.Good m) {nd : ℕ}
    (hs : spacing m p ls.length = .ok (ls.map fun l => some (l.dxr, l.dzr), nd)) :
    ∃ n, recvPar m p = .ok (n, points m p ++ ls.flatMap (Line.wanted m)) := by
  obtain ⟨h1, h2⟩ := lines_good hdx hdz hg a.ends hs
  unfold recvPar
  rw [if_neg (by simp [a.arr]), if_neg (by rw [a.x1, a.x2, a.z1, a.z2]; simp)]
  dsimp only
  rw [if_neg (fun h => by rw [a.x1] at h; simp [a.some] at h), h1]
  refine ⟨p.circle.length + p.text.length + p.xrcva.length + (ls.map fun l => ((l.k + 1 : ℕ) : ℤ)).sum, ?_⟩
  change (lines m p _).bind _ = _
  rw [h2]
  rfl

/-- Lines that fit in the model, with `dxrcv` and `dzrcv` for each line: the receivers are at equal distances from one end to the other. -/
theorem recvPar_lines (p : Par) (ls : List Line) (a : Asks p ls) (hg : ∀ l ∈ ls, l.Good m) (hx : p.dxrcv = ls.map Line.dxr)
    (hz : p.dzrcv = ls.map Line.dzr) :
    ∃ n, recvPar m p = .ok (n, points m p ++ ls.flatMap (Line.wanted m)) := by
  have n0 : 0 < ls.length := List.length_pos_iff.2 a.some
  refine recvPar_asks hdx hdz a hg (nd := ls.length) ?_
  unfold spacing
  rw [hx, hz]
  simp only [List.length_map]
  rw [if_neg (by omega), if_neg (fun h => a.some (by simpa using h.2)), if_neg (fun h => a.some (by simpa using h.2)), if_neg (by simp),
    if_neg (by simp), Nat.sub_self, List.zip_map', List.map_map]
  simp

/-- The same with one `dxrcv` for all lines, or none (then it is `dx`), and no `dzrcv`. -/
theorem recvPar_lines_dx (p : Par) (ls : List Line) (a : Asks p ls) (hg : ∀ l ∈ ls, l.Good m) (d : ℚ)
    (hx : p.dxrcv = [d] ∨ (p.dxrcv = [] ∧ d = m.dx)) (hz : p.dzrcv = []) (hd : ∀ l ∈ ls, l.dxr = d ∧ l.dzr = 0) :
    ∃ n, recvPar m p = .ok (n, points m p ++ ls.flatMap (Line.wanted m)) := by
  have n0 : 0 < ls.length := List.length_pos_iff.2 a.some
  refine recvPar_asks hdx hdz a hg (nd := 1) ?_
  have e : ls.map (fun l => some (l.dxr, l.dzr)) = List.replicate ls.length (some (d, 0)) := by
    rw [List.eq_replicate_iff]
    refine ⟨by simp, fun b hb => ?_⟩
    obtain ⟨l, hl, rfl⟩ := List.mem_map.1 hb
    rw [(hd l hl).1, (hd l hl).2]
  rw [e]
  unfold spacing
  rcases hx with h | ⟨h, h'⟩
  · rw [h, hz, if_neg (by simp only [List.length_cons, List.length_nil]; omega), if_pos (by simp)]; rfl
  · rw [h, hz, h', if_neg (by simp), if_pos (by simp)]; rfl

/-- The receivers of a good line are on the grid. -/
theorem wanted_grid {l : Line} (g : l.Good m) : ∀ r ∈ l.wanted m, 0 ≤ r.x ∧ r.x < m.nx ∧ 0 ≤ r.z ∧ r.z < m.nz := by
  intro r hr
  unfold Line.wanted at hr
  obtain ⟨i, hi, rfl⟩ := List.mem_map.1 hr
  have a1 := g.hx0; have a2 := g.hx; have a3 := g.hx1; have b1 := g.hz0; have b2 := g.hz; have b3 := g.hz1
  unfold Grid.x1 at a3; unfold Grid.z1 at b3
  have kp : (0 : ℚ) < l.k := by exact_mod_cast g.hk
  have ik : (i : ℚ) ≤ l.k := by have := List.mem_range.1 hi; exact_mod_cast (by omega : i ≤ l.k)
  have i0 : (0 : ℚ) ≤ i := by positivity
  have key : ∀ w : ℚ, 0 ≤ w → 0 ≤ i * (w / l.k) ∧ i * (w / l.k) ≤ w := fun w hw => by
    have e : (i : ℚ) * (w / l.k) = i / l.k * w := by ring
    rw [e]
    have q0 : 0 ≤ (i : ℚ) / l.k := by positivity
    have q1 : (i : ℚ) / l.k ≤ 1 := (div_le_one kp).2 ik
    exact ⟨by positivity, by nlinarith⟩
  obtain ⟨x0, x1⟩ := key (l.x2 - l.x1) (by linarith)
  obtain ⟨z0, z1⟩ := key (l.z2 - l.z1) (by linarith)
  unfold mkRcv
  dsimp only
  have hx1 : NINT ((l.x1 - m.x0 + i * ((l.x2 - l.x1) / l.k)) / m.dx) ≤ m.nx - 1 := by
    apply NINT_le
    rw [div_le_iff₀ hdx]
    push_cast
    linarith
  have hz1 : NINT ((l.z1 - m.z0 + i * ((l.z2 - l.z1) / l.k)) / m.dz) ≤ m.nz - 1 := by
    apply NINT_le
    rw [div_le_iff₀ hdz]
    push_cast
    linarith
  exact ⟨NINT_nonneg (div_nonneg (by linarith) hdx.le), by omega, NINT_nonneg (div_nonneg (by linarith) hdz.le), by omega⟩

/-- Without any receiver parameter there is one receiver at every column of the top row. -/
theorem recvPar_default (hnx : 2 ≤ m.nx) (hnz : 1 ≤ m.nz) :
    recvPar m {} = .ok (m.nx, (List.range m.nx.toNat).map fun (i : ℕ) => ⟨i, 0, i * m.dx, 0⟩) := by
  have g : (⟨m.x0, m.x1, m.z0, m.z0, m.dx, 0, (m.nx - 1).toNat⟩ : Line).Good m := by
    have e : (((m.nx - 1).toNat : ℕ) : ℚ) = (m.nx : ℚ) - 1 := by
      have : (((m.nx - 1).toNat : ℕ) : ℤ) = m.nx - 1 := Int.toNat_of_nonneg (by omega)
      rw [← Int.cast_natCast, this]; push_cast; rfl
    have h1 : (2 : ℚ) ≤ m.nx := by exact_mod_cast hnx
    have h2 : (1 : ℚ) ≤ m.nz := by exact_mod_cast hnz
    refine ⟨le_refl _, ?_, le_refl _, le_refl _, le_refl _, ?_, ?_, Or.inl ⟨hdx, ?_⟩⟩
    · unfold Grid.x1; dsimp only; nlinarith
    · unfold Grid.z1; dsimp only; nlinarith
    · dsimp only; omega
    · dsimp only; rw [e]; unfold Grid.x1; ring
  obtain ⟨h1, h2⟩ := lines_good hdx hdz (p := {}) (ls := [⟨m.x0, m.x1, m.z0, m.z0, m.dx, 0, (m.nx - 1).toNat⟩]) (nd := 1)
    (by simpa using g) (by unfold ends; rw [if_pos rfl]; rfl) (by unfold spacing; simp)
  unfold recvPar
  simp only [List.length_nil, ne_eq, not_true_eq_false, if_false, or_self, Nat.cast_zero, add_zero, false_and]
  rw [h1]
  change (lines m _ _).bind _ = _
  rw [h2]
  change Except.ok _ = _
  congr 1
  have kk : (m.nx - 1).toNat + 1 = m.nx.toNat := by omega
  refine Prod.ext ?_ ?_
  · simp only [List.map_cons, List.map_nil, List.sum_cons, List.sum_nil]
    push_cast; omega
  · simp only [points, List.map_nil, List.zip_nil_left, List.nil_append, List.flatMap_cons, List.flatMap_nil, List.append_nil, Line.wanted]
    rw [kk]
    refine List.map_congr_left fun i hi => ?_
    have kp : ((m.nx : ℚ) - 1) ≠ 0 := by
      have h1 : (2 : ℚ) ≤ m.nx := by exact_mod_cast hnx
      linarith
    have e : (((m.nx - 1).toNat : ℕ) : ℚ) = (m.nx : ℚ) - 1 := by
      have : (((m.nx - 1).toNat : ℕ) : ℤ) = m.nx - 1 := Int.toNat_of_nonneg (by omega)
      rw [← Int.cast_natCast, this]; push_cast; rfl
    have e1 : m.x0 - m.x0 + (i : ℚ) * ((m.x1 - m.x0) / ((m.nx - 1).toNat : ℕ)) = i * m.dx := by
      rw [e]; unfold Grid.x1; field_simp; ring
    have e2 : m.z0 - m.z0 + (i : ℚ) * ((m.z0 - m.z0) / ((m.nx - 1).toNat : ℕ)) = 0 := by simp
    rw [e1, e2]
    unfold mkRcv
    rw [mul_div_cancel_right₀ _ hdx.ne', zero_div, show ((i : ℕ) : ℚ) = ((i : ℤ) : ℚ) by push_cast; rfl, NINT_int]
    rw [show NINT 0 = 0 from by have := NINT_int 0; simpa using this]

end

end Verif.Recv

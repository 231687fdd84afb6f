import Verif.Getpar.Table
import Mathlib.Data.List.TakeWhile

/-!
# C01–C04: what getpar delivers
-/

namespace Verif.Getpar

/-! ## Specification -/

/-- The word `w` gives parameter `name` the value `v`. -/
def Sets (name v w : List Char) : Prop := w = name ++ '=' :: v

/-- No word of the list sets `name`. -/
def Absent (name : List Char) (ws : List (List Char)) : Prop := ∀ w ∈ ws, ∀ v, ¬ Sets name v w

/-- `v` is the value of the last word that sets `name`. -/
def LastSetting (name v : List Char) (ws : List (List Char)) : Prop :=
  ∃ pre w post, ws = pre ++ w :: post ∧ Sets name v w ∧ Absent name post

/-! ## The table -/

theorem splitEq_iff (w name v : List Char) (hn : '=' ∉ name) : splitEq w = some (name, v) ↔ Sets name v w := by
  unfold splitEq Sets
  constructor
  · intro h
    split_ifs at h with hm
    have h := Option.some.inj h
    injection h with h1 h2
    have h3 := List.takeWhile_append_dropWhile (p := fun x : Char => decide (x ≠ '=')) (l := w)
    cases hd : w.dropWhile (fun x : Char => decide (x ≠ '=')) with
    | nil =>
      rw [hd, List.append_nil] at h3
      have : ∀ x ∈ w, decide (x ≠ '=') = true := by
        intro x hx; rw [← h3] at hx
        exact List.mem_takeWhile_imp (p := fun x : Char => decide (x ≠ '=')) hx
      have := this '=' hm
      simp at this
    | cons c cs =>
      have hc : ¬ (decide (c ≠ '=') = true) := by
        have := List.head?_dropWhile_not (fun x : Char => decide (x ≠ '=')) w
        rw [hd] at this
        simpa using this
      have hce : c = '=' := by simpa using hc
      rw [hd] at h2 h3
      rw [← h3, h1, hce]
      simp at h2
      rw [h2]
  · intro h
    subst h
    rw [if_pos (by simp)]
    have key : ∀ l : List Char, '=' ∉ l →
        (l ++ '=' :: v).takeWhile (fun x : Char => decide (x ≠ '=')) = l ∧
        (l ++ '=' :: v).dropWhile (fun x : Char => decide (x ≠ '=')) = '=' :: v := by
      intro l hl
      induction l with
      | nil => simp
      | cons a l ih =>
        have h1 : a ≠ '=' := fun h => hl (by simp [h])
        have h2 := ih (fun h => hl (by simp [h]))
        rw [List.cons_append, List.takeWhile_cons, List.dropWhile_cons, if_pos (by simpa using h1), if_pos (by simpa using h1), h2.1, h2.2]
        exact ⟨rfl, rfl⟩
    rw [(key name hn).1, (key name hn).2]
    rfl

theorem splitEq_name {w n v : List Char} (h : splitEq w = some (n, v)) : '=' ∉ n := by
  unfold splitEq at h
  split_ifs at h
  have h := Option.some.inj h
  injection h with h1 _
  intro hm
  rw [← h1] at hm
  have := List.mem_takeWhile_imp hm
  simp at this

theorem lookupLast_append (t1 t2 : List (List Char × List Char)) (name : List Char) :
    lookupLast (t1 ++ t2) name (t1 ++ t2).length =
      (lookupLast t2 name t2.length).or (lookupLast t1 name t1.length) := by
  have h1 : ∀ k, k ≤ t1.length → lookupLast (t1 ++ t2) name k = lookupLast t1 name k := by
    intro k
    induction k with
    | zero => intro _; rfl
    | succ k ih =>
      intro hk
      unfold lookupLast
      rw [List.getElem?_append_left (by omega)]
      split
      · split
        · rfl
        · exact ih (by omega)
      · exact ih (by omega)
  have h2 : ∀ k, k ≤ t2.length → lookupLast (t1 ++ t2) name (t1.length + k) =
      (lookupLast t2 name k).or (lookupLast t1 name t1.length) := by
    intro k
    induction k with
    | zero => intro _; rw [Nat.add_zero, h1 _ (Nat.le_refl _)]; rfl
    | succ k ih =>
      intro hk
      rw [← Nat.add_assoc]
      rw [lookupLast, lookupLast, List.getElem?_append_right (by omega), Nat.add_sub_cancel_left]
      cases ht : t2[k]? with
      | none => exact absurd (List.getElem?_eq_none_iff.mp ht) (by omega)
      | some e =>
        dsimp only
        split
        · rfl
        · rw [ih (by omega)]
  rw [List.length_append]
  exact h2 _ (Nat.le_refl _)

theorem lookupLast_singleton (n v name : List Char) : lookupLast [(n, v)] name 1 = if n = name then some v else none := by
  simp [lookupLast]

/-- The value of the last setting of a parameter in a list of words. -/
theorem lookup_absent (name : List Char) (hn : '=' ∉ name) (ws : List (List Char)) (h : Absent name ws) :
    lookupLast (ws.filterMap splitEq) name (ws.filterMap splitEq).length = none := by
  induction ws with
  | nil => rfl
  | cons w ws ih =>
    have ih := ih (fun w hw => h w (by simp [hw]))
    cases hs : splitEq w with
    | none => rw [List.filterMap_cons_none hs]; exact ih
    | some e =>
      obtain ⟨n, v⟩ := e
      rw [List.filterMap_cons_some hs, ← List.singleton_append, lookupLast_append, ih]
      have : lookupLast [(n, v)] name [(n, v)].length = if n = name then some v else none :=
        lookupLast_singleton n v name
      rw [this, if_neg]
      · rfl
      · intro hnn
        subst hnn
        exact h w (by simp) v ((splitEq_iff w n v hn).mp hs)

theorem lookup_last (name v : List Char) (hn : '=' ∉ name) (ws : List (List Char)) (h : LastSetting name v ws) :
    lookupLast (ws.filterMap splitEq) name (ws.filterMap splitEq).length = some v := by
  obtain ⟨pre, w, post, rfl, h1, h2⟩ := h
  rw [List.filterMap_append, List.filterMap_cons_some ((splitEq_iff w name v hn).mpr h1), ← List.singleton_append,
    lookupLast_append, lookupLast_append, lookup_absent name hn post h2]
  have : lookupLast [(name, v)] name [(name, v)].length = some v := by
    have := lookupLast_singleton name v name
    rw [if_pos rfl] at this
    exact this
  rw [this]
  rfl

/-- Every list of words either does not set a parameter or sets it a last time. -/
theorem absent_or_last (name : List Char) (ws : List (List Char)) :
    Absent name ws ∨ ∃ v, LastSetting name v ws := by
  induction ws with
  | nil => exact Or.inl (fun w hw => by simp at hw)
  | cons w ws ih =>
    rcases ih with h | ⟨v, pre, w', post, rfl, h1, h2⟩
    · by_cases hw : ∃ v, Sets name v w
      · obtain ⟨v, hv⟩ := hw
        exact Or.inr ⟨v, [], w, ws, rfl, hv, h⟩
      · refine Or.inl (fun w' hw' v hv => ?_)
        rcases List.mem_cons.mp hw' with rfl | h'
        · exact hw ⟨v, hv⟩
        · exact h w' h' v hv
    · exact Or.inr ⟨v, w :: pre, w', post, rfl, h1, h2⟩

/-! ## Histories -/

/-- The operations a program can perform. -/
inductive Op
  | init (argv : List (List Char))
  | ask (n : Int) (name : List Char)

/-- Effect of an operation on the state (every query function changes it like `query`). -/
def Op.run (fs : List Char → Option (List Char)) : Op → St → Option St
  | .init argv, s => some (initargs argv s)
  | .ask n name, s => (query fs n name s).map Prod.snd

/-- A whole history. -/
def runOps (fs : List Char → Option (List Char)) : List Op → St → Option St
  | [], s => some s
  | o :: os, s => (o.run fs s).bind (runOps fs os)

/-- The table is absent or the one of the current command line. -/
def St.Ok (fs : List Char → Option (List Char)) (s : St) : Prop :=
  ∀ t, s.tabled = some t → table fs s.argv = some t

theorem query_ok {fs : List Char → Option (List Char)} {s s' : St} {n : Int} {name : List Char} {v : Option (List Char)}
    (hs : s.Ok fs) (h : query fs n name s = some (v, s')) : s'.Ok fs ∧ s'.argv = s.argv ∧
      (s.argv.length = 1 ∧ v = none ∨ s.argv.length ≠ 1 ∧ ∃ t, table fs s.argv = some t ∧ v = lookup n name t) := by
  unfold query at h
  by_cases h1 : s.argv.length = 1
  · rw [if_pos h1] at h; cases h; exact ⟨hs, rfl, Or.inl ⟨h1, rfl⟩⟩
  · rw [if_neg h1] at h
    cases htb : s.tabled with
    | some t =>
      rw [htb] at h
      cases h
      exact ⟨hs, rfl, Or.inr ⟨h1, t, hs t htb, rfl⟩⟩
    | none =>
      rw [htb] at h
      dsimp only at h
      split_ifs at h with h2
      cases ht : table fs s.argv with
      | none => rw [ht] at h; cases h
      | some t =>
        rw [ht] at h
        cases h
        exact ⟨fun t' h' => by simp at h'; rw [← h']; exact ht, rfl, Or.inr ⟨h1, t, rfl, rfl⟩⟩

theorem runOps_ok {fs : List Char → Option (List Char)} (ops : List Op) : ∀ {s s' : St}, s.Ok fs →
    runOps fs ops s = some s' → s'.Ok fs := by
  induction ops with
  | nil => intro s s' hs h; cases h; exact hs
  | cons o os ih =>
    intro s s' hs h
    unfold runOps at h
    cases ho : o.run fs s with
    | none => rw [ho] at h; cases h
    | some s1 =>
      rw [ho] at h
      refine ih ?_ h
      cases o with
      | init argv => cases ho; intro t ht; cases ht
      | ask n name =>
        have ho : (query fs n name s).map Prod.snd = some s1 := ho
        cases hq : query fs n name s with
        | none => rw [hq] at ho; cases ho
        | some r =>
          obtain ⟨v, s2⟩ := r
          rw [hq] at ho
          cases ho
          exact (query_ok hs hq).1

theorem runOps_asks_argv {fs : List Char → Option (List Char)} (ops : List Op) (hops : ∀ o ∈ ops, ∃ n name, o = .ask n name) :
    ∀ {s s' : St}, s.Ok fs → runOps fs ops s = some s' → s'.argv = s.argv := by
  induction ops with
  | nil => intro s s' _ h; cases h; rfl
  | cons o os ih =>
    intro s s' hs h
    obtain ⟨n, name, rfl⟩ := hops o (by simp)
    unfold runOps at h
    cases hq : query fs n name s with
    | none =>
      have ho : Op.run fs (.ask n name) s = none := by
        show (query fs n name s).map Prod.snd = none
        rw [hq]; rfl
      rw [ho] at h; cases h
    | some r =>
      obtain ⟨v, s2⟩ := r
      have ho : Op.run fs (.ask n name) s = some s2 := by
        show (query fs n name s).map Prod.snd = some s2
        rw [hq]; rfl
      rw [ho] at h
      obtain ⟨q1, q2, _⟩ := query_ok hs hq
      rw [ih (fun o ho => hops o (by simp [ho])) q1 h, q2]

theorem runOps_append (fs : List Char → Option (List Char)) (a b : List Op) (s : St) :
    runOps fs (a ++ b) s = (runOps fs a s).bind (runOps fs b) := by
  induction a generalizing s with
  | nil => rfl
  | cons o os ih =>
    simp only [List.cons_append, runOps]
    cases o.run fs s with
    | none => rfl
    | some s1 => exact ih s1

/-- The words of the parameter file named on the command line: none if none is named. -/
def fileWords (fs : List Char → Option (List Char)) (argv : List (List Char)) : Option (List (List Char)) :=
  match pfname argv with
  | none => some []
  | some f => (fs f).bind parWords

/-- After any history that ends with `initargs(argv)` and further queries, a query gives the value of the last setting on the
command line `argv[1..]`, else of the last setting in the words of the parameter file, else nothing. -/
theorem query_after (fs : List Char → Option (List Char)) (hist asks : List Op)
    (hasks : ∀ o ∈ asks, ∃ n name, o = .ask n name) (argv : List (List Char)) (s s' : St)
    (hrun : runOps fs (hist ++ .init argv :: asks) St.boot = some s) (name : List Char) (hn : '=' ∉ name)
    (v : Option (List Char)) (hq : query fs 0 name s = some (v, s')) :
    (∀ x, LastSetting name x argv.tail → v = some x) ∧
    (Absent name argv.tail → ∀ fw, fileWords fs argv = some fw →
      (∀ x, LastSetting name x fw → v = some x) ∧ (Absent name fw → v = none)) ∧
    (argv.length ≠ 1 → ∃ fw, fileWords fs argv = some fw) := by
  have hboot : St.boot.Ok fs := fun t h => by cases h
  rw [runOps_append] at hrun
  cases h1 : runOps fs hist St.boot with
  | none => rw [h1] at hrun; cases hrun
  | some s1 =>
    rw [h1] at hrun
    have hrun : runOps fs asks (initargs argv s1) = some s := hrun
    have hok1 : (initargs argv s1).Ok fs := fun t h => by cases h
    have hok := runOps_ok asks hok1 hrun
    have hargv : s.argv = argv := runOps_asks_argv asks hasks hok1 hrun
    obtain ⟨_, _, hv⟩ := query_ok hok hq
    rw [hargv] at hv
    rcases hv with ⟨hl, rfl⟩ | ⟨hl, t, ht, hv⟩
    · have htail : argv.tail = [] := by
        cases argv with
        | nil => simp at hl
        | cons a l => simp at hl; simp [hl]
      rw [htail]
      have hpf : fileWords fs argv = some [] := by
        unfold fileWords pfname
        rw [htail]; rfl
      refine ⟨?_, ?_, fun h => absurd hl h⟩
      · rintro x ⟨pre, w, post, he, _⟩
        exact absurd he (by simp)
      · intro _ fw hfw
        rw [hpf] at hfw
        cases hfw
        refine ⟨?_, fun _ => rfl⟩
        rintro x ⟨pre, w, post, he, _⟩
        exact absurd he (by simp)
    · have htab : ∃ fw, fileWords fs argv = some fw ∧ t = (fw ++ argv.tail).filterMap splitEq := by
        unfold table at ht
        unfold fileWords
        cases hp : pfname argv with
        | none => rw [hp] at ht; cases ht; exact ⟨[], rfl, rfl⟩
        | some f =>
          rw [hp] at ht
          dsimp only at ht ⊢
          cases hf : (fs f).bind parWords with
          | none => rw [hf] at ht; cases ht
          | some fw => rw [hf] at ht; cases ht; exact ⟨fw, rfl, rfl⟩
      obtain ⟨fw, hfw, rfl⟩ := htab
      have hv : v = (lookupLast (argv.tail.filterMap splitEq) name (argv.tail.filterMap splitEq).length).or
          (lookupLast (fw.filterMap splitEq) name (fw.filterMap splitEq).length) := by
        rw [hv, lookup, if_pos rfl, List.filterMap_append, lookupLast_append]
      refine ⟨?_, ?_, fun _ => ⟨fw, hfw⟩⟩
      · intro x hx
        rw [hv, lookup_last name x hn _ hx]; rfl
      · intro hab fw' hfw'
        rw [hfw] at hfw'
        cases hfw'
        rw [lookup_absent name hn _ hab] at hv
        refine ⟨fun x hx => by rw [hv, lookup_last name x hn _ hx]; rfl,
          fun hx => by rw [hv, lookup_absent name hn _ hx]; rfl⟩

/-- **C01.** After any history of calls that ends with `initargs(argv)` and further queries, `getparstring(name,&p)` delivers the
value of the last `name=value` word of the command line; if there is none, of the last such word of the parameter file;
if there is none either, it returns 0 and leaves `p` alone.  Words of other names have no influence. -/
theorem getparstring_last_wins (fs : List Char → Option (List Char)) (hist asks : List Op)
    (hasks : ∀ o ∈ asks, ∃ n name, o = .ask n name) (argv : List (List Char)) (s s' : St)
    (hrun : runOps fs (hist ++ .init argv :: asks) St.boot = some s) (name : List Char) (hn : '=' ∉ name)
    (ptr : List Char) (r : Int) (p : List Char) (h : getnparstring fs 0 name ptr s = some ((r, p), s')) :
    (∀ x, LastSetting name x argv.tail → r = 1 ∧ p = x) ∧
    (Absent name argv.tail → ∀ fw, fileWords fs argv = some fw →
      (∀ x, LastSetting name x fw → r = 1 ∧ p = x) ∧ (Absent name fw → r = 0 ∧ p = ptr)) := by
  unfold getnparstring at h
  cases hq : query fs 0 name s with
  | none => rw [hq] at h; cases h
  | some q =>
    obtain ⟨v, s2⟩ := q
    rw [hq] at h
    obtain ⟨k1, k2, _⟩ := query_after fs hist asks hasks argv s s2 hrun name hn v hq
    refine ⟨?_, fun hab fw hfw => ⟨?_, ?_⟩⟩
    · intro x hx
      rw [k1 x hx] at h; cases h; exact ⟨rfl, rfl⟩
    · intro x hx
      rw [(k2 hab fw hfw).1 x hx] at h; cases h; exact ⟨rfl, rfl⟩
    · intro hx
      rw [(k2 hab fw hfw).2 hx] at h; cases h; exact ⟨rfl, rfl⟩

/-- **C01** for the numeric types: the value that is converted is the one `getparstring` would deliver. -/
theorem getpar_same_value {α : Type} (conv : List Char → Option α) (fs : List Char → Option (List Char)) (n : Int)
    (name : List Char) (ptr : Nat → α) (s : St) :
    getnpar conv fs n name ptr s = (getnparstring fs n name [] s).bind fun q =>
      if q.1.1 = 0 then some ((0, ptr), q.2) else (getLoop conv q.1.2 0 ptr).map fun r => (r, q.2) := by
  unfold getnpar getnparstring
  cases hq : query fs n name s with
  | none => rfl
  | some q =>
    obtain ⟨v, s2⟩ := q
    cases v with
    | none => rfl
    | some v => rfl

/-! ## C02 -/

/-- The suffixes of a value that are converted one after the other. -/
def pieces (aval : List Char) : List (List Char) :=
  if h : aval = [] then [] else aval :: pieces (skip aval)
termination_by aval.length
decreasing_by exact skip_length _ h

theorem getLoop_spec {α : Type} (conv : List Char → Option α) (aval : List Char) :
    ∀ (nval : Nat) (ptr : Nat → α) (r : Nat × (Nat → α)), getLoop conv aval nval ptr = some r →
      r.1 = nval + (pieces aval).length ∧
      (∀ k, k < nval ∨ r.1 ≤ k → r.2 k = ptr k) ∧
      ∀ k (h : k < (pieces aval).length), conv (pieces aval)[k] = some (r.2 (nval + k)) := by
  induction aval using pieces.induct with
  | case1 =>
    intro nval ptr r h
    rw [getLoop, dif_pos rfl] at h
    cases h
    have hp : pieces [] = [] := by rw [pieces, dif_pos rfl]
    rw [hp]
    exact ⟨rfl, fun _ _ => rfl, fun k h => by simp at h⟩
  | case2 aval ha ih =>
    intro nval ptr r h
    rw [getLoop, dif_neg ha] at h
    cases hc : conv aval with
    | none => rw [hc] at h; cases h
    | some v =>
      rw [hc] at h
      obtain ⟨e1, e2, e3⟩ := ih (nval + 1) _ r h
      have hp : pieces aval = aval :: pieces (skip aval) := by rw [pieces, dif_neg ha]
      rw [hp]
      refine ⟨by rw [e1, List.length_cons]; omega, ?_, ?_⟩
      · intro k hk
        rw [e2 k (by omega), if_neg (by rcases hk with h | h <;> omega)]
      · intro k hk
        cases k with
        | zero =>
          rw [List.getElem_cons_zero, hc, Nat.add_zero, e2 nval (by omega), if_pos rfl]
        | succ k =>
          rw [List.getElem_cons_succ]
          have := e3 k (by simpa using hk)
          rw [this, show nval + 1 + k = nval + (k + 1) from by omega]

/-- **C02.** Absent: the call returns 0 and the caller's array is untouched. -/
theorem absent_leaves_default {α : Type} (conv : List Char → Option α) (fs : List Char → Option (List Char))
    (hist asks : List Op) (hasks : ∀ o ∈ asks, ∃ n name, o = .ask n name) (argv : List (List Char)) (s s' : St)
    (hrun : runOps fs (hist ++ .init argv :: asks) St.boot = some s) (name : List Char) (hn : '=' ∉ name)
    (hcmd : Absent name argv.tail) (fw : List (List Char)) (hfw : fileWords fs argv = some fw) (hfile : Absent name fw)
    (ptr : Nat → α) (r : Nat × (Nat → α)) (h : getnpar conv fs 0 name ptr s = some (r, s')) :
    r = (0, ptr) := by
  unfold getnpar at h
  cases hq : query fs 0 name s with
  | none => rw [hq] at h; cases h
  | some q =>
    obtain ⟨v, s2⟩ := q
    rw [hq] at h
    obtain ⟨_, k2, _⟩ := query_after fs hist asks hasks argv s s2 hrun name hn v hq
    have := (k2 hcmd fw hfw).2 hfile
    subst this
    cases h
    rfl

/-- **C02, partial** (an empty value is not counted, see `empty_value_looks_absent`). In every case exactly the first (returned count) elements are stored, each with the conversion of a piece of the
value; the count is positive unless the value is empty. -/
theorem stores_exactly_count_partial {α : Type} (conv : List Char → Option α) (fs : List Char → Option (List Char)) (n : Int)
    (name : List Char) (ptr : Nat → α) (s s' : St) (r : Nat × (Nat → α)) (h : getnpar conv fs n name ptr s = some (r, s')) :
    (∀ k, r.1 ≤ k → r.2 k = ptr k) ∧
    ∀ v s2, query fs n name s = some (some v, s2) →
      (v ≠ [] → 0 < r.1) ∧ ∀ k, k < r.1 → ∃ w, w <:+ v ∧ conv w = some (r.2 k) := by
  unfold getnpar at h
  cases hq : query fs n name s with
  | none => rw [hq] at h; cases h
  | some q =>
    obtain ⟨v, s2⟩ := q
    rw [hq] at h
    cases v with
    | none => cases h; exact ⟨fun _ _ => rfl, fun v s2 h => by cases h⟩
    | some v =>
      simp only [Option.bind_some] at h
      cases hg : getLoop conv v 0 ptr with
      | none => rw [hg] at h; cases h
      | some r' =>
        rw [hg] at h
        cases h
        obtain ⟨e1, e2, e3⟩ := getLoop_spec conv v 0 ptr _ hg
        refine ⟨fun k hk => e2 k (Or.inr hk), ?_⟩
        intro v' s3 h'
        cases h'
        refine ⟨?_, ?_⟩
        · intro hv
          rw [e1, pieces, dif_neg hv]; simp
        · intro k hk
          have hk' : k < (pieces v).length := by omega
          refine ⟨(pieces v)[k], ?_, by simpa using e3 k hk'⟩
          have hsuf : ∀ v : List Char, ∀ w ∈ pieces v, w <:+ v := by
            intro v
            induction v using pieces.induct with
            | case1 => intro w hw; rw [pieces, dif_pos rfl] at hw; simp at hw
            | case2 aval ha ih =>
              intro w hw
              rw [pieces, dif_neg ha, List.mem_cons] at hw
              rcases hw with rfl | hw
              · exact List.suffix_rfl
              · refine List.IsSuffix.trans (ih w hw) ?_
                clear ih hw w
                induction aval with
                | nil => exact absurd rfl ha
                | cons c cs ih =>
                  unfold skip
                  split_ifs with h1 h2
                  · exact List.suffix_cons c cs
                  · exact List.nil_suffix
                  · exact List.IsSuffix.trans (ih h2) (List.suffix_cons c cs)
          exact hsuf v _ (List.getElem_mem hk')

/-- **C02 is refuted for an empty value**: `n=` on the command line makes the call return 0 as if it were absent
(the parameter is there: `countparname` is 1). -/
theorem empty_value_looks_absent (fs : List Char → Option (List Char)) (ptr : Nat → Int) :
    (getnparint fs 0 ['n'] ptr (initargs [['x'], ['n', '=']] St.boot)).map Prod.fst = some (0, ptr) ∧
    (countparname fs ['n'] (initargs [['x'], ['n', '=']] St.boot)).map Prod.fst = some 1 := by
  have ht : table fs [['x'], ['n', '=']] = some [(['n'], [])] := by
    unfold table
    rw [show pfname [['x'], ['n', '=']] = none from by decide +kernel]
    simp only [Option.map_some, Option.some.injEq]
    decide +kernel
  constructor
  · unfold getnparint getnpar query initargs
    simp only [List.length_cons, List.length_nil]
    rw [if_neg (by decide), if_neg (by decide), ht]
    simp only [Option.map_some, Option.bind_some]
    rw [show lookup 0 ['n'] [(['n'], [])] = some [] from by decide +kernel]
    simp only
    rw [getLoop, dif_pos rfl]
    rfl
  · unfold countparname initargs
    simp only [List.length_cons, List.length_nil]
    rw [if_neg (by decide), if_neg (by decide), ht]
    rfl

/-! ## C03 -/

/-- The text `v1,v2,…,vn`. -/
def commaList : List Int → List Char
  | [] => []
  | [v] => showInt v
  | v :: vs => showInt v ++ ',' :: commaList vs

theorem showInt_ne_nil (v : Int) : showInt v ≠ [] := by
  unfold showInt; split_ifs
  · simp
  · exact Nat.toDigits_ne_nil

theorem comma_not_mem_showInt (v : Int) : ',' ∉ showInt v := by
  have hd : ',' ∉ Nat.toDigits 10 v.natAbs := fun h =>
    absurd (Nat.isDigit_of_mem_toDigits (by decide) (by decide) h) (by decide)
  unfold showInt; split_ifs
  · simp [hd]
  · exact hd

theorem skip_no_comma (l : List Char) (hl : ',' ∉ l) : skip l = [] := by
  induction l with
  | nil => rfl
  | cons c cs ih =>
    unfold skip
    rw [if_neg (fun h => hl (by simp [h]))]
    split_ifs
    · rfl
    · exact ih (fun h => hl (by simp [h]))

theorem skip_comma (l rest : List Char) (hl : ',' ∉ l) : skip (l ++ ',' :: rest) = rest := by
  induction l with
  | nil => simp [skip]
  | cons c cs ih =>
    rw [List.cons_append, skip, if_neg (fun h => hl (by simp [h])), if_neg (by simp)]
    exact ih (fun h => hl (by simp [h]))

theorem commaList_ne_nil (v : Int) (vs : List Int) : commaList (v :: vs) ≠ [] := by
  cases vs with
  | nil => exact showInt_ne_nil v
  | cons w ws => simp [commaList]

theorem getLoop_commaList (vs : List Int) (hv : ∀ v ∈ vs, -2^31 ≤ v ∧ v ≤ 2^31 - 1) :
    ∀ (nval : Nat) (ptr : Nat → Int), ∃ p, getLoop (fun t => eatoi t false) (commaList vs) nval ptr = some (nval + vs.length, p) ∧
      (∀ k (h : k < vs.length), p (nval + k) = vs[k]) ∧ ∀ k, k < nval ∨ nval + vs.length ≤ k → p k = ptr k := by
  induction vs with
  | nil =>
    intro nval ptr
    refine ⟨ptr, ?_, fun k h => by simp at h, fun _ _ => rfl⟩
    rw [commaList, getLoop, dif_pos rfl]; rfl
  | cons v vs ih =>
    intro nval ptr
    have hrest : ∃ rest, commaList (v :: vs) = showInt v ++ rest ∧ (∀ c ∈ rest.head?, ¬ c.isDigit) ∧
        skip (commaList (v :: vs)) = commaList vs := by
      cases vs with
      | nil => exact ⟨[], by simp [commaList], by simp, skip_no_comma _ (comma_not_mem_showInt v)⟩
      | cons w ws => exact ⟨',' :: commaList (w :: ws), rfl, by simp, skip_comma _ _ (comma_not_mem_showInt v)⟩
    obtain ⟨rest, h1, h2, h3⟩ := hrest
    have hconv : eatoi (commaList (v :: vs)) false = some v := by
      rw [eatoi_exact_or_error _ v (by rw [h1]; exact denotes_show v rest h2), if_pos (hv v (by simp))]
    obtain ⟨p, p1, p2, p3⟩ := ih (fun w hw => hv w (by simp [hw])) (nval + 1) (fun k => if k = nval then v else ptr k)
    refine ⟨p, ?_, ?_, ?_⟩
    · rw [getLoop, dif_neg (commaList_ne_nil v vs), hconv, h3]
      simp only [Option.bind_some]
      rw [p1, List.length_cons]
      congr 2
      omega
    · intro k hk
      cases k with
      | zero =>
        rw [Nat.add_zero, p3 nval (by omega), if_pos rfl]; rfl
      | succ k =>
        have := p2 k (by simpa using hk)
        rw [show nval + (k + 1) = nval + 1 + k from by omega, this]; rfl
    · intro k hk
      rw [List.length_cons] at hk
      rw [p3 k (by omega), if_neg (by omega)]

theorem count_commaList (v : Int) (vs : List Int) : (commaList (v :: vs)).count ',' + 1 = (v :: vs).length := by
  induction vs generalizing v with
  | nil => simp [commaList, List.count_eq_zero_of_not_mem (comma_not_mem_showInt v)]
  | cons w ws ih =>
    have := ih w
    rw [commaList, List.count_append, List.count_eq_zero_of_not_mem (comma_not_mem_showInt v), List.count_cons_self]
    simp only [List.length_cons] at this ⊢
    omega
    simp

/-- **C03.** If the value delivered for `name` is the text `v1,…,vn` of integers in the range of `int`, then `getnparint`
returns `n`, stores exactly these numbers in order and nothing else, and `countnparval` returns `n`. -/
theorem comma_list_complete (fs : List Char → Option (List Char)) (n : Int) (name : List Char) (s s' : St)
    (v : Int) (vs : List Int) (hv : ∀ x ∈ v :: vs, -2^31 ≤ x ∧ x ≤ 2^31 - 1)
    (hq : query fs n name s = some (some (commaList (v :: vs)), s')) (ptr : Nat → Int) :
    (∃ p, getnparint fs n name ptr s = some (((v :: vs).length, p), s') ∧
      (∀ k (h : k < (v :: vs).length), p k = (v :: vs)[k]) ∧ ∀ k, (v :: vs).length ≤ k → p k = ptr k) ∧
    countnparval fs n name s = some ((v :: vs).length, s') := by
  obtain ⟨p, p1, p2, p3⟩ := getLoop_commaList (v :: vs) hv 0 ptr
  refine ⟨⟨p, ?_, ?_, fun k hk => p3 k (by omega)⟩, ?_⟩
  · unfold getnparint getnpar
    rw [hq]
    simp only [Option.bind_some]
    rw [p1, Nat.zero_add]; rfl
  · intro k hk
    have := p2 k hk
    rwa [Nat.zero_add] at this
  · unfold countnparval
    rw [hq]
    simp only [Option.map_some]
    rw [count_commaList]

/-- **C03** together with **C01**: the list given by the last word of the command line. -/
theorem comma_list_from_command_line (fs : List Char → Option (List Char)) (hist asks : List Op)
    (hasks : ∀ o ∈ asks, ∃ n name, o = .ask n name) (argv : List (List Char)) (s : St)
    (hrun : runOps fs (hist ++ .init argv :: asks) St.boot = some s) (name : List Char) (hn : '=' ∉ name)
    (v : Int) (vs : List Int) (hv : ∀ x ∈ v :: vs, -2^31 ≤ x ∧ x ≤ 2^31 - 1)
    (hlast : LastSetting name (commaList (v :: vs)) argv.tail) (hfile : ∃ fw, fileWords fs argv = some fw)
    (ptr : Nat → Int) :
    ∃ p s', getnparint fs 0 name ptr s = some (((v :: vs).length, p), s') ∧
      (∀ k (h : k < (v :: vs).length), p k = (v :: vs)[k]) ∧ (∀ k, (v :: vs).length ≤ k → p k = ptr k) ∧
      countnparval fs 0 name s = some ((v :: vs).length, s') := by
  have hargv : s.argv = argv ∧ s.Ok fs := by
    rw [runOps_append] at hrun
    cases h1 : runOps fs hist St.boot with
    | none => rw [h1] at hrun; cases hrun
    | some s1 =>
      rw [h1] at hrun
      have hrun : runOps fs asks (initargs argv s1) = some s := hrun
      have hok1 : (initargs argv s1).Ok fs := fun t h => by cases h
      exact ⟨runOps_asks_argv asks hasks hok1 hrun, runOps_ok asks hok1 hrun⟩
  have hlen : 2 ≤ argv.length := by
    obtain ⟨pre, w, post, he, _⟩ := hlast
    cases argv with
    | nil => simp at he
    | cons a l =>
      simp at he
      rw [he]; simp; omega
  have hq : ∃ q, query fs 0 name s = some q := by
    unfold query
    rw [hargv.1, if_neg (by omega)]
    cases ht : s.tabled with
    | some t => exact ⟨_, rfl⟩
    | none =>
      dsimp only
      rw [if_neg (by omega)]
      obtain ⟨fw, hfw⟩ := hfile
      have : table fs argv = (fileWords fs argv).map fun ws => (ws ++ argv.tail).filterMap splitEq := rfl
      rw [this, hfw]
      exact ⟨_, rfl⟩
  obtain ⟨⟨x, s'⟩, hq⟩ := hq
  obtain ⟨k1, _, _⟩ := query_after fs hist asks hasks argv s s' hrun name hn x hq
  have := k1 _ hlast
  subst this
  obtain ⟨⟨p, q1, q2, q3⟩, q4⟩ := comma_list_complete fs 0 name s s' v vs hv hq ptr
  exact ⟨p, s', q1, q2, q3, q4⟩

/-- The hypotheses of the theorems are met by a program that is started with `x n=7 n=1,-2,3 m=5`. -/
example : ∃ s, runOps (fun _ => none) ([] ++ .init [['x'], ['n','=','7'], ['n','=','1',',','-','2',',','3'], ['m','=','5']] :: [.ask 0 ['m']]) St.boot = some s ∧
    LastSetting ['n'] (commaList [1, -2, 3]) [['n','=','7'], ['n','=','1',',','-','2',',','3'], ['m','=','5']] ∧
    fileWords (fun _ => none) [['x'], ['n','=','7'], ['n','=','1',',','-','2',',','3'], ['m','=','5']] = some [] := by
  refine ⟨_, rfl, ⟨[['n','=','7']], ['n','=','1',',','-','2',',','3'], [['m','=','5']], rfl, by unfold Sets; decide +kernel, ?_⟩, by decide +kernel⟩
  intro w hw v hv
  simp at hw
  subst hw
  have h := hv
  unfold Sets at h
  simp at h

end Verif.Getpar

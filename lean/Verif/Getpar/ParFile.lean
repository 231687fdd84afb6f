import Verif.Getpar.Props

/-!
# C04: the words of a parameter file
-/

namespace Verif.Getpar

/-! ## Specification -/

/-- What may stand in a parameter file: a plain word, or a word whose second part is put in quotes. -/
inductive Item
  | plain (w : List Char)
  | quoted (name val : List Char)

/-- How it is written. -/
def Item.text : Item → List Char
  | .plain w => w
  | .quoted name val => name ++ '"' :: (val ++ ['"'])

/-- The word it stands for. -/
def Item.word : Item → List Char
  | .plain w => w
  | .quoted name val => name ++ val

/-- The characters that separate words. -/
def Blank (c : Char) : Prop := c = ' ' ∨ c = '\t' ∨ c = '\n'

/-- No blanks, quotes and zero bytes in words; no quotes and zero bytes between quotes. -/
def Item.Ok : Item → Prop
  | .plain w => w ≠ [] ∧ ∀ c ∈ w, ¬ Blank c ∧ c ≠ '"' ∧ c ≠ NUL
  | .quoted name val => (name ≠ [] ∧ ∀ c ∈ name, ¬ Blank c ∧ c ≠ '"' ∧ c ≠ NUL) ∧ ∀ c ∈ val, c ≠ '"' ∧ c ≠ NUL

/-- The text consists of these items, in this order, with any pattern of blanks before, between and after them. -/
inductive Layout : List Item → List Char → Prop
  | nil : Layout [] []
  | white {its l c} : Blank c → Layout its l → Layout its (c :: l)
  | item {its l} (it : Item) : it.Ok → Layout its l → (l = [] ∨ ∃ c l', l = c :: l' ∧ Blank c) →
      Layout (it :: its) (it.text ++ l)

/-! ## Proof -/

theorem isWhite_iff (c : Char) : isWhite c = true ↔ Blank c := by
  unfold isWhite Blank; simp [or_assoc]

theorem not_blank {c : Char} (h : ¬ Blank c) : isWhite c = false := by
  rw [← isWhite_iff] at h; simpa using h

/-- `unquote` from the beginning of a list. -/
def uq : List Char → List Char
  | [] => []
  | c :: cs => unquote false c cs

theorem unquote_ne_nil (b : Bool) (c : Char) (cs : List Char) : unquote b c cs ≠ [] := by
  cases cs with
  | nil => simp [unquote]
  | cons d rest => unfold unquote; dsimp only; split_ifs <;> simp

theorem uq_ne_nil {l : List Char} (h : l ≠ []) : uq l ≠ [] := by
  cases l with
  | nil => exact absurd rfl h
  | cons c cs => exact unquote_ne_nil _ _ _

theorem uq_cons {c : Char} (hc : c ≠ '"') {m : List Char} (hm : m ≠ []) : uq (c :: m) = c :: uq m := by
  cases m with
  | nil => exact absurd rfl hm
  | cons d rest =>
    simp only [uq]
    rw [unquote]
    simp [hc]

theorem uq_append {w : List Char} (hw : ∀ c ∈ w, c ≠ '"') {m : List Char} (hm : m ≠ []) : uq (w ++ m) = w ++ uq m := by
  induction w with
  | nil => rfl
  | cons c cs ih =>
    rw [List.cons_append, uq_cons (hw c (by simp)) (by simp [hm]), ih (fun c hc => hw c (by simp [hc])), List.cons_append]

theorem uq_nul {m : List Char} (hm : m ≠ []) : unquote false NUL m = NUL :: uq m := by
  have := uq_cons (c := NUL) (by decide) hm
  exact this

theorem unquote_in {c : Char} (hc : c ≠ '"') (val m : List Char) (hv : ∀ x ∈ val, x ≠ '"') (hm : m ≠ []) :
    unquote true c (val ++ '"' :: m) = val ++ NUL :: NUL :: uq m := by
  induction val generalizing c with
  | nil =>
    rw [List.nil_append, unquote]
    simp only [if_neg hc, if_true, ne_eq, not_true, if_false]
    rw [uq_nul hm]; rfl
  | cons d val ih =>
    have hd := hv d (by simp)
    rw [List.cons_append, unquote]
    simp only [if_neg hc, if_true, ne_eq, hd, not_false_eq_true]
    rw [ih hd (fun x hx => hv x (by simp [hx]))]
    rfl

theorem uq_quoted (val m : List Char) (hv : ∀ x ∈ val, x ≠ '"') (hm : m ≠ []) :
    uq ('"' :: (val ++ '"' :: m)) = val ++ NUL :: NUL :: uq m := by
  cases val with
  | nil =>
    simp only [uq, List.nil_append]
    rw [unquote]
    simp only [if_true, Bool.not_false, ne_eq, not_true, if_false]
    rw [uq_nul hm]
    cases m with
    | nil => exact absurd rfl hm
    | cons a b => rfl
  | cons d val =>
    have hd := hv d (by simp)
    simp only [uq, List.cons_append]
    rw [unquote]
    simp only [if_true, Bool.not_false, ne_eq, hd, not_false_eq_true]
    rw [unquote_in hd val m (fun x hx => hv x (by simp [hx])) hm]
    cases m with
    | nil => exact absurd rfl hm
    | cons a b => rfl

/-- What follows a word: nothing, or a blank. -/
def Sep (l : List Char) : Prop := l = [] ∨ ∃ c l', l = c :: l' ∧ isWhite c = true

theorem white_not_quote {c : Char} (h : isWhite c = true) : c ≠ '"' := by
  rintro rfl; revert h; decide

theorem zap_white (p : Char) {c : Char} (h : isWhite c = true) (l : List Char) :
    zap p false (c :: l) = (NUL :: (zap NUL false l).1, (zap NUL false l).2) := by
  rw [zap]; simp [white_not_quote h, h]

theorem zap_sep (p : Char) {l : List Char} (h : Sep l) : zap p false l = zap NUL false l := by
  rcases h with rfl | ⟨c, l', rfl, hc⟩
  · rfl
  · rw [zap_white p hc, zap_white NUL hc]

theorem zap_word (p : Char) (hp : p ≠ NUL) (w : List Char) (hw : ∀ c ∈ w, isWhite c = false ∧ c ≠ '"' ∧ c ≠ NUL) (l : List Char) :
    ∃ q, q ≠ NUL ∧ zap p false (w ++ l) = (w ++ (zap q false l).1, (zap q false l).2) := by
  induction w generalizing p with
  | nil => exact ⟨p, hp, rfl⟩
  | cons c cs ih =>
    obtain ⟨h1, h2, h3⟩ := hw c (by simp)
    obtain ⟨q, q1, q2⟩ := ih c h3 (fun x hx => hw x (by simp [hx]))
    refine ⟨q, q1, ?_⟩
    rw [List.cons_append, zap]
    simp [h1, h2, hp, q2]

theorem zap_first (w : List Char) (hne : w ≠ []) (hw : ∀ c ∈ w, isWhite c = false ∧ c ≠ '"' ∧ c ≠ NUL) (l : List Char) :
    ∃ q, q ≠ NUL ∧ zap NUL false (w ++ l) = (w ++ (zap q false l).1, (zap q false l).2 + 1) := by
  cases w with
  | nil => exact absurd rfl hne
  | cons c cs =>
    obtain ⟨h1, h2, h3⟩ := hw c (by simp)
    obtain ⟨q, q1, q2⟩ := zap_word c h3 cs (fun x hx => hw x (by simp [hx])) l
    refine ⟨q, q1, ?_⟩
    rw [List.cons_append, zap]
    simp [h1, h2, q2]

theorem zap_in (p : Char) (hp : p ≠ NUL) (val l : List Char) (hv : ∀ x ∈ val, x ≠ '"' ∧ x ≠ NUL) :
    zap p true (val ++ '"' :: l) = (val ++ '"' :: (zap '"' false l).1, (zap '"' false l).2) := by
  induction val generalizing p with
  | nil =>
    rw [List.nil_append, zap]
    simp [hp, isWhite]
  | cons d val ih =>
    obtain ⟨h1, h2⟩ := hv d (by simp)
    rw [List.cons_append, zap]
    simp only [if_neg h1, Bool.not_true, Bool.false_eq_true, if_false]
    rw [ih d h2 (fun x hx => hv x (by simp [hx]))]
    rfl

theorem zap_quoted (p : Char) (val l : List Char) (hv : ∀ x ∈ val, x ≠ '"' ∧ x ≠ NUL) :
    zap p false ('"' :: (val ++ '"' :: l)) = ('"' :: (val ++ '"' :: (zap '"' false l).1), (zap '"' false l).2) := by
  rw [zap]
  simp only [if_true, Bool.not_false, Bool.not_true, Bool.false_eq_true, if_false]
  rw [zap_in '"' (by decide) val l hv]

theorem words_sep (p : Char) (m : List Char) (h : m = [] ∨ ∃ m', m = NUL :: m') : words p m = words NUL m := by
  rcases h with rfl | ⟨m', rfl⟩
  · rfl
  · simp [words]

theorem words_word (p : Char) (hp : p ≠ NUL) (w : List Char) (hw : ∀ c ∈ w, c ≠ NUL) (m : List Char)
    (h : m = [] ∨ ∃ m', m = NUL :: m') : words p (w ++ m) = words NUL m := by
  induction w generalizing p with
  | nil => exact words_sep p m h
  | cons c cs ih =>
    rw [List.cons_append, words, if_neg (fun h => hp h.2)]
    exact ih c (hw c (by simp)) (fun x hx => hw x (by simp [hx]))

theorem takeWhile_sep (w : List Char) (hw : ∀ c ∈ w, c ≠ NUL) (m : List Char) (h : m = [] ∨ ∃ m', m = NUL :: m') :
    (w ++ m).takeWhile (fun x : Char => decide (x ≠ NUL)) = w := by
  induction w with
  | nil => rcases h with rfl | ⟨m', rfl⟩ <;> simp
  | cons c cs ih =>
    rw [List.cons_append, List.takeWhile_cons, if_pos (by simpa using hw c (by simp)), ih (fun x hx => hw x (by simp [hx]))]

theorem words_first (w : List Char) (hne : w ≠ []) (hw : ∀ c ∈ w, c ≠ NUL) (m : List Char)
    (h : m = [] ∨ ∃ m', m = NUL :: m') : words NUL (w ++ m) = w :: words NUL m := by
  cases w with
  | nil => exact absurd rfl hne
  | cons c cs =>
    have hc := hw c (by simp)
    have ht := takeWhile_sep (c :: cs) hw m h
    rw [List.cons_append] at ht ⊢
    rw [words, if_pos ⟨hc, rfl⟩, words_word c hc cs (fun x hx => hw x (by simp [hx])) m h]
    rw [ht]

theorem sep_result {l : List Char} (h : Sep l) (x : Char) :
    (uq ((zap NUL false l).1 ++ [x])).dropLast = [] ∨ ∃ m', (uq ((zap NUL false l).1 ++ [x])).dropLast = NUL :: m' := by
  rcases h with rfl | ⟨c, l', rfl, hc⟩
  · left; rfl
  · right
    rw [zap_white NUL hc, List.cons_append, uq_cons (by decide) (by simp)]
    exact ⟨_, List.dropLast_cons_of_ne_nil (uq_ne_nil (by simp))⟩

theorem sep_of {l : List Char} (h : l = [] ∨ ∃ c l', l = c :: l' ∧ Blank c) : Sep l := by
  rcases h with h | ⟨c, l', h, hc⟩
  · exact Or.inl h
  · exact Or.inr ⟨c, l', h, (isWhite_iff c).mpr hc⟩

theorem layout_words {its : List Item} {body : List Char} (h : Layout its body) (x : Char) :
    (zap NUL false body).2 = its.length ∧
    words NUL (uq ((zap NUL false body).1 ++ [x])).dropLast = its.map Item.word := by
  induction h with
  | nil => exact ⟨rfl, rfl⟩
  | @white its l c hc _ ih =>
    have hc := (isWhite_iff c).mpr hc
    rw [zap_white NUL hc]
    refine ⟨ih.1, ?_⟩
    rw [List.cons_append, uq_cons (by decide) (by simp), List.dropLast_cons_of_ne_nil (uq_ne_nil (by simp)), words,
      if_neg (by simp), ih.2]
  | @item its l it hok _ hsep ih =>
    have hsep := sep_of hsep
    have hres := sep_result hsep x
    cases it with
    | plain w =>
      obtain ⟨hne, hw⟩ := hok
      have hw : ∀ c ∈ w, isWhite c = false ∧ c ≠ '"' ∧ c ≠ NUL := fun c hc => ⟨not_blank (hw c hc).1, (hw c hc).2⟩
      obtain ⟨q, q1, q2⟩ := zap_first w hne hw l
      rw [zap_sep q hsep] at q2
      simp only [Item.text, q2]
      refine ⟨by rw [ih.1]; rfl, ?_⟩
      rw [List.append_assoc, uq_append (fun c hc => (hw c hc).2.1) (by simp),
        List.dropLast_append_of_ne_nil (uq_ne_nil (by simp)),
        words_first w hne (fun c hc => (hw c hc).2.2) _ hres, ih.2]
      rfl
    | quoted name val =>
      obtain ⟨⟨hne, hw⟩, hv⟩ := hok
      have hw : ∀ c ∈ name, isWhite c = false ∧ c ≠ '"' ∧ c ≠ NUL := fun c hc => ⟨not_blank (hw c hc).1, (hw c hc).2⟩
      obtain ⟨q, q1, q2⟩ := zap_first name hne hw ('"' :: (val ++ '"' :: l))
      rw [zap_quoted q val l hv, zap_sep '"' hsep] at q2
      have ht : (Item.quoted name val).text ++ l = name ++ '"' :: (val ++ '"' :: l) := by simp [Item.text]
      rw [ht, q2]
      refine ⟨by rw [ih.1]; rfl, ?_⟩
      have e : name ++ '"' :: (val ++ '"' :: (zap NUL false l).1) ++ [x] = name ++ '"' :: (val ++ '"' :: ((zap NUL false l).1 ++ [x])) := by
        simp
      dsimp only
      rw [e, uq_append (fun c hc => (hw c hc).2.1) (by simp), uq_quoted val _ (fun c hc => (hv c hc).1) (by simp),
        ← List.append_assoc, List.dropLast_append_of_ne_nil (by simp), List.dropLast_cons_of_ne_nil (by simp),
        List.dropLast_cons_of_ne_nil (uq_ne_nil (by simp)),
        words_first (name ++ val) (by simp [hne]) ?_ _ (Or.inr ⟨_, rfl⟩)]
      · rw [words, if_neg (by simp), words, if_neg (by simp), ih.2]
        rfl
      · intro c hc
        rcases List.mem_append.mp hc with h | h
        · exact (hw c h).2.2
        · exact (hv c h).2

/-- Everything before the last byte of the file is seen, and the last byte is not. -/
theorem parWords_layout {its : List Item} {body : List Char} (h : Layout its body) (x : Char) :
    parWords (body ++ [x]) = some (its.map Item.word) := by
  obtain ⟨h1, h2⟩ := layout_words h x
  have hw : whitened (body ++ [x]) = ((uq ((zap NUL false body).1 ++ [x])).dropLast, (zap NUL false body).2) := by
    unfold whitened
    rw [List.getLast?_concat]
    dsimp only
    rw [List.dropLast_concat]
    cases hz : (zap NUL false body).1 ++ [x] with
    | nil => simp at hz
    | cons c cs => rfl
  unfold parWords
  rw [hw]
  dsimp only
  rw [h2, h1, if_pos (by simp)]

/-! ## C04 -/

/-- **C04, partial.** If the file ends in a blank, tab or newline, then every word of the file, plain or quoted, is seen, in
order and whatever the blank pattern.  Missing: a file without a blank at its end loses its last byte
(`last_byte_lost`), and words that begin with a quote are outside `Layout` (`leading_quote_overruns`). -/
theorem parfile_words_partial {its : List Item} {body : List Char} (h : Layout its body) (x : Char) (hx : Blank x) :
    Layout its (body ++ [x]) ∧ parWords (body ++ [x]) = some (its.map Item.word) := by
  refine ⟨?_, parWords_layout h x⟩
  have key : ∀ {its body}, Layout its body → Layout its (body ++ [x]) := by
    intro its body h
    induction h with
    | nil => exact Layout.white hx Layout.nil
    | white hc _ ih => exact Layout.white hc ih
    | item it hok _ hsep ih =>
      rw [List.append_assoc]
      refine Layout.item it hok ih ?_
      rcases hsep with rfl | ⟨c, l', rfl, hc⟩
      · exact Or.inr ⟨x, [], rfl, hx⟩
      · exact Or.inr ⟨c, l' ++ [x], rfl, hc⟩
  exact key h

theorem parName_iff (w : List Char) (f : List Char) (hf : f ≠ []) : parName w = some f ↔ Sets ['p', 'a', 'r'] f w := by
  unfold Sets parName
  constructor
  · intro h
    split at h
    · cases h; rfl
    · cases h
  · rintro rfl
    cases f with
    | nil => exact absurd rfl hf
    | cons c cs => rfl

theorem parName_absent (ws : List (List Char)) (h : Absent ['p', 'a', 'r'] ws) : ws.reverse.findSome? parName = none := by
  rw [List.findSome?_eq_none_iff]
  intro w' hw'
  cases hm : parName w' with
  | none => rfl
  | some g =>
    have hg : g ≠ [] := by
      unfold parName at hm
      split at hm
      · cases hm; simp
      · cases hm
    exact absurd ((parName_iff w' g hg).mp hm) (h w' (by simpa using hw') g)

/-- The parameter file is the one named by the last `par=` word, -/
theorem pfname_last (argv : List (List Char)) (f : List Char) (hf : f ≠ []) (h : LastSetting ['p', 'a', 'r'] f argv.tail) :
    pfname argv = some f := by
  obtain ⟨pre, w, post, he, h1, h2⟩ := h
  unfold pfname
  rw [he, List.reverse_append, List.reverse_cons, List.append_assoc, List.findSome?_append, parName_absent post h2,
    Option.none_or, List.singleton_append, List.findSome?_cons, (parName_iff w f hf).mpr h1]

/-- and there is none if there is no such word. -/
theorem pfname_absent (argv : List (List Char)) (h : Absent ['p', 'a', 'r'] argv.tail) : pfname argv = none :=
  parName_absent _ h

/-- **C04** and **C01** together: a parameter given only in the file is delivered. -/
theorem parfile_value_seen (fs : List Char → Option (List Char)) (argv : List (List Char)) (f body : List Char) (x : Char)
    (hpar : LastSetting ['p', 'a', 'r'] f argv.tail) (hne : f ≠ []) (hf : fs f = some (body ++ [x])) (its : List Item) (h : Layout its body)
    (name v : List Char) (hn : '=' ∉ name) (hcmd : Absent name argv.tail) (hfile : LastSetting name v (its.map Item.word))
    (hist asks : List Op) (hasks : ∀ o ∈ asks, ∃ n name, o = .ask n name) (s s' : St)
    (hrun : runOps fs (hist ++ .init argv :: asks) St.boot = some s) (ptr : List Char) (r : Int) (p : List Char)
    (hg : getnparstring fs 0 name ptr s = some ((r, p), s')) : r = 1 ∧ p = v := by
  have hfw : fileWords fs argv = some (its.map Item.word) := by
    unfold fileWords
    rw [pfname_last argv f hne hpar]
    dsimp only
    rw [hf, Option.bind_some, parWords_layout h x]
  exact ((getparstring_last_wins fs hist asks hasks argv s s' hrun name hn ptr r p hg).2 hcmd _ hfw).1 v hfile

/-- **C04 is refuted** for a file without newline at the end: whatever its last byte is, it has no influence. -/
theorem last_byte_lost {its : List Item} {body : List Char} (h : Layout its body) (x y : Char) :
    parWords (body ++ [x]) = parWords (body ++ [y]) := by
  rw [parWords_layout h x, parWords_layout h y]

/-- For example the file `a=12` sets `a` to 1. -/
theorem last_byte_lost_witness : parWords ['a', '=', '1', '2'] = some [['a', '=', '1']] := by decide +kernel

/-- **C04 is refuted** for a word that begins with a quote: it is not counted, and the array of words is overrun. -/
theorem leading_quote_overruns : parWords "\"a=b\" \n".toList = none := by decide +kernel

/-- The same happens for text that follows a closing quote directly. -/
theorem trailing_text_overruns : parWords "a=\"b\"c \n".toList = none := by decide +kernel

/-- A file with blanks of all kinds and a quoted value. -/
example : Layout [.plain ['a', '=', '1'], .quoted ['b', '='] ['x', ' ', 'y'], .plain ['c']]
    [' ', ' ', 'a', '=', '1', '\t', '\n', 'b', '=', '"', 'x', ' ', 'y', '"', ' ', 'c', ' '] ∧
    parWords ("  a=1\t\nb=\"x y\" c \n".toList) = some [['a', '=', '1'], ['b', '=', 'x', ' ', 'y'], ['c']] := by
  constructor
  · refine Layout.white (by simp [Blank]) (Layout.white (by simp [Blank]) (Layout.item (.plain ['a', '=', '1']) (by simp [Item.Ok, Blank, NUL]; try decide +kernel)
      (l := ['\t', '\n', 'b', '=', '"', 'x', ' ', 'y', '"', ' ', 'c', ' ']) ?_ (Or.inr ⟨_, _, rfl, by simp [Blank]⟩)))
    refine Layout.white (by simp [Blank]) (Layout.white (by simp [Blank]) (Layout.item (.quoted ['b', '='] ['x', ' ', 'y']) (by simp [Item.Ok, Blank, NUL]; try decide +kernel)
      (l := [' ', 'c', ' ']) ?_ (Or.inr ⟨_, _, rfl, by simp [Blank]⟩)))
    exact Layout.white (by simp [Blank]) (Layout.item (.plain ['c']) (by simp [Item.Ok, Blank, NUL]; try decide +kernel) (l := [' '])
      (Layout.white (by simp [Blank]) Layout.nil) (Or.inr ⟨_, _, rfl, by simp [Blank]⟩))
  · decide +kernel

end Verif.Getpar

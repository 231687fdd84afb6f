import Mathlib.Data.List.Infix
import Mathlib.Tactic.Basic

/-!
# C50: names of output files (fdelmodc/name_ext.c, utils/name_ext.c)

A string is the list of its characters, without the final zero.  `none` is a write past the end of an array.
-/

namespace Verif.Util

/-- `strstr`: the position of the first occurrence. -/
def strstr (pat : List Char) : List Char → Option Nat
  | [] => if pat.isPrefixOf [] then some 0 else none
  | c :: s => if pat.isPrefixOf (c :: s) then some 0 else (strstr pat s).map (· + 1)

/-- `strrchr`: the position of the last occurrence. -/
def strrchr (x : Char) : List Char → Option Nat
  | [] => none
  | c :: s => match strrchr x s with
    | some k => some (k + 1)
    | none => if c = x then some 0 else none

/-- `sprintf(ext, "%s<suffix>", extension)` in `char ext[100]` and `strcpy` (or `strcat`) to the position after `base` in an array of `cap` characters (name_ext.c:16, 19-20, …, 35-40). -/
def putName (cap : Nat) (base ext suffix : List Char) : Option (List Char) :=
  if ext.length + suffix.length + 1 ≤ 100 ∧ base.length + (ext.length + suffix.length) + 1 ≤ cap then some (base ++ (ext ++ suffix)) else none

/-- `name_ext` (name_ext.c:14-44) for the suffixes tried in turn, on a name in an array of `cap` characters. -/
def nameExtWith (cap : Nat) (file ext : List Char) : List (List Char) → Option (List Char)
  | [] => match strrchr '.' file with
    | some k => putName cap (file.take k) ext ['.', 's', 'u']
    | none => putName cap file ext ['.', 's', 'u']
  | s :: ss => match strstr s file with
    | some k => putName cap (file.take k) ext s
    | none => nameExtWith cap file ext ss

/-- The suffixes of fdelmodc/name_ext.c:18-33. -/
def suffixes : List (List Char) := [".su".toList, ".segy".toList, ".mat".toList, ".hdf".toList]
/-- The suffixes of utils/name_ext.c:18-37. -/
def suffixesUtil : List (List Char) := suffixes ++ [".nc".toList]

/-- `fileOpen` (fileOpen.c:77-88): the name of the file that is opened; `filename[1024]`. -/
def openName (file ext : List Char) : Option (List Char) := if file.length + 1 ≤ 1024 then nameExtWith 1024 file ext suffixes else none

/-- The names of the receiver files in writeRec.c:73-77, 110-126: `number` is empty, or the text `_001`, … of the file number. -/
def recName (file number comp : List Char) : Option (List Char) :=
  if file.length + 1 ≤ 1024 then
    if number = [] then openName file comp else (nameExtWith 1024 file number suffixes).bind fun f => openName f comp
  else none

/-! ## Lemmas -/

private theorem strstr_none {pat s : List Char} (h : ∀ k ≤ s.length, ¬ pat <+: s.drop k) : strstr pat s = none := by
  induction s with
  | nil =>
    have := h 0 (Nat.zero_le _)
    unfold strstr
    rw [if_neg (by rw [List.isPrefixOf_iff_prefix]; simpa using this)]
  | cons c s ih =>
    have h0 := h 0 (Nat.zero_le _)
    rw [List.drop_zero] at h0
    unfold strstr
    rw [if_neg (by rw [List.isPrefixOf_iff_prefix]; exact h0), ih fun k hk => ?_]
    · rfl
    · have := h (k + 1) (by simpa using hk)
      simpa using this

private theorem strstr_some {pat s : List Char} {n : Nat} (hn : n ≤ s.length) (hp : pat <+: s.drop n) (h : ∀ k < n, ¬ pat <+: s.drop k) : strstr pat s = some n := by
  induction s generalizing n with
  | nil =>
    have : n = 0 := by simpa using hn
    subst this
    unfold strstr
    rw [if_pos (by rw [List.isPrefixOf_iff_prefix]; simpa using hp)]
  | cons c s ih =>
    unfold strstr
    cases n with
    | zero => rw [if_pos (by rw [List.isPrefixOf_iff_prefix]; simpa using hp)]
    | succ n =>
      have h0 := h 0 (Nat.succ_pos _)
      rw [List.drop_zero] at h0
      rw [if_neg (by rw [List.isPrefixOf_iff_prefix]; exact h0), ih (by simpa using hn) (by simpa using hp) fun k hk => ?_]
      · rfl
      · have := h (k + 1) (by omega)
        simpa using this

private theorem strrchr_none {x : Char} {s : List Char} (h : x ∉ s) : strrchr x s = none := by
  induction s with
  | nil => rfl
  | cons c s ih =>
    rw [strrchr, ih fun hm => h (List.mem_cons_of_mem _ hm)]
    exact if_neg fun e => h (by rw [e]; exact List.mem_cons_self)

private theorem strrchr_some {x : Char} {b s : List Char} (h : x ∉ s) : strrchr x (b ++ x :: s) = some b.length := by
  induction b with
  | nil => rw [List.nil_append, strrchr, strrchr_none h]; exact if_pos rfl
  | cons c b ih => rw [List.cons_append, strrchr, ih]; rfl

/-- The suffix does not occur in the name. -/
def Absent (suffix file : List Char) : Prop := ¬ suffix <:+: file

private theorem absent_none {pat s : List Char} (h : Absent pat s) : strstr pat s = none := by
  refine strstr_none fun k _ hp => h (hp.isInfix.trans (List.drop_suffix k s).isInfix)

/-! ## Properties -/

/-- **C50 (partial).** The extension is inserted before the suffix and every other character is kept, if the suffix occurs only at the end of the name (not earlier) and none of the
suffixes tried before it occurs at all, and if the result fits. -/
theorem name_ext_partial {cap : Nat} {pre post : List (List Char)} {base ext s : List Char} (hearly : ∀ k < base.length, ¬ s <+: (base ++ s).drop k) (hpre : ∀ t ∈ pre, Absent t (base ++ s))
    (hext : ext.length + s.length + 1 ≤ 100) (hcap : base.length + ext.length + s.length + 1 ≤ cap) :
    nameExtWith cap (base ++ s) ext (pre ++ s :: post) = some (base ++ ext ++ s) := by
  induction pre with
  | nil =>
    rw [List.nil_append, nameExtWith, strstr_some (n := base.length) (by simp) (by simp) hearly]
    dsimp only
    rw [List.take_left' rfl, putName, if_pos ⟨hext, by omega⟩, List.append_assoc]
  | cons t pre ih =>
    rw [List.cons_append, nameExtWith, absent_none (hpre t (by simp))]
    exact ih fun t' ht' => hpre t' (by simp [ht'])

private theorem with_none {cap : Nat} {file ext : List Char} : ∀ {ss : List (List Char)}, (∀ s ∈ ss, Absent s file) → nameExtWith cap file ext ss = nameExtWith cap file ext [] := by
  intro ss
  induction ss with
  | nil => intro _; rfl
  | cons t ss ih =>
    intro h
    rw [show nameExtWith cap file ext (t :: ss) = nameExtWith cap file ext ss from by rw [nameExtWith, absent_none (h t (by simp))]]
    exact ih fun t' ht' => h t' (by simp [ht'])

/-- **C50.** A name without a point gets the extension and `.su`. -/
theorem name_ext_plain {cap : Nat} {file ext : List Char} {ss : List (List Char)} (hdot : '.' ∉ file) (hss : ∀ s ∈ ss, '.' ∈ s) (hext : ext.length + 4 ≤ 100)
    (hcap : file.length + ext.length + 4 ≤ cap) : nameExtWith cap file ext ss = some (file ++ ext ++ ".su".toList) := by
  rw [with_none fun s hs h => hdot (h.subset (hss s hs)), nameExtWith, strrchr_none hdot]
  dsimp only
  rw [putName, if_pos ⟨by simpa using hext, by simp; omega⟩, List.append_assoc]
  rfl

/-- **C50.** A name with none of the suffixes loses what follows its last point, which is replaced by the extension and `.su`. -/
theorem name_ext_other {cap : Nat} {base rest ext : List Char} {ss : List (List Char)} (hdot : '.' ∉ rest) (hss : ∀ s ∈ ss, Absent s (base ++ '.' :: rest)) (hext : ext.length + 4 ≤ 100)
    (hcap : base.length + ext.length + 4 ≤ cap) : nameExtWith cap (base ++ '.' :: rest) ext ss = some (base ++ ext ++ ".su".toList) := by
  rw [with_none hss, nameExtWith, strrchr_some hdot]
  dsimp only
  rw [List.take_left' rfl, putName, if_pos ⟨by simpa using hext, by simp; omega⟩, List.append_assoc]
  rfl

/-- **C50.** Whatever the name, different extensions give different names: two outputs of one run never share a file. -/
theorem names_differ {cap : Nat} {file e e' r : List Char} {ss : List (List Char)} (h : nameExtWith cap file e ss = some r) (h' : nameExtWith cap file e' ss = some r) : e = e' := by
  have put : ∀ {b s r : List Char}, putName cap b e s = some r → putName cap b e' s = some r → e = e' := by
    intro b s r h h'
    unfold putName at h h'
    split at h
    · split at h'
      · have := (Option.some.inj h).trans (Option.some.inj h').symm
        exact List.append_cancel_right (List.append_cancel_left this)
      · exact absurd h' (by simp)
    · exact absurd h (by simp)
  induction ss with
  | nil =>
    rw [nameExtWith] at h h'
    cases hk : strrchr '.' file with
    | none => rw [hk] at h h'; exact put h h'
    | some k => rw [hk] at h h'; exact put h h'
  | cons s ss ih =>
    rw [nameExtWith] at h h'
    cases hk : strstr s file with
    | none => rw [hk] at h h'; exact ih h h'
    | some k => rw [hk] at h h'; exact put h h'

private theorem no_early {base s : List Char} (hs : ∃ t, s = '.' :: t ∧ '.' ∉ t) (hb : '.' ∉ base) : ∀ k < base.length, ¬ s <+: (base ++ s).drop k := by
  intro k hk hp
  obtain ⟨t, rfl, _⟩ := hs
  rw [List.drop_append_of_le_length (by omega)] at hp
  cases hd : base.drop k with
  | nil =>
    have := congrArg List.length hd
    rw [List.length_drop, List.length_nil] at this
    omega
  | cons c l =>
    rw [hd, List.cons_append] at hp
    obtain ⟨u, hu⟩ := hp
    rw [List.cons_append] at hu
    have : c = '.' := (List.cons.inj hu).1.symm
    refine hb (List.mem_of_mem_drop (i := k) ?_)
    rw [hd, this]
    exact List.mem_cons_self

/-- **C50 (partial).** The receiver files of a modelling run: for a name `base.su` with no point in `base`, file number text and component are inserted, in that order. -/
theorem rec_names_partial {base number comp : List Char} (hb : '.' ∉ base) (hn : '.' ∉ number) (hlen : base.length + number.length + comp.length + 4 ≤ 1024) (h1 : number.length ≤ 96)
    (h2 : comp.length ≤ 96) : recName (base ++ ".su".toList) number comp = some (base ++ number ++ comp ++ ".su".toList) := by
  have e3 : ".su".toList.length = 3 := rfl
  have hdot : ∃ t, ".su".toList = '.' :: t ∧ '.' ∉ t := ⟨['s', 'u'], rfl, by decide⟩
  unfold recName
  rw [if_pos (by rw [List.length_append, e3]; omega)]
  by_cases h0 : number = []
  · subst h0
    rw [if_pos rfl, openName, if_pos (by rw [List.length_append, e3]; omega)]
    rw [show suffixes = [] ++ ".su".toList :: [".segy".toList, ".mat".toList, ".hdf".toList] from rfl, name_ext_partial (no_early hdot hb) (by simp) (by rw [e3]; omega) (by rw [e3]; simp at hlen; omega)]
    simp
  · rw [if_neg h0, show suffixes = [] ++ ".su".toList :: [".segy".toList, ".mat".toList, ".hdf".toList] from rfl,
      name_ext_partial (no_early hdot hb) (by simp) (by rw [e3]; omega) (by rw [e3]; omega), Option.bind_some, openName, if_pos (by simp only [List.length_append, e3]; omega)]
    rw [show suffixes = [] ++ ".su".toList :: [".segy".toList, ".mat".toList, ".hdf".toList] from rfl,
      name_ext_partial (no_early hdot (by simp only [List.mem_append, not_or]; exact ⟨hb, hn⟩)) (by simp) (by rw [e3]; omega) (by simp only [List.length_append, e3]; omega)]

/-- **C50 (partial).** The receiver files of a run are all different: a component starts with an underscore and has no other, so the name determines file number and component. -/
theorem rec_names_differ_partial {base number number' comp comp' r : List Char} (hb : '.' ∉ base) (hn : '.' ∉ number) (hn' : '.' ∉ number')
    (hlen : base.length + number.length + comp.length + 4 ≤ 1024) (hlen' : base.length + number'.length + comp'.length + 4 ≤ 1024)
    (h1 : number.length ≤ 96) (h1' : number'.length ≤ 96) (h2 : '_' :: comp.tail = comp ∧ '_' ∉ comp.tail ∧ comp.length ≤ 96)
    (h2' : '_' :: comp'.tail = comp' ∧ '_' ∉ comp'.tail ∧ comp'.length ≤ 96)
    (e : recName (base ++ ".su".toList) number comp = some r) (e' : recName (base ++ ".su".toList) number' comp' = some r) : number = number' ∧ comp = comp' := by
  rw [rec_names_partial hb hn hlen h1 h2.2.2] at e
  rw [rec_names_partial hb hn' hlen' h1' h2'.2.2] at e'
  have h := (Option.some.inj e).trans (Option.some.inj e').symm
  have h := List.append_cancel_right h
  rw [List.append_assoc, List.append_assoc] at h
  have h := List.append_cancel_left h
  rw [← h2.1, ← h2'.1] at h
  have k1 := strrchr_some (b := number) h2.2.1
  have k2 := strrchr_some (b := number') h2'.2.1
  rw [h, k2] at k1
  have hl : number'.length = number.length := Option.some.inj k1
  obtain ⟨a1, a2⟩ := List.append_inj h hl.symm
  exact ⟨a1, by rw [← h2.1, ← h2'.1, a2]⟩

/-- Non-vacuity. -/
example : recName "shot.su".toList "_002".toList "_rvz".toList = some "shot_002_rvz.su".toList ∧ openName "shot.su".toList "_rp".toList = some "shot_rp.su".toList ∧
    openName "model.hdf".toList "_cp".toList = some "model_cp.hdf".toList ∧ openName "shot".toList "_rp".toList = some "shot_rp.su".toList ∧
    openName "shot.bin".toList "_rp".toList = some "shot_rp.su".toList := by decide

/-- **C50** fails if the suffix also occurs earlier in the name: the rest of the name is lost, and the file is written in another directory. -/
theorem name_ext_cut : openName "run.sub/shot.su".toList "_rvz".toList = some "run_rvz.su".toList ∧ openName "a.su/shot1.su".toList "_rvz".toList = openName "a.su/shot2.su".toList "_rvz".toList := by
  decide

/-- **C50** fails for a name without suffix in a directory with a point in its name: the name is lost. -/
theorem name_ext_directory : openName "../data/shot".toList "_rvz".toList = some "._rvz.su".toList ∧ openName "v1.2/shot".toList "_rvz".toList = some "v1_rvz.su".toList := by decide

/-- **C50**: every name `base.su` that itself fits in the array of 1024 characters but not with the extension overflows the array. -/
theorem name_ext_overflow {base ext : List Char} (hb : '.' ∉ base) (hl : 1024 < base.length + ext.length + 4) : openName (base ++ ".su".toList) ext = none := by
  unfold openName
  split
  · rw [show suffixes = ".su".toList :: [".segy".toList, ".mat".toList, ".hdf".toList] from rfl, nameExtWith,
      strstr_some (pat := ".su".toList) (s := base ++ ".su".toList) (n := base.length) (by simp) (by rw [List.drop_left' rfl]) (no_early ⟨['s', 'u'], rfl, by decide⟩ hb)]
    dsimp only
    have e3 : ".su".toList.length = 3 := rfl
    rw [List.take_left' rfl, putName, if_neg (by rw [e3]; omega)]
  · rfl

/-- Non-vacuity: a name of 1023 characters. -/
example (c : Char) (hc : '.' ≠ c) : openName (List.replicate 1020 c ++ ".su".toList) "_rvz".toList = none :=
  name_ext_overflow (fun h => hc (List.eq_of_mem_replicate h)) (by rw [List.length_replicate]; decide)

end Verif.Util

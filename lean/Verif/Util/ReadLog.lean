import Mathlib.Data.Rat.Floor
import Mathlib.Data.List.Basic
import Mathlib.Tactic.Linarith
import Mathlib.Tactic.NormNum
import Mathlib.Tactic.Ring

/-!
# C212, C213: readlog and mat2su (utils/readlog.c, utils/mat2su.c)

Exact numbers.  readlog: the log has `n` lines with depths `dep i`; a load after the last line ends the program (`none`).
Not modelled: reading of the text, headers.
-/

namespace Verif.Util.Log

/-- `NINT` (utils/readlog.c:29). -/
def nint (x : ℚ) : Int := if 0 < x then ⌊x + 1 / 2⌋ else ⌈x - 1 / 2⌉

/-- `n1` (utils/readlog.c:78). -/
def size (n : Nat) (dep : Nat → ℚ) (dz : ℚ) : Int := nint (dep (n - 1) / dz) + 1

/-- The line `is` used for sample `iz` (utils/readlog.c:97-112). -/
def line (n : Nat) (dep : Nat → ℚ) (dz : ℚ) : Nat → Option Nat
  | 0 => some 0
  | iz + 1 => do
    let is ← line n dep dz iz
    if is + 1 < n then if ((iz + 1 : Nat) : ℚ) * dz < dep (is + 1) then some is else some (is + 1) else none

theorem nint_le {x : ℚ} (hx : 0 ≤ x) : (nint x : ℚ) ≤ x + 1 / 2 := by
  unfold nint
  split
  · exact Int.floor_le _
  · have : x = 0 := by linarith
    subst this
    have : ⌈(0 : ℚ) - 1 / 2⌉ ≤ 0 := Int.ceil_le.mpr (by push_cast; norm_num)
    have h : ((⌈(0 : ℚ) - 1 / 2⌉ : Int) : ℚ) ≤ 0 := by exact_mod_cast this
    linarith

/-- The line reached is at or above the sample, if it is not the first. -/
theorem line_above {n : Nat} {dep : Nat → ℚ} {dz : ℚ} (hz : 0 < dz) {iz is : Nat} (h : line n dep dz iz = some is) :
    is = 0 ∨ (dep is ≤ iz * dz ∧ is < n) := by
  induction iz generalizing is with
  | zero => left; exact (Option.some.inj h).symm
  | succ iz ih =>
    unfold line at h
    cases e : line n dep dz iz with
    | none => rw [e] at h; simp at h
    | some a =>
      rw [e, Option.bind_eq_bind, Option.bind_some] at h
      by_cases c1 : a + 1 < n
      · rw [if_pos c1] at h
        by_cases c2 : ((iz + 1 : Nat) : ℚ) * dz < dep (a + 1)
        · rw [if_pos c2] at h
          have h' := Option.some.inj h
          subst h'
          rcases ih e with k | ⟨k, k'⟩
          · exact Or.inl k
          · right
            refine ⟨le_trans k ?_, k'⟩
            push_cast
            nlinarith
        · rw [if_neg c2] at h
          have h' := Option.some.inj h
          subst h'
          exact Or.inr ⟨not_lt.mp c2, c1⟩
      · rw [if_neg c1] at h; simp at h

/-- **C212.** With two lines or more the program never reads after its table, whatever the depths. -/
theorem log_safe (n : Nat) (dep : Nat → ℚ) (dz : ℚ) (hn : 2 ≤ n) (hz : 0 < dz) (hd : 0 ≤ dep (n - 1)) (iz : Nat)
    (hi : (iz : Int) < size n dep dz) : ∃ is < n, line n dep dz iz = some is := by
  induction iz with
  | zero => exact ⟨0, by omega, rfl⟩
  | succ iz ih =>
    obtain ⟨is, h1, h2⟩ := ih (by push_cast at hi; omega)
    have key : is + 1 < n := by
      by_contra c
      have e : is = n - 1 := by omega
      subst e
      rcases line_above hz h2 with k | ⟨k, -⟩
      · omega
      · have hs : ((iz + 1 : Nat) : Int) ≤ nint (dep (n - 1) / dz) := by unfold size at hi; omega
        have hs' : ((iz : ℚ) + 1) ≤ (nint (dep (n - 1) / dz) : ℚ) := by exact_mod_cast hs
        have b := nint_le (div_nonneg hd hz.le)
        have c : dep (n - 1) / dz ≤ iz := (div_le_iff₀ hz).mpr k
        linarith
    unfold line
    rw [h2, Option.bind_eq_bind, Option.bind_some, if_pos key]
    split
    · exact ⟨is, h1, rfl⟩
    · exact ⟨is + 1, key, rfl⟩

/-- **C212.** If the log begins at the surface and its lines are at least `dz` apart, each sample has the values of the last line at
or above its depth.  Missing: closer lines (`log_thin`) and a log of one line (`log_one`). -/
theorem log_line_partial (n : Nat) (dep : Nat → ℚ) (dz : ℚ) (hn : 2 ≤ n) (hz : 0 < dz) (h0 : dep 0 = 0)
    (hs : ∀ i, i + 1 < n → dep i + dz ≤ dep (i + 1)) (iz : Nat) (hi : (iz : Int) < size n dep dz) :
    ∃ is < n, line n dep dz iz = some is ∧ dep is ≤ iz * dz ∧ ∀ k, is < k → k < n → iz * dz < dep k := by
  have mono : ∀ a b, a ≤ b → b < n → dep a ≤ dep b := by
    intro a b hab
    induction hab with
    | refl => exact fun _ => le_rfl
    | step _ ih => intro hb; exact le_trans (ih (by omega)) (by have := hs _ hb; linarith)
  have hd : 0 ≤ dep (n - 1) := h0 ▸ mono 0 (n - 1) (by omega) (by omega)
  obtain ⟨is, h1, h2⟩ := log_safe n dep dz hn hz hd iz hi
  refine ⟨is, h1, h2, ?_, ?_⟩
  · rcases line_above hz h2 with k | ⟨k, -⟩
    · rw [k, h0]; positivity
    · exact k
  · have next : is + 1 < n → iz * dz < dep (is + 1) := by
      clear hi
      induction iz generalizing is with
      | zero =>
        intro hb
        have e : is = 0 := (Option.some.inj h2).symm
        subst e
        have := hs 0 hb
        rw [h0] at this
        push_cast; linarith
      | succ iz ih =>
        intro hb
        unfold line at h2
        cases e : line n dep dz iz with
        | none => rw [e] at h2; simp at h2
        | some a =>
          rw [e, Option.bind_eq_bind, Option.bind_some] at h2
          by_cases c1 : a + 1 < n
          · rw [if_pos c1] at h2
            by_cases c2 : ((iz + 1 : Nat) : ℚ) * dz < dep (a + 1)
            · rw [if_pos c2] at h2
              have h' := Option.some.inj h2
              subst h'
              exact c2
            · rw [if_neg c2] at h2
              have h' := Option.some.inj h2
              subst h'
              have := ih a (by omega) e c1
              have := hs (a + 1) hb
              push_cast
              linarith
          · rw [if_neg c1] at h2; simp at h2
    intro k hk hkn
    exact lt_of_lt_of_le (next (by omega)) (mono (is + 1) k (by omega) hkn)

/-- **C212 violated.** Lines closer than `dz` are followed one at a time: with a third line at or above the first sample below the
surface, that sample still has the second line. -/
theorem log_thin (n : Nat) (dep : Nat → ℚ) (dz : ℚ) (hn : 3 ≤ n) (h1 : dep 1 ≤ dep 2) (h2 : dep 2 ≤ dz) :
    line n dep dz 1 = some 1 ∧ 2 < n ∧ dep 2 ≤ (1 : Nat) * dz := by
  refine ⟨?_, by omega, by push_cast; linarith⟩
  unfold line line
  rw [Option.bind_eq_bind, Option.bind_some, if_pos (by omega), if_neg (by push_cast; linarith)]

/-- **C212 violated.** A log of one line makes the program read after its table. -/
theorem log_one (dep : Nat → ℚ) (dz : ℚ) : line 1 dep dz 1 = none := by
  unfold line line
  rw [Option.bind_eq_bind, Option.bind_some, if_neg (by omega)]

/-! ## mat2su -/

universe u
variable {K : Type u}

/-- `fread` of `B` numbers in the buffer (utils/mat2su.c:100, 136): a short read leaves the rest of the buffer. -/
def refill (B : Nat) (buf : Nat → Option K) (rest : List K) : Nat → Option K :=
  fun i => if i < B ∧ i < rest.length then rest[i]? else buf i

/-- The loop (utils/mat2su.c:120-149): the gathers written. -/
def gathers (B : Nat) : Nat → (Nat → Option K) → List K → List (Nat → Option K)
  | 0, _, _ => []
  | n3 + 1, buf, rest => buf :: if rest.length = 0 then [] else gathers B n3 (refill B buf rest) (rest.drop B)

/-- The program (utils/mat2su.c:100-149) with `B = stype*n1*n2` numbers in a gather; the buffer has no values at first.  An empty file
ends it here (`none`), in the program with `verbose` only. -/
def mat2su (B n3 : Nat) (file : List K) : Option (List (Nat → Option K)) :=
  if file.length = 0 then none else some (gathers B n3 (refill B (fun _ => none) file) (file.drop B))

theorem gathers_step (B k n3 : Nat) (buf : Nat → Option K) (rest : List K) (hk : k * B < rest.length)
    (hn : k + 1 < n3) : ∃ g f, (gathers B n3 buf rest)[k]? = some g ∧ (gathers B n3 buf rest)[k + 1]? = some f ∧
      ∀ i < B, f i = if k * B + i < rest.length then rest[k * B + i]? else g i := by
  induction k generalizing n3 buf rest with
  | zero =>
    obtain ⟨m, rfl⟩ : ∃ m, n3 = m + 2 := ⟨n3 - 2, by omega⟩
    refine ⟨buf, refill B buf rest, by simp [gathers], ?_, fun i hi => ?_⟩
    · unfold gathers
      rw [if_neg (by omega), List.getElem?_cons_succ]
      simp [gathers]
    · simp [refill, hi]
  | succ k ih =>
    obtain ⟨m, rfl⟩ : ∃ m, n3 = m + 1 := ⟨n3 - 1, by omega⟩
    have e : (k + 1) * B = k * B + B := by ring
    obtain ⟨g, f, h1, h2, h3⟩ := ih m (refill B buf rest) (rest.drop B) (by rw [List.length_drop]; omega) (by omega)
    refine ⟨g, f, ?_, ?_, fun i hi => ?_⟩
    · rw [gathers, if_neg (by omega), List.getElem?_cons_succ]; exact h1
    · rw [gathers, if_neg (by omega), List.getElem?_cons_succ]; exact h2
    · rw [h3 i hi, List.length_drop, List.getElem?_drop, e]
      by_cases c : k * B + i < rest.length - B
      · rw [if_pos c, if_pos (by omega), show B + (k * B + i) = k * B + B + i by omega]
      · rw [if_neg c, if_neg (by omega)]

theorem gathers_length (B : Nat) (hB : 0 < B) (m n3 : Nat) (buf : Nat → Option K) (rest : List K) (h : rest.length = m * B) :
    (gathers B n3 buf rest).length = min n3 (m + 1) := by
  induction m generalizing n3 buf rest with
  | zero =>
    cases n3 with
    | zero => simp [gathers]
    | succ n => rw [gathers, if_pos (by omega)]; simp
  | succ m ih =>
    have e : (m + 1) * B = m * B + B := by ring
    cases n3 with
    | zero => simp [gathers]
    | succ n =>
      rw [gathers, if_neg (by omega), List.length_cons, ih n _ _ (by rw [List.length_drop]; omega)]
      omega

/-- **C213.** From a file of `m` whole gathers mat2su writes the first `n3` of them, or all, each with its own numbers.  Missing: a
last gather that is not whole (`mat2su_short`). -/
theorem mat2su_gathers_partial (B n3 m : Nat) (file : List K) (hB : 0 < B) (hm : 1 ≤ m) (h : file.length = m * B) :
    ∃ out, mat2su B n3 file = some out ∧ out.length = min n3 m ∧
      ∀ k, k < n3 → k < m → ∃ f, out[k]? = some f ∧ ∀ i < B, f i = file[k * B + i]? := by
  have hle : B ≤ m * B := Nat.le_mul_of_pos_left B hm
  refine ⟨_, by unfold mat2su; rw [if_neg (by omega)], ?_, ?_⟩
  · rw [gathers_length B hB (m - 1) n3 _ _ (by rw [List.length_drop, h, Nat.sub_mul, Nat.one_mul])]
    omega
  · intro k h1 h2
    cases k with
    | zero =>
      obtain ⟨n, rfl⟩ : ∃ n, n3 = n + 1 := ⟨n3 - 1, by omega⟩
      refine ⟨refill B (fun _ => none) file, by simp [gathers], fun i hi => ?_⟩
      unfold refill
      rw [if_pos ⟨hi, by omega⟩]; simp
    | succ k =>
      have hk : (k + 2) * B ≤ m * B := Nat.mul_le_mul_right B (by omega)
      have e : (k + 2) * B = k * B + B + B := by ring
      have e1 : (k + 1) * B = k * B + B := by ring
      obtain ⟨g, f, -, p, q⟩ := gathers_step B k n3 (refill B (fun _ => none) file) (file.drop B)
        (by rw [List.length_drop]; omega) (by omega)
      refine ⟨f, p, fun i hi => ?_⟩
      rw [q i hi, if_pos (by rw [List.length_drop]; omega), List.getElem?_drop, e1]
      congr 1; omega

/-- **C213 violated.** A last gather with only `r` of its numbers is completed with those of the gather before it. -/
theorem mat2su_short (B n3 m r : Nat) (file : List K) (hm : 1 ≤ m) (hr : 0 < r) (hrB : r < B) (hn : m < n3)
    (h : file.length = m * B + r) : ∃ out g f, mat2su B n3 file = some out ∧ out[m - 1]? = some g ∧ out[m]? = some f ∧
      ∀ i, r ≤ i → i < B → f i = g i := by
  have hle : B ≤ m * B := Nat.le_mul_of_pos_left B hm
  have e : (m - 1) * B = m * B - B := by rw [Nat.sub_mul, Nat.one_mul]
  obtain ⟨g, f, p, q, s⟩ := gathers_step B (m - 1) n3 (refill B (fun _ => none) file) (file.drop B)
    (by rw [List.length_drop]; omega) (by omega)
  refine ⟨gathers B n3 (refill B (fun _ => none) file) (file.drop B), g, f, by unfold mat2su; rw [if_neg (by omega)], p, ?_,
    fun i h1 h2 => ?_⟩
  · rw [show m - 1 + 1 = m by omega] at q; exact q
  · rw [s i h2, if_neg (by rw [List.length_drop]; omega)]

/-! Cases that meet the hypotheses. -/
example : (List.range 6).map (fun iz => line 3 (fun i => [0, 7, 20].getD i 0) 4 iz) =
    [some 0, some 0, some 1, some 1, some 1, some 2] := by decide +kernel
example : size 3 (fun i => [0, 7, 20].getD i 0) 4 = 6 := by decide +kernel
example : line 4 (fun i => [0, 1, 2, 20].getD i 0) 4 1 = some 1 :=
  (log_thin 4 _ 4 (by norm_num) (by norm_num) (by norm_num)).1
example : ((mat2su 2 5 [1, 2, 3, 4, 5]).map fun o => o.map fun f => (f 0, f 1)) =
    some [(some 1, some 2), (some 3, some 4), (some 5, some 4)] := by decide +kernel

end Verif.Util.Log

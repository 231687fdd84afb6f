import Verif.Su.Model

/-!
# Reading and writing gathers
-/

namespace Verif.Su

variable {β : Type*}

/-! ### Specification -/

/-- A trace of `n` samples: a complete header that says `n`, and `n` samples of four bytes. -/
structure IsTrace (W : Words β) (n : ℕ) (t : List β × List β) : Prop where
  hdr : t.1.length = hb
  dat : t.2.length = 4 * n
  ns : W.ns t.1 = n

/-- What tells gathers apart: source coordinate and field record number. -/
def key (W : Words β) (t : List β × List β) : ℤ × ℤ := (W.sx t.1, W.fldr t.1)

/-- A gather: at least one trace, all with the same key. -/
structure IsGather (W : Words β) (n : ℕ) (g : List (List β × List β)) : Prop where
  ne : g ≠ []
  tr : ∀ t ∈ g, IsTrace W n t
  same : ∀ t ∈ g, ∀ t' ∈ g, key W t = key W t'

/-- A file is cut into gathers: the keys of neighbouring gathers differ. -/
structure Cut (W : Words β) (n : ℕ) (gs : List (List (List β × List β))) : Prop where
  each : ∀ g ∈ gs, IsGather W n g
  next : gs.IsChain (fun g g' => ∀ t ∈ g, ∀ t' ∈ g', key W t ≠ key W t')

/-- Every file of traces of `n` samples can be cut into gathers. -/
theorem cut_exists (W : Words β) (n : ℕ) (l : List (List β × List β)) (h : ∀ t ∈ l, IsTrace W n t) : ∃ gs, gs.flatten = l ∧ Cut W n gs := by
  induction l with
  | nil => exact ⟨[], rfl, by simp, by simp⟩
  | cons t l ih =>
    obtain ⟨gs, e, c⟩ := ih (fun t ht => h t (by simp [ht]))
    cases gs with
    | nil =>
      refine ⟨[[t]], by rw [← e]; rfl, ?_, by simp⟩
      intro g hg
      rw [List.mem_singleton] at hg
      subst hg
      exact ⟨by simp, fun t' ht' => by rw [List.mem_singleton] at ht'; subst ht'; exact h _ (by simp), fun a ha b hb => by
        rw [List.mem_singleton] at ha hb; rw [ha, hb]⟩
    | cons g gs =>
      have hg := c.each g (by simp)
      obtain ⟨u, g', rfl⟩ := List.exists_cons_of_ne_nil hg.ne
      by_cases hk : key W t = key W u
      · refine ⟨(t :: u :: g') :: gs, by rw [← e]; rfl, ?_, ?_⟩
        · intro g hgm
          rcases List.mem_cons.mp hgm with rfl | hgm
          · have hall : ∀ a ∈ t :: u :: g', key W a = key W u := by
              intro a ha
              rcases List.mem_cons.mp ha with rfl | ha
              · exact hk
              · exact hg.same _ ha _ (by simp)
            refine ⟨by simp, fun a ha => ?_, fun a ha b hb => (hall a ha).trans (hall b hb).symm⟩
            rcases List.mem_cons.mp ha with rfl | ha
            · exact h _ (by simp)
            · exact hg.tr _ ha
          · exact c.each g (by simp [hgm])
        · cases gs with
          | nil => simp
          | cons g2 gs =>
            have := c.next
            rw [List.isChain_cons_cons] at this ⊢
            refine ⟨fun a ha b hb => ?_, this.2⟩
            rcases List.mem_cons.mp ha with rfl | ha
            · rw [hk]; exact this.1 u (by simp) b hb
            · exact this.1 a ha b hb
      · refine ⟨[t] :: (u :: g') :: gs, by rw [← e]; rfl, ?_, ?_⟩
        · intro g hgm
          rcases List.mem_cons.mp hgm with rfl | hgm
          · exact ⟨by simp, fun t' ht' => by rw [List.mem_singleton] at ht'; subst ht'; exact h _ (by simp), fun a ha b hb => by
              rw [List.mem_singleton] at ha hb; rw [ha, hb]⟩
          · exact c.each g hgm
        · rw [List.isChain_cons_cons]
          refine ⟨fun a ha b hb => ?_, c.next⟩
          rw [List.mem_singleton] at ha
          subst ha
          rw [hg.same b hb u (by simp)]
          exact hk

/-! ### One call -/

theorem writeData_append (a b : List (List β × List β)) : writeData (a ++ b) = writeData a ++ writeData b := by
  induction a with
  | nil => rfl
  | cons t a ih => rw [List.cons_append, writeData, writeData, ih]; simp

theorem writeData_flatten (gs : List (List (List β × List β))) : writeData gs.flatten = (gs.map writeData).flatten := by
  induction gs with
  | nil => rfl
  | cons g gs ih => rw [List.flatten_cons, writeData_append, ih]; rfl

theorem readLoop_spec (W : Words β) (seek : Bool) (caph capd n : ℕ) (sx fldr : ℤ) (tl : List (List β × List β))
    (htl : ∀ t, tl.head? = some t → t.1.length = hb ∧ key W t ≠ (sx, fldr)) (g : List (List β × List β)) :
    ∀ (it : ℕ) (h d : List β), (∀ t ∈ g, IsTrace W n t ∧ key W t = (sx, fldr)) → d.length = 4 * n →
      it + 1 + g.length ≤ caph → (it + 1 + g.length) * n ≤ capd →
      readLoop W seek caph capd n sx fldr it h (d ++ writeData (g ++ tl)) =
        .gather ((h, d) :: g) (if seek then writeData tl else (writeData tl).drop hb) := by
  have hb0 : hb = 240 := rfl
  induction g with
  | nil =>
    intro it h d _ hd hc hcd
    rw [readLoop, List.nil_append]
    have e1 : (it + 1 + ([] : List (List β × List β)).length) * n = it * n + n := by simp [Nat.succ_mul]
    rw [if_neg (by omega), if_neg (by rw [List.length_append]; omega)]
    dsimp only
    rw [← hd, List.take_left, List.drop_left]
    cases tl with
    | nil => simp [writeData]
    | cons t tl =>
      obtain ⟨h1, h2⟩ := htl t rfl
      have hl : (writeData (t :: tl)).length = hb + (t.2 ++ writeData tl).length := by rw [writeData, List.length_append, h1]
      rw [if_neg (by omega), dif_neg (by omega)]
      have ht : (writeData (t :: tl)).take hb = t.1 := by rw [writeData, ← h1, List.take_left]
      rw [ht, if_pos]
      by_contra hcon
      push Not at hcon
      exact h2 (by rw [key, ← hcon.1, ← hcon.2])
  | cons t g ih =>
    intro it h d hg hd hc hcd
    obtain ⟨ht, hk⟩ := hg t (by simp)
    rw [List.length_cons] at hc hcd
    rw [readLoop]
    have e1 : (it + 1 + (g.length + 1)) * n = it * n + n + (g.length + 1) * n := by ring
    rw [if_neg (by omega), if_neg (by rw [List.length_append]; omega)]
    dsimp only
    rw [← hd, List.take_left, List.drop_left, List.cons_append]
    have hl : (writeData (t :: (g ++ tl))).length = hb + (t.2 ++ writeData (g ++ tl)).length := by rw [writeData, List.length_append, ht.hdr]
    rw [if_neg (by omega), dif_neg (by omega)]
    have htk : (writeData (t :: (g ++ tl))).take hb = t.1 := by rw [writeData, ← ht.hdr, List.take_left]
    have hdr : (writeData (t :: (g ++ tl))).drop hb = t.2 ++ writeData (g ++ tl) := by rw [writeData, ← ht.hdr, List.drop_left]
    unfold key at hk
    rw [Prod.mk.injEq] at hk
    rw [htk, hdr, if_neg (by rw [hk.1, hk.2]; simp), if_neg (by omega),
      ih (it + 1) t.1 t.2 (fun u hu => hg u (by simp [hu])) ht.dat (by omega) (by rw [show it + 1 + 1 + g.length = it + 1 + (g.length + 1) by ring]; omega)]
    rfl

/-- **C133.** A call of `readData` at the start of a gather delivers exactly the traces of this gather, headers and samples, as long as they
fit in the arrays, and leaves the file at the start of the next one. -/
theorem readData_spec (W : Words β) (caph capd n1 n : ℕ) (hn : n1 = n ∨ n1 = 0) (mem : List β) (g : List (List β × List β)) (hg : IsGather W n g)
    (tl : List (List β × List β)) (htl : ∀ t, tl.head? = some t → t.1.length = hb ∧ ∀ t' ∈ g, key W t ≠ key W t')
    (hc : g.length ≤ caph) (hcd : g.length * n ≤ capd) :
    readData W true caph capd n1 mem (writeData (g ++ tl)) = .gather g (writeData tl) := by
  obtain ⟨t, g, rfl⟩ := List.exists_cons_of_ne_nil hg.ne
  have ht := hg.tr t (by simp)
  have hb0 : hb = 240 := rfl
  have hl : (writeData (t :: g ++ tl)).length = hb + (t.2 ++ writeData (g ++ tl)).length := by rw [List.cons_append, writeData, List.length_append, ht.hdr]
  have htk : (writeData (t :: g ++ tl)).take hb = t.1 := by rw [List.cons_append, writeData, ← ht.hdr, List.take_left]
  have hdr : (writeData (t :: g ++ tl)).drop hb = t.2 ++ writeData (g ++ tl) := by rw [List.cons_append, writeData, ← ht.hdr, List.drop_left]
  rw [List.length_cons] at hc hcd
  have key1 : readLoop W true caph capd n (W.sx t.1) (W.fldr t.1) 0 t.1 (t.2 ++ writeData (g ++ tl)) = .gather (t :: g) (writeData tl) :=
    (readLoop_spec W true caph capd n (W.sx t.1) (W.fldr t.1) tl (fun u hu => ⟨(htl u hu).1, (htl u hu).2 t (by simp)⟩) g 0 t.1 t.2
      (fun u hu => ⟨hg.tr u (by simp [hu]), hg.same u (by simp [hu]) t (by simp)⟩) ht.dat (by omega) (by rw [show 0 + 1 + g.length = g.length + 1 by ring]; exact hcd))
  unfold readData
  rw [if_neg (by omega), if_neg (by omega)]
  dsimp only
  rw [htk, hdr]
  rw [ht.hdr, List.drop_eq_nil_of_le (by rw [List.length_take]; omega), List.append_nil, ht.ns]
  rcases hn with rfl | rfl
  · rw [ite_self]; exact key1
  · rw [if_pos rfl]; exact key1

/-- A gather with more traces than there are headers is written beyond the array. -/
theorem readLoop_overrun (W : Words β) (seek : Bool) (caph capd n : ℕ) (sx fldr : ℤ) (tl : List (List β × List β)) (g : List (List β × List β)) :
    ∀ (it : ℕ) (h d : List β), (∀ t ∈ g, IsTrace W n t ∧ key W t = (sx, fldr)) → d.length = 4 * n → it + 1 ≤ caph → caph < it + 1 + g.length →
      readLoop W seek caph capd n sx fldr it h (d ++ writeData (g ++ tl)) = .ub := by
  have hb0 : hb = 240 := rfl
  induction g with
  | nil => intro it h d _ _ h1 h2; simp at h2; omega
  | cons t g ih =>
    intro it h d hg hd h1 h2
    obtain ⟨ht, hk⟩ := hg t (by simp)
    rw [List.length_cons] at h2
    rw [readLoop]
    by_cases hcd : capd < it * n + n
    · rw [if_pos hcd]
    · rw [if_neg hcd, if_neg (by rw [List.length_append]; omega)]
      dsimp only
      rw [← hd, List.take_left, List.drop_left, List.cons_append]
      have hl : (writeData (t :: (g ++ tl))).length = hb + (t.2 ++ writeData (g ++ tl)).length := by rw [writeData, List.length_append, ht.hdr]
      rw [if_neg (by omega), dif_neg (by omega)]
      have htk : (writeData (t :: (g ++ tl))).take hb = t.1 := by rw [writeData, ← ht.hdr, List.take_left]
      have hdr : (writeData (t :: (g ++ tl))).drop hb = t.2 ++ writeData (g ++ tl) := by rw [writeData, ← ht.hdr, List.drop_left]
      unfold key at hk
      rw [Prod.mk.injEq] at hk
      rw [htk, hdr, if_neg (by rw [hk.1, hk.2]; simp)]
      by_cases hc : caph ≤ it + 1
      · rw [if_pos hc]
      · rw [if_neg hc, ih (it + 1) t.1 t.2 (fun u hu => hg u (by simp [hu])) ht.dat (by omega) (by omega)]
        rfl

/-- **C133.** A gather with more traces than the arrays have room for is written beyond them: the number is not checked. -/
theorem readData_overrun (W : Words β) (seek : Bool) (caph capd n1 n : ℕ) (hn : n1 = n ∨ n1 = 0) (mem : List β) (g : List (List β × List β))
    (hg : IsGather W n g) (tl : List (List β × List β)) (hc : caph < g.length) :
    readData W seek caph capd n1 mem (writeData (g ++ tl)) = .ub := by
  obtain ⟨t, g, rfl⟩ := List.exists_cons_of_ne_nil hg.ne
  have ht := hg.tr t (by simp)
  have hb0 : hb = 240 := rfl
  have hl : (writeData (t :: g ++ tl)).length = hb + (t.2 ++ writeData (g ++ tl)).length := by rw [List.cons_append, writeData, List.length_append, ht.hdr]
  have htk : (writeData (t :: g ++ tl)).take hb = t.1 := by rw [List.cons_append, writeData, ← ht.hdr, List.take_left]
  have hdr : (writeData (t :: g ++ tl)).drop hb = t.2 ++ writeData (g ++ tl) := by rw [List.cons_append, writeData, ← ht.hdr, List.drop_left]
  rw [List.length_cons] at hc
  unfold readData
  rw [if_neg (by omega)]
  by_cases h0 : caph = 0
  · rw [if_pos h0]
  rw [if_neg h0]
  dsimp only
  have key1 := readLoop_overrun W seek caph capd n (W.sx t.1) (W.fldr t.1) tl g 0 t.1 t.2
    (fun u hu => ⟨hg.tr u (by simp [hu]), hg.same u (by simp [hu]) t (by simp)⟩) ht.dat (by omega) (by omega)
  rw [htk, hdr, ht.hdr, List.drop_eq_nil_of_le (by rw [List.length_take]; omega), List.append_nil, ht.ns]
  rcases hn with rfl | rfl
  · rw [ite_self]; exact key1
  · rw [if_pos rfl]; exact key1

theorem readLoop_truncated (W : Words β) (seek : Bool) (caph capd n : ℕ) (sx fldr : ℤ) (g : List (List β × List β)) :
    ∀ (it k : ℕ) (h d : List β), (∀ t ∈ g, IsTrace W n t ∧ key W t = (sx, fldr)) → d.length = 4 * n → it + 1 + g.length ≤ caph →
      (it + 1 + g.length) * n ≤ capd → k ≤ (writeData g).length → k % (hb + 4 * n) ≠ 0 →
      readLoop W seek caph capd n sx fldr it h (d ++ (writeData g).take k) = .abort := by
  have hb0 : hb = 240 := rfl
  induction g with
  | nil =>
    intro it k h d _ _ _ _ hk hm
    exfalso
    have : k = 0 := by simpa [writeData] using hk
    subst this
    exact hm (Nat.zero_mod _)
  | cons t g ih =>
    intro it k h d hg hd hc hcd hk hm
    obtain ⟨ht, hkey⟩ := hg t (by simp)
    rw [List.length_cons] at hc hcd
    have hk0 : k ≠ 0 := fun h => hm (by rw [h, Nat.zero_mod])
    have e1 : (it + 1 + (g.length + 1)) * n = it * n + n + (n + g.length * n) := by ring
    have hwl : (writeData (t :: g)).length = hb + (4 * n + (writeData g).length) := by rw [writeData, List.length_append, List.length_append, ht.hdr, ht.dat]
    rw [readLoop, if_neg (by omega), if_neg (by rw [List.length_append]; omega)]
    dsimp only
    rw [← hd, List.take_left, List.drop_left]
    have hl : ((writeData (t :: g)).take k).length = k := by rw [List.length_take]; omega
    rw [if_neg (by omega)]
    by_cases hkb : k < hb
    · rw [dif_pos (by omega)]
    · rw [dif_neg (by omega)]
      have htk : ((writeData (t :: g)).take k).take hb = t.1 := by
        rw [List.take_take, min_eq_left (by omega), writeData, ← ht.hdr, List.take_left]
      have hdr : ((writeData (t :: g)).take k).drop hb = (t.2 ++ writeData g).take (k - hb) := by
        rw [List.drop_take, writeData, ← ht.hdr, List.drop_left]
      have hkey' : W.sx t.1 = sx ∧ W.fldr t.1 = fldr := by simpa [key] using hkey
      rw [htk, hdr, if_neg (by rw [hkey'.1, hkey'.2]; simp), if_neg (by omega)]
      by_cases hk4 : k - hb < 4 * n
      · rw [readLoop]
        have e2 : (it + 1) * n + n = it * n + n + n := by ring
        rw [if_neg (by omega), if_pos (by rw [List.length_take]; omega)]
        rfl
      · have hsplit : (t.2 ++ writeData g).take (k - hb) = t.2 ++ (writeData g).take (k - (hb + 4 * n)) := by
          rw [List.take_append, List.take_of_length_le (by rw [ht.dat]; omega), ht.dat, Nat.sub_sub]
        rw [hsplit, ih (it + 1) (k - (hb + 4 * n)) t.1 t.2 (fun u hu => hg u (by simp [hu])) ht.dat (by omega)
          (by rw [show it + 1 + 1 + g.length = it + 1 + (g.length + 1) by ring]; exact hcd) (by omega)
          (by rw [← Nat.mod_eq_sub_mod (by omega)]; exact hm)]
        rfl

/-- **C133.** A file that ends within a trace is not taken for a complete one: the call aborts.  (The number of samples is known.) -/
theorem readData_truncated (W : Words β) (seek : Bool) (caph capd n : ℕ) (hn : 0 < n) (mem : List β) (g : List (List β × List β)) (hg : IsGather W n g)
    (hc : g.length ≤ caph) (hcd : g.length * n ≤ capd) (k : ℕ) (hk : k ≤ (writeData g).length) (hm : k % (hb + 4 * n) ≠ 0) :
    readData W seek caph capd n mem ((writeData g).take k) = .abort := by
  obtain ⟨t, g, rfl⟩ := List.exists_cons_of_ne_nil hg.ne
  have ht := hg.tr t (by simp)
  have hb0 : hb = 240 := rfl
  have hk0 : k ≠ 0 := fun h => hm (by rw [h, Nat.zero_mod])
  have hwl : (writeData (t :: g)).length = hb + (4 * n + (writeData g).length) := by rw [writeData, List.length_append, List.length_append, ht.hdr, ht.dat]
  have hl : ((writeData (t :: g)).take k).length = k := by rw [List.length_take]; omega
  rw [List.length_cons] at hc hcd
  have e1 : (g.length + 1) * n = n + g.length * n := by ring
  unfold readData
  rw [if_neg (by omega), if_neg (by omega)]
  dsimp only
  rw [if_neg (by omega)]
  by_cases hkb : k ≤ hb
  · have : ((writeData (t :: g)).take k).drop hb = [] := List.drop_eq_nil_of_le (by omega)
    rw [this, readLoop, if_neg (by omega), if_pos (by simp; omega)]
  · have htk : ((writeData (t :: g)).take k).take hb = t.1 := by
      rw [List.take_take, min_eq_left (by omega), writeData, ← ht.hdr, List.take_left]
    have hdr : ((writeData (t :: g)).take k).drop hb = (t.2 ++ writeData g).take (k - hb) := by
      rw [List.drop_take, writeData, ← ht.hdr, List.drop_left]
    rw [htk, hdr, ht.hdr, List.drop_eq_nil_of_le (by rw [List.length_take]; omega), List.append_nil]
    by_cases hk4 : k - hb < 4 * n
    · rw [readLoop, if_neg (by omega), if_pos (by rw [List.length_take]; omega)]
    · have hsplit : (t.2 ++ writeData g).take (k - hb) = t.2 ++ (writeData g).take (k - (hb + 4 * n)) := by
        rw [List.take_append, List.take_of_length_le (by rw [ht.dat]; omega), ht.dat, Nat.sub_sub]
      rw [hsplit]
      exact readLoop_truncated W seek caph capd n (W.sx t.1) (W.fldr t.1) g 0 (k - (hb + 4 * n)) t.1 t.2
        (fun u hu => ⟨hg.tr u (by simp [hu]), hg.same u (by simp [hu]) t (by simp)⟩) ht.dat (by omega)
        (by rw [show 0 + 1 + g.length = g.length + 1 by ring]; exact hcd) (by omega) (by rw [← Nat.mod_eq_sub_mod (by omega)]; exact hm)

/-- **C133.** On a pipe the header of the next gather is lost: the next call starts with the samples of it. -/
theorem readData_pipe (W : Words β) (caph capd n1 n : ℕ) (hn : n1 = n ∨ n1 = 0) (mem : List β) (g : List (List β × List β)) (hg : IsGather W n g)
    (t : List β × List β) (tl : List (List β × List β)) (ht : t.1.length = hb) (hk : ∀ t' ∈ g, key W t ≠ key W t') (hc : g.length ≤ caph)
    (hcd : g.length * n ≤ capd) : readData W false caph capd n1 mem (writeData (g ++ t :: tl)) = .gather g (t.2 ++ writeData tl) := by
  obtain ⟨u, g, rfl⟩ := List.exists_cons_of_ne_nil hg.ne
  have hu := hg.tr u (by simp)
  have hb0 : hb = 240 := rfl
  have hl : (writeData (u :: g ++ t :: tl)).length = hb + (u.2 ++ writeData (g ++ t :: tl)).length := by
    rw [List.cons_append, writeData, List.length_append, hu.hdr]
  have htk : (writeData (u :: g ++ t :: tl)).take hb = u.1 := by rw [List.cons_append, writeData, ← hu.hdr, List.take_left]
  have hdr : (writeData (u :: g ++ t :: tl)).drop hb = u.2 ++ writeData (g ++ t :: tl) := by rw [List.cons_append, writeData, ← hu.hdr, List.drop_left]
  rw [List.length_cons] at hc hcd
  have key1 := readLoop_spec W false caph capd n (W.sx u.1) (W.fldr u.1) (t :: tl)
    (fun v hv => by
      simp only [List.head?_cons, Option.some.injEq] at hv
      subst hv
      exact ⟨ht, hk u (by simp)⟩) g 0 u.1 u.2
    (fun v hv => ⟨hg.tr v (by simp [hv]), hg.same v (by simp [hv]) u (by simp)⟩) hu.dat (by omega)
    (by rw [show 0 + 1 + g.length = g.length + 1 by ring]; exact hcd)
  have e : (writeData (t :: tl)).drop hb = t.2 ++ writeData tl := by rw [writeData, ← ht, List.drop_left]
  rw [if_neg (by simp), e] at key1
  unfold readData
  rw [if_neg (by omega), if_neg (by omega)]
  dsimp only
  rw [htk, hdr, hu.hdr, List.drop_eq_nil_of_le (by rw [List.length_take]; omega), List.append_nil, hu.ns]
  rcases hn with rfl | rfl
  · rw [ite_self]; exact key1
  · rw [if_pos rfl]; exact key1

/-! ### The size that `getFileInfo` gives -/

theorem countLoop_spec (W : Words β) (n : ℕ) (sx fldr : ℤ) (tl : List (List β × List β))
    (htl : ∀ t, tl.head? = some t → t.1.length = hb ∧ key W t ≠ (sx, fldr)) (g : List (List β × List β)) :
    ∀ (it : ℕ) (h d : List β), W.ns h = n → (∀ t ∈ g, IsTrace W n t ∧ key W t = (sx, fldr)) → d.length = 4 * n →
      ∃ p, countLoop W n sx fldr it h (d ++ writeData (g ++ tl)) = some (it + 1 + g.length, p) := by
  have hb0 : hb = 240 := rfl
  induction g with
  | nil =>
    intro it h d hh _ hd
    rw [countLoop, if_neg (by omega), hh, if_neg (by rw [List.length_append]; omega), List.nil_append]
    dsimp only
    rw [← hd, List.drop_left]
    cases tl with
    | nil => exact ⟨h, by simp [writeData, hb0]⟩
    | cons t tl =>
      obtain ⟨h1, h2⟩ := htl t rfl
      have hl : (writeData (t :: tl)).length = hb + (t.2 ++ writeData tl).length := by rw [writeData, List.length_append, h1]
      have ht : (writeData (t :: tl)).take hb = t.1 := by rw [writeData, ← h1, List.take_left]
      rw [dif_neg (by omega), ht, if_pos]
      · exact ⟨t.1, by simp⟩
      · by_contra hcon
        push Not at hcon
        exact h2 (by rw [key, ← hcon.1, ← hcon.2])
  | cons t g ih =>
    intro it h d hh hg hd
    obtain ⟨ht, hk⟩ := hg t (by simp)
    rw [countLoop, if_neg (by omega), hh, if_neg (by rw [List.length_append]; omega), List.cons_append]
    dsimp only
    rw [← hd, List.drop_left]
    have hl : (writeData (t :: (g ++ tl))).length = hb + (t.2 ++ writeData (g ++ tl)).length := by rw [writeData, List.length_append, ht.hdr]
    have htk : (writeData (t :: (g ++ tl))).take hb = t.1 := by rw [writeData, ← ht.hdr, List.take_left]
    have hdr : (writeData (t :: (g ++ tl))).drop hb = t.2 ++ writeData (g ++ tl) := by rw [writeData, ← ht.hdr, List.drop_left]
    have hkey' : W.sx t.1 = sx ∧ W.fldr t.1 = fldr := by simpa [key] using hk
    obtain ⟨p, e⟩ := ih (it + 1) t.1 t.2 ht.ns (fun u hu => hg u (by simp [hu])) ht.dat
    rw [dif_neg (by omega), htk, hdr, if_neg (by rw [hkey'.1, hkey'.2]; simp), e]
    exact ⟨p, by rw [List.length_cons, show it + 1 + 1 + g.length = it + 1 + (g.length + 1) by ring]⟩

/-- The first gather of a file decides the size of the arrays: `n2` is its number of traces, or, when it has a single trace, what a header
says, but at least one. -/
theorem fileInfo_spec (W : Words β) (n : ℕ) (g : List (List β × List β)) (hg : IsGather W n g) (tl : List (List β × List β))
    (htl : ∀ t, tl.head? = some t → t.1.length = hb ∧ ∀ t' ∈ g, key W t ≠ key W t') :
    ∃ n2, fileInfo W (writeData (g ++ tl)) = some (n, n2) ∧ (2 ≤ g.length → n2 = g.length) ∧ 1 ≤ n2 := by
  obtain ⟨t, g, rfl⟩ := List.exists_cons_of_ne_nil hg.ne
  have ht := hg.tr t (by simp)
  have hl : (writeData (t :: g ++ tl)).length = hb + (t.2 ++ writeData (g ++ tl)).length := by rw [List.cons_append, writeData, List.length_append, ht.hdr]
  have htk : (writeData (t :: g ++ tl)).take hb = t.1 := by rw [List.cons_append, writeData, ← ht.hdr, List.take_left]
  have hdr : (writeData (t :: g ++ tl)).drop hb = t.2 ++ writeData (g ++ tl) := by rw [List.cons_append, writeData, ← ht.hdr, List.drop_left]
  obtain ⟨p, e⟩ := countLoop_spec W n (W.sx t.1) (W.fldr t.1) tl (fun u hu => ⟨(htl u hu).1, (htl u hu).2 t (by simp)⟩) g 0 t.1 t.2 ht.ns
    (fun u hu => ⟨hg.tr u (by simp [hu]), hg.same u (by simp [hu]) t (by simp)⟩) ht.dat
  unfold fileInfo
  rw [if_neg (by omega)]
  dsimp only
  rw [htk, hdr, ht.ns, e]
  refine ⟨_, rfl, fun h2 => ?_, ?_⟩
  · rw [List.length_cons] at h2 ⊢
    dsimp only
    rw [if_pos (by omega)]
    omega
  · dsimp only
    split <;> omega

/-! ### Whole programs -/

theorem cut_tail {W : Words β} {n : ℕ} {g : List (List β × List β)} {gs : List (List (List β × List β))} (h : Cut W n (g :: gs)) :
    Cut W n gs ∧ ∀ t, gs.flatten.head? = some t → t.1.length = hb ∧ ∀ t' ∈ g, key W t ≠ key W t' := by
  refine ⟨⟨fun g' hg' => h.each g' (by simp [hg']), ?_⟩, ?_⟩
  · cases gs with
    | nil => simp
    | cons g' gs => exact (List.isChain_cons_cons.mp h.next).2
  · intro t ht
    cases gs with
    | nil => simp at ht
    | cons g' gs =>
      have hg' := h.each g' (by simp)
      obtain ⟨u, g', rfl⟩ := List.exists_cons_of_ne_nil hg'.ne
      have hu : u = t := by simpa using ht
      subst hu
      exact ⟨(hg'.tr u (by simp)).hdr, fun t' ht' => ((List.isChain_cons_cons.mp h.next).1 t' ht' u (by simp)).symm⟩

theorem loop_spec (W : Words β) (caph capd n : ℕ) (f : List (List β × List β) → List (List β × List β)) (gs : List (List (List β × List β))) :
    ∀ (fuel : ℕ) (g : List (List β × List β)) (out : List β), gs.length < fuel → Cut W n gs → (∀ g ∈ gs, g.length ≤ caph ∧ g.length * n ≤ capd) →
      loop W true caph capd n f fuel g (writeData gs.flatten) out = .done (out ++ writeData ((g :: gs).map f).flatten) := by
  induction gs with
  | nil =>
    intro fuel g out hf _ _
    obtain ⟨k, rfl⟩ : ∃ k, fuel = k + 1 := ⟨fuel - 1, by simp at hf; omega⟩
    simp [loop, readData, writeData]
  | cons g' gs ih =>
    intro fuel g out hf hcut hcap
    obtain ⟨k, rfl⟩ : ∃ k, fuel = k + 1 := ⟨fuel - 1, by simp at hf; omega⟩
    obtain ⟨c1, c2⟩ := cut_tail hcut
    have h1 := hcap g' (by simp)
    rw [loop]
    rw [List.flatten_cons, readData_spec W caph capd n n (Or.inl rfl) _ g' (hcut.each g' (by simp)) gs.flatten c2 h1.1 h1.2]
    dsimp only
    rw [ih k g' _ (by simpa using hf) c1 (fun g hg => hcap g (by simp [hg]))]
    simp [writeData_append]

theorem length_le_writeData {W : Words β} {n : ℕ} (gs : List (List (List β × List β))) (h : Cut W n gs) : gs.length ≤ (writeData gs.flatten).length := by
  induction gs with
  | nil => simp
  | cons g gs ih =>
    have hg := h.each g (by simp)
    obtain ⟨u, g, rfl⟩ := List.exists_cons_of_ne_nil hg.ne
    have hu := (hg.tr u (by simp)).hdr
    have := ih (cut_tail h).1
    have hb0 : hb = 240 := rfl
    rw [List.flatten_cons, writeData_append, List.length_append, writeData, List.length_append, List.length_cons]
    omega

theorem head_ns {W : Words β} {n : ℕ} {g : List (List β × List β)} (hg : IsGather W n g) : W.ns ((g.head?.map Prod.fst).getD []) = n := by
  obtain ⟨u, g, rfl⟩ := List.exists_cons_of_ne_nil hg.ne
  exact (hg.tr u (by simp)).ns

theorem filterSized_spec (W : Words β) (size : ℕ × ℕ) (n n1 : ℕ) (hn : n1 = n ∨ n1 = 0) (mem : List β) (f : List (List β × List β) → List (List β × List β))
    (g : List (List β × List β)) (gs : List (List (List β × List β))) (h : Cut W n (g :: gs)) (h1 : n ≤ size.1) (h2 : ∀ g' ∈ g :: gs, g'.length ≤ size.2) :
    filterSized W true size n1 mem f (writeData (g :: gs).flatten) = .done (writeData ((g :: gs).map f).flatten) := by
  obtain ⟨c1, c2⟩ := cut_tail h
  have hg := h.each g (by simp)
  have hlen := length_le_writeData (g :: gs) h
  unfold filterSized
  have hcap : ∀ g' ∈ g :: gs, g'.length * n ≤ size.1 * size.2 ∧ g'.length * n ≤ n * size.2 := fun g' hg' => by
    refine ⟨?_, ?_⟩
    · rw [Nat.mul_comm]; exact Nat.mul_le_mul h1 (h2 g' hg')
    · rw [Nat.mul_comm]; exact Nat.mul_le_mul_left _ (h2 g' hg')
  have e := readData_spec W size.2 (size.1 * size.2) n1 n hn mem g hg gs.flatten c2 (h2 g (by simp)) (hcap g (by simp)).1
  rw [List.flatten_cons] at hlen ⊢
  rw [e]
  dsimp only
  rw [head_ns hg, loop_spec W size.2 (n * size.2) n f gs _ g [] (by rw [List.length_cons] at hlen; omega) c1
    (fun g' hg' => ⟨h2 g' (by simp [hg']), (hcap g' (by simp [hg'])).2⟩)]
  rfl

/-- **C134.** A program with an operation `f` on gathers writes exactly the results of all gathers of the file, in their order, when the
arrays are large enough: `ntmax` and `nxmax` are given and large enough, or no gather has more traces than the first one. -/
theorem filter_spec_partial (W : Words β) (given : Option (ℕ × ℕ)) (dflt : ℕ × ℕ) (mem : List β) (n : ℕ)
    (f : List (List β × List β) → List (List β × List β)) (g : List (List β × List β)) (gs : List (List (List β × List β))) (h : Cut W n (g :: gs))
    (hsize : (given = none ∧ ∀ g' ∈ gs, g'.length ≤ g.length) ∨ ∃ p, given = some p ∧ n ≤ p.1 ∧ ∀ g' ∈ g :: gs, g'.length ≤ p.2) :
    filter W true given dflt mem f (writeData (g :: gs).flatten) = .done (writeData ((g :: gs).map f).flatten) := by
  obtain ⟨c1, c2⟩ := cut_tail h
  have hg := h.each g (by simp)
  have hg0 : 0 < g.length := List.length_pos_of_ne_nil hg.ne
  obtain ⟨n2, e, hn2, hn1⟩ := fileInfo_spec W n g hg gs.flatten c2
  unfold filter
  rw [if_pos rfl, List.flatten_cons, e]
  dsimp only
  rw [← List.flatten_cons]
  have hle : g.length ≤ n2 := by
    by_cases h2 : 2 ≤ g.length
    · exact (hn2 h2).ge
    · omega
  rcases hsize with ⟨rfl, hs⟩ | ⟨p, rfl, hp1, hp2⟩
  · refine filterSized_spec W (n, n2) n n (Or.inl rfl) mem f g gs h le_rfl (fun g' hg' => ?_)
    rcases List.mem_cons.mp hg' with rfl | hg'
    · exact hle
    · exact (hs g' hg').trans hle
  · exact filterSized_spec W p n n (Or.inl rfl) mem f g gs h hp1 hp2

theorem loop_overrun (W : Words β) (caph capd n : ℕ) (f : List (List β × List β) → List (List β × List β)) (gs : List (List (List β × List β))) :
    ∀ (fuel : ℕ) (g : List (List β × List β)) (out : List β), gs.length < fuel → Cut W n gs → caph * n ≤ capd → (∃ g ∈ gs, caph < g.length) →
      loop W true caph capd n f fuel g (writeData gs.flatten) out = .ub := by
  induction gs with
  | nil => intro fuel g out _ _ _ ⟨g, hg, _⟩; simp at hg
  | cons g' gs ih =>
    intro fuel g out hf hcut hcap hex
    obtain ⟨k, rfl⟩ : ∃ k, fuel = k + 1 := ⟨fuel - 1, by simp at hf; omega⟩
    obtain ⟨c1, c2⟩ := cut_tail hcut
    rw [loop]
    rw [List.flatten_cons]
    by_cases h1 : caph < g'.length
    · rw [readData_overrun W true caph capd n n (Or.inl rfl) _ g' (hcut.each g' (by simp)) gs.flatten h1]
    · rw [readData_spec W caph capd n n (Or.inl rfl) _ g' (hcut.each g' (by simp)) gs.flatten c2 (by omega)
        ((Nat.mul_le_mul_right n (show g'.length ≤ caph by omega)).trans hcap)]
      dsimp only
      obtain ⟨x, hx, hlt⟩ := hex
      rcases List.mem_cons.mp hx with rfl | hx
      · omega
      · exact ih k g' _ (by simpa using hf) c1 hcap ⟨x, hx, hlt⟩

/-- **C134.** Without `nxmax`, a file in which a later gather has more traces than the first one (of at least two) is written beyond the
arrays. -/
theorem filter_larger_gather (W : Words β) (dflt : ℕ × ℕ) (mem : List β) (n : ℕ) (f : List (List β × List β) → List (List β × List β))
    (g : List (List β × List β)) (gs : List (List (List β × List β))) (h : Cut W n (g :: gs)) (h2 : 2 ≤ g.length) (hl : ∃ g' ∈ gs, g.length < g'.length) :
    filter W true none dflt mem f (writeData (g :: gs).flatten) = .ub := by
  obtain ⟨c1, c2⟩ := cut_tail h
  have hg := h.each g (by simp)
  obtain ⟨n2, e, hn2, hn1⟩ := fileInfo_spec W n g hg gs.flatten c2
  have hlen := length_le_writeData (g :: gs) h
  rw [List.flatten_cons] at hlen ⊢
  unfold filter
  rw [if_pos rfl, e]
  dsimp only
  rw [hn2 h2, Option.getD_none]
  unfold filterSized
  rw [readData_spec W _ _ n n (Or.inl rfl) mem g hg gs.flatten c2 le_rfl (by rw [Nat.mul_comm])]
  dsimp only
  rw [head_ns hg]
  exact loop_overrun W g.length (n * g.length) n f gs _ g [] (by rw [List.length_cons] at hlen; omega) c1 (by rw [Nat.mul_comm]) hl

/-- **C134.** From a pipe a single gather is processed. -/
theorem filter_pipe_one (W : Words β) (dflt : ℕ × ℕ) (mem : List β) (n : ℕ) (f : List (List β × List β) → List (List β × List β))
    (g : List (List β × List β)) (hg : IsGather W n g) (h1 : n ≤ dflt.1) (h2 : g.length ≤ dflt.2) :
    filter W false none dflt mem f (writeData g) = .done (writeData (f g)) := by
  obtain ⟨u, g, rfl⟩ := List.exists_cons_of_ne_nil hg.ne
  have hu := hg.tr u (by simp)
  have hb0 : hb = 240 := rfl
  have key1 := readLoop_spec W false dflt.2 (dflt.1 * dflt.2) n (W.sx u.1) (W.fldr u.1) [] (by simp) g 0 u.1 u.2
    (fun v hv => ⟨hg.tr v (by simp [hv]), hg.same v (by simp [hv]) u (by simp)⟩) hu.dat (by rw [List.length_cons] at h2; omega)
    (by rw [Nat.mul_comm]; rw [List.length_cons] at h2; exact Nat.mul_le_mul h1 (by omega))
  rw [List.append_nil] at key1
  have hl : (writeData (u :: g)).length = hb + (u.2 ++ writeData g).length := by rw [writeData, List.length_append, hu.hdr]
  have htk : (writeData (u :: g)).take hb = u.1 := by rw [writeData, ← hu.hdr, List.take_left]
  have hdr : (writeData (u :: g)).drop hb = u.2 ++ writeData g := by rw [writeData, ← hu.hdr, List.drop_left]
  have e : readData W false dflt.2 (dflt.1 * dflt.2) 0 mem (writeData (u :: g)) = .gather (u :: g) [] := by
    unfold readData
    rw [if_neg (by omega), if_neg (by rw [List.length_cons] at h2; omega)]
    dsimp only
    rw [htk, hdr, hu.hdr, List.drop_eq_nil_of_le (by rw [List.length_take]; omega), List.append_nil, hu.ns, if_pos rfl, key1]
    simp [writeData]
  unfold filter filterSized
  rw [if_neg (by simp), Option.getD_none, e]
  dsimp only
  rw [loop]
  simp [readData]

/-- **C134.** From a pipe with two gathers, the second of a single trace, nothing is written of the second: the program aborts. -/
theorem filter_pipe_two (W : Words β) (dflt : ℕ × ℕ) (mem : List β) (n : ℕ) (hn : 0 < n) (f : List (List β × List β) → List (List β × List β))
    (g : List (List β × List β)) (hg : IsGather W n g) (t : List β × List β) (ht : IsTrace W n t) (hk : ∀ t' ∈ g, key W t ≠ key W t')
    (h1 : n ≤ dflt.1) (h2 : g.length ≤ dflt.2) : filter W false none dflt mem f (writeData (g ++ [t])) = .abort := by
  have hb0 : hb = 240 := rfl
  have hg0 : 0 < g.length := List.length_pos_of_ne_nil hg.ne
  unfold filter filterSized
  rw [if_neg (by simp), Option.getD_none, readData_pipe W dflt.2 (dflt.1 * dflt.2) 0 n (Or.inr rfl) mem g hg t [] ht.hdr hk h2
    (by rw [Nat.mul_comm]; exact Nat.mul_le_mul h1 h2)]
  dsimp only
  rw [head_ns hg, loop]
  have e : readData W false dflt.2 (n * dflt.2) n (((f g).head?.map Prod.fst).getD []) (t.2 ++ writeData []) = .abort := by
    have hle : n * 1 ≤ n * dflt.2 := Nat.mul_le_mul_left n (by omega)
    have hl : (t.2 ++ writeData []).length = 4 * n := by simp [writeData, ht.dat]
    unfold readData
    rw [if_neg (by omega), if_neg (by omega)]
    dsimp only
    rw [if_neg (by omega), readLoop, if_neg (by omega), if_pos (by rw [List.length_drop]; omega)]
  rw [e]

/-! ### The hypotheses are met -/

/-- A reading of headers for the examples: the bytes are numbers, the first is the number of samples, the second the source. -/
def exWords : Words ℕ where
  ns h := h.headD 0
  sx h := (h.drop 1).headD 0
  fldr _ := 1
  trwf _ := 0

/-- A trace of one sample of source `s`. -/
def exTrace (s v : ℕ) : List ℕ × List ℕ := ([1, s] ++ List.replicate 238 0, [v, v, v, v])

theorem exTrace_ok (s v : ℕ) : IsTrace exWords 1 (exTrace s v) :=
  ⟨by rw [exTrace]; simp only [List.length_append, List.length_replicate]; rfl, rfl, rfl⟩

theorem ex_key (s v : ℕ) : key exWords (exTrace s v) = ((s : ℤ), 1) := rfl

theorem ex_gather (s v w : ℕ) : IsGather exWords 1 [exTrace s v, exTrace s w] :=
  ⟨by simp, fun t ht => by
    rcases List.mem_cons.mp ht with rfl | ht
    · exact exTrace_ok _ _
    · rw [List.mem_singleton] at ht; subst ht; exact exTrace_ok _ _, fun a ha b hb => by
    have : ∀ a ∈ [exTrace s v, exTrace s w], key exWords a = ((s : ℤ), 1) := by
      intro a ha
      simp only [List.mem_cons, List.not_mem_nil, or_false] at ha
      rcases ha with rfl | rfl <;> rfl
    rw [this a ha, this b hb]⟩

/-- Two gathers with two traces each. -/
theorem ex_cut : Cut exWords 1 [[exTrace 3 7, exTrace 3 8], [exTrace 4 9, exTrace 4 10]] :=
  ⟨fun g hg => by
    simp only [List.mem_cons, List.not_mem_nil, or_false] at hg
    rcases hg with rfl | rfl <;> exact ex_gather _ _ _, by
    simp only [List.isChain_cons_cons, List.isChain_singleton, and_true]
    intro a ha b hb
    simp only [List.mem_cons, List.not_mem_nil, or_false] at ha hb
    rcases ha with rfl | rfl <;> rcases hb with rfl | rfl <;> rw [ex_key, ex_key] <;> decide⟩

example : filter exWords true none (0, 0) [] List.reverse (writeData [[exTrace 3 7, exTrace 3 8], [exTrace 4 9, exTrace 4 10]].flatten) =
    .done (writeData ([[exTrace 3 7, exTrace 3 8], [exTrace 4 9, exTrace 4 10]].map List.reverse).flatten) :=
  filter_spec_partial exWords none (0, 0) [] 1 List.reverse _ _ ex_cut (Or.inl ⟨rfl, by simp⟩)

example : filter exWords false none (1024, 512) [] id (writeData ([exTrace 3 7, exTrace 3 8] ++ [exTrace 4 9])) = .abort :=
  filter_pipe_two exWords (1024, 512) [] 1 (by omega) id _ (ex_gather 3 7 8) (exTrace 4 9) (exTrace_ok 4 9) (by
    intro t' ht'
    simp only [List.mem_cons, List.not_mem_nil, or_false] at ht'
    rcases ht' with rfl | rfl <;> rw [ex_key, ex_key] <;> decide) (by decide) (by simp)

end Verif.Su

import Verif.Vir.Model
import Mathlib.Data.Finset.Card
import Mathlib.Data.Finset.Dedup
import Mathlib.Data.List.Nodup

/-!
# Common receiver gathers
-/

namespace Verif.Vir

/-! ### Specification -/

/-- Position of the receiver and of the source of a trace. -/
def Hdr.rcv (h : Hdr) : ℤ × ℤ := (h.gx, h.gy)
def Hdr.source (h : Hdr) : ℤ × ℤ := (h.sx, h.sy)
def Crg.pos (c : Crg) : ℤ × ℤ := (c.gx, c.gy)
def Src.pos (s : Src) : ℤ × ℤ := (s.x, s.y)

/-- Trace `s.fpos` is the first of the file with receiver position `q` and the source position of `s`. -/
def First (hs : List Hdr) (q : ℤ × ℤ) (s : Src) : Prop :=
  ∃ h, hs[s.fpos]? = some h ∧ h.rcv = q ∧ h.source = s.pos ∧ ∀ i, i < s.fpos → ∀ h', hs[i]? = some h' → ¬(h'.rcv = q ∧ h'.source = s.pos)

/-- What the table has to be: every receiver position once, and for each of them every source position once, with the first trace that has
both. -/
structure Sorted (hs : List Hdr) (tab : List Crg) : Prop where
  nodup : (tab.map Crg.pos).Nodup
  rcvs : ∀ q, q ∈ tab.map Crg.pos ↔ q ∈ hs.map Hdr.rcv
  srcs : ∀ c ∈ tab, (c.src.map Src.pos).Nodup
  first : ∀ c ∈ tab, ∀ s, s ∈ c.src ↔ First hs c.pos s
  order : ∀ c ∈ tab, c.src.Pairwise fun a b => a.fpos < b.fpos

/-! ### Proof -/

theorem First.lt {hs : List Hdr} {q : ℤ × ℤ} {s : Src} (h : First hs q s) : s.fpos < hs.length := by
  obtain ⟨_, e, _⟩ := h
  exact (List.getElem?_eq_some_iff.1 e).1

theorem first_append (hs : List Hdr) (h : Hdr) (q : ℤ × ℤ) (s : Src) : First (hs ++ [h]) q s ↔ First hs q s ∨
    (s.fpos = hs.length ∧ h.rcv = q ∧ h.source = s.pos ∧ ∀ h' ∈ hs, ¬(h'.rcv = q ∧ h'.source = s.pos)) := by
  constructor
  · rintro ⟨h0, e, a, b, c⟩
    have hl : s.fpos < (hs ++ [h]).length := (List.getElem?_eq_some_iff.1 e).1
    rw [List.length_append, List.length_singleton] at hl
    by_cases hlt : s.fpos < hs.length
    · refine Or.inl ⟨h0, ?_, a, b, fun i hi h' e' => c i hi h' ?_⟩
      · rw [List.getElem?_append_left hlt] at e; exact e
      · rw [List.getElem?_append_left (by omega)]; exact e'
    · have he : s.fpos = hs.length := by omega
      rw [he, List.getElem?_append_right le_rfl, Nat.sub_self] at e
      obtain rfl : h = h0 := by simpa using e
      refine Or.inr ⟨he, a, b, fun h' hm => ?_⟩
      obtain ⟨i, hi, e'⟩ := List.getElem_of_mem hm
      refine c i (by omega) h' ?_
      rw [List.getElem?_append_left hi, List.getElem?_eq_getElem hi, e']
  · rintro (f | ⟨he, a, b, c⟩)
    · have hl := f.lt
      obtain ⟨h0, e, a, b, c⟩ := f
      refine ⟨h0, by rw [List.getElem?_append_left hl]; exact e, a, b, fun i hi h' e' => c i hi h' ?_⟩
      rw [List.getElem?_append_left (by omega)] at e'; exact e'
    · refine ⟨h, by rw [he, List.getElem?_append_right le_rfl, Nat.sub_self]; rfl, a, b, fun i hi h' e' => ?_⟩
      rw [List.getElem?_append_left (by omega)] at e'
      exact c h' (List.mem_of_getElem? e')

/-- A source position is known when a trace has it. -/
theorem known {hs : List Hdr} {q p : ℤ × ℤ} (h : ∃ k : Hdr, k ∈ hs ∧ k.rcv = q ∧ k.source = p) : ∃ s : Src, s.pos = p ∧ First hs q s := by
  classical
  obtain ⟨h, hm, hq⟩ := h
  obtain ⟨i, hi, e⟩ := List.getElem_of_mem hm
  have ex : ∃ i, ∃ h : Hdr, hs[i]? = some h ∧ h.rcv = q ∧ h.source = p := ⟨i, h, by rw [List.getElem?_eq_getElem hi, e], hq⟩
  obtain ⟨h0, e0, a, b⟩ := Nat.find_spec ex
  exact ⟨⟨p.1, p.2, Nat.find ex⟩, rfl, h0, e0, a, b, fun i hi h' e' hh => Nat.find_min ex hi ⟨h', e', hh⟩⟩

theorem known_of {hs : List Hdr} {q : ℤ × ℤ} {s : Src} (f : First hs q s) : ∃ h ∈ hs, h.rcv = q ∧ h.source = s.pos := by
  obtain ⟨h0, e0, a, b, _⟩ := f
  exact ⟨h0, List.mem_of_getElem? e0, a, b⟩

theorem look_none {n : ℕ} {h : Hdr} {j : ℕ} : ∀ {tab : List Crg}, h.rcv ∉ tab.map Crg.pos → look n h j tab = some none
  | [], _ => rfl
  | c :: t, hn => by
    rw [List.map_cons, List.mem_cons, not_or] at hn
    unfold look
    rw [if_neg, look_none hn.2]
    · rfl
    · rintro ⟨a, b⟩
      exact hn.1 (Prod.ext a.symm b.symm)

theorem look_some {n : ℕ} {h : Hdr} {j : ℕ} : ∀ {tab : List Crg}, h.rcv ∈ tab.map Crg.pos →
    ∃ t1 c t2, tab = t1 ++ c :: t2 ∧ c.pos = h.rcv ∧
      look n h j tab = (addSrc n h j c.src).map fun s => some (t1 ++ { c with src := s } :: t2)
  | [], hm => by simp at hm
  | c :: t, hm => by
    by_cases hc : c.gx = h.gx ∧ c.gy = h.gy
    · refine ⟨[], c, t, rfl, Prod.ext hc.1 hc.2, ?_⟩
      unfold look
      rw [if_pos hc]
      rfl
    · have hm' : h.rcv ∈ t.map Crg.pos := by
        rw [List.map_cons, List.mem_cons] at hm
        rcases hm with e | hm
        · exact absurd ⟨(congrArg Prod.fst e).symm, (congrArg Prod.snd e).symm⟩ hc
        · exact hm
      obtain ⟨t1, d, t2, e, hp, hl⟩ := look_some (n := n) (j := j) hm'
      refine ⟨c :: t1, d, t2, by rw [e]; rfl, hp, ?_⟩
      unfold look
      rw [if_neg hc, hl, Option.map_map]
      rfl

/-- The effect of one trace on a table that is right so far: either the table is right for one more trace, or there is no room. -/
theorem place_sorted {nr ns : ℕ} (hns : 0 < ns) {hs : List Hdr} {tab : List Crg} (S : Sorted hs tab) (h : Hdr) :
    (∃ t, place nr ns h hs.length tab = some t ∧ Sorted (hs ++ [h]) t) ∨
    (place nr ns h hs.length tab = none ∧ ((h.rcv ∉ tab.map Crg.pos ∧ nr ≤ tab.length) ∨
      ∃ c ∈ tab, c.pos = h.rcv ∧ h.source ∉ c.src.map Src.pos ∧ ns ≤ c.src.length)) := by
  have rc : ∀ q, q ∈ (hs ++ [h]).map Hdr.rcv ↔ q ∈ hs.map Hdr.rcv ∨ q = h.rcv := fun q => by
    rw [List.map_append, List.mem_append]; simp
  by_cases hm : h.rcv ∈ tab.map Crg.pos
  · obtain ⟨t1, c, t2, rfl, hp, hl⟩ := look_some (n := ns) (j := hs.length) hm
    have hc : c ∈ t1 ++ c :: t2 := by simp
    have other : ∀ d ∈ t1 ++ c :: t2, d.pos ≠ h.rcv → ∀ s, s ∈ d.src ↔ First (hs ++ [h]) d.pos s := fun d hd hne s => by
      rw [S.first d hd, first_append]
      exact ⟨Or.inl, fun e => e.resolve_right fun e => hne e.2.1.symm⟩
    by_cases hk : ∃ s ∈ c.src, s.pos = h.source
    · -- the source is known
      have ha : addSrc ns h hs.length c.src = some c.src := by
        unfold addSrc
        rw [if_pos]
        obtain ⟨s, hs, e⟩ := hk
        rw [List.any_eq_true]
        exact ⟨s, hs, by rw [decide_eq_true_eq]; exact ⟨congrArg Prod.fst e, congrArg Prod.snd e⟩⟩
      refine Or.inl ⟨t1 ++ c :: t2, by unfold place; rw [hl, ha]; rfl, ?_, ?_, S.srcs, ?_, S.order⟩
      · exact S.nodup
      · intro q
        rw [rc, S.rcvs]
        refine ⟨Or.inl, ?_⟩
        rintro (hq | rfl)
        · exact hq
        · exact (S.rcvs _).1 hm
      · intro d hd s
        by_cases hd' : d.pos = h.rcv
        · rw [S.first d hd, first_append]
          refine ⟨Or.inl, fun e => e.resolve_right ?_⟩
          rintro ⟨-, -, b, n⟩
          obtain ⟨s', hs', e'⟩ := hk
          obtain ⟨h', m', a', b'⟩ := known_of ((S.first c hc s').1 hs')
          exact n h' m' ⟨by rw [a', hp, hd'], by rw [b', e', b]⟩
        · exact other d hd hd' s
    · -- a new source of a known receiver
      have hnew : ∀ h' ∈ hs, ¬(h'.rcv = h.rcv ∧ h'.source = h.source) := fun h' m' e => by
        obtain ⟨s, e1, f⟩ := known ⟨h', m', e⟩
        exact hk ⟨s, (S.first c hc s).2 (by rw [hp]; exact f), e1⟩
      have hany : ¬(c.src.any fun s => decide (s.x = h.sx ∧ s.y = h.sy)) = true := by
        rw [List.any_eq_true]
        rintro ⟨s, hs', e⟩
        rw [decide_eq_true_eq] at e
        exact hk ⟨s, hs', Prod.ext e.1 e.2⟩
      by_cases hlen : c.src.length < ns
      · refine Or.inl ⟨t1 ++ { c with src := c.src ++ [⟨h.sx, h.sy, hs.length⟩] } :: t2, ?_, ?_⟩
        · unfold place
          rw [hl]
          unfold addSrc
          rw [if_neg hany, if_pos hlen]
          rfl
        have hpos : (t1 ++ { c with src := c.src ++ [⟨h.sx, h.sy, hs.length⟩] } :: t2).map Crg.pos = (t1 ++ c :: t2).map Crg.pos := by
          simp [Crg.pos]
        have hnd := S.nodup
        have split : ∀ d, d ∈ t1 ++ { c with src := c.src ++ [⟨h.sx, h.sy, hs.length⟩] } :: t2 →
            d = { c with src := c.src ++ [⟨h.sx, h.sy, hs.length⟩] } ∨ (d ∈ t1 ++ c :: t2 ∧ d.pos ≠ h.rcv) := fun d hd => by
          rw [List.map_append, List.map_cons, List.nodup_middle, List.nodup_cons, ← List.map_append] at hnd
          rw [List.mem_append, List.mem_cons] at hd
          rcases hd with hd | rfl | hd
          · exact Or.inr ⟨by simp [hd], fun e => hnd.1 (by rw [hp, ← e]; exact List.mem_map_of_mem (List.mem_append_left _ hd))⟩
          · exact Or.inl rfl
          · exact Or.inr ⟨by simp [hd], fun e => hnd.1 (by rw [hp, ← e]; exact List.mem_map_of_mem (List.mem_append_right _ hd))⟩
        refine ⟨by rw [hpos]; exact S.nodup, ?_, ?_, ?_, ?_⟩
        · intro q
          rw [hpos, rc, S.rcvs]
          refine ⟨Or.inl, ?_⟩
          rintro (hq | rfl)
          · exact hq
          · exact (S.rcvs _).1 hm
        · intro d hd
          rcases split d hd with rfl | ⟨hd, -⟩
          · dsimp only
            rw [List.map_append, List.nodup_append]
            refine ⟨S.srcs c hc, by simp, ?_⟩
            intro a ha b hb e
            obtain ⟨s, hs', rfl⟩ := List.mem_map.1 ha
            simp only [List.map_cons, List.map_nil, List.mem_singleton] at hb
            exact hk ⟨s, hs', by rw [e, hb]; rfl⟩
          · exact S.srcs d hd
        · intro d hd s
          rcases split d hd with rfl | ⟨hd, hne⟩
          · change s ∈ c.src ++ [_] ↔ First (hs ++ [h]) c.pos s
            rw [List.mem_append, S.first c hc, first_append, List.mem_singleton]
            refine or_congr Iff.rfl ⟨?_, ?_⟩
            · rintro rfl
              exact ⟨rfl, hp.symm, rfl, by rw [hp]; exact hnew⟩
            · rintro ⟨e1, -, e2, -⟩
              cases s
              simp only [Hdr.source, Src.pos, Prod.mk.injEq] at e1 e2
              rw [e1, e2.1, e2.2]
          · exact other d hd hne s
        · intro d hd
          rcases split d hd with rfl | ⟨hd, -⟩
          · dsimp only
            rw [List.pairwise_append]
            refine ⟨S.order c hc, List.pairwise_singleton _ _, ?_⟩
            intro a ha b hb
            rw [List.mem_singleton] at hb
            rw [hb]
            exact ((S.first c hc a).1 ha).lt
          · exact S.order d hd
      · refine Or.inr ⟨?_, Or.inr ⟨c, hc, hp, ?_, by omega⟩⟩
        · unfold place
          rw [hl]
          unfold addSrc
          rw [if_neg hany, if_neg hlen]
          rfl
        · rintro e
          obtain ⟨s, hs', e⟩ := List.mem_map.1 e
          exact hk ⟨s, hs', e⟩
  · have hnew : ∀ h' ∈ hs, h'.rcv ≠ h.rcv := fun h' m' e => hm ((S.rcvs _).2 (by rw [← e]; exact List.mem_map_of_mem m'))
    by_cases hlen : tab.length < nr
    · refine Or.inl ⟨tab ++ [⟨h.gx, h.gy, [⟨h.sx, h.sy, hs.length⟩]⟩], ?_, ?_⟩
      · unfold place
        rw [look_none hm]
        dsimp only [Option.bind_some]
        rw [if_pos ⟨hlen, hns⟩]
      have split : ∀ d, d ∈ tab ++ [⟨h.gx, h.gy, [⟨h.sx, h.sy, hs.length⟩]⟩] →
          d ∈ tab ∨ d = ⟨h.gx, h.gy, [⟨h.sx, h.sy, hs.length⟩]⟩ := fun d hd => by
        rw [List.mem_append, List.mem_singleton] at hd; exact hd
      refine ⟨?_, ?_, ?_, ?_, ?_⟩
      · rw [List.map_append, List.nodup_append]
        refine ⟨S.nodup, by simp, ?_⟩
        intro a ha b hb e
        simp only [List.map_cons, List.map_nil, List.mem_singleton] at hb
        rw [e, hb] at ha
        exact hm ha
      · intro q
        rw [rc, List.map_append, List.mem_append, S.rcvs]
        simp [Crg.pos, Hdr.rcv]
      · intro d hd
        rcases split d hd with hd | rfl
        · exact S.srcs d hd
        · simp
      · intro d hd s
        rcases split d hd with hd | rfl
        · have hne : d.pos ≠ h.rcv := fun e => hm (by rw [← e]; exact List.mem_map_of_mem hd)
          rw [S.first d hd, first_append]
          exact ⟨Or.inl, fun e => e.resolve_right fun e => hne e.2.1.symm⟩
        · change s ∈ [_] ↔ First (hs ++ [h]) h.rcv s
          rw [first_append, List.mem_singleton]
          constructor
          · rintro rfl
            exact Or.inr ⟨rfl, rfl, rfl, fun h' m' e => hnew h' m' e.1⟩
          · rintro (f | ⟨e1, -, e2, -⟩)
            · obtain ⟨h', m', a, -⟩ := known_of f
              exact absurd a (hnew h' m')
            · cases s
              simp only [Hdr.source, Src.pos, Prod.mk.injEq] at e1 e2
              rw [e1, e2.1, e2.2]
      · intro d hd
        rcases split d hd with hd | rfl
        · exact S.order d hd
        · exact List.pairwise_singleton _ _
    · refine Or.inr ⟨?_, Or.inl ⟨hm, by omega⟩⟩
      unfold place
      rw [look_none hm]
      dsimp only [Option.bind_some]
      rw [if_neg (by omega)]

/-- The number of different receiver positions of a file. -/
def nRcv (hs : List Hdr) : ℕ := (hs.map Hdr.rcv).toFinset.card

/-- The number of different source positions that were recorded at the receiver position `q`. -/
def nSrc (hs : List Hdr) (q : ℤ × ℤ) : ℕ := ((hs.filter fun h => h.rcv = q).map Hdr.source).toFinset.card

theorem Sorted.length {hs : List Hdr} {tab : List Crg} (S : Sorted hs tab) : tab.length = nRcv hs := by
  unfold nRcv
  rw [← List.length_map (f := Crg.pos), ← List.toFinset_card_of_nodup S.nodup]
  congr 1
  ext q
  rw [List.mem_toFinset, List.mem_toFinset, S.rcvs]

theorem Sorted.mem_src {hs : List Hdr} {tab : List Crg} (S : Sorted hs tab) {c : Crg} (hc : c ∈ tab) (p : ℤ × ℤ) :
    p ∈ c.src.map Src.pos ↔ ∃ h ∈ hs, h.rcv = c.pos ∧ h.source = p := by
  constructor
  · intro h
    obtain ⟨s, hs', rfl⟩ := List.mem_map.1 h
    exact known_of ((S.first c hc s).1 hs')
  · intro h
    obtain ⟨s, e, f⟩ := known h
    exact List.mem_map.2 ⟨s, (S.first c hc s).2 f, e⟩

theorem Sorted.nsrc {hs : List Hdr} {tab : List Crg} (S : Sorted hs tab) {c : Crg} (hc : c ∈ tab) : c.src.length = nSrc hs c.pos := by
  unfold nSrc
  rw [← List.length_map (f := Src.pos), ← List.toFinset_card_of_nodup (S.srcs c hc)]
  congr 1
  ext p
  rw [List.mem_toFinset, List.mem_toFinset, S.mem_src hc, List.mem_map]
  refine exists_congr fun h => ?_
  rw [List.mem_filter, decide_eq_true_eq, and_assoc]

theorem nRcv_mono (hs ts : List Hdr) : nRcv hs ≤ nRcv (hs ++ ts) := by
  unfold nRcv
  refine Finset.card_le_card fun q hq => ?_
  rw [List.mem_toFinset] at hq ⊢
  rw [List.map_append]
  exact List.mem_append_left _ hq

theorem nSrc_mono (hs ts : List Hdr) (q : ℤ × ℤ) : nSrc hs q ≤ nSrc (hs ++ ts) q := by
  unfold nSrc
  refine Finset.card_le_card fun p hp => ?_
  rw [List.mem_toFinset] at hp ⊢
  rw [List.filter_append, List.map_append]
  exact List.mem_append_left _ hp

/-- All traces after a beginning that has been sorted. -/
theorem fold_sorted {nr ns : ℕ} (hns : 0 < ns) : ∀ (ts hs : List Hdr) (tab : List Crg), Sorted hs tab →
    (∃ t, (ts.zipIdx hs.length).foldlM (fun tab p => place nr ns p.1 p.2 tab) tab = some t ∧ Sorted (hs ++ ts) t) ∨
    ((ts.zipIdx hs.length).foldlM (fun tab p => place nr ns p.1 p.2 tab) tab = none ∧
      (nr < nRcv (hs ++ ts) ∨ ∃ q, ns < nSrc (hs ++ ts) q))
  | [], hs, tab, S => Or.inl ⟨tab, rfl, by rw [List.append_nil]; exact S⟩
  | h :: ts, hs, tab, S => by
    rw [List.zipIdx_cons, List.foldlM_cons]
    rcases place_sorted (nr := nr) hns S h with ⟨t, e, S'⟩ | ⟨e, w⟩
    · rw [e]
      change _ ∨ (List.foldlM _ t _ = none ∧ _)
      have := fold_sorted (nr := nr) hns ts (hs ++ [h]) t S'
      rw [List.length_append, List.length_singleton, List.append_assoc] at this
      exact this
    · rw [e]
      refine Or.inr ⟨rfl, ?_⟩
      have e1 : hs ++ h :: ts = (hs ++ [h]) ++ ts := by simp
      rw [e1]
      rcases w with ⟨w, l⟩ | ⟨c, hc, hp, w, l⟩
      · left
        refine lt_of_lt_of_le ?_ (nRcv_mono _ _)
        refine lt_of_le_of_lt l ?_
        rw [S.length]
        unfold nRcv
        refine Finset.card_lt_card ⟨fun q hq => ?_, fun hsub => ?_⟩
        · rw [List.mem_toFinset] at hq ⊢
          rw [List.map_append]
          exact List.mem_append_left _ hq
        · have : h.rcv ∈ (hs.map Hdr.rcv).toFinset := hsub (by rw [List.mem_toFinset]; simp)
          rw [List.mem_toFinset, ← S.rcvs] at this
          exact w this
      · refine Or.inr ⟨h.rcv, lt_of_lt_of_le ?_ (nSrc_mono _ _ _)⟩
        refine lt_of_le_of_lt l ?_
        rw [S.nsrc hc, hp]
        unfold nSrc
        refine Finset.card_lt_card ⟨fun q hq => ?_, fun hsub => ?_⟩
        · rw [List.mem_toFinset] at hq ⊢
          rw [List.filter_append, List.map_append]
          exact List.mem_append_left _ hq
        · have : h.source ∈ ((hs.filter fun h' => h'.rcv = h.rcv).map Hdr.source).toFinset := hsub (by
            rw [List.mem_toFinset]; simp)
          rw [List.mem_toFinset, List.mem_map] at this
          obtain ⟨h', hm, e'⟩ := this
          rw [List.mem_filter, decide_eq_true_eq] at hm
          exact w ((S.mem_src hc _).2 ⟨h', hm.1, by rw [hp]; exact hm.2, e'⟩)

theorem look_room {n : ℕ} {h : Hdr} {j : ℕ} : ∀ {tab t : List Crg}, look n h j tab = some (some t) → (∀ c ∈ tab, c.src.length ≤ n) →
    t.length = tab.length ∧ ∀ c ∈ t, c.src.length ≤ n
  | [], t, e, _ => by simp [look] at e
  | c :: tab, t, e, r => by
    unfold look at e
    split at e
    · unfold addSrc at e
      split at e
      · simp only [Option.map_some, Option.some.injEq] at e
        subst e
        exact ⟨rfl, r⟩
      · split at e
        · simp only [Option.map_some, Option.some.injEq] at e
          subst e
          refine ⟨rfl, fun d hd => ?_⟩
          rcases List.mem_cons.1 hd with rfl | hd
          · simpa using by omega
          · exact r d (List.mem_cons_of_mem _ hd)
        · simp at e
    · obtain ⟨o, e1, e2⟩ := Option.map_eq_some_iff.1 e
      obtain ⟨t', rfl, rfl⟩ := Option.map_eq_some_iff.1 e2
      obtain ⟨a, b⟩ := look_room e1 fun d hd => r d (List.mem_cons_of_mem _ hd)
      refine ⟨by simp [a], fun d hd => ?_⟩
      rcases List.mem_cons.1 hd with rfl | hd
      · exact r _ List.mem_cons_self
      · exact b d hd

/-- The table fits into the arrays. -/
def Room (nr ns : ℕ) (tab : List Crg) : Prop := tab.length ≤ nr ∧ ∀ c ∈ tab, c.src.length ≤ ns

theorem place_room {nr ns : ℕ} {h : Hdr} {j : ℕ} {tab t : List Crg} (e : place nr ns h j tab = some t) (r : Room nr ns tab) : Room nr ns t := by
  unfold place at e
  obtain ⟨o, e1, e2⟩ := Option.bind_eq_some_iff.1 e
  cases o with
  | some t' =>
    simp only [Option.some.injEq] at e2
    subst e2
    obtain ⟨a, b⟩ := look_room e1 r.2
    exact ⟨by rw [a]; exact r.1, b⟩
  | none =>
    dsimp only at e2
    split at e2
    · next hp =>
      simp only [Option.some.injEq] at e2
      subst e2
      refine ⟨by simp; omega, fun c hc => ?_⟩
      rcases List.mem_append.1 hc with hc | hc
      · exact r.2 c hc
      · rw [List.mem_singleton] at hc
        rw [hc]
        exact hp.2
    · simp at e2

theorem fold_room {nr ns : ℕ} : ∀ (ts : List (Hdr × ℕ)) (tab t : List Crg), ts.foldlM (fun tab p => place nr ns p.1 p.2 tab) tab = some t →
    Room nr ns tab → Room nr ns t
  | [], tab, t, e, r => by
    rw [List.foldlM_nil] at e
    obtain rfl : tab = t := by simpa using e
    exact r
  | p :: ts, tab, t, e, r => by
    rw [List.foldlM_cons] at e
    obtain ⟨o, e1, e2⟩ := Option.bind_eq_some_iff.1 e
    exact fold_room ts o t e2 (place_room e1 r)

theorem sorted_one (h : Hdr) : Sorted [h] [⟨h.gx, h.gy, [⟨h.sx, h.sy, 0⟩]⟩] where
  nodup := by simp
  rcvs q := by simp [Crg.pos, Hdr.rcv]
  srcs c hc := by rw [List.mem_singleton] at hc; rw [hc]; simp
  first c hc s := by
    rw [List.mem_singleton] at hc
    rw [hc]
    change s ∈ [_] ↔ First ([] ++ [h]) h.rcv s
    rw [first_append, List.mem_singleton]
    constructor
    · rintro rfl
      exact Or.inr ⟨rfl, rfl, rfl, by simp⟩
    · rintro (f | ⟨e1, -, e2, -⟩)
      · exact absurd f.lt (by simp)
      · cases s
        simp only [Hdr.source, Src.pos, Prod.mk.injEq, List.length_nil] at e1 e2
        rw [e1, e2.1, e2.2]
  order c hc := by rw [List.mem_singleton] at hc; rw [hc]; exact List.pairwise_singleton _ _

/-- **The table of common receiver gathers.**  When the user's maxima suffice, the table has every receiver position of the file once, and with it
every source position it has recorded once, in the order of the file. -/
theorem gathers_sorted (nr ns : ℕ) (hs : List Hdr) (hne : hs ≠ []) (hr : nRcv hs ≤ nr) (hq : ∀ q, nSrc hs q ≤ ns) :
    ∃ tab, gathers nr ns hs = some tab ∧ Sorted hs tab := by
  obtain ⟨h, t, rfl⟩ := List.exists_cons_of_ne_nil hne
  have S := sorted_one h
  have h1 : 0 < nr := by
    have := nRcv_mono [h] t
    have e := S.length
    rw [List.length_singleton] at e
    rw [List.singleton_append] at this
    omega
  have h2 : 0 < ns := by
    have := nSrc_mono [h] t h.rcv
    have e := S.nsrc (List.mem_singleton_self _)
    rw [List.singleton_append] at this
    have := hq h.rcv
    change 1 = nSrc [h] h.rcv at e
    omega
  unfold gathers
  dsimp only
  rw [if_pos ⟨h1, h2⟩, List.zipIdx_cons, List.foldlM_cons]
  have e : place nr ns h 0 [⟨h.gx, h.gy, [⟨h.sx, h.sy, 0⟩]⟩] = some [⟨h.gx, h.gy, [⟨h.sx, h.sy, 0⟩]⟩] := by
    unfold place look addSrc
    simp
  rw [e]
  change ∃ tab, List.foldlM _ _ _ = some tab ∧ _
  rcases fold_sorted (nr := nr) h2 t [h] _ S with r | ⟨-, r | ⟨q, r⟩⟩
  · exact r
  · exact absurd r (by rw [List.singleton_append]; omega)
  · exact absurd r (by rw [List.singleton_append]; have := hq q; omega)

/-- **When the maxima do not suffice** the arrays are left: there is no check. -/
theorem gathers_overflow (nr ns : ℕ) (hs : List Hdr) (hne : hs ≠ []) (h : nr < nRcv hs ∨ ∃ q, ns < nSrc hs q) : gathers nr ns hs = none := by
  obtain ⟨h0, t, rfl⟩ := List.exists_cons_of_ne_nil hne
  have S := sorted_one h0
  unfold gathers
  dsimp only
  by_cases hp : 0 < nr ∧ 0 < ns
  · rw [if_pos hp, List.zipIdx_cons, List.foldlM_cons]
    have e : place nr ns h0 0 [⟨h0.gx, h0.gy, [⟨h0.sx, h0.sy, 0⟩]⟩] = some [⟨h0.gx, h0.gy, [⟨h0.sx, h0.sy, 0⟩]⟩] := by
      unfold place look addSrc
      simp
    rw [e]
    change List.foldlM _ _ _ = none
    rcases fold_sorted (nr := nr) hp.2 t [h0] _ S with ⟨tab, e, S'⟩ | ⟨e, -⟩
    · obtain ⟨r1, r2⟩ := fold_room _ _ _ e ⟨hp.1, fun c hc => by rw [List.mem_singleton] at hc; rw [hc]; exact hp.2⟩
      rw [List.singleton_append] at S'
      rcases h with h | ⟨q, h⟩
      · rw [S'.length] at r1
        omega
      · by_cases hm : q ∈ tab.map Crg.pos
        · obtain ⟨c, hc, rfl⟩ := List.mem_map.1 hm
          have := r2 c hc
          rw [S'.nsrc hc] at this
          omega
        · have : nSrc (h0 :: t) q = 0 := by
            unfold nSrc
            rw [Finset.card_eq_zero, Finset.eq_empty_iff_forall_notMem]
            intro x hx
            rw [List.mem_toFinset, List.mem_map] at hx
            obtain ⟨h', hx, -⟩ := hx
            rw [List.mem_filter, decide_eq_true_eq] at hx
            exact hm ((S'.rcvs q).2 (by rw [← hx.2]; exact List.mem_map_of_mem hx.1))
          omega
    · exact e
  · rw [if_neg hp]

/-! ### A concrete case -/

/-- Two receivers and two sources; the third trace repeats the first. -/
def shots : List Hdr := [⟨0, 0, 5, 5⟩, ⟨10, 0, 5, 5⟩, ⟨0, 0, 5, 5⟩, ⟨0, 0, 7, 5⟩, ⟨10, 0, 7, 5⟩]

def shotsTab : List Crg := [⟨0, 0, [⟨5, 5, 0⟩, ⟨7, 5, 3⟩]⟩, ⟨10, 0, [⟨5, 5, 1⟩, ⟨7, 5, 4⟩]⟩]

example : gathers 2 2 shots = some shotsTab := by decide

example : nRcv shots = 2 ∧ nSrc shots (0, 0) = 2 := by decide

example : gathers 2 1 shots = none := gathers_overflow 2 1 shots (by decide) (Or.inr ⟨(0, 0), by decide⟩)

theorem shots_sorted : Sorted shots shotsTab := by
  have hq : ∀ q, nSrc shots q ≤ 2 := fun q =>
    (Finset.card_le_card (t := {(5, 5), (7, 5)}) (fun p hp => by
      rw [List.mem_toFinset, List.mem_map] at hp
      obtain ⟨h, hm, rfl⟩ := hp
      have : ∀ h ∈ shots, h.source ∈ ({(5, 5), (7, 5)} : Finset (ℤ × ℤ)) := by decide
      exact this h (List.mem_filter.1 hm).1)).trans (by decide)
  obtain ⟨tab, e, S⟩ := gathers_sorted 2 2 shots (by decide) (by decide) hq
  have e2 : gathers 2 2 shots = some shotsTab := by decide
  rw [e2, Option.some.injEq] at e
  rw [e]
  exact S

end Verif.Vir

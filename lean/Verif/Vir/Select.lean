import Verif.Vir.Sort
import Mathlib.Tactic.Ring
import Mathlib.Tactic.NormNum
import Mathlib.Tactic.Positivity
import Mathlib.Data.List.Sublists
import Mathlib.Data.List.Perm.Basic

/-!
# Virtual sources and contributing sources
-/

namespace Verif.Vir

/-! ## Virtual sources -/

theorem nearest_fold (f x y : ℚ) : ∀ (t : List Crg) (pre : List Crg) (i : ℕ) (d : ℚ), (∃ c, pre[i]? = some c ∧ dist2 f x y c = d) →
    (∀ (k : ℕ) c, pre[k]? = some c → d ≤ dist2 f x y c) → (∀ (k : ℕ) c, k < i → pre[k]? = some c → d < dist2 f x y c) →
    let r : ℕ × ℚ := (t.zipIdx pre.length).foldl (fun s p => if dist2 f x y p.1 < s.2 then (p.2, dist2 f x y p.1) else s) (i, d)
    (∃ c, (pre ++ t)[r.1]? = some c ∧ dist2 f x y c = r.2) ∧ (∀ (k : ℕ) c, (pre ++ t)[k]? = some c → r.2 ≤ dist2 f x y c) ∧
      ∀ (k : ℕ) c, k < r.1 → (pre ++ t)[k]? = some c → r.2 < dist2 f x y c
  | [], pre, i, d, h1, h2, h3 => by
    simp only [List.zipIdx_nil, List.foldl_nil, List.append_nil]
    exact ⟨h1, h2, h3⟩
  | c :: t, pre, i, d, h1, h2, h3 => by
    have e1 : pre ++ c :: t = (pre ++ [c]) ++ t := by simp
    have split : ∀ (k : ℕ) a, (pre ++ [c])[k]? = some a → (k < pre.length ∧ pre[k]? = some a) ∨ (k = pre.length ∧ a = c) := fun k a e => by
      by_cases hk : k < pre.length
      · rw [List.getElem?_append_left hk] at e; exact Or.inl ⟨hk, e⟩
      · have hl := (List.getElem?_eq_some_iff.1 e).1
        rw [List.length_append, List.length_singleton] at hl
        have : k = pre.length := by omega
        rw [this, List.getElem?_append_right le_rfl, Nat.sub_self] at e
        exact Or.inr ⟨this, by simpa using e.symm⟩
    have ext : ∀ (k : ℕ) a, pre[k]? = some a → (pre ++ [c])[k]? = some a := fun k a e => by
      rw [List.getElem?_append_left (List.getElem?_eq_some_iff.1 e).1]; exact e
    have ec : (pre ++ [c])[pre.length]? = some c := by rw [List.getElem?_append_right le_rfl, Nat.sub_self]; rfl
    dsimp only
    rw [List.zipIdx_cons, List.foldl_cons, e1]
    have el : pre.length + 1 = (pre ++ [c]).length := by simp
    rw [el]
    by_cases hlt : dist2 f x y c < d
    · dsimp only
      rw [if_pos hlt]
      refine nearest_fold f x y t (pre ++ [c]) pre.length _ ⟨c, ec, rfl⟩ ?_ ?_
      · intro k a e
        rcases split k a e with ⟨-, e⟩ | ⟨-, rfl⟩
        · exact hlt.le.trans (h2 k a e)
        · exact le_rfl
      · intro k a hk e
        rcases split k a e with ⟨-, e⟩ | ⟨rfl, -⟩
        · exact hlt.trans_le (h2 k a e)
        · exact absurd hk (lt_irrefl _)
    · dsimp only
      rw [if_neg hlt]
      obtain ⟨a0, b0, b1⟩ := h1
      refine nearest_fold f x y t (pre ++ [c]) i d ⟨a0, ext _ _ b0, b1⟩ ?_ ?_
      · intro k a e
        rcases split k a e with ⟨-, e⟩ | ⟨-, rfl⟩
        · exact h2 k a e
        · exact not_lt.1 hlt
      · intro k a hk e
        rcases split k a e with ⟨-, e⟩ | ⟨rfl, -⟩
        · exact h3 k a hk e
        · have := (List.getElem?_eq_some_iff.1 b0).1
          omega

/-- **The receiver that becomes the virtual source** is the nearest one, the first of them if there are several. -/
theorem nearest_spec (f x y : ℚ) (tab : List Crg) (h : tab ≠ []) : ∃ (i : ℕ) (d : ℚ) (c : Crg), nearest f x y tab = some (i, d) ∧ tab[i]? = some c ∧ dist2 f x y c = d ∧
    (∀ c' ∈ tab, d ≤ dist2 f x y c') ∧ ∀ (k : ℕ) c', k < i → tab[k]? = some c' → d < dist2 f x y c' := by
  obtain ⟨c, t, rfl⟩ := List.exists_cons_of_ne_nil h
  have := nearest_fold f x y t [c] 0 (dist2 f x y c) ⟨c, rfl, rfl⟩ (fun k a e => by
    rcases k with _ | k
    · obtain rfl : c = a := by simpa using e
      exact le_rfl
    · simp at e) (fun k a hk => absurd hk (Nat.not_lt_zero _))
  obtain ⟨⟨a, b1, b2⟩, b3, b4⟩ := this
  refine ⟨_, _, a, rfl, b1, b2, fun c' hc => ?_, b4⟩
  obtain ⟨k, hk, e⟩ := List.getElem_of_mem hc
  exact b3 k c' (by rw [List.singleton_append, List.getElem?_eq_getElem hk, e])

/-- A request at the position of a receiver gives a receiver at this position. -/
theorem nearest_exact (f : ℚ) (hf : f ≠ 0) (tab : List Crg) (c : Crg) (hc : c ∈ tab) :
    ∃ (i : ℕ) (c' : Crg), nearest f (c.gx * f) (c.gy * f) tab = some (i, 0) ∧ tab[i]? = some c' ∧ c'.pos = c.pos := by
  obtain ⟨i, d, c', e, e1, e2, e3, -⟩ := nearest_spec f (c.gx * f) (c.gy * f) tab (List.ne_nil_of_mem hc)
  have h0 := e3 c hc
  have e0 : dist2 f (c.gx * f) (c.gy * f) c = 0 := by unfold dist2; ring
  rw [e0] at h0
  unfold dist2 at e2
  have s1 := mul_self_nonneg ((c.gx : ℚ) * f - c'.gx * f)
  have s2 := mul_self_nonneg ((c.gy : ℚ) * f - c'.gy * f)
  have hd : d = 0 := le_antisymm h0 (by rw [← e2]; positivity)
  rw [hd] at e e2
  have z1 : (c.gx : ℚ) * f - c'.gx * f = 0 := mul_self_eq_zero.1 (by linarith)
  have z2 : (c.gy : ℚ) * f - c'.gy * f = 0 := mul_self_eq_zero.1 (by linarith)
  refine ⟨i, c', e, e1, Prod.ext ?_ ?_⟩
  · have := mul_right_cancel₀ hf (sub_eq_zero.1 z1)
    exact_mod_cast this.symm
  · have := mul_right_cancel₀ hf (sub_eq_zero.1 z2)
    exact_mod_cast this.symm

/-- **A request far from all receivers is not refused**: the nearest receiver is used whatever the tolerance, only the message differs. -/
theorem tolerance_ignored (scalco : ℤ) (tol tol' : ℚ) (want : List (ℚ × ℚ)) (tab : List Crg) :
    (virtuals scalco tol want tab).map (List.map Prod.fst) = (virtuals scalco tol' want tab).map (List.map Prod.fst) := by
  unfold virtuals
  split
  · rfl
  · generalize fscalco scalco = f
    have key : ∀ (ws : List (ℚ × ℚ)), (ws.mapM fun w => (nearest f w.1 w.2 tab).map fun r => (r.1, decide (r.2 ≤ tol))).map (List.map Prod.fst) =
        (ws.mapM fun w => (nearest f w.1 w.2 tab).map fun r => (r.1, decide (r.2 ≤ tol'))).map (List.map Prod.fst) := by
      intro ws
      induction ws with
      | nil => rfl
      | cons w ws ih =>
        rw [List.mapM_cons, List.mapM_cons]
        cases nearest f w.1 w.2 tab with
        | none => rfl
        | some r =>
          generalize (ws.mapM fun w => (nearest f w.1 w.2 tab).map fun r => (r.1, decide (r.2 ≤ tol))) = a at ih ⊢
          generalize (ws.mapM fun w => (nearest f w.1 w.2 tab).map fun r => (r.1, decide (r.2 ≤ tol'))) = b at ih ⊢
          cases a <;> cases b <;> simp_all
    exact key want

/-- The tolerance is compared with the square of the distance: 30 centimetres pass for a tolerance of 10 centimetres. -/
theorem tolerance_squared : ∃ (tab : List Crg) (w : ℚ × ℚ), virtuals 1 (1 / 10) [w] tab = some [(0, true)] ∧
    ∀ c ∈ tab, ((1 : ℚ) / 10) ^ 2 < (w.1 - c.gx) ^ 2 + (w.2 - c.gy) ^ 2 := by
  refine ⟨[⟨0, 0, []⟩], (3 / 10, 0), ?_, ?_⟩
  · norm_num [virtuals, nearest, dist2, fscalco]
  · intro c hc
    rw [List.mem_singleton] at hc
    rw [hc]
    norm_num

/-- With `scalco = 0` in the headers, which stands for no scaling, every request gives the first receiver. -/
theorem scalco_zero (x y : ℚ) (c : Crg) (t : List Crg) : ∃ d, nearest (fscalco 0) x y (c :: t) = some (0, d) := by
  obtain ⟨i, d, c', e, e1, e2, -, e4⟩ := nearest_spec (fscalco 0) x y (c :: t) (by simp)
  have hd : ∀ a : Crg, dist2 (fscalco 0) x y a = x * x + y * y := fun a => by simp [dist2, fscalco]
  rcases i with _ | i
  · exact ⟨d, e⟩
  · have := e4 0 c (Nat.succ_pos _) rfl
    rw [hd] at this
    rw [hd] at e2
    exact absurd e2 this.ne'

/-! ## Selection -/

/-- Between the two receivers in x, or in y. -/
def Between (a b c : ℤ) : Prop := min a b < c ∧ c < max a b

/-- `src_sel=1` takes the sources that are neither between the receivers in x nor in y. -/
theorem select_square_partial (q : Sel) (hq : q.sel = 1) (v g s : ℤ × ℤ) :
    readTrace q v g s = some true ↔ ¬Between v.1 g.1 s.1 ∧ ¬Between v.2 g.2 s.2 := by
  unfold readTrace Between
  rw [if_neg (by omega), if_pos hq, Option.some.injEq, decide_eq_true_eq]
  rw [min_comm g.1, max_comm g.1, min_comm g.2, max_comm g.2]

/-- A source far outside the square around the receivers is left out when one of its coordinates is between theirs. -/
theorem select_square_wrong (q : Sel) (hq : q.sel = 1) : ∃ v g s : ℤ × ℤ, readTrace q v g s = some false ∧ max v.2 g.2 < s.2 := by
  refine ⟨(0, 0), (10, 10), (5, 1000), ?_, by decide⟩
  unfold readTrace
  rw [if_neg (by omega), if_pos hq]
  decide

/-- **`src_sel=2` takes all sources**, whatever the radii: the distance of the source is not used. -/
theorem select_donut_all (q : Sel) (hq : q.sel = 2) (v g s : ℤ × ℤ) : readTrace q v g s = some true := by
  unfold readTrace
  rw [if_neg (by omega), if_neg (by omega), if_pos hq]
  dsimp only
  rw [Option.some.injEq, decide_eq_true_eq]
  rintro ⟨-, h⟩
  generalize ⌈(1 / 2 : ℚ) * (v.1 + g.1)⌉ = a at h
  generalize ⌈(1 / 2 : ℚ) * (v.2 + g.2)⌉ = b at h
  have h1 : 0 ≤ (v.1 - a) * (v.1 - a) + (v.2 - b) * (v.2 - b) := add_nonneg (mul_self_nonneg _) (mul_self_nonneg _)
  have h2 := mul_nonneg (mul_self_nonneg q.bmax) h1
  linarith

/-- `src_sel=3` and `4` take no source when the receivers have the same x or the same y, as along a line. -/
theorem select_quadrant_line (q : Sel) (hq : q.sel = 3 ∨ q.sel = 4) (v g s : ℤ × ℤ) (h : v.1 = g.1 ∨ v.2 = g.2) :
    readTrace q v g s = some false := by
  unfold readTrace
  rw [if_neg (by omega), if_neg (by omega), if_neg (by omega)]
  rcases hq with hq | hq
  · rw [if_pos hq, if_neg (by omega), if_neg (by omega), if_neg (by omega), if_neg (by omega)]
  · rw [if_neg (by omega), if_pos hq, if_neg (by omega), if_neg (by omega), if_neg (by omega), if_neg (by omega)]

/-- Values of `src_sel` that are not known use a variable that has no value. -/
theorem select_unknown (q : Sel) (hq : q.sel < 0 ∨ 4 < q.sel) (v g s : ℤ × ℤ) : readTrace q v g s = none := by
  unfold readTrace
  rw [if_neg (by omega), if_neg (by omega), if_neg (by omega), if_neg (by omega), if_neg (by omega)]

/-! ## Pairs -/

/-- A selection that is always defined, as a set. -/
def Takes (q : Sel) (v g s : ℤ × ℤ) : Prop := readTrace q v g s = some true

theorem readTrace_def (q : Sel) (hq : 0 ≤ q.sel ∧ q.sel ≤ 4) (v g s : ℤ × ℤ) : ∃ b, readTrace q v g s = some b := by
  unfold readTrace
  dsimp only
  split_ifs
  all_goals first | exact ⟨_, rfl⟩ | (exfalso; omega)

instance (q : Sel) (v g s : ℤ × ℤ) : Decidable (Takes q v g s) := inferInstanceAs (Decidable (_ = _))

/-- The pairs of one master trace. -/
def partners (q : Sel) (v g : ℤ × ℤ) (m : Src) (l : List Src) : List (ℕ × ℕ) :=
  (l.filter fun s => decide (m.pos = s.pos ∧ Takes q v g s.pos)).map fun s => (m.fpos, s.fpos)

theorem inner_run (q : Sel) (hq : 0 ≤ q.sel ∧ q.sel ≤ 4) (n : ℕ) (v g : ℤ × ℤ) (m : Src) : ∀ (l : List Src) (acc : List (ℕ × ℕ)),
    acc.length + (partners q v g m l).length ≤ n →
    l.foldlM (fun l s => if m.x = s.x ∧ m.y = s.y then
      (readTrace q v g (s.x, s.y)).bind fun b => if b then if l.length < n then some (l ++ [(m.fpos, s.fpos)]) else none else some l
      else some l) acc = some (acc ++ partners q v g m l)
  | [], acc, _ => by simp [partners]
  | s :: l, acc, h => by
    rw [List.foldlM_cons]
    by_cases hp : m.x = s.x ∧ m.y = s.y
    · rw [if_pos hp]
      have hp' : m.pos = s.pos := Prod.ext hp.1 hp.2
      obtain ⟨b, hb⟩ := readTrace_def q hq v g s.pos
      have hb' : readTrace q v g (s.x, s.y) = some b := hb
      rw [hb', Option.bind_some]
      cases b with
      | true =>
        have e : partners q v g m (s :: l) = (m.fpos, s.fpos) :: partners q v g m l := by
          unfold partners
          rw [List.filter_cons, if_pos (by rw [decide_eq_true_eq]; exact ⟨hp', hb⟩)]
          rfl
        rw [e, List.length_cons] at h
        rw [if_pos rfl, if_pos (by omega)]
        change List.foldlM _ _ _ = _
        rw [inner_run q hq n v g m l _ (by rw [List.length_append, List.length_singleton]; omega), e]
        simp
      | false =>
        have e : partners q v g m (s :: l) = partners q v g m l := by
          unfold partners
          rw [List.filter_cons, if_neg]
          rw [decide_eq_true_eq]
          rintro ⟨-, h⟩
          unfold Takes at h
          rw [hb] at h
          cases h
        rw [e] at h ⊢
        exact inner_run q hq n v g m l _ h
    · have e : partners q v g m (s :: l) = partners q v g m l := by
        unfold partners
        rw [List.filter_cons, if_neg]
        rw [decide_eq_true_eq]
        rintro ⟨h, -⟩
        exact hp ⟨congrArg Prod.fst h, congrArg Prod.snd h⟩
      rw [e] at h ⊢
      rw [if_neg hp]
      exact inner_run q hq n v g m l _ h

theorem outer_run (q : Sel) (hq : 0 ≤ q.sel ∧ q.sel ≤ 4) (n : ℕ) (v g : ℤ × ℤ) (S : List Src) : ∀ (M : List Src) (acc : List (ℕ × ℕ)),
    acc.length + (M.flatMap fun m => partners q v g m S).length ≤ n →
    M.foldlM (fun l m => S.foldlM (fun l s => if m.x = s.x ∧ m.y = s.y then
      (readTrace q v g (s.x, s.y)).bind fun b => if b then if l.length < n then some (l ++ [(m.fpos, s.fpos)]) else none else some l
      else some l) l) acc = some (acc ++ M.flatMap fun m => partners q v g m S)
  | [], acc, _ => by simp
  | m :: M, acc, h => by
    rw [List.flatMap_cons, List.length_append] at h
    rw [List.foldlM_cons, inner_run q hq n v g m S acc (by omega)]
    change List.foldlM _ _ _ = _
    rw [outer_run q hq n v g S M _ (by rw [List.length_append]; omega), List.flatMap_cons, List.append_assoc]

theorem nodup_pos_inj {l : List Src} (h : (l.map Src.pos).Nodup) {a b : Src} (ha : a ∈ l) (hb : b ∈ l) (e : a.pos = b.pos) : a = b :=
  List.inj_on_of_nodup_map h ha hb e

theorem partners_length (q : Sel) (v g : ℤ × ℤ) (m : Src) (S : List Src) (h : (S.map Src.pos).Nodup) : (partners q v g m S).length ≤ 1 := by
  classical
  unfold partners
  rw [List.length_map]
  have hn : (S.filter fun s => decide (m.pos = s.pos ∧ Takes q v g s.pos)).Nodup := (List.Nodup.of_map _ h).filter _
  rw [← List.toFinset_card_of_nodup hn, Finset.card_le_one]
  intro a ha b hb
  rw [List.mem_toFinset, List.mem_filter, decide_eq_true_eq] at ha hb
  exact nodup_pos_inj h ha.1 hb.1 (ha.2.1.symm.trans hb.2.1)

/-- What is to be correlated: the traces of one and the same source at the two receivers, for the sources that are taken. -/
def Common (q : Sel) (v g : Crg) (p : ℕ × ℕ) : Prop :=
  ∃ m ∈ v.src, ∃ s ∈ g.src, m.pos = s.pos ∧ Takes q v.pos g.pos s.pos ∧ p = (m.fpos, s.fpos)

/-- **The contributing traces**: for a sorted table every source that the two receivers have in common, and that is taken, contributes exactly
once, and there is always room for the traces. -/
theorem pairs_spec (q : Sel) (hq : 0 ≤ q.sel ∧ q.sel ≤ 4) {hs : List Hdr} {tab : List Crg} (T : Sorted hs tab) {v g : Crg} (hv : v ∈ tab)
    (hg : g ∈ tab) : ∃ ps, pairs q (maxSrc tab) v g = some ps ∧ ps.Nodup ∧ (∀ p, p ∈ ps ↔ Common q v g p) ∧ ps.length ≤ v.src.length ∧
      ps.length ≤ g.src.length := by
  have hn : ∀ c ∈ tab, (c.src.map Src.pos).Nodup := T.srcs
  have hlen : (v.src.flatMap fun m => partners q v.pos g.pos m g.src).length ≤ v.src.length := by
    rw [List.length_flatMap]
    calc (v.src.map fun m => (partners q v.pos g.pos m g.src).length).sum ≤ (v.src.map fun _ => 1).sum :=
          List.sum_le_sum fun m _ => partners_length q _ _ m _ (hn g hg)
      _ = v.src.length := by simp
  have hmem : ∀ p, p ∈ (v.src.flatMap fun m => partners q v.pos g.pos m g.src) ↔ Common q v g p := by
    intro p
    rw [List.mem_flatMap]
    unfold partners Common
    constructor
    · rintro ⟨m, hm, h⟩
      obtain ⟨s, hs, rfl⟩ := List.mem_map.1 h
      rw [List.mem_filter, decide_eq_true_eq] at hs
      exact ⟨m, hm, s, hs.1, hs.2.1, hs.2.2, rfl⟩
    · rintro ⟨m, hm, s, hs, e, ht, rfl⟩
      refine ⟨m, hm, List.mem_map.2 ⟨s, ?_, rfl⟩⟩
      rw [List.mem_filter, decide_eq_true_eq]
      exact ⟨hs, e, ht⟩
  have fv : (v.src.map Src.fpos).Nodup := by
    have := T.order v hv
    rw [List.Nodup, List.pairwise_map]
    exact this.imp fun h => h.ne
  have fg : (g.src.map Src.fpos).Nodup := by
    have := T.order g hg
    rw [List.Nodup, List.pairwise_map]
    exact this.imp fun h => h.ne
  have hnd : (v.src.flatMap fun m => partners q v.pos g.pos m g.src).Nodup := by
    rw [List.nodup_flatMap]
    refine ⟨fun m _ => ?_, ?_⟩
    · have := partners_length q v.pos g.pos m g.src (hn g hg)
      generalize partners q v.pos g.pos m g.src = l at this
      rcases l with _ | ⟨a, _ | ⟨b, l⟩⟩
      · exact List.nodup_nil
      · exact List.nodup_singleton a
      · simp at this
    · refine (T.order v hv).imp fun {a b} hab => ?_
      rw [Function.onFun, List.disjoint_left]
      intro p h1 h2
      unfold partners at h1 h2
      obtain ⟨s1, -, rfl⟩ := List.mem_map.1 h1
      obtain ⟨s2, -, e⟩ := List.mem_map.1 h2
      rw [Prod.mk.injEq] at e
      omega
  have hmax : ∀ (l : List Crg) (a : ℕ), a ≤ l.foldl (fun m c => max m c.src.length) a ∧
      ∀ c ∈ l, c.src.length ≤ l.foldl (fun m c => max m c.src.length) a := by
    intro l
    induction l with
    | nil => intro a; exact ⟨le_rfl, by simp⟩
    | cons c l ih =>
      intro a
      rw [List.foldl_cons]
      obtain ⟨i1, i2⟩ := ih (max a c.src.length)
      refine ⟨(le_max_left _ _).trans i1, fun c' hc => ?_⟩
      rcases List.mem_cons.1 hc with rfl | hc
      · exact (le_max_right _ _).trans i1
      · exact i2 c' hc
  have hroom : (v.src.flatMap fun m => partners q v.pos g.pos m g.src).length ≤ maxSrc tab := hlen.trans ((hmax tab 0).2 v hv)
  refine ⟨v.src.flatMap fun m => partners q v.pos g.pos m g.src, ?_, hnd, hmem, hlen, ?_⟩
  · have := outer_run q hq (maxSrc tab) v.pos g.pos g.src v.src [] (by rw [List.length_nil, Nat.zero_add]; exact hroom)
    rw [List.nil_append] at this
    exact this
  · have h2 : ((v.src.flatMap fun m => partners q v.pos g.pos m g.src).map Prod.snd).Nodup := by
      refine List.Nodup.map_on ?_ hnd
      intro a ha b hb e
      obtain ⟨m1, hm1, s1, hs1, e1, -, rfl⟩ := (hmem a).1 ha
      obtain ⟨m2, hm2, s2, hs2, e2, -, rfl⟩ := (hmem b).1 hb
      have es : s1 = s2 := List.inj_on_of_nodup_map fg hs1 hs2 e
      subst es
      have em : m1 = m2 := nodup_pos_inj (hn v hv) hm1 hm2 (e1.trans e2.symm)
      rw [em]
    have := (List.subperm_of_subset h2 (l₂ := g.src.map Src.fpos) (fun x hx => by
      obtain ⟨p, hp, rfl⟩ := List.mem_map.1 hx
      obtain ⟨m, _, s, hs, -, -, rfl⟩ := (hmem p).1 hp
      exact List.mem_map.2 ⟨s, hs, rfl⟩)).length_le
    simpa using this

/-- The selections 0, 1 and 2 do not depend on which of the two receivers is the virtual source. -/
theorem readTrace_swap (q : Sel) (hq : q.sel = 0 ∨ q.sel = 1 ∨ q.sel = 2) (v g s : ℤ × ℤ) : readTrace q v g s = readTrace q g v s := by
  rcases hq with h | h | h
  · unfold readTrace; rw [if_pos h, if_pos h]
  · unfold readTrace
    rw [if_neg (by omega), if_pos h, if_neg (by omega), if_pos h, min_comm g.1, max_comm g.1, min_comm g.2, max_comm g.2]
  · rw [select_donut_all q h, select_donut_all q h]

/-- Exchanging virtual source and virtual receiver exchanges the traces of each pair. -/
theorem common_swap (q : Sel) (hq : q.sel = 0 ∨ q.sel = 1 ∨ q.sel = 2) (v g : Crg) (p : ℕ × ℕ) : Common q v g p ↔ Common q g v p.swap := by
  have key : ∀ v g p, Common q v g p → Common q g v p.swap := by
    rintro v g p ⟨m, hm, s, hs, e, ht, rfl⟩
    refine ⟨s, hs, m, hm, e.symm, ?_, rfl⟩
    unfold Takes at ht ⊢
    rw [readTrace_swap q hq, e]
    exact ht
  exact ⟨key v g p, fun h => by simpa using key g v _ h⟩

/-- `src_sel=3` depends on the order: the source on the far side of one receiver is taken for one order only. -/
example : readTrace ⟨3, 0, 0⟩ (0, 0) (10, 10) (-5, -5) = some true ∧ readTrace ⟨3, 0, 0⟩ (10, 10) (0, 0) (-5, -5) = some false := by decide

/-- In the example of `Sort` the two receivers have one source in common. -/
example : ∃ ps, pairs ⟨0, 0, 0⟩ (maxSrc shotsTab) (shotsTab[0]'(by decide)) (shotsTab[1]'(by decide)) = some ps ∧ ps ≠ [] := by
  refine ⟨_, rfl, by decide⟩

example : nearest (fscalco (-10)) 1 0 shotsTab = some (1, 0) := by
  norm_num [nearest, fscalco, dist2, shotsTab, List.zipIdx]

end Verif.Vir

import Verif.Fft.Pfa
import Verif.Fft.PfaMath

/-!
# One pass of the prime-factor transform (FFTlib/pfafft.c)
-/

namespace Verif.Fft.Pfa

open Complex Finset

/-- The elements of the `nt` transforms of length `n` are different elements of the array. -/
structure Lay (n nt k kt len : Nat) : Prop where
  inb : ∀ x t, x < n → t < nt → x * k + t * kt < len
  inj : ∀ x t x' t', x < n → t < nt → x' < n → t' < nt → x * k + t * kt = x' * k + t' * kt → x = x' ∧ t = t'

/-- The factors are coprime to the rotation, the butterfly is a short transform. -/
theorem kern_spec {p mu : Nat} (hp : p ∈ kfax) (h1 : mu < p) (h2 : Nat.Coprime mu p) (z : Nat → ℂ) :
    kern p mu z = short p mu z := by
  simp only [kfax, List.mem_cons, List.not_mem_nil, or_false] at hp
  rcases hp with rfl | rfl | rfl | rfl | rfl | rfl | rfl | rfl | rfl | rfl
  · exact kern16_spec mu h1 h2 z
  · exact kern13_spec mu h1 h2 z
  · exact kern11_spec mu h1 h2 z
  · exact kern9_spec mu h1 h2 z
  · exact kern8_spec mu h1 h2 z
  · exact kern7_spec mu h1 h2 z
  · exact kern5_spec mu h1 h2 z
  · exact kern4_spec mu h1 h2 z
  · exact kern3_spec mu h1 h2 z
  · exact kern2_spec mu h1 h2 z

theorem writes_notin (a : List Nat) (v : List ℂ) (z : Nat → ℂ) (i : Nat) (h : i ∉ a) : writes z a v i = z i := by
  induction a generalizing v z with
  | nil => cases v <;> rfl
  | cons x xs ih =>
    cases v with
    | nil => rfl
    | cons y ys =>
      rw [writes, ih _ _ (fun h' => h (List.mem_cons_of_mem _ h'))]
      refine if_neg (fun e => h ?_)
      rw [e]; exact List.mem_cons_self

theorem writes_get (a : List Nat) (v : List ℂ) (z : Nat → ℂ) (hn : a.Nodup) (hl : a.length = v.length) (q : Nat)
    (hq : q < a.length) : writes z a v (a.getD q 0) = v.getD q 0 := by
  induction a generalizing v z q with
  | nil => simp at hq
  | cons x xs ih =>
    cases v with
    | nil => simp at hl
    | cons y ys =>
      rw [List.nodup_cons] at hn
      cases q with
      | zero =>
        rw [writes, List.getD_cons_zero, List.getD_cons_zero, writes_notin _ _ _ _ hn.1, if_pos rfl]
      | succ q =>
        rw [writes, List.getD_cons_succ, List.getD_cons_succ]
        exact ih _ _ hn.2 (by simpa using hl) q (by simpa using hq)

theorem getD_map_lt {α β : Type} (f : α → β) (l : List α) (q : Nat) (d : α) (e : β) (h : q < l.length) :
    (l.map f).getD q e = f (l.getD q d) := by
  simp [List.getD, h]

theorem mem_getD {l : List Nat} {x : Nat} : x ∈ l ↔ ∃ q, q < l.length ∧ l.getD q 0 = x := by
  rw [List.mem_iff_getElem]
  constructor
  · rintro ⟨i, h, rfl⟩; exact ⟨i, h, by simp [List.getD, h]⟩
  · rintro ⟨i, h, rfl⟩; exact ⟨i, h, by simp [List.getD, h]⟩

/-- The elements of the butterflies of one turn: all that leave the remainder `l`, in the order of their remainder by the
factor. -/
def Res (p m l : Nat) (js : List Nat) : Prop :=
  js.length = p ∧ ∀ q, q < p → js.getD q 0 < p * m ∧ js.getD q 0 % p = q ∧ js.getD q 0 % m = l

theorem crt_eq {p m x y : Nat} (hc : Nat.Coprime p m) (hx : x < p * m) (hy : y < p * m) (h1 : x % p = y % p)
    (h2 : x % m = y % m) : x = y := by
  have h : x ≡ y [MOD p * m] := (Nat.modEq_and_modEq_iff_modEq_mul hc).mp ⟨h1, h2⟩
  rwa [Nat.ModEq, Nat.mod_eq_of_lt hx, Nat.mod_eq_of_lt hy] at h

theorem Res.nodup {p m l : Nat} {js : List Nat} (h : Res p m l js) : js.Nodup := by
  rw [List.nodup_iff_injective_getElem]
  intro a b hab
  have ha := (h.2 a (by rw [← h.1]; exact a.2)).2.1
  have hb := (h.2 b (by rw [← h.1]; exact b.2)).2.1
  simp only [List.getD, a.2, b.2, List.getElem?_eq_getElem, Option.getD_some] at ha hb
  apply Fin.ext
  rw [← ha, ← hb]
  exact congrArg (· % p) hab

theorem bfly_spec {p mu m l nt k kt len t : Nat} {js : List Nat} (hp : p ∈ kfax) (h1 : mu < p) (h2 : Nat.Coprime mu p)
    (hL : Lay (p * m) nt k kt len) (ht : t < nt) (hR : Res p m l js) (z : Nat → ℂ) :
    ∃ z', bfly p mu k kt len t js z = some z' ∧
      (∀ q, q < p → z' (js.getD q 0 * k + t * kt) =
        ∑ r ∈ range p, z (js.getD r 0 * k + t * kt) * w p (mu * (q * r))) ∧
      ∀ i, (∀ j ∈ js, i ≠ j * k + t * kt) → z' i = z i := by
  have hjs : ∀ j ∈ js, j < p * m := by
    intro j hj
    obtain ⟨q, hq, rfl⟩ := mem_getD.mp hj
    exact (hR.2 q (hR.1 ▸ hq)).1
  have hall : (js.map fun j => j * k + t * kt).all (· < len) = true := by
    rw [List.all_eq_true]
    intro a ha
    obtain ⟨j, hj, rfl⟩ := List.mem_map.mp ha
    exact decide_eq_true (hL.inb j t (hjs j hj) ht)
  have hnd : (js.map fun j => j * k + t * kt).Nodup := by
    rw [List.nodup_map_iff_inj_on hR.nodup]
    intro a ha b hb hab
    exact (hL.inj a t b t (hjs a ha) ht (hjs b hb) ht hab).1
  have hg : ∀ q, q < p → (js.map fun j => j * k + t * kt).getD q 0 = js.getD q 0 * k + t * kt := fun q hq =>
    getD_map_lt _ _ _ _ _ (by rw [hR.1]; exact hq)
  refine ⟨_, by rw [bfly]; exact if_pos hall, fun q hq => ?_, fun i hi => ?_⟩
  · rw [← hg q hq, writes_get _ _ _ hnd]
    · rw [kern_spec hp h1 h2, short, getD_map_lt (d := 0) _ _ _ _ (by simpa using hq)]
      refine (sum_congr rfl fun r hr => ?_)
      rw [hg r (mem_range.mp hr)]
      simp [List.getD, hq]
    · rw [kern_spec hp h1 h2]; simp [short, hR.1]
    · simpa [hR.1] using hq
  · exact writes_notin _ _ _ _ (fun hc => by
      obtain ⟨j, hj, e⟩ := List.mem_map.mp hc
      exact hi j hj e.symm)

theorem many_spec {p mu m l nt k kt len : Nat} {js : List Nat} (hp : p ∈ kfax) (h1 : mu < p) (h2 : Nat.Coprime mu p)
    (hL : Lay (p * m) nt k kt len) (hR : Res p m l js) (z : Nat → ℂ) (T : Nat) (hT : T ≤ nt) :
    ∃ z', many p mu k kt len js T z = some z' ∧
      (∀ t, t < T → ∀ q, q < p → z' (js.getD q 0 * k + t * kt) =
        ∑ r ∈ range p, z (js.getD r 0 * k + t * kt) * w p (mu * (q * r))) ∧
      ∀ i, (∀ t, t < T → ∀ j ∈ js, i ≠ j * k + t * kt) → z' i = z i := by
  have hjs : ∀ j ∈ js, j < p * m := by
    intro j hj
    obtain ⟨q, hq, rfl⟩ := mem_getD.mp hj
    exact (hR.2 q (hR.1 ▸ hq)).1
  have hmem : ∀ q, q < p → js.getD q 0 ∈ js := fun q hq => mem_getD.mpr ⟨q, by rw [hR.1]; exact hq, rfl⟩
  induction T with
  | zero => exact ⟨z, rfl, fun t ht => absurd ht (by omega), fun i _ => rfl⟩
  | succ T ih =>
    obtain ⟨z1, e1, a1, f1⟩ := ih (by omega)
    obtain ⟨z2, e2, a2, f2⟩ := bfly_spec hp h1 h2 hL (show T < nt by omega) hR z1
    refine ⟨z2, by rw [many, e1]; exact e2, fun t ht q hq => ?_, fun i hi => ?_⟩
    · rcases Nat.lt_succ_iff_lt_or_eq.mp ht with h | h
      · rw [f2 _ (fun j hj e => ?_), a1 t h q hq]
        have := (hL.inj _ _ _ _ (hjs _ (hmem q hq)) (by omega) (hjs j hj) (by omega) e).2
        omega
      · subst h
        rw [a2 q hq]
        refine sum_congr rfl fun r hr => ?_
        rw [f1 _ (fun t' ht' j hj e => ?_)]
        have := (hL.inj _ _ _ _ (hjs _ (hmem r (mem_range.mp hr))) (by omega) (hjs j hj) (by omega) e).2
        omega
    · rw [f2 i (fun j hj => hi T (by omega) j hj), f1 i (fun t ht j hj => hi t (by omega) j hj)]

theorem nexts_length (n mm c j : Nat) : (nexts n mm c j).length = c := by
  induction c generalizing j with
  | zero => rfl
  | succ c ih => simp [nexts, ih]

theorem nexts_getD (n mm c j : Nat) (hj : j < n) (hmm : mm < n) (i : Nat) (hi : i < c) :
    (nexts n mm c j).getD i 0 = (j + (i + 1) * mm) % n := by
  induction c generalizing j i with
  | zero => omega
  | succ c ih =>
    have e : (if j + mm ≥ n then j + mm - n else j + mm) = (j + mm) % n := by
      split
      · rw [Nat.mod_eq_sub_mod (by omega), Nat.mod_eq_of_lt (by omega)]
      · rw [Nat.mod_eq_of_lt (by omega)]
    rw [nexts]
    simp only [e]
    cases i with
    | zero => simp
    | succ i =>
      rw [List.getD_cons_succ, ih _ (Nat.mod_lt _ (by omega)) i (by omega), Nat.mod_add_mod]
      congr 1; ring

theorem starts_res {p m mu : Nat} (hp : 2 ≤ p) (hm : 0 < m) (hmu : mu < p) (hr : (mu * m) % p = 1) :
    Res p m 0 (starts (p * m) (mu * m) p) := by
  have hmm : mu * m < p * m := Nat.mul_lt_mul_of_pos_right hmu hm
  have key : ∀ q, q < p → (starts (p * m) (mu * m) p).getD q 0 = (q * (mu * m)) % (p * m) := by
    intro q hq
    match q, hq with
    | 0, _ => simp [starts]
    | 1, _ => simp [starts, Nat.mod_eq_of_lt hmm]
    | q+2, hq =>
      rw [starts, List.getD_cons_succ, List.getD_cons_succ, nexts_getD _ _ _ _ hmm hmm q (by omega)]
      congr 1; ring
  refine ⟨by simp [starts, nexts_length]; omega, fun q hq => ?_⟩
  rw [key q hq]
  refine ⟨Nat.mod_lt _ (by positivity), ?_, ?_⟩
  · rw [Nat.mod_mul_right_mod, Nat.mul_mod, hr, Nat.mul_one, Nat.mod_mod, Nat.mod_eq_of_lt hq]
  · rw [Nat.mod_mul_left_mod, ← Nat.mul_assoc, Nat.mul_mod_left]

theorem rot_res {p m l : Nat} {js : List Nat} (hp : 2 ≤ p) (hl : l + 1 < m) (h : Res p m l js) :
    Res p m (l + 1) (rot js) := by
  have hlen : (rot js).length = p := by simp [rot, h.1]; omega
  have hne : js ≠ [] := by intro e; have := h.1; simp [e] at this; omega
  have hlast : js.getLastD 0 = js.getD (p - 1) 0 := by
    rw [List.getLastD_eq_getLast?, List.getLast?_eq_getElem?, h.1, List.getD]
  refine ⟨hlen, fun q hq => ?_⟩
  have key : ∃ r, r < p ∧ (rot js).getD q 0 = js.getD r 0 + 1 ∧ (r + 1) % p = q := by
    cases q with
    | zero => exact ⟨p - 1, by omega, by rw [rot, List.getD_cons_zero, hlast], by
        rw [Nat.sub_add_cancel (by omega), Nat.mod_self]⟩
    | succ q =>
      refine ⟨q, by omega, ?_, Nat.mod_eq_of_lt hq⟩
      rw [rot, List.getD_cons_succ]
      rw [getD_map_lt (d := 0) _ _ _ _ (by simp [h.1]; omega)]
      congr 1
      have hq1 : q < js.length := by rw [h.1]; omega
      simp [List.getD, h.1, show q < p - 1 by omega]
      rw [List.getElem?_eq_getElem hq1]; rfl
  obtain ⟨r, hr, e, hq'⟩ := key
  obtain ⟨b1, b2, b3⟩ := h.2 r hr
  rw [e]
  have c3 : (js.getD r 0 + 1) % m = l + 1 := by
    rw [Nat.add_mod, b3, Nat.mod_eq_of_lt (show 1 < m by omega), Nat.mod_eq_of_lt hl]
  refine ⟨?_, ?_, c3⟩
  · rcases Nat.lt_or_ge (js.getD r 0 + 1) (p * m) with h4 | h4
    · exact h4
    · exfalso
      have : js.getD r 0 + 1 = p * m := by omega
      rw [this, Nat.mul_mod_left] at c3
      omega
  · rw [Nat.add_mod, b2, ← hq', Nat.add_mod r 1, Nat.mod_eq_of_lt hr]

/-- The sum over the elements of a butterfly is the sum over the elements with the same remainder. -/
theorem res_sum {p m mu l x : Nat} {js : List Nat} (hc : Nat.Coprime p m) (h : Res p m l js) (hp : 0 < p)
    (hx : x % m = l) (f : Nat → ℂ) :
    ∑ r ∈ range p, f (js.getD r 0) * w p (mu * (x % p * r)) = passSpec p m mu f x := by
  rw [passSpec]
  refine sum_nbij' (fun r => js.getD r 0) (fun y => y % p) ?_ ?_ ?_ ?_ ?_
  · intro r hr
    obtain ⟨b1, b2, b3⟩ := h.2 r (mem_range.mp hr)
    exact mem_filter.mpr ⟨mem_range.mpr b1, by rw [Nat.ModEq, b3, hx]⟩
  · intro y _; exact mem_range.mpr (Nat.mod_lt _ hp)
  · intro r hr; exact (h.2 r (mem_range.mp hr)).2.1
  · intro y hy
    obtain ⟨y1, y2⟩ := mem_filter.mp hy
    obtain ⟨b1, b2, b3⟩ := h.2 (y % p) (Nat.mod_lt _ hp)
    exact crt_eq hc b1 (mem_range.mp y1) b2 (by rw [b3, ← hx]; exact y2.symm)
  · intro r hr
    obtain ⟨b1, b2, b3⟩ := h.2 r (mem_range.mp hr)
    congr 1
    apply w_modEq hp
    apply Nat.ModEq.mul_left
    apply Nat.ModEq.mul
    · exact Nat.mod_modEq x p
    · rw [Nat.ModEq, b2, Nat.mod_eq_of_lt (mem_range.mp hr)]

/-- One pass: every transform has its elements replaced by the short transforms; everything else is left alone. -/
theorem pass_spec {p mu m nt k kt len : Nat} {js : List Nat} (hp : p ∈ kfax) (h1 : mu < p) (h2 : Nat.Coprime mu p)
    (hc : Nat.Coprime p m) (hL : Lay (p * m) nt k kt len) (hR : 0 < m → Res p m 0 js) (z : Nat → ℂ) (l : Nat)
    (hl : l ≤ m) :
    ∃ js' z', pass p mu k kt len nt js z l = some (js', z') ∧ (l < m → Res p m l js') ∧
      (∀ t, t < nt → ∀ x, x < p * m → z' (x * k + t * kt) =
        if x % m < l then passSpec p m mu (fun y => z (y * k + t * kt)) x else z (x * k + t * kt)) ∧
      ∀ i, (∀ x t, x < p * m → t < nt → i ≠ x * k + t * kt) → z' i = z i := by
  have hp2 : 2 ≤ p := by
    simp only [kfax, List.mem_cons, List.not_mem_nil, or_false] at hp
    omega
  induction l with
  | zero => exact ⟨js, z, rfl, hR, fun t _ x _ => by simp, fun i _ => rfl⟩
  | succ l ih =>
    obtain ⟨js1, z1, e1, r1, a1, f1⟩ := ih (by omega)
    have r := r1 (by omega)
    have hjs : ∀ j ∈ js1, j < p * m := by
      intro j hj
      obtain ⟨q, hq, rfl⟩ := mem_getD.mp hj
      exact (r.2 q (r.1 ▸ hq)).1
    obtain ⟨z2, e2, a2, f2⟩ := many_spec hp h1 h2 hL r z1 nt le_rfl
    refine ⟨rot js1, z2, ?_, fun h => rot_res hp2 h r, fun t ht x hx => ?_, fun i hi => ?_⟩
    · rw [pass, e1]
      change (many p mu k kt len js1 nt z1).map _ = _
      rw [e2]; rfl
    · by_cases hxl : x % m = l
      · rw [if_pos (by omega)]
        have hq := Nat.mod_lt x (show 0 < p by omega)
        obtain ⟨b1, b2, b3⟩ := r.2 (x % p) hq
        have ex : x = js1.getD (x % p) 0 := crt_eq hc hx b1 b2.symm (by rw [b3, hxl])
        have h3 := a2 t ht (x % p) hq
        rw [← ex] at h3
        rw [h3, ← res_sum (js := js1) hc r (by omega) hxl]
        refine sum_congr rfl fun q hq => ?_
        obtain ⟨d1, d2, d3⟩ := r.2 q (mem_range.mp hq)
        rw [a1 t ht _ d1, if_neg (by omega)]
      · rw [f2 _ (fun t' ht' j hj e => ?_), a1 t ht x hx]
        · by_cases h5 : x % m < l
          · rw [if_pos h5, if_pos (by omega)]
          · rw [if_neg h5, if_neg (by omega)]
        · have h6 := (hL.inj _ _ _ _ hx ht (hjs j hj) ht' e).1
          obtain ⟨q, hq, e2⟩ := mem_getD.mp hj
          have := (r.2 q (r.1 ▸ hq)).2.2
          rw [e2, ← h6] at this
          exact hxl this
    · rw [f2 i (fun t ht j hj => hi j t (hjs j hj) ht), f1 i hi]

end Verif.Fft.Pfa

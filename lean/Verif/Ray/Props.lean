import Mathlib.Tactic.Linarith
import Mathlib.Tactic.LinearCombination
import Mathlib.Tactic.Ring
import Mathlib.Tactic.Positivity
import Mathlib.Tactic.NormNum
import Verif.Ray.Model

/-! # Travel times: the stencils and the edges of a ring -/

namespace Verif.Ray

open Verif

set_option linter.unusedSectionVars false

noncomputable section

/-- Distance in grid steps to the source, the larger of the two directions. -/
def cheb (sx sz x z : ℤ) : ℤ := max |x - sx| |z - sz|

/-- Slowness between `s0` and `s1` on the whole grid. -/
structure Medium (g : Grid) (s0 s1 : ℝ) : Prop where
  step : 0 < g.h
  pos : 0 < s0
  lo : ∀ x z, g.Has x z → s0 ≤ g.slow x z
  hi : ∀ x z, g.Has x z → g.slow x z ≤ s1

/-- Time `v` at `(x, z)` is within the bounds. -/
def Ok (g : Grid) (s0 s1 : ℝ) (sx sz x z : ℤ) (v : ℝ) : Prop :=
  0 ≤ v ∧ (cheb sx sz x z ≠ 0 → g.h * s0 ≤ v) ∧ v ≤ Real.sqrt 2 * g.h * s1 * cheb sx sz x z

theorem one_le_sqrt2 : 1 ≤ Real.sqrt 2 := by rw [Real.one_le_sqrt]; norm_num

theorem pick_ge {l m n : ℝ} (h1 : l ≤ m) (h2 : l ≤ n) : l ≤ if m < n then m else n := by split <;> assumption

theorem pick_le {m n : ℝ} : (if m < n then m else n) ≤ m := by
  split
  · exact le_refl _
  · exact not_lt.1 ‹_›

theorem sqrt_sub_le {c d : ℝ} (hc : 0 ≤ c) (hd : 0 ≤ d) : Real.sqrt (c ^ 2 - d) ≤ c :=
  Real.sqrt_le_iff.2 ⟨hc, by linarith⟩

theorem cornerNew_bounds {h s0 s1 a b t sa sb so si : ℝ} (hh : 0 < h) (h0 : 0 < s0) (ha : 0 ≤ a) (hb : 0 ≤ b) (ht : h * s0 ≤ t)
    (a0 : s0 ≤ sa) (a1 : sa ≤ s1) (b0 : s0 ≤ sb) (b1 : sb ≤ s1) (o0 : s0 ≤ so) (o1 : so ≤ s1) (i0 : s0 ≤ si) (i1 : si ≤ s1) :
    h * s0 ≤ cornerNew h a b t sa sb so si ∧ cornerNew h a b t sa sb so si ≤ t + Real.sqrt 2 * h * s1 := by
  have q := one_le_sqrt2
  have q2 : Real.sqrt 2 * Real.sqrt 2 = 2 := Real.mul_self_sqrt (by norm_num)
  have hq : 0 < Real.sqrt 2 * h := by positivity
  unfold cornerNew
  dsimp only
  split
  · have c1 : h * s0 ≤ b + h * (1 / 2 * (sb + so)) := by nlinarith
    have c2 : h * s0 ≤ a + h * (1 / 2 * (sa + so)) := by nlinarith
    have c3 : h * s0 ≤ t + Real.sqrt 2 * h * (1 / 2 * (so + si)) := by
      have := mul_nonneg hq.le (by linarith : 0 ≤ 1 / 2 * (so + si)); linarith
    have c4 : t + Real.sqrt 2 * h * (1 / 2 * (so + si)) ≤ t + Real.sqrt 2 * h * s1 := by nlinarith
    constructor
    · exact pick_ge c3 (pick_ge c2 c1)
    · exact pick_le.trans c4
  · constructor
    · have := Real.sqrt_nonneg (2 * h * h * (1 / 4 * (sa + sb + so + si)) * (1 / 4 * (sa + sb + so + si)) - (a - b) * (a - b))
      linarith
    · have hs : 0 ≤ 1 / 4 * (sa + sb + so + si) := by linarith
      have e : 2 * h * h * (1 / 4 * (sa + sb + so + si)) * (1 / 4 * (sa + sb + so + si)) - (a - b) * (a - b) =
          (Real.sqrt 2 * h * (1 / 4 * (sa + sb + so + si))) ^ 2 - (a - b) * (a - b) := by
        linear_combination -(h * h * (1 / 4 * (sa + sb + so + si)) * (1 / 4 * (sa + sb + so + si))) * q2
      rw [e]
      have := sqrt_sub_le (mul_nonneg hq.le hs) (mul_self_nonneg (a - b))
      have : Real.sqrt 2 * h * (1 / 4 * (sa + sb + so + si)) ≤ Real.sqrt 2 * h * s1 := by nlinarith
      linarith

theorem sideNew_bounds {h s0 s1 p m t sp sm si so : ℝ} (hh : 0 < h) (h0 : 0 < s0) (hp : 0 ≤ p) (hm : 0 ≤ m) (ht : h * s0 ≤ t)
    (p0 : s0 ≤ sp) (p1 : sp ≤ s1) (m0 : s0 ≤ sm) (m1 : sm ≤ s1) (i0 : s0 ≤ si) (i1 : si ≤ s1) (o0 : s0 ≤ so) (o1 : so ≤ s1) :
    h * s0 ≤ sideNew h p m t sp sm si so ∧ sideNew h p m t sp sm si so ≤ t + Real.sqrt 2 * h * s1 := by
  have q := one_le_sqrt2
  have hq : h ≤ Real.sqrt 2 * h := by nlinarith
  have w : t + h * s1 ≤ t + Real.sqrt 2 * h * s1 := by nlinarith
  unfold sideNew
  dsimp only
  split
  · have c1 : h * s0 ≤ m + Real.sqrt 2 * h * (1 / 2 * (sm + so)) := by nlinarith
    have c2 : h * s0 ≤ p + Real.sqrt 2 * h * (1 / 2 * (sp + so)) := by nlinarith
    have c3 : h * s0 ≤ t + h * (1 / 2 * (si + so)) := by nlinarith
    have c4 : t + h * (1 / 2 * (si + so)) ≤ t + Real.sqrt 2 * h * s1 := by nlinarith
    constructor
    · exact pick_ge c3 (pick_ge c2 c1)
    · exact pick_le.trans c4
  · constructor
    · have := Real.sqrt_nonneg (h * h * (1 / 4 * (sp + sm + si + so)) * (1 / 4 * (sp + sm + si + so)) - 1 / 4 * (p - m) * (p - m))
      linarith
    · have hs : 0 ≤ 1 / 4 * (sp + sm + si + so) := by linarith
      have e : h * h * (1 / 4 * (sp + sm + si + so)) * (1 / 4 * (sp + sm + si + so)) - 1 / 4 * (p - m) * (p - m) =
          (h * (1 / 4 * (sp + sm + si + so))) ^ 2 - (1 / 2 * (p - m)) * (1 / 2 * (p - m)) := by ring
      rw [e]
      have := sqrt_sub_le (mul_nonneg hh.le hs) (mul_self_nonneg (1 / 2 * (p - m)))
      have : h * (1 / 4 * (sp + sm + si + so)) ≤ h * s1 := by nlinarith
      linarith

/-! ## Edges -/

/-- All times are within the bounds. -/
def AllOk (g : Grid) (s0 s1 : ℝ) (sx sz : ℤ) (T : Field) : Prop := ∀ x z v, T x z = some v → Ok g s0 s1 sx sz x z v

theorem tget_some {g : Grid} {T : Field} {x z : ℤ} {v : ℝ} (h : g.Has x z) (e : T x z = some v) : tget g T x z = some v := by
  unfold tget; rw [if_pos h, e]

theorem sget_some {g : Grid} {x z : ℤ} (h : g.Has x z) : sget g x z = some (g.slow x z) := by unfold sget; rw [if_pos h]

/-- `T` with one more time. -/
def upd (T : Field) (x z : ℤ) (v : ℝ) : Field := fun a b => if a = x ∧ b = z then some v else T a b

theorem tput_some {g : Grid} {T : Field} {x z : ℤ} {v : ℝ} (h : g.Has x z) : tput g T x z v = some (upd T x z v) := by
  unfold tput; rw [if_pos h]; rfl

theorem upd_self (T : Field) (x z : ℤ) (v : ℝ) : upd T x z v x z = some v := by unfold upd; rw [if_pos ⟨rfl, rfl⟩]

theorem upd_ne (T : Field) {x z a b : ℤ} (v : ℝ) (h : ¬(a = x ∧ b = z)) : upd T x z v a b = T a b := by unfold upd; rw [if_neg h]

theorem AllOk.upd {g : Grid} {s0 s1 : ℝ} {sx sz : ℤ} {T : Field} (hT : AllOk g s0 s1 sx sz T) {x z : ℤ} {v : ℝ}
    (hv : Ok g s0 s1 sx sz x z v) : AllOk g s0 s1 sx sz (upd T x z v) := by
  intro a b w hw
  by_cases c : a = x ∧ b = z
  · rw [c.1, c.2, upd_self] at hw
    cases hw
    rw [c.1, c.2]; exact hv
  · rw [upd_ne _ _ c] at hw
    exact hT a b w hw

theorem Ok.next {g : Grid} {s0 s1 : ℝ} {sx sz x z ox oz : ℤ} {t v : ℝ} (ht : Ok g s0 s1 sx sz x z t)
    (hc : cheb sx sz ox oz = cheb sx sz x z + 1) (hg : 0 < g.h * s0) (h1 : g.h * s0 ≤ v) (h2 : v ≤ t + Real.sqrt 2 * g.h * s1) :
    Ok g s0 s1 sx sz ox oz v := by
  refine ⟨hg.le.trans h1, fun _ => h1, ?_⟩
  rw [hc]
  push_cast
  have := ht.2.2
  linarith

/-- The corner stencil. -/
theorem corner_ok {g : Grid} {s0 s1 : ℝ} {sx sz : ℤ} (M : Medium g s0 s1) {T : Field} (hT : AllOk g s0 s1 sx sz T) {ix iz ox oz : ℤ}
    (hii : g.Has ix iz) (hio : g.Has ix oz) (hoi : g.Has ox iz) (hoo : g.Has ox oz) {t a b : ℝ} (et : T ix iz = some t)
    (ea : T ix oz = some a) (eb : T ox iz = some b) (hk : 1 ≤ cheb sx sz ix iz) (hc : cheb sx sz ox oz = cheb sx sz ix iz + 1) :
    ∃ v, corner g ix iz ox oz T = some (upd T ox oz v) ∧ Ok g s0 s1 sx sz ox oz v := by
  unfold corner
  simp only [Option.bind_eq_bind, tget_some hio ea, tget_some hoi eb, tget_some hii et, sget_some hii, sget_some hio, sget_some hoi,
    sget_some hoo, Option.bind_some]
  obtain ⟨l, u⟩ := cornerNew_bounds M.step M.pos (hT _ _ _ ea).1 (hT _ _ _ eb).1 ((hT _ _ _ et).2.1 (by omega)) (M.lo _ _ hio) (M.hi _ _ hio)
    (M.lo _ _ hoi) (M.hi _ _ hoi) (M.lo _ _ hoo) (M.hi _ _ hoo) (M.lo _ _ hii) (M.hi _ _ hii)
  have okv := (hT _ _ _ et).next hc (mul_pos M.step M.pos) l u
  cases eo : T ox oz with
  | none => exact ⟨_, tput_some hoo, okv⟩
  | some w =>
    dsimp only
    split
    · exact ⟨_, tput_some hoo, okv⟩
    · refine ⟨w, ?_, hT _ _ _ eo⟩
      congr 1
      funext x z
      by_cases c : x = ox ∧ z = oz
      · rw [c.1, c.2, upd_self, eo]
      · rw [upd_ne _ _ c]

/-- What is known about an edge: its points are on the grid, the inner ones `k` steps from the source, the outer ones `k + 1`; the inner
times are `f`. -/
structure Edge (g : Grid) (sx sz : ℤ) (vert : Bool) (inn out lo hi k : ℤ) (T : Field) (f : ℤ → ℝ) : Prop where
  k1 : 1 ≤ k
  ne : inn ≠ out
  lh : lo < hi
  hasI : ∀ al, lo ≤ al → al ≤ hi → g.Has (px vert al inn) (pz vert al inn)
  hasO : ∀ al, lo ≤ al → al ≤ hi → g.Has (px vert al out) (pz vert al out)
  chI : ∀ al, lo ≤ al → al ≤ hi → cheb sx sz (px vert al inn) (pz vert al inn) = k
  chO : ∀ al, lo ≤ al → al ≤ hi → cheb sx sz (px vert al out) (pz vert al out) = k + 1
  val : ∀ al, lo ≤ al → al ≤ hi → T (px vert al inn) (pz vert al inn) = some (f al)

/-- State in the middle of an edge that began with `T0`: only points of the outer line changed, those of `W` are set. -/
structure Mid (g : Grid) (s0 s1 : ℝ) (sx sz : ℤ) (vert : Bool) (out lo hi : ℤ) (T0 T : Field) (W : ℤ → Prop) : Prop where
  ok : AllOk g s0 s1 sx sz T
  keep : ∀ x z, (∀ al, lo ≤ al → al ≤ hi → ¬(x = px vert al out ∧ z = pz vert al out)) → T x z = T0 x z
  isSet : ∀ al, W al → ∃ v, T (px vert al out) (pz vert al out) = some v

section
variable {g : Grid} {s0 s1 : ℝ} {sx sz : ℤ} {vert : Bool} {inn out lo hi k : ℤ} {T0 : Field} {f : ℤ → ℝ}

theorem p_inj {al al' ac ac' : ℤ} (h : px vert al ac = px vert al' ac') (h' : pz vert al ac = pz vert al' ac') : al = al' ∧ ac = ac' := by
  unfold px at h; unfold pz at h'
  cases vert <;> simp at h h' <;> exact ⟨by assumption, by assumption⟩

variable (M : Medium g s0 s1) (E : Edge g sx sz vert inn out lo hi k T0 f)
include M E

theorem Mid.inner {T : Field} {W : ℤ → Prop} (h : Mid g s0 s1 sx sz vert out lo hi T0 T W) {al : ℤ} (h1 : lo ≤ al) (h2 : al ≤ hi) :
    T (px vert al inn) (pz vert al inn) = some (f al) := by
  rw [h.keep _ _ fun a _ _ c => E.ne (p_inj c.1 c.2).2, E.val al h1 h2]

theorem Mid.eget {T : Field} {W : ℤ → Prop} (h : Mid g s0 s1 sx sz vert out lo hi T0 T W) {al : ℤ} (h1 : lo ≤ al) (h2 : al ≤ hi) :
    eget g vert T al inn = some (f al) := tget_some (E.hasI al h1 h2) (h.inner M E h1 h2)

theorem Mid.write {T : Field} {W : ℤ → Prop} (h : Mid g s0 s1 sx sz vert out lo hi T0 T W) {al : ℤ} (h1 : lo ≤ al) (h2 : al ≤ hi) {v : ℝ}
    (hv : Ok g s0 s1 sx sz (px vert al out) (pz vert al out) v) :
    Mid g s0 s1 sx sz vert out lo hi T0 (upd T (px vert al out) (pz vert al out) v) (fun a => W a ∨ a = al) := by
  refine ⟨h.ok.upd hv, fun x z c => ?_, fun a ha => ?_⟩
  · rw [upd_ne _ _ (c al h1 h2), h.keep x z c]
  · by_cases c : a = al
    · rw [c]; exact ⟨v, upd_self _ _ _ _⟩
    · rw [upd_ne _ _ fun e => c (p_inj e.1 e.2).1]
      exact h.isSet a (ha.resolve_right c)

theorem Mid.okIn {T : Field} {W : ℤ → Prop} (h : Mid g s0 s1 sx sz vert out lo hi T0 T W) {al : ℤ} (h1 : lo ≤ al) (h2 : al ≤ hi) :
    Ok g s0 s1 sx sz (px vert al inn) (pz vert al inn) (f al) := h.ok _ _ _ (h.inner M E h1 h2)

theorem eput_ok {T : Field} {W : ℤ → Prop} (h : Mid g s0 s1 sx sz vert out lo hi T0 T W) {al : ℤ} (h1 : lo ≤ al) (h2 : al ≤ hi) :
    ∃ T', eput g vert inn out al T = some T' ∧ Mid g s0 s1 sx sz vert out lo hi T0 T' (fun a => W a ∨ a = al) := by
  unfold eput
  simp only [Option.bind_eq_bind, h.eget M E h1 h2, sget_some (E.hasO al h1 h2), sget_some (E.hasI al h1 h2), Option.bind_some,
    tput_some (E.hasO al h1 h2)]
  refine ⟨_, rfl, h.write M E h1 h2 ?_⟩
  have hs := E.chI al h1 h2
  have k1 := E.k1
  have o := h.okIn M E h1 h2
  have q := one_le_sqrt2
  have a1 := M.lo _ _ (E.hasO al h1 h2); have a2 := M.hi _ _ (E.hasO al h1 h2)
  have b1 := M.lo _ _ (E.hasI al h1 h2); have b2 := M.hi _ _ (E.hasI al h1 h2)
  have hh := M.step; have hp := M.pos
  refine o.next (by rw [E.chO al h1 h2, hs]) (mul_pos hh hp) ?_ ?_
  · have := o.2.1 (by omega)
    nlinarith
  · have e1 : 1 / 2 * g.h * (g.slow (px vert al out) (pz vert al out) + g.slow (px vert al inn) (pz vert al inn)) ≤ g.h * s1 := by nlinarith
    have e2 : g.h * s1 ≤ Real.sqrt 2 * (g.h * s1) := by
      have : 0 ≤ g.h * s1 := mul_nonneg hh.le (by linarith)
      nlinarith
    linarith

theorem side_ok {T : Field} {W : ℤ → Prop} (h : Mid g s0 s1 sx sz vert out lo hi T0 T W) {al : ℤ} (h1 : lo < al) (h2 : al < hi) :
    ∃ T', side g vert inn out al T = some T' ∧ Mid g s0 s1 sx sz vert out lo hi T0 T' (fun a => W a ∨ a = al) := by
  have hp := E.hasI (al + 1) (by omega) (by omega)
  have hm := E.hasI (al - 1) (by omega) (by omega)
  have hi' := E.hasI al (by omega) (by omega)
  have ho := E.hasO al (by omega) (by omega)
  unfold side
  simp only [Option.bind_eq_bind, tget_some hp (h.inner M E (al := al + 1) (by omega) (by omega)),
    tget_some hm (h.inner M E (al := al - 1) (by omega) (by omega)), tget_some hi' (h.inner M E (al := al) (by omega) (by omega)),
    sget_some hp, sget_some hm, sget_some hi', sget_some ho, Option.bind_some, tput_some ho]
  have o := h.okIn M E (al := al) (by omega) (by omega)
  have hs := E.chI al (by omega) (by omega)
  have k1 := E.k1
  obtain ⟨l, u⟩ := sideNew_bounds M.step M.pos (h.okIn M E (al := al + 1) (by omega) (by omega)).1
    (h.okIn M E (al := al - 1) (by omega) (by omega)).1 (o.2.1 (by omega)) (M.lo _ _ hp) (M.hi _ _ hp) (M.lo _ _ hm) (M.hi _ _ hm)
    (M.lo _ _ hi') (M.hi _ _ hi') (M.lo _ _ ho) (M.hi _ _ ho)
  exact ⟨_, rfl, h.write M E (by omega) (by omega) (o.next (by rw [E.chO al (by omega) (by omega), hs]) (mul_pos M.step M.pos) l u)⟩

theorem ecorner_ok {T : Field} {W : ℤ → Prop} (h : Mid g s0 s1 sx sz vert out lo hi T0 T W) {al al' : ℤ} (h1 : lo ≤ al) (h2 : al ≤ hi)
    (h1' : lo ≤ al') (h2' : al' ≤ hi) (hw : W al) :
    ∃ T', ecorner g vert inn out al al' T = some T' ∧ Mid g s0 s1 sx sz vert out lo hi T0 T' (fun a => W a ∨ a = al') := by
  obtain ⟨b, eb⟩ := h.isSet al hw
  have key : ∃ v, ecorner g vert inn out al al' T = some (upd T (px vert al' out) (pz vert al' out) v) ∧
      Ok g s0 s1 sx sz (px vert al' out) (pz vert al' out) v := by
    have hII := E.hasI al h1 h2; have hII' := E.hasI al' h1' h2'; have hO := E.hasO al h1 h2; have hO' := E.hasO al' h1' h2'
    have e1 := h.inner M E h1 h2; have e2 := h.inner M E h1' h2'
    have c1 := E.chI al h1 h2; have c2 := E.chO al' h1' h2'
    have k1 := E.k1
    unfold ecorner
    cases vert
    · exact corner_ok M h.ok hII hO hII' hO' e1 eb e2 (by rw [c1]; exact k1) (by rw [c2, c1])
    · exact corner_ok M h.ok hII hII' hO hO' e1 e2 eb (by rw [c1]; exact k1) (by rw [c2, c1])
  obtain ⟨v, e, ok⟩ := key
  exact ⟨_, e, h.write M E h1' h2' ok⟩

theorem Mid.mono {T : Field} {W W' : ℤ → Prop} (h : Mid g s0 s1 sx sz vert out lo hi T0 T W) (hw : ∀ a, W' a → W a) :
    Mid g s0 s1 sx sz vert out lo hi T0 T W' := ⟨h.ok, h.keep, fun a ha => h.isSet a (hw a ha)⟩

/-- Points of the outer line that are set before the loop downwards, up to `j`. -/
def Up (lo : ℤ) (f : ℤ → ℝ) (j a : ℤ) : Prop :=
  lo ≤ a ∧ ((a < j ∧ f a ≤ f (a + 1)) ∨ (lo < a ∧ a ≤ j ∧ f (a - 1) < f a))

omit M E in
theorem Up_lo (a : ℤ) (h : Up lo f (lo + 1) a) : a = lo ∧ f lo ≤ f (lo + 1) ∨ a = lo + 1 ∧ f lo < f (lo + 1) := by
  obtain ⟨h0, ⟨h1, h2⟩ | ⟨h1, h2, h3⟩⟩ := h
  · have : a = lo := by omega
    subst this; exact Or.inl ⟨rfl, h2⟩
  · have : a = lo + 1 := by omega
    subst this
    rw [add_sub_cancel_right] at h3
    exact Or.inr ⟨rfl, h3⟩

theorem edgeLo_ok (hT : AllOk g s0 s1 sx sz T0) :
    ∃ s, edgeLo g vert inn out lo T0 = some s ∧ s.1 = decide (f lo < f (lo + 1)) ∧
      Mid g s0 s1 sx sz vert out lo hi T0 s.2 (Up lo f (lo + 1)) := by
  have lh := E.lh
  have m0 : Mid g s0 s1 sx sz vert out lo hi T0 T0 (fun _ => False) := ⟨hT, fun _ _ _ => rfl, fun _ h => h.elim⟩
  unfold edgeLo
  simp only [Option.bind_eq_bind, m0.eget M E (al := lo) (by omega) (by omega), m0.eget M E (al := lo + 1) (by omega) (by omega), Option.bind_some]
  by_cases c : f lo ≤ f (lo + 1)
  · obtain ⟨T1, e1, m1⟩ := eput_ok M E m0 (al := lo) (by omega) (by omega)
    rw [if_pos c, e1]
    simp only [Option.bind_some, m1.eget M E (al := lo) (by omega) (by omega), m1.eget M E (al := lo + 1) (by omega) (by omega)]
    by_cases c2 : f lo < f (lo + 1)
    · obtain ⟨T2, e2, m2⟩ := ecorner_ok M E m1 (al := lo) (al' := lo + 1) (by omega) (by omega) (by omega) (by omega) (Or.inr rfl)
      rw [if_pos c2, e2]
      refine ⟨_, rfl, by simp [c2], m2.mono M E fun a ha => ?_⟩
      rcases Up_lo a ha with ⟨h, -⟩ | ⟨h, -⟩
      · exact Or.inl (Or.inr h)
      · exact Or.inr h
    · rw [if_neg c2]
      refine ⟨_, rfl, by simp [c2], m1.mono M E fun a ha => ?_⟩
      rcases Up_lo a ha with ⟨h, -⟩ | ⟨h, h'⟩
      · exact Or.inr h
      · exact (c2 h').elim
  · rw [if_neg c]
    have c2 : ¬ f lo < f (lo + 1) := fun h => c h.le
    rw [if_neg c2]
    refine ⟨_, rfl, by simp [c2], m0.mono M E fun a ha => ?_⟩
    rcases Up_lo a ha with ⟨-, h⟩ | ⟨-, h⟩
    · exact c h
    · exact c2 h

theorem edgeUp_ok {al : ℤ} (h1 : lo < al) (h2 : al < hi) {s : Bool × Field} (hs : s.1 = decide (f (al - 1) < f al))
    (m0 : Mid g s0 s1 sx sz vert out lo hi T0 s.2 (Up lo f al)) :
    ∃ s', edgeUp g vert inn out al s = some s' ∧ s'.1 = decide (f al < f (al + 1)) ∧
      Mid g s0 s1 sx sz vert out lo hi T0 s'.2 (Up lo f (al + 1)) := by
  have step : ∀ a, Up lo f (al + 1) a → Up lo f al a ∨ (a = al ∧ f al ≤ f (al + 1)) ∨ (a = al + 1 ∧ f al < f (al + 1)) := by
    rintro a ⟨h0, ⟨ha, hb⟩ | ⟨ha, hb, hc⟩⟩
    · by_cases c : a = al
      · subst c; exact Or.inr (Or.inl ⟨rfl, hb⟩)
      · exact Or.inl ⟨h0, Or.inl ⟨by omega, hb⟩⟩
    · by_cases c : a = al + 1
      · subst c; rw [add_sub_cancel_right] at hc; exact Or.inr (Or.inr ⟨rfl, hc⟩)
      · exact Or.inl ⟨h0, Or.inr ⟨ha, by omega, hc⟩⟩
  unfold edgeUp
  simp only [Option.bind_eq_bind, m0.eget M E (al := al) (by omega) (by omega), m0.eget M E (al := al + 1) (by omega) (by omega), Option.bind_some]
  by_cases c : f al = f (al + 1)
  · obtain ⟨T1, e1, m1⟩ := side_ok M E m0 h1 h2
    rw [if_pos c, e1]
    simp only [Option.bind_some, m1.eget M E (al := al) (by omega) (by omega), m1.eget M E (al := al + 1) (by omega) (by omega)]
    have c2 : ¬ f al < f (al + 1) := by rw [c]; exact lt_irrefl _
    rw [if_neg c2]
    refine ⟨_, rfl, by simp [c2], m1.mono M E fun a ha => ?_⟩
    rcases step a ha with h | ⟨h, -⟩ | ⟨-, h⟩
    · exact Or.inl h
    · exact Or.inr h
    · exact (c2 h).elim
  · rw [if_neg c]
    by_cases c2 : f al < f (al + 1)
    · rw [if_pos c2]
      by_cases c3 : s.1 = false
      · obtain ⟨T1, e1, m1⟩ := side_ok M E m0 h1 h2
        rw [if_pos c3, e1, Option.bind_some]
        obtain ⟨T2, e2, m2⟩ := ecorner_ok M E m1 (al := al) (al' := al + 1) (by omega) (by omega) (by omega) (by omega) (Or.inr rfl)
        rw [e2]
        refine ⟨_, rfl, by simp [c2], m2.mono M E fun a ha => ?_⟩
        rcases step a ha with h | ⟨h, -⟩ | ⟨h, -⟩
        · exact Or.inl (Or.inl h)
        · exact Or.inl (Or.inr h)
        · exact Or.inr h
      · rw [if_neg c3]
        have hasc : f (al - 1) < f al := by
          by_contra hn
          exact c3 (by rw [hs]; simp [hn])
        have hset : Up lo f al al := ⟨h1.le, Or.inr ⟨h1, le_refl _, hasc⟩⟩
        obtain ⟨T2, e2, m2⟩ := ecorner_ok M E m0 (al := al) (al' := al + 1) (by omega) (by omega) (by omega) (by omega) hset
        rw [e2]
        refine ⟨_, rfl, by simp [c2], m2.mono M E fun a ha => ?_⟩
        rcases step a ha with h | ⟨h, -⟩ | ⟨h, -⟩
        · exact Or.inl h
        · rw [h]; exact Or.inl hset
        · exact Or.inr h
    · rw [if_neg c2]
      refine ⟨_, rfl, by simp [c2], m0.mono M E fun a ha => ?_⟩
      rcases step a ha with h | ⟨-, h⟩ | ⟨-, h⟩
      · exact h
      · exact (c (le_antisymm h (not_lt.1 c2))).elim
      · exact (c2 h).elim

theorem edgeHi_ok {T : Field} (m0 : Mid g s0 s1 sx sz vert out lo hi T0 T (Up lo f hi)) :
    ∃ T', edgeHi g vert inn out hi T = some T' ∧ Mid g s0 s1 sx sz vert out lo hi T0 T' (fun a => Up lo f hi a ∨ a = hi) := by
  have lh := E.lh
  unfold edgeHi
  simp only [Option.bind_eq_bind, m0.eget M E (al := hi) (by omega) (by omega), m0.eget M E (al := hi - 1) (by omega) (by omega), Option.bind_some]
  by_cases c : f hi ≤ f (hi - 1)
  · rw [if_pos c]; exact eput_ok M E m0 (by omega) (by omega)
  · rw [if_neg c]
    refine ⟨T, rfl, m0.mono M E fun a ha => ?_⟩
    rcases ha with h | h
    · exact h
    · rw [h]; exact ⟨by omega, Or.inr ⟨by omega, le_refl _, not_le.1 c⟩⟩

theorem edgeDown_ok {al : ℤ} (h1 : lo < al) (h2 : al ≤ hi) {T : Field}
    (m0 : Mid g s0 s1 sx sz vert out lo hi T0 T (fun a => Up lo f hi a ∨ (al ≤ a ∧ a ≤ hi))) :
    ∃ T', edgeDown g vert inn out al T = some T' ∧ Mid g s0 s1 sx sz vert out lo hi T0 T' (fun a => Up lo f hi a ∨ (al - 1 ≤ a ∧ a ≤ hi)) := by
  unfold edgeDown
  simp only [Option.bind_eq_bind, m0.eget M E (al := al) (by omega) (by omega), m0.eget M E (al := al - 1) (by omega) (by omega), Option.bind_some]
  by_cases c : f al < f (al - 1)
  · rw [if_pos c]
    obtain ⟨T', e, m⟩ := ecorner_ok M E m0 (al := al) (al' := al - 1) (by omega) (by omega) (by omega) (by omega) (Or.inr ⟨le_refl _, h2⟩)
    refine ⟨T', e, m.mono M E fun a ha => ?_⟩
    rcases ha with h | ⟨h, h'⟩
    · exact Or.inl (Or.inl h)
    · by_cases ca : a = al - 1
      · exact Or.inr ca
      · exact Or.inl (Or.inr ⟨by omega, h'⟩)
  · rw [if_neg c]
    refine ⟨T, rfl, m0.mono M E fun a ha => ?_⟩
    rcases ha with h | ⟨h, h'⟩
    · exact Or.inl h
    · by_cases ca : a = al - 1
      · refine Or.inl ?_
        rw [ca]
        refine ⟨by omega, Or.inl ⟨by omega, ?_⟩⟩
        rw [sub_add_cancel]; exact not_lt.1 c
      · exact Or.inr ⟨by omega, h'⟩

/-- An edge sets every point of the outer line and changes nothing else. -/
theorem edge_ok (hT : AllOk g s0 s1 sx sz T0) :
    ∃ T', edge g vert inn out lo hi T0 = some T' ∧ Mid g s0 s1 sx sz vert out lo hi T0 T' (fun a => lo ≤ a ∧ a ≤ hi) := by
  have lh := E.lh
  obtain ⟨s, e, hs, m⟩ := edgeLo_ok M E hT
  unfold edge
  simp only [Option.bind_eq_bind, e, Option.bind_some]
  unfold forIM
  refine Exists.elim (forNM_inv (n := (hi - (lo + 1)).toNat) (s := s) (body := fun i => edgeUp g vert inn out (lo + 1 + i))
    (fun i (s : Bool × Field) => s.1 = decide (f (lo + 1 + i - 1) < f (lo + 1 + i)) ∧ Mid g s0 s1 sx sz vert out lo hi T0 s.2 (Up lo f (lo + 1 + i)))
    ?_ ?_) ?_
  · push_cast
    rw [add_zero, add_sub_cancel_right]; exact ⟨hs, m⟩
  · intro i hi' s ⟨h1, h2⟩
    obtain ⟨s', e', h1', h2'⟩ := edgeUp_ok M E (al := lo + 1 + i) (by omega) (by omega) h1 h2
    refine ⟨s', e', ?_, ?_⟩
    · rw [h1']; push_cast
      rw [show lo + 1 + ((i : ℤ) + 1) - 1 = lo + 1 + i by ring, show lo + 1 + ((i : ℤ) + 1) = lo + 1 + i + 1 by ring]
    · push_cast; rw [show lo + 1 + ((i : ℤ) + 1) = lo + 1 + i + 1 by ring]; exact h2'
  rintro s2 ⟨e2, -, m2⟩
  rw [e2, Option.bind_some]
  rw [show lo + 1 + ((hi - (lo + 1)).toNat : ℤ) = hi by omega] at m2
  obtain ⟨T3, e3, m3⟩ := edgeHi_ok M E m2
  rw [e3, Option.bind_some]
  refine Exists.elim (forNM_inv (n := (hi - lo).toNat) (s := T3) (body := fun j => edgeDown g vert inn out (hi - j))
    (fun j (T : Field) => Mid g s0 s1 sx sz vert out lo hi T0 T (fun a => Up lo f hi a ∨ (hi - j ≤ a ∧ a ≤ hi))) ?_ ?_) ?_
  · refine m3.mono M E fun a ha => ?_
    rcases ha with h | ⟨h, h'⟩
    · exact Or.inl h
    · push_cast at h; exact Or.inr (by omega)
  · intro j hj T m4
    obtain ⟨T', e', m'⟩ := edgeDown_ok M E (al := hi - j) (by omega) (by omega) m4
    refine ⟨T', e', m'.mono M E fun a ha => ?_⟩
    push_cast at ha
    rwa [show hi - (j : ℤ) - 1 = hi - (j + 1) by ring]
  · intro T4 ⟨e4, m4⟩
    refine ⟨T4, e4, m4.mono M E fun a ha => ?_⟩
    refine Or.inr ⟨?_, ha.2⟩
    omega

end

end

end Verif.Ray

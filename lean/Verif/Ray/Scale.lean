import Verif.Ray.Head

/-! # Travel times: scaling -/

namespace Verif.Ray

open Verif

set_option linter.unusedSectionVars false

noncomputable section

/-- All times multiplied by `c`. -/
def timesBy (c : ℝ) (T : Field) : Field := fun x z => (T x z).map (c * ·)

section
variable (g : Grid) {a b : ℝ} (ha : 0 < a) (hb : 0 < b)

/-- The grid with spacing `a·h` and slowness `b·s`. -/
def scaled (g : Grid) (a b : ℝ) : Grid := { g with h := a * g.h, slow := fun x z => b * g.slow x z }

theorem sget_scaled (x z : ℤ) : sget (scaled g a b) x z = (sget g x z).map (b * ·) := by
  unfold sget
  have : (scaled g a b).Has x z ↔ g.Has x z := Iff.rfl
  by_cases c : g.Has x z
  · rw [if_pos c, if_pos (this.2 c)]; rfl
  · rw [if_neg c, if_neg (fun h => c (this.1 h))]; rfl

theorem tget_scaled (T : Field) (c : ℝ) (x z : ℤ) : tget (scaled g a b) (timesBy c T) x z = (tget g T x z).map (c * ·) := by
  unfold tget
  have : (scaled g a b).Has x z ↔ g.Has x z := Iff.rfl
  by_cases h : g.Has x z
  · rw [if_pos h, if_pos (this.2 h)]; rfl
  · rw [if_neg h, if_neg (fun h' => h (this.1 h'))]; rfl

theorem tput_scaled (T : Field) (c : ℝ) (x z : ℤ) (v : ℝ) :
    tput (scaled g a b) (timesBy c T) x z (c * v) = (tput g T x z v).map (timesBy c) := by
  unfold tput
  have : (scaled g a b).Has x z ↔ g.Has x z := Iff.rfl
  by_cases h : g.Has x z
  · rw [if_pos h, if_pos (this.2 h)]
    refine congrArg some (funext fun x' => funext fun z' => ?_)
    unfold timesBy
    dsimp only
    split <;> rfl
  · rw [if_neg h, if_neg (fun h' => h (this.1 h'))]; rfl

theorem map_bind {α β γ δ : Type} {o : Option α} {p : α → β} {f : α → Option γ} {f' : β → Option δ} {q : γ → δ}
    (h : ∀ x, f' (p x) = (f x).map q) : (o.map p).bind f' = (o.bind f).map q := by
  cases o with
  | none => rfl
  | some x => exact h x

theorem pick_mul {c m n : ℝ} (hc : 0 < c) : (if c * m < c * n then c * m else c * n) = c * if m < n then m else n := by
  by_cases h : m < n
  · rw [if_pos h, if_pos ((mul_lt_mul_iff_right₀ hc).2 h)]
  · rw [if_neg h, if_neg (fun h' => h ((mul_lt_mul_iff_right₀ hc).1 h'))]

include ha hb in
theorem cornerNew_scaled (h p q t sa sb so si : ℝ) :
    cornerNew (a * h) (a * b * p) (a * b * q) (a * b * t) (b * sa) (b * sb) (b * so) (b * si) = a * b * cornerNew h p q t sa sb so si := by
  have hc := mul_pos ha hb
  unfold cornerNew
  dsimp only
  have e : 2 * (a * h) * (a * h) * (1 / 4 * (b * sa + b * sb + b * so + b * si)) * (1 / 4 * (b * sa + b * sb + b * so + b * si)) -
      (a * b * p - a * b * q) * (a * b * p - a * b * q) =
      (a * b) ^ 2 * (2 * h * h * (1 / 4 * (sa + sb + so + si)) * (1 / 4 * (sa + sb + so + si)) - (p - q) * (p - q)) := by ring
  rw [e]
  obtain ⟨O, hO⟩ : ∃ O, O = 2 * h * h * (1 / 4 * (sa + sb + so + si)) * (1 / 4 * (sa + sb + so + si)) - (p - q) * (p - q) := ⟨_, rfl⟩
  rw [← hO]
  have e1 : a * b * q + a * h * (1 / 2 * (b * sb + b * so)) = a * b * (q + h * (1 / 2 * (sb + so))) := by ring
  have e2 : a * b * p + a * h * (1 / 2 * (b * sa + b * so)) = a * b * (p + h * (1 / 2 * (sa + so))) := by ring
  have e3 : a * b * t + Real.sqrt 2 * (a * h) * (1 / 2 * (b * so + b * si)) = a * b * (t + Real.sqrt 2 * h * (1 / 2 * (so + si))) := by ring
  rw [e1, e2, e3, pick_mul hc, pick_mul hc, Real.sqrt_mul (sq_nonneg _), Real.sqrt_sq hc.le]
  by_cases c : O < 0
  · rw [if_pos c, if_pos (by have := mul_pos hc hc; nlinarith)]
  · rw [if_neg c, if_neg (by have := mul_pos hc hc; nlinarith)]; ring

include ha hb in
theorem sideNew_scaled (h p m t sp sm si so : ℝ) :
    sideNew (a * h) (a * b * p) (a * b * m) (a * b * t) (b * sp) (b * sm) (b * si) (b * so) = a * b * sideNew h p m t sp sm si so := by
  have hc := mul_pos ha hb
  unfold sideNew
  dsimp only
  have e : (a * h) * (a * h) * (1 / 4 * (b * sp + b * sm + b * si + b * so)) * (1 / 4 * (b * sp + b * sm + b * si + b * so)) -
      1 / 4 * (a * b * p - a * b * m) * (a * b * p - a * b * m) =
      (a * b) ^ 2 * (h * h * (1 / 4 * (sp + sm + si + so)) * (1 / 4 * (sp + sm + si + so)) - 1 / 4 * (p - m) * (p - m)) := by ring
  rw [e]
  obtain ⟨O, hO⟩ : ∃ O, O = h * h * (1 / 4 * (sp + sm + si + so)) * (1 / 4 * (sp + sm + si + so)) - 1 / 4 * (p - m) * (p - m) := ⟨_, rfl⟩
  rw [← hO]
  have e1 : a * b * m + Real.sqrt 2 * (a * h) * (1 / 2 * (b * sm + b * so)) = a * b * (m + Real.sqrt 2 * h * (1 / 2 * (sm + so))) := by ring
  have e2 : a * b * p + Real.sqrt 2 * (a * h) * (1 / 2 * (b * sp + b * so)) = a * b * (p + Real.sqrt 2 * h * (1 / 2 * (sp + so))) := by ring
  have e3 : a * b * t + a * h * (1 / 2 * (b * si + b * so)) = a * b * (t + h * (1 / 2 * (si + so))) := by ring
  rw [e1, e2, e3, pick_mul hc, pick_mul hc, Real.sqrt_mul (sq_nonneg _), Real.sqrt_sq hc.le]
  by_cases c : O < 0
  · rw [if_pos c, if_pos (by have := mul_pos hc hc; nlinarith)]
  · rw [if_neg c, if_neg (by have := mul_pos hc hc; nlinarith)]; ring

include ha hb

theorem corner_scaled (ix iz ox oz : ℤ) (T : Field) :
    corner (scaled g a b) ix iz ox oz (timesBy (a * b) T) = (corner g ix iz ox oz T).map (timesBy (a * b)) := by
  have hc := mul_pos ha hb
  unfold corner
  simp only [Option.bind_eq_bind, tget_scaled, sget_scaled]
  refine map_bind fun p => map_bind fun q => map_bind fun t => map_bind fun sa => map_bind fun sb => map_bind fun so => map_bind fun si => ?_
  rw [show (scaled g a b).h = a * g.h from rfl, cornerNew_scaled ha hb]
  have : timesBy (a * b) T ox oz = (T ox oz).map (a * b * ·) := rfl
  rw [this]
  cases T ox oz with
  | none => exact tput_scaled g T _ _ _ _
  | some w =>
    dsimp only [Option.map_some]
    by_cases h : cornerNew g.h p q t sa sb so si < w
    · rw [if_pos h, if_pos ((mul_lt_mul_iff_right₀ hc).2 h)]; exact tput_scaled g T _ _ _ _
    · rw [if_neg h, if_neg (fun h' => h ((mul_lt_mul_iff_right₀ hc).1 h'))]; rfl

theorem side_scaled (vert : Bool) (inn out al : ℤ) (T : Field) :
    side (scaled g a b) vert inn out al (timesBy (a * b) T) = (side g vert inn out al T).map (timesBy (a * b)) := by
  unfold side
  simp only [Option.bind_eq_bind, tget_scaled, sget_scaled]
  refine map_bind fun p => map_bind fun q => map_bind fun t => map_bind fun sa => map_bind fun sb => map_bind fun so => map_bind fun si => ?_
  rw [show (scaled g a b).h = a * g.h from rfl, sideNew_scaled ha hb]
  exact tput_scaled g T _ _ _ _

theorem eput_scaled (vert : Bool) (inn out al : ℤ) (T : Field) :
    eput (scaled g a b) vert inn out al (timesBy (a * b) T) = (eput g vert inn out al T).map (timesBy (a * b)) := by
  unfold eput eget
  simp only [Option.bind_eq_bind, tget_scaled, sget_scaled]
  refine map_bind fun t => map_bind fun so => map_bind fun si => ?_
  rw [show (scaled g a b).h = a * g.h from rfl, ← tput_scaled]
  congr 1
  ring

theorem ecorner_scaled (vert : Bool) (inn out al al' : ℤ) (T : Field) :
    ecorner (scaled g a b) vert inn out al al' (timesBy (a * b) T) = (ecorner g vert inn out al al' T).map (timesBy (a * b)) :=
  corner_scaled g ha hb _ _ _ _ _

omit ha hb in
theorem eget_scaled (vert : Bool) (T : Field) (c : ℝ) (al ac : ℤ) :
    eget (scaled g a b) vert (timesBy c T) al ac = (eget g vert T al ac).map (c * ·) := tget_scaled g T c _ _

/-- The state of a sweep, times multiplied by `c`. -/
def stBy (c : ℝ) (s : Bool × Field) : Bool × Field := (s.1, timesBy c s.2)

theorem edgeLo_scaled (vert : Bool) (inn out lo : ℤ) (T : Field) :
    edgeLo (scaled g a b) vert inn out lo (timesBy (a * b) T) = (edgeLo g vert inn out lo T).map (stBy (a * b)) := by
  have hc := mul_pos ha hb
  have key : ∀ T : Field, ((eget (scaled g a b) vert (timesBy (a * b) T) lo inn).bind fun a' =>
      (eget (scaled g a b) vert (timesBy (a * b) T) (lo + 1) inn).bind fun b' =>
        if a' < b' then (ecorner (scaled g a b) vert inn out lo (lo + 1) (timesBy (a * b) T)).bind fun T => some (true, T)
        else some (false, timesBy (a * b) T)) =
      ((eget g vert T lo inn).bind fun a' => (eget g vert T (lo + 1) inn).bind fun b' =>
        if a' < b' then (ecorner g vert inn out lo (lo + 1) T).bind fun T => some (true, T) else some (false, T)).map (stBy (a * b)) := by
    intro T
    simp only [eget_scaled]
    refine map_bind fun p => map_bind fun q => ?_
    by_cases h : p < q
    · rw [if_pos h, if_pos ((mul_lt_mul_iff_right₀ hc).2 h), ecorner_scaled g ha hb]
      exact map_bind fun T => rfl
    · rw [if_neg h, if_neg (fun h' => h ((mul_lt_mul_iff_right₀ hc).1 h'))]; rfl
  unfold edgeLo
  simp only [Option.bind_eq_bind]
  rw [eget_scaled, eget_scaled]
  refine map_bind fun p => map_bind fun q => ?_
  by_cases h : p ≤ q
  · rw [if_pos h, if_pos ((mul_le_mul_iff_right₀ hc).2 h), eput_scaled g ha hb]
    exact map_bind fun T => key T
  · rw [if_neg h, if_neg (fun h' => h ((mul_le_mul_iff_right₀ hc).1 h'))]
    exact key T

theorem edgeUp_scaled (vert : Bool) (inn out al : ℤ) (s : Bool × Field) :
    edgeUp (scaled g a b) vert inn out al (stBy (a * b) s) = (edgeUp g vert inn out al s).map (stBy (a * b)) := by
  have hc := mul_pos ha hb
  obtain ⟨f, T⟩ := s
  have key : ∀ T : Field, ((eget (scaled g a b) vert (timesBy (a * b) T) al inn).bind fun a' =>
      (eget (scaled g a b) vert (timesBy (a * b) T) (al + 1) inn).bind fun b' =>
        if a' < b' then (if f = false then (side (scaled g a b) vert inn out al (timesBy (a * b) T)).bind fun T =>
            (ecorner (scaled g a b) vert inn out al (al + 1) T).bind fun T => some (true, T)
          else (some (timesBy (a * b) T)).bind fun T => (ecorner (scaled g a b) vert inn out al (al + 1) T).bind fun T => some (true, T))
        else some (false, timesBy (a * b) T)) =
      ((eget g vert T al inn).bind fun a' => (eget g vert T (al + 1) inn).bind fun b' =>
        if a' < b' then (if f = false then (side g vert inn out al T).bind fun T => (ecorner g vert inn out al (al + 1) T).bind fun T => some (true, T)
          else (some T).bind fun T => (ecorner g vert inn out al (al + 1) T).bind fun T => some (true, T))
        else some (false, T)).map (stBy (a * b)) := by
    intro T
    simp only [eget_scaled]
    refine map_bind fun p => map_bind fun q => ?_
    have last : ∀ T : Field, ((ecorner (scaled g a b) vert inn out al (al + 1) (timesBy (a * b) T)).bind fun T => some (true, T)) =
        ((ecorner g vert inn out al (al + 1) T).bind fun T => some (true, T)).map (stBy (a * b)) := fun T => by
      rw [ecorner_scaled g ha hb]
      exact map_bind fun T => rfl
    by_cases h : p < q
    · rw [if_pos h, if_pos ((mul_lt_mul_iff_right₀ hc).2 h)]
      by_cases c : f = false
      · rw [if_pos c, if_pos c, side_scaled g ha hb]
        exact map_bind fun T => last T
      · rw [if_neg c, if_neg c]
        exact last T
    · rw [if_neg h, if_neg (fun h' => h ((mul_lt_mul_iff_right₀ hc).1 h'))]; rfl
  unfold edgeUp stBy
  simp only [Option.bind_eq_bind]
  rw [eget_scaled, eget_scaled]
  refine map_bind fun p => map_bind fun q => ?_
  by_cases h : p = q
  · rw [if_pos h, if_pos (by rw [h]), side_scaled g ha hb]
    exact map_bind fun T => key T
  · rw [if_neg h, if_neg (fun h' => h (mul_left_cancel₀ hc.ne' h'))]
    exact key T

theorem edgeHi_scaled (vert : Bool) (inn out hi : ℤ) (T : Field) :
    edgeHi (scaled g a b) vert inn out hi (timesBy (a * b) T) = (edgeHi g vert inn out hi T).map (timesBy (a * b)) := by
  have hc := mul_pos ha hb
  unfold edgeHi
  simp only [Option.bind_eq_bind, eget_scaled]
  refine map_bind fun p => map_bind fun q => ?_
  by_cases h : p ≤ q
  · rw [if_pos h, if_pos ((mul_le_mul_iff_right₀ hc).2 h), eput_scaled g ha hb]
  · rw [if_neg h, if_neg (fun h' => h ((mul_le_mul_iff_right₀ hc).1 h'))]; rfl

theorem edgeDown_scaled (vert : Bool) (inn out al : ℤ) (T : Field) :
    edgeDown (scaled g a b) vert inn out al (timesBy (a * b) T) = (edgeDown g vert inn out al T).map (timesBy (a * b)) := by
  have hc := mul_pos ha hb
  unfold edgeDown
  simp only [Option.bind_eq_bind, eget_scaled]
  refine map_bind fun p => map_bind fun q => ?_
  by_cases h : p < q
  · rw [if_pos h, if_pos ((mul_lt_mul_iff_right₀ hc).2 h), ecorner_scaled g ha hb]
  · rw [if_neg h, if_neg (fun h' => h ((mul_lt_mul_iff_right₀ hc).1 h'))]; rfl

omit ha hb in
theorem forNM_map {σ τ : Type} (q : σ → τ) (n : ℕ) {f : ℕ → σ → Option σ} {f' : ℕ → τ → Option τ} (h : ∀ k s, f' k (q s) = (f k s).map q) (s : σ) :
    forNM n f' (q s) = (forNM n f s).map q := by
  induction n with
  | zero => rfl
  | succ n ih => rw [forNM_succ, forNM_succ, ih]; exact map_bind fun s => h n s

theorem edge_scaled (vert : Bool) (inn out lo hi : ℤ) (T : Field) :
    edge (scaled g a b) vert inn out lo hi (timesBy (a * b) T) = (edge g vert inn out lo hi T).map (timesBy (a * b)) := by
  unfold edge forIM
  simp only [Option.bind_eq_bind]
  rw [edgeLo_scaled g ha hb]
  refine map_bind fun s => ?_
  rw [forNM_map (stBy (a * b)) _ (fun k s => edgeUp_scaled g ha hb vert inn out (lo + 1 + k) s) s]
  refine map_bind fun s => ?_
  rw [show (stBy (a * b) s).2 = timesBy (a * b) s.2 from rfl, edgeHi_scaled g ha hb]
  refine map_bind fun T => ?_
  exact forNM_map (timesBy (a * b)) _ (fun k s => edgeDown_scaled g ha hb vert inn out (hi - k) s) T

omit ha hb in
theorem doIf_scaled (c : Prop) [Decidable c] {f f' : Field → Option Field} {k : ℝ} (h : ∀ T, f' (timesBy k T) = (f T).map (timesBy k)) (T : Field) :
    doIf c f' (timesBy k T) = (doIf c f T).map (timesBy k) := by
  unfold doIf
  by_cases hc : c
  · rw [if_pos hc, if_pos hc]; exact h T
  · rw [if_neg hc, if_neg hc]; rfl

theorem edges_scaled (w : Box) (T : Field) :
    edges (scaled g a b) w (timesBy (a * b) T) = (edges g w T).map (timesBy (a * b)) := by
  unfold edges
  simp only [Option.bind_eq_bind]
  rw [show (scaled g a b).nx = g.nx from rfl, show (scaled g a b).nz = g.nz from rfl]
  rw [doIf_scaled _ (fun T => edge_scaled g ha hb _ _ _ _ _ T)]
  refine map_bind fun T => ?_
  rw [doIf_scaled _ (fun T => edge_scaled g ha hb _ _ _ _ _ T)]
  refine map_bind fun T => ?_
  rw [doIf_scaled _ (fun T => edge_scaled g ha hb _ _ _ _ _ T)]
  refine map_bind fun T => ?_
  exact doIf_scaled _ (fun T => edge_scaled g ha hb _ _ _ _ _ T) T

theorem corners_scaled (w : Box) (T : Field) :
    corners (scaled g a b) w (timesBy (a * b) T) = (corners g w T).map (timesBy (a * b)) := by
  unfold corners
  dsimp only
  simp only [Option.bind_eq_bind]
  rw [show (scaled g a b).nx = g.nx from rfl, show (scaled g a b).nz = g.nz from rfl]
  rw [doIf_scaled _ (fun T => corner_scaled g ha hb _ _ _ _ T)]
  refine map_bind fun T => ?_
  rw [doIf_scaled _ (fun T => corner_scaled g ha hb _ _ _ _ T)]
  refine map_bind fun T => ?_
  rw [doIf_scaled _ (fun T => corner_scaled g ha hb _ _ _ _ T)]
  refine map_bind fun T => ?_
  exact doIf_scaled _ (fun T => corner_scaled g ha hb _ _ _ _ T) T

theorem rings_scaled (fuel : ℕ) (w : Box) (T : Field) :
    rings (scaled g a b) fuel w (timesBy (a * b) T) = (rings g fuel w T).map (timesBy (a * b)) := by
  induction fuel generalizing w T with
  | zero => rfl
  | succ fuel ih =>
    unfold rings
    simp only [Option.bind_eq_bind]
    rw [edges_scaled g ha hb]
    refine map_bind fun T => ?_
    rw [corners_scaled g ha hb]
    refine map_bind fun T => ?_
    rw [show (scaled g a b).nx = g.nx from rfl, show (scaled g a b).nz = g.nz from rfl, show grow (scaled g a b) w = grow g w from rfl, ih]
    split <;> rfl

theorem nearSource_scaled (sx sz order : ℤ) (T : Field) :
    nearSource (scaled g a b) sx sz order (timesBy (a * b) T) = (nearSource g sx sz order T).map (timesBy (a * b)) := by
  unfold nearSource forIM
  dsimp only
  simp only [Option.bind_eq_bind, tget_scaled, sget_scaled]
  refine map_bind fun s0 => map_bind fun t0 => ?_
  rw [show startBox (scaled g a b) sx sz order = startBox g sx sz order from rfl]
  refine forNM_map (timesBy (a * b)) _ (fun i T => ?_) T
  refine forNM_map (timesBy (a * b)) _ (fun j T => ?_) T
  refine map_bind fun s => ?_
  rw [← tput_scaled, show (scaled g a b).h = a * g.h from rfl]
  congr 1
  rw [show ∀ u v : ℝ, (u * (a * g.h)) ^ 2 + (v * (a * g.h)) ^ 2 = a ^ 2 * ((u * g.h) ^ 2 + (v * g.h) ^ 2) from fun u v => by ring,
    Real.sqrt_mul (sq_nonneg _), Real.sqrt_sq ha.le]
  ring

theorem eikonal_scaled (sx sz order : ℤ) :
    eikonal (scaled g a b) sx sz order = (eikonal g sx sz order).map (timesBy (a * b)) := by
  unfold eikonal
  simp only [Option.bind_eq_bind]
  have h := tput_scaled g (a := a) (b := b) (fun _ _ => none) (a * b) sx sz 0
  rw [mul_zero] at h
  rw [show (fun _ _ => none : Field) = timesBy (a * b) (fun _ _ => none) from rfl, h]
  refine map_bind fun T => ?_
  rw [nearSource_scaled g ha hb]
  refine map_bind fun T => ?_
  exact rings_scaled g ha hb _ _ T

omit ha in
theorem seek_scaled (x : ℤ) (val : ℝ) (d : ℤ) (more : ℤ → Bool) (fuel : ℕ) (iz : ℤ) (brd : ℝ) :
    seek (scaled g a b) x (b * val) d more fuel iz (b * brd) = (seek g x val d more fuel iz brd).map fun r => (r.1, b * r.2) := by
  induction fuel generalizing iz brd with
  | zero => rfl
  | succ fuel ih =>
    unfold seek
    rw [sget_scaled]
    by_cases c : brd = val ∧ more iz = true
    · rw [if_pos c, if_pos ⟨by rw [c.1], c.2⟩]
      exact map_bind fun v => ih _ _
    · rw [if_neg c, if_neg (fun h => c ⟨mul_left_cancel₀ hb.ne' h.1, h.2⟩)]; rfl

omit ha in
theorem rowSub_scaled (brd val : ℝ) (l : ℤ) (s : (ℤ → ℤ → ℝ) × ℤ) :
    rowSub (scaled g a b) (b * brd) (b * val) l (fun x z => b * s.1 x z, s.2) = (rowSub g brd val l s).map fun r => (fun x z => b * r.1 x z, r.2) := by
  unfold rowSub forIM
  refine forNM_map (fun r : (ℤ → ℤ → ℝ) × ℤ => ((fun x z => b * r.1 x z, r.2) : (ℤ → ℤ → ℝ) × ℤ)) _ (fun k s => ?_) s
  have : (scaled g a b).Has (0 + k) l ↔ g.Has (0 + k) l := Iff.rfl
  dsimp only
  by_cases h : g.Has (0 + k) l
  · rw [if_pos h, if_pos (this.2 h)]
    dsimp only [Option.map_some]
    by_cases c : s.1 (0 + k) l = brd
    · rw [if_pos c, if_pos (by rw [c])]
      refine congrArg some (Prod.ext (funext fun x => funext fun z => ?_) rfl)
      dsimp only
      split <;> rfl
    · rw [if_neg c, if_neg (fun h' => c (mul_left_cancel₀ hb.ne' h'))]
  · rw [if_neg h, if_neg (fun h' => h (this.1 h'))]; rfl

omit ha in
theorem rowsSub_scaled (brd val : ℝ) (d : ℤ) (more : ℤ → Bool) (fuel : ℕ) (l : ℤ) (s : (ℤ → ℤ → ℝ) × ℤ) :
    rowsSub (scaled g a b) (b * brd) (b * val) d more fuel l (fun x z => b * s.1 x z, s.2) =
      (rowsSub g brd val d more fuel l s).map fun r x z => b * r x z := by
  induction fuel generalizing l s with
  | zero => rfl
  | succ fuel ih =>
    unfold rowsSub
    rw [rowSub_scaled g hb]
    by_cases c : more l = true
    · rw [if_pos c, if_pos c]
      refine map_bind fun r => ?_
      dsimp only
      by_cases c' : r.2 ≠ l
      · rw [if_pos c', if_pos c']; rfl
      · rw [if_neg c', if_neg c']; exact ih _ _
    · rw [if_neg c, if_neg c]; rfl

omit ha in
theorem rmHead_scaled (sx sz mzrcv : ℤ) :
    rmHead (scaled g a b) sx sz mzrcv = (rmHead g sx sz mzrcv).map fun r x z => b * r x z := by
  unfold rmHead
  dsimp only
  simp only [Option.bind_eq_bind, sget_scaled]
  rw [show (scaled g a b).nz = g.nz from rfl]
  by_cases h0 : sz = 0
  · rw [if_pos h0, if_pos h0]; rfl
  · rw [if_neg h0, if_neg h0]
    by_cases h1 : sz ≥ mzrcv
    · rw [if_pos h1, if_pos h1]
      refine map_bind fun brd => map_bind fun val => ?_
      rw [seek_scaled g hb]
      refine map_bind fun r => ?_
      exact rowsSub_scaled g hb r.2 val (-1) _ _ r.1 (g.slow, r.1)
    · rw [if_neg h1, if_neg h1]
      refine map_bind fun brd => map_bind fun val => ?_
      rw [seek_scaled g hb]
      refine map_bind fun r => ?_
      dsimp only
      by_cases h2 : r.1 < g.nz
      · rw [if_pos h2, if_pos h2]
        exact rowsSub_scaled g hb r.2 val 1 _ _ r.1 (g.slow, r.1)
      · rw [if_neg h2, if_neg h2]; rfl

/-- Spacing times `a` and slowness times `b` give the times times `a·b`, also for calls that leave the arrays. -/
theorem vidale_scaled (sx sz order mzrcv : ℤ) :
    vidale { g with h := a * g.h, slow := fun x z => b * g.slow x z } sx sz order mzrcv =
      (vidale g sx sz order mzrcv).map fun T x z => (T x z).map (a * b * ·) := by
  change vidale (scaled g a b) sx sz order mzrcv = (vidale g sx sz order mzrcv).map (timesBy (a * b))
  unfold vidale
  simp only [Option.bind_eq_bind]
  rw [rmHead_scaled g hb]
  refine map_bind fun s => ?_
  exact eikonal_scaled { g with slow := s } ha hb sx sz order

end

end

end Verif.Ray

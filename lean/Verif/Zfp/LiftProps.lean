import Verif.Zfp.Lift

/-! # The decorrelating transform of a block is undone up to a bounded error (C38) -/

namespace Verif.Zfp

/-- The places of a line. -/
def pts (l : Nat × Nat) : List Nat := [l.1, l.1 + l.2, l.1 + 2 * l.2, l.1 + 3 * l.2]

/-- The lines of a pass: inside the block, disjoint, and covering it. -/
def TableOk (N : Nat) (L : List (Nat × Nat)) : Prop :=
  (∀ l ∈ L, 0 < l.2 ∧ ∀ i ∈ pts l, i < N) ∧ L.Pairwise (fun a b => ∀ i ∈ pts a, i ∉ pts b) ∧ ∀ i < N, ∃ l ∈ L, i ∈ pts l

/-- Disjointness as a boolean. -/
def apart : List (Nat × Nat) → Bool
  | [] => true
  | a :: L => L.all (fun b => (pts a).all fun i => (pts b).all fun j => !Nat.beq i j) && apart L

/-- `TableOk` as a boolean. -/
def tableB (N : Nat) (L : List (Nat × Nat)) : Bool :=
  L.all (fun l => Nat.ble 1 l.2 && (pts l).all fun i => Nat.ble (i + 1) N) && apart L && (List.range N).all fun i => L.any fun l => (pts l).any (Nat.beq i)

theorem apart_ok (L : List (Nat × Nat)) (h : apart L = true) : L.Pairwise (fun a b => ∀ i ∈ pts a, i ∉ pts b) := by
  induction L with
  | nil => exact .nil
  | cons a L ih =>
    rw [apart, Bool.and_eq_true, List.all_eq_true] at h
    refine .cons (fun b hb i hi hc => ?_) (ih h.2)
    have h1 := List.all_eq_true.1 (List.all_eq_true.1 (h.1 b hb) i hi) i hc
    simp at h1

theorem tableB_ok {N : Nat} {L : List (Nat × Nat)} (h : tableB N L = true) : TableOk N L := by
  simp only [tableB, Bool.and_eq_true, List.all_eq_true] at h
  obtain ⟨⟨h1, h2⟩, h3⟩ := h
  refine ⟨fun l hl => ⟨Nat.le_of_ble_eq_true (h1 l hl).1, fun i hi => Nat.le_of_ble_eq_true ((h1 l hl).2 i hi)⟩, apart_ok L h2, fun i hi => ?_⟩
  obtain ⟨l, hl, hm⟩ := List.any_eq_true.1 (h3 i (List.mem_range.2 hi))
  obtain ⟨j, hj, he⟩ := List.any_eq_true.1 hm
  exact ⟨l, hl, by rw [Nat.eq_of_beq_eq_true he]; exact hj⟩

/-- The four values on a line. -/
def quad (v : Nat → Int) (l : Nat × Nat) : Int × Int × Int × Int := (v l.1, v (l.1 + l.2), v (l.1 + 2 * l.2), v (l.1 + 3 * l.2))

/-- A lifting step applied to four values. -/
def app (f : Int → Int → Int → Int → Option (Int × Int × Int × Int)) (q : Int × Int × Int × Int) : Option (Int × Int × Int × Int) := f q.1 q.2.1 q.2.2.1 q.2.2.2

theorem quad_congr {v v' : Nat → Int} {l : Nat × Nat} (h : ∀ i ∈ pts l, v' i = v i) : quad v' l = quad v l := by
  simp only [pts, List.forall_mem_cons, List.not_mem_nil, false_implies, implies_true, and_true] at h
  simp only [quad, h]

theorem liftAt_spec {f : Int → Int → Int → Int → Option (Int × Int × Int × Int)} {v : Nat → Int} {l : Nat × Nat} (hl : 0 < l.2) {r : Int × Int × Int × Int}
    (h : app f (quad v l) = some r) : ∃ v', liftAt f v l = some v' ∧ quad v' l = r ∧ ∀ i, i ∉ pts l → v' i = v i := by
  obtain ⟨a, b, c, d⟩ := r
  refine ⟨_, by unfold liftAt; simp only [app, quad] at h; rw [h, Option.map_some], ?_, ?_⟩
  · simp only [quad, if_true]
    rw [if_neg (by omega), if_neg (by omega), if_neg (by omega), if_neg (by omega), if_neg (by omega), if_neg (by omega)]
  · intro i hi
    simp only [pts, List.mem_cons, List.not_mem_nil, or_false, not_or] at hi
    dsimp only
    rw [if_neg hi.1, if_neg hi.2.1, if_neg hi.2.2.1, if_neg hi.2.2.2]

/-- A pass over disjoint lines transforms every line on its own. -/
theorem runLines_spec {f : Int → Int → Int → Int → Option (Int × Int × Int × Int)} (L : List (Nat × Nat)) :
    ∀ v : Nat → Int, (∀ l ∈ L, 0 < l.2) → L.Pairwise (fun a b => ∀ i ∈ pts a, i ∉ pts b) → (∀ l ∈ L, (app f (quad v l)).isSome) →
      ∃ v', runLines f L v = some v' ∧ (∀ l ∈ L, app f (quad v l) = some (quad v' l)) ∧ ∀ i, (∀ l ∈ L, i ∉ pts l) → v' i = v i := by
  induction L with
  | nil => intro v _ _ _; exact ⟨v, rfl, by simp, fun _ _ => rfl⟩
  | cons l L ih =>
    intro v hpos hd hs
    obtain ⟨r, hr⟩ := Option.isSome_iff_exists.1 (hs l (by simp))
    obtain ⟨v1, e1, h1, h2⟩ := liftAt_spec (hpos l (by simp)) hr
    rw [List.pairwise_cons] at hd
    have hq : ∀ l' ∈ L, quad v1 l' = quad v l' := fun l' hl' => quad_congr fun i hi => h2 i fun hc => hd.1 l' hl' i hc hi
    obtain ⟨v2, e2, g1, g2⟩ := ih v1 (fun l' hl' => hpos l' (by simp [hl'])) hd.2 (fun l' hl' => by rw [hq l' hl']; exact hs l' (by simp [hl']))
    refine ⟨v2, by rw [runLines, e1, Option.bind_some, e2], ?_, ?_⟩
    · intro l' hl'
      rcases List.mem_cons.1 hl' with rfl | hm
      · rw [hr, ← h1]
        congr 1
        exact (quad_congr fun i hi => g2 i fun l'' hl'' => hd.1 l'' hl'' i hi).symm
      · rw [← hq l' hm]; exact g1 l' hm
    · intro i hi
      rw [g2 i fun l' hl' => hi l' (by simp [hl']), h2 i (hi l (by simp))]

/-- Error after `n` inverse passes on arguments off by `δ`. -/
def errB : Nat → Int → Int
  | 0, δ => δ
  | n + 1, δ => gain (errB n δ) + 2

theorem gain_nonneg {δ : Int} (h : 0 ≤ δ) : 0 ≤ gain δ := by unfold gain; split <;> omega

theorem errB_nonneg {δ : Int} (h : 0 ≤ δ) : ∀ n, 0 ≤ errB n δ
  | 0 => h
  | n + 1 => by have := gain_nonneg (errB_nonneg h n); rw [errB]; omega

theorem errB_step {δ : Int} (h : 0 ≤ δ) (n : Nat) : gainMid (errB n δ) ≤ gainMid (errB (n + 1) δ) := by
  have h1 := errB_nonneg h n
  rw [errB]
  generalize errB n δ = e at *
  unfold gainMid gain
  split <;> split <;> (try split) <;> omega

theorem errB_mono {δ : Int} (h : 0 ≤ δ) {m n : Nat} (hmn : m ≤ n) : gainMid (errB m δ) ≤ gainMid (errB n δ) := by
  induction n with
  | zero => rw [Nat.le_zero.1 hmn]
  | succ n ih =>
    by_cases hm : m = n + 1
    · rw [hm]
    · exact le_trans (ih (by omega)) (errB_step h n)

theorem gain_mono {a b : Int} (ha : 0 ≤ a) (h : a ≤ b) : gain a ≤ gain b := by
  unfold gain
  split <;> split <;> omega

theorem errB_self {δ : Int} (h : 0 ≤ δ) (n : Nat) : errB n δ ≤ errB (n + 1) δ := by
  have := errB_nonneg h n
  rw [errB]
  generalize errB n δ = e at *
  unfold gain
  split <;> omega

theorem errB_le_errB {δ : Int} (h : 0 ≤ δ) {m n : Nat} (hmn : m ≤ n) : errB m δ ≤ errB n δ := by
  induction n with
  | zero => rw [Nat.le_zero.1 hmn]
  | succ n ih =>
    by_cases hm : m = n + 1
    · rw [hm]
    · exact le_trans (ih (by omega)) (errB_self h n)

theorem Room.mono {m : Overflow} {A B δ : Int} (hδ : 0 ≤ δ) {k n : Nat} (hk : k ≤ n) (h : Room m A (errB n δ) B) : Room m A (errB k δ) B := by
  cases m with
  | undefined => have := errB_mono hδ hk; simp only [Room] at *; omega
  | wraps => have := gain_mono (errB_nonneg hδ k) (errB_le_errB hδ hk); simp only [Room] at *; omega

/-- Values at distance at most `A` from those of `w`. -/
def Near (N : Nat) (A : Int) (v w : Nat → Int) : Prop := ∀ i < N, -A ≤ v i - w i ∧ v i - w i ≤ A

theorem Near.quad {N : Nat} {A : Int} {v w : Nat → Int} (h : Near N A v w) {l : Nat × Nat} (hl : ∀ i ∈ pts l, i < N) :
    (-A ≤ (quad v l).1 - (quad w l).1 ∧ (quad v l).1 - (quad w l).1 ≤ A) ∧ (-A ≤ (quad v l).2.1 - (quad w l).2.1 ∧ (quad v l).2.1 - (quad w l).2.1 ≤ A) ∧
    (-A ≤ (quad v l).2.2.1 - (quad w l).2.2.1 ∧ (quad v l).2.2.1 - (quad w l).2.2.1 ≤ A) ∧
    (-A ≤ (quad v l).2.2.2 - (quad w l).2.2.2 ∧ (quad v l).2.2.2 - (quad w l).2.2.2 ≤ A) := by
  simp only [pts, List.forall_mem_cons, List.not_mem_nil, false_implies, implies_true, and_true] at hl
  exact ⟨h _ hl.1, h _ hl.2.1, h _ hl.2.2.1, h _ hl.2.2.2⟩

theorem near_of_quad {N : Nat} {A : Int} {v w : Nat → Int} {L : List (Nat × Nat)} (hL : TableOk N L)
    (h : ∀ l ∈ L, (-A ≤ (quad v l).1 - (quad w l).1 ∧ (quad v l).1 - (quad w l).1 ≤ A) ∧
      (-A ≤ (quad v l).2.1 - (quad w l).2.1 ∧ (quad v l).2.1 - (quad w l).2.1 ≤ A) ∧
      (-A ≤ (quad v l).2.2.1 - (quad w l).2.2.1 ∧ (quad v l).2.2.1 - (quad w l).2.2.1 ≤ A) ∧
      (-A ≤ (quad v l).2.2.2 - (quad w l).2.2.2 ∧ (quad v l).2.2.2 - (quad w l).2.2.2 ≤ A)) : Near N A v w := by
  intro i hi
  obtain ⟨l, hl, hm⟩ := hL.2.2 i hi
  obtain ⟨h1, h2, h3, h4⟩ := h l hl
  simp only [pts, List.mem_cons, List.not_mem_nil, or_false] at hm
  rcases hm with rfl | rfl | rfl | rfl
  · exact h1
  · exact h2
  · exact h3
  · exact h4

theorem fwd_pass {N : Nat} {A B : Int} (hA : 2 ≤ A) (hB : 2 * A < B) {P : List (Nat × Nat)} (hP : TableOk N P) {v : Nat → Int} (hv : Near N A v fun _ => 0) :
    ∃ u, runLines (fwdLift B) P v = some u ∧ Near N A u (fun _ => 0) ∧ ∀ l ∈ P, app (fwdLift B) (quad v l) = some (quad u l) := by
  have key : ∀ l ∈ P, ∃ r : Int × Int × Int × Int, app (fwdLift B) (quad v l) = some r ∧ (-A ≤ r.1 ∧ r.1 ≤ A) ∧ (-A ≤ r.2.1 ∧ r.2.1 ≤ A) ∧
      (-A ≤ r.2.2.1 ∧ r.2.2.1 ≤ A) ∧ (-A ≤ r.2.2.2 ∧ r.2.2.2 ≤ A) := by
    intro l hl
    obtain ⟨h1, h2, h3, h4⟩ := hv.quad (hP.1 l hl).2
    simp only [quad, sub_zero] at h1 h2 h3 h4
    obtain ⟨x, y, z, w, e, g1, g2, g3, g4, _⟩ := fwd_range hA hB h1 h2 h3 h4
    exact ⟨(x, y, z, w), e, g1, g2, g3, g4⟩
  obtain ⟨u, e, h1, _⟩ := runLines_spec P v (fun l hl => (hP.1 l hl).1) hP.2.1 (fun l hl => by obtain ⟨r, e, _⟩ := key l hl; rw [e]; rfl)
  refine ⟨u, e, near_of_quad hP fun l hl => ?_, h1⟩
  obtain ⟨r, e', g1, g2, g3, g4⟩ := key l hl
  rw [h1 l hl] at e'
  rw [Option.some.inj e']
  simp only [quad, sub_zero]
  exact ⟨g1, g2, g3, g4⟩

theorem inv_pass {m : Overflow} {N : Nat} {A B δ : Int} (hA : 2 ≤ A) (hδ : 0 ≤ δ) (hB : Room m A δ B) {P : List (Nat × Nat)} (hP : TableOk N P) {v u : Nat → Int}
    (hv : Near N A v fun _ => 0) (hu : ∀ l ∈ P, app (fwdLift B) (quad v l) = some (quad u l)) {u' : Nat → Int} (hu' : Near N δ u' u) :
    ∃ v', runLines (invLift m B) P u' = some v' ∧ Near N (gain δ + 2) v' v := by
  have key : ∀ l ∈ P, ∃ r : Int × Int × Int × Int, app (invLift m B) (quad u' l) = some r ∧
      (-(gain δ + 2) ≤ r.1 - (quad v l).1 ∧ r.1 - (quad v l).1 ≤ gain δ + 2) ∧ (-(gain δ + 2) ≤ r.2.1 - (quad v l).2.1 ∧ r.2.1 - (quad v l).2.1 ≤ gain δ + 2) ∧
      (-(gain δ + 2) ≤ r.2.2.1 - (quad v l).2.2.1 ∧ r.2.2.1 - (quad v l).2.2.1 ≤ gain δ + 2) ∧
      (-(gain δ + 2) ≤ r.2.2.2 - (quad v l).2.2.2 ∧ r.2.2.2 - (quad v l).2.2.2 ≤ gain δ + 2) := by
    intro l hl
    obtain ⟨h1, h2, h3, h4⟩ := hv.quad (hP.1 l hl).2
    obtain ⟨k1, k2, k3, k4⟩ := hu'.quad (hP.1 l hl).2
    simp only [quad, sub_zero] at h1 h2 h3 h4
    obtain ⟨x, y, z, w, e, g1, g2, g3, g4⟩ := lift_close hA hδ hB h1 h2 h3 h4 (hu l hl) k1 k2 k3 k4
    refine ⟨(x, y, z, w), e, ?_, ?_, ?_, ?_⟩
    · exact ⟨g1.1, by have := g1.2; simp only [quad]; omega⟩
    · exact ⟨by have := g2.1; simp only [quad]; omega, by have := g2.2; simp only [quad]; omega⟩
    · exact ⟨by have := g3.1; simp only [quad]; omega, by have := g3.2; simp only [quad]; omega⟩
    · exact ⟨g4.1, by have := g4.2; simp only [quad]; omega⟩
  obtain ⟨v', e, h1, _⟩ := runLines_spec P u' (fun l hl => (hP.1 l hl).1) hP.2.1 (fun l hl => by obtain ⟨r, e, _⟩ := key l hl; rw [e]; rfl)
  refine ⟨v', e, near_of_quad hP fun l hl => ?_⟩
  obtain ⟨r, e', g⟩ := key l hl
  rw [h1 l hl] at e'
  rw [Option.some.inj e']
  exact g

theorem runs_close {N : Nat} {A B : Int} (hA : 2 ≤ A) (hB : 2 * A < B) (Ps : List (List (Nat × Nat))) : (∀ P ∈ Ps, TableOk N P) → ∀ v : Nat → Int,
    Near N A v (fun _ => 0) → ∃ u, fwdRun B Ps v = some u ∧ Near N A u (fun _ => 0) ∧
      ∀ (m : Overflow) (δ : Int) (u' : Nat → Int), 0 ≤ δ → (∀ k < Ps.length, Room m A (errB k δ) B) → Near N δ u' u →
        ∃ v', invRun m B Ps u' = some v' ∧ Near N (errB Ps.length δ) v' v := by
  induction Ps with
  | nil => intro _ v hv; exact ⟨v, rfl, hv, fun m δ u' _ _ h => ⟨u', rfl, h⟩⟩
  | cons P Ps ih =>
    intro hok v hv
    obtain ⟨v1, e1, h1, h2⟩ := fwd_pass hA hB (hok P (by simp)) hv
    obtain ⟨u, e, hu, hinv⟩ := ih (fun Q hQ => hok Q (by simp [hQ])) v1 h1
    refine ⟨u, by rw [fwdRun, e1, Option.bind_some, e], hu, fun m δ u' hδ hm hn => ?_⟩
    obtain ⟨v1', f1, g1⟩ := hinv m δ u' hδ (fun k hlt => hm k (by simp; omega)) hn
    obtain ⟨v', f2, g2⟩ := inv_pass hA (errB_nonneg hδ _) (hm Ps.length (by simp)) (hok P (by simp)) hv h2 g1
    exact ⟨v', by rw [invRun, f1, Option.bind_some, f2], g2⟩

theorem passes_ok (d : Nat) (hd : 1 ≤ d ∧ d ≤ 4) : (∀ P ∈ passes d, TableOk (4 ^ d) P) ∧ (passes d).length = d := by
  obtain ⟨h1, h4⟩ := hd
  have : d = 1 ∨ d = 2 ∨ d = 3 ∨ d = 4 := by omega
  have hb : (passes d).all (tableB (4 ^ d)) = true ∧ (passes d).length = d := by rcases this with rfl | rfl | rfl | rfl <;> decide +kernel
  exact ⟨fun P hP => tableB_ok (List.all_eq_true.1 hb.1 P hP), hb.2⟩

/-! ## Property theorems -/

/-- C38, one step: for numbers of magnitude at most `A` in words of range `-B .. B - 1` with `2 A + 2 ≤ B`, neither step overflows, the forward
step keeps the magnitude, and the inverse step returns the second number exactly and the others up to two units. -/
theorem lift_round_trip (m : Overflow) {A B x y z w : Int} (hA : 2 ≤ A) (hB : 2 * A + 2 ≤ B) (hx : |x| ≤ A) (hy : |y| ≤ A) (hz : |z| ≤ A) (hw : |w| ≤ A) :
    ∃ p q r t x' z' w', fwdLift B x y z w = some (p, q, r, t) ∧ |p| ≤ A ∧ |q| ≤ A ∧ |r| ≤ A ∧ |t| ≤ A ∧ invLift m B p q r t = some (x', y, z', w') ∧
      (x - 2 ≤ x' ∧ x' ≤ x + 1) ∧ (z - 1 ≤ z' ∧ z' ≤ z) ∧ (w - 2 ≤ w' ∧ w' ≤ w) := by
  rw [abs_le] at hx hy hz hw
  obtain ⟨p, q, r, t, e, h1, h2, h3, h4, _⟩ := fwd_range hA (by omega : 2 * A < B) hx hy hz hw
  obtain ⟨x', y', z', w', e', g1, g2, g3, g4⟩ := lift_close (m := m) (δ := 0) hA (le_refl _) (by cases m <;> simp [Room, gainMid, gain] <;> omega) hx hy hz hw e
    (p' := p) (q' := q) (r' := r) (t' := t) (by simp) (by simp) (by simp) (by simp)
  simp only [gain, if_true] at g1 g2 g3 g4
  have : y' = y := by omega
  subst this
  exact ⟨p, q, r, t, x', z', w', e, abs_le.2 h1, abs_le.2 h2, abs_le.2 h3, abs_le.2 h4, e', by omega, by omega, by omega⟩

/-- C38, blocks of 1 to 4 dimensions: for values of magnitude at most `A` the forward transform does not overflow and keeps the magnitude. The
inverse transform of any coefficients within `δ` of the results, when the words leave the room stated, has no undefined overflow and returns
the values up to `errB d δ`. Arithmetic that wraps around needs less room. -/
theorem xform_round_trip (m : Overflow) {A B δ : Int} (d : Nat) (hd : 1 ≤ d ∧ d ≤ 4) (hA : 2 ≤ A) (hδ : 0 ≤ δ) (hB : Room m A (errB (d - 1) δ) B)
    (v : Nat → Int) (hv : ∀ i < 4 ^ d, |v i| ≤ A) :
    ∃ u, fwdXform B d v = some u ∧ (∀ i < 4 ^ d, |u i| ≤ A) ∧
      ∀ u' : Nat → Int, (∀ i < 4 ^ d, |u' i - u i| ≤ δ) → ∃ v', invXform m B d u' = some v' ∧ ∀ i < 4 ^ d, |v' i - v i| ≤ errB d δ := by
  obtain ⟨hok, hlen⟩ := passes_ok d hd
  have hm := hB.two (errB_nonneg hδ _)
  obtain ⟨u, e, h1, h2⟩ := runs_close (B := B) hA (by omega) (passes d) hok v (fun i hi => by rw [sub_zero]; exact abs_le.1 (hv i hi))
  refine ⟨u, e, fun i hi => by have := h1 i hi; rw [sub_zero] at this; exact abs_le.2 this, fun u' hu' => ?_⟩
  obtain ⟨v', e', h3⟩ := h2 m δ u' hδ (fun k hlt => hB.mono hδ (by omega)) (fun i hi => abs_le.1 (hu' i hi))
  rw [hlen] at h3
  exact ⟨v', e', fun i hi => abs_le.2 (h3 i hi)⟩

/-- The error bounds for exact coefficients: 2, 10, 40 and 153 units in one to four dimensions. -/
theorem errB_values : errB 1 0 = 2 ∧ errB 2 0 = 10 ∧ errB 3 0 = 40 ∧ errB 4 0 = 153 := by decide

/-- Error from coefficients off by `δ ≥ 1`: at most `(15/4) δ` per dimension, plus a constant. -/
theorem errB_le {δ : Int} (hδ : 1 ≤ δ) : ∀ n, 4 ^ n * (errB n δ + 5) ≤ 15 ^ n * (δ + 5)
  | 0 => by simp [errB]
  | n + 1 => by
    have ih := errB_le hδ n
    have h0 : 0 ≤ errB n δ := errB_nonneg (by omega) n
    have hg : 4 * (errB (n + 1) δ + 5) ≤ 15 * (errB n δ + 5) := by
      rw [errB]
      generalize errB n δ = e at *
      unfold gain
      split <;> omega
    have h4 : (0:Int) ≤ 4 ^ n := by positivity
    calc (4:Int) ^ (n + 1) * (errB (n + 1) δ + 5) = 4 ^ n * (4 * (errB (n + 1) δ + 5)) := by ring
      _ ≤ 4 ^ n * (15 * (errB n δ + 5)) := Int.mul_le_mul_of_nonneg_left hg h4
      _ = 15 * (4 ^ n * (errB n δ + 5)) := by ring
      _ ≤ 15 * (15 ^ n * (δ + 5)) := by omega
      _ = 15 ^ (n + 1) * (δ + 5) := by ring

/-- The range of the inputs cannot be extended by one: 32 bit words with `x = z = -2^30`, `y = w = 2^30 - 1` overflow. -/
theorem lift_overflows : fwdLift (2 ^ 31) (-2 ^ 30) (2 ^ 30 - 1) (-2 ^ 30) (2 ^ 30 - 1) = none := by decide +kernel

/-- The inverse step on coefficients that are not the transform of a block can overflow, so decoding a damaged stream is not safe. -/
theorem inv_lift_overflows : invLift .undefined (2 ^ 31) (1 - 2 ^ 30) (1 - 2 ^ 30) (1 - 2 ^ 30) (1 - 2 ^ 30) = none := by decide +kernel

/-! ## Cases that meet the hypotheses -/

/-- The bound of two units is attained. -/
example : fwdLift (2 ^ 31) 0 0 0 3 = some (0, -1, 0, 0) ∧ invLift .undefined (2 ^ 31) 0 (-1) 0 0 = some (-2, 0, 0, 2) := by decide +kernel

example : Room .undefined (2 ^ 30 - 1) (errB (1 - 1) 0) (2 ^ 31) := by show _ ≤ _; decide

example : Room .undefined (2 ^ 62 - 512) (errB (4 - 1) 0) (2 ^ 63) := by show _ ≤ _; decide +kernel

example : Room .wraps (2 ^ 62 - 1) (errB (4 - 1) (2 ^ 50)) (2 ^ 63) := by constructor <;> decide +kernel

example : ∀ i < 4 ^ 2, |(fun i : Nat => (i : Int) * 1000 - 7000) i| ≤ 2 ^ 30 - 64 := by decide

end Verif.Zfp

import Verif.Base.Loop
import Verif.Base.Writes
import Verif.Base.Num
import Mathlib.Tactic.Ring
import Mathlib.Tactic.Linarith
import Mathlib.Tactic.FieldSimp
import Mathlib.Data.Set.Basic
import Mathlib.Algebra.Order.Floor.Ring

/-!
# Padding and truncating models

`utils/padmodel.c` extends a model on all sides, `utils/truncate.c` makes it constant below a depth.
-/

namespace Verif.PadMod
open Verif

variable {α : Type*}

/-! ### Model -/

/-- The sizes: samples of the model and of the padding. -/
structure Par where
  nx : ℕ
  ny : ℕ
  nz : ℕ
  nxpad : ℕ
  nypad : ℕ
  nzpad : ℕ

/-- utils/padmodel.c:88 -/
def Par.nxout (p : Par) : ℕ := p.nx + 2 * p.nxpad
/-- utils/padmodel.c:89 -/
def Par.nyout (p : Par) : ℕ := p.ny + 2 * p.nypad
/-- utils/padmodel.c:90 -/
def Par.nzout (p : Par) : ℕ := p.nz + 2 * p.nzpad

/-- The index `iy*nxout*nzout+ix*nzout+iz`. -/
def Par.at (p : Par) (iy ix iz : ℕ) : ℕ := iy * p.nxout * p.nzout + ix * p.nzout + iz

/-- The original data in the array of the extended model, utils/padmodel.c:128-134; the array is zero before (`calloc`). -/
def fit (p : Par) (zero : α) (d : ℕ → α) : ℕ → α :=
  forN p.ny (fun iy o => forN p.nx (fun ix o => forN p.nz (fun iz o =>
    aset o (p.at (iy + p.nypad) (ix + p.nxpad) (iz + p.nzpad)) (d (iy * p.nx * p.nz + ix * p.nz + iz))) o) o) fun _ => zero

/-- `for (iy = a; iy < b; iy++)` -/
def range (a b : ℕ) (body : ℕ → (ℕ → α) → ℕ → α) (o : ℕ → α) : ℕ → α := forN (b - a) (fun d => body (a + d)) o

/-- `for (ix = a-1; ix >= 0; ix--)` -/
def down (a : ℕ) (body : ℕ → (ℕ → α) → ℕ → α) (o : ℕ → α) : ℕ → α := forN a (fun d => body (a - 1 - d)) o

/-- Padding with a constant, utils/padmodel.c:142-170. -/
def padValue (p : Par) (value : α) (o : ℕ → α) : ℕ → α :=
  let o := range 0 p.nz (fun iz o =>
    let o := range p.nypad (p.ny + p.nypad) (fun iy o =>
      let o := range 0 p.nxpad (fun ix o => aset o (p.at iy ix iz) value) o
      range (p.nxpad + p.nx) p.nxout (fun ix o => aset o (p.at iy ix iz) value) o) o
    range 0 p.nxout (fun ix o =>
      let o := range 0 p.nypad (fun iy o => aset o (p.at iy ix iz) value) o
      range (p.nypad + p.ny) p.nyout (fun iy o => aset o (p.at iy ix iz) value) o) o) o
  range p.nz p.nzout (fun iz o => range 0 p.nyout (fun iy o => range 0 p.nxout (fun ix o => aset o (p.at iy ix iz) value) o) o) o

/-- Padding with the edges, utils/padmodel.c:176-210. -/
def padEdge (p : Par) (o : ℕ → α) : ℕ → α :=
  let o := range p.nzpad (p.nz + p.nzpad) (fun iz o =>
    let o := range p.nypad (p.ny + p.nypad) (fun iy o =>
      let o := down p.nxpad (fun ix o => aset o (p.at iy ix iz) (o (p.at iy p.nxpad iz))) o
      range (p.nxpad + p.nx) p.nxout (fun ix o => aset o (p.at iy ix iz) (o (p.at iy (p.nxpad + p.nx - 1) iz))) o) o
    range 0 p.nxout (fun ix o =>
      let o := down p.nypad (fun iy o => aset o (p.at iy ix iz) (o (p.at p.nypad ix iz))) o
      range (p.nypad + p.ny) p.nyout (fun iy o => aset o (p.at iy ix iz) (o (p.at (p.nypad + p.ny - 1) ix iz))) o) o) o
  let o := range 0 p.nzpad (fun iz o => range 0 p.nyout (fun iy o => range 0 p.nxout (fun ix o =>
    aset o (p.at iy ix iz) (o (p.at iy ix p.nzpad))) o) o) o
  range p.nz p.nzout (fun iz o => range 0 p.nyout (fun iy o => range 0 p.nxout (fun ix o =>
    aset o (p.at iy ix iz) (o (p.at iy ix (p.nz - 1)))) o) o) o

/-- The program, from the data of the model to the data that is written; `value` is given for `pad=1`. -/
def padmodel (p : Par) (zero : α) (value : Option α) (d : ℕ → α) : ℕ → α :=
  match value with
  | some v => padValue p v (fit p zero d)
  | none => padEdge p (fit p zero d)

/-- The first position, utils/padmodel.c:92-94, in one direction. -/
def origin (x0 dx : ℚ) (npad : ℕ) : ℚ := x0 - npad * dx

/-! ### Filling of boxes -/

/-- A cell of the extended model. -/
def Par.In (p : Par) (c : ℕ × ℕ × ℕ) : Prop := c.1 < p.nyout ∧ c.2.1 < p.nxout ∧ c.2.2 < p.nzout

/-- Its value. -/
def Par.get (p : Par) (o : ℕ → α) (c : ℕ × ℕ × ℕ) : α := o (p.at c.1 c.2.1 c.2.2)

theorem at_inj (p : Par) {a b : ℕ × ℕ × ℕ} (ha : p.In a) (hb : p.In b) (h : p.at a.1 a.2.1 a.2.2 = p.at b.1 b.2.1 b.2.2) : a = b := by
  obtain ⟨a1, a2, a3⟩ := a
  obtain ⟨b1, b2, b3⟩ := b
  obtain ⟨ha1, ha2, ha3⟩ := ha
  obtain ⟨hb1, hb2, hb3⟩ := hb
  unfold Par.at at h
  dsimp only at *
  generalize p.nzout = Z at *
  generalize p.nxout = X at *
  have e1 : (a1 * X + a2) * Z + a3 = (b1 * X + b2) * Z + b3 := by
    rw [Nat.add_mul, Nat.add_mul]; exact h
  have e2 : a3 = b3 := by
    have := congrArg (· % Z) e1
    simp only [Nat.mul_add_mod_self_right] at this
    rwa [Nat.mod_eq_of_lt ha3, Nat.mod_eq_of_lt hb3] at this
  subst e2
  have e3 : a1 * X + a2 = b1 * X + b2 := Nat.eq_of_mul_eq_mul_right (by omega) (Nat.add_right_cancel e1)
  have e4 : a2 = b2 := by
    have := congrArg (· % X) e3
    simp only [Nat.mul_add_mod_self_right] at this
    rwa [Nat.mod_eq_of_lt ha2, Nat.mod_eq_of_lt hb2] at this
  subst e4
  have e5 : a1 = b1 := Nat.eq_of_mul_eq_mul_right (by omega) (Nat.add_right_cancel e3)
  subst e5
  rfl

/-- From `q` to `q'` the cells of `A` have got the values `v`, the others are the same. -/
def Fill (p : Par) (A : Set (ℕ × ℕ × ℕ)) (v : ℕ × ℕ × ℕ → α) (q q' : ℕ → α) : Prop :=
  ∀ c, p.In c → (c ∈ A → p.get q' c = v c) ∧ (c ∉ A → p.get q' c = p.get q c)

theorem Fill.one (p : Par) {c : ℕ × ℕ × ℕ} (hc : p.In c) {v : ℕ × ℕ × ℕ → α} {x : α} (hx : x = v c) (q : ℕ → α) :
    Fill p {c} v q (aset q (p.at c.1 c.2.1 c.2.2) x) := by
  intro b hb
  unfold Par.get aset
  constructor
  · intro h
    rw [Set.mem_singleton_iff.mp h, if_pos rfl, hx]
  · intro h
    rw [if_neg fun e => h (Set.mem_singleton_iff.mpr (at_inj p hb hc e))]

theorem Fill.loop (p : Par) {n : ℕ} {body : ℕ → (ℕ → α) → ℕ → α} {A : ℕ → Set (ℕ × ℕ × ℕ)} {v : ℕ × ℕ × ℕ → α} {q : ℕ → α}
    (h : ∀ k, k < n → ∀ q', (∀ c, p.In c → (∀ j, j < n → c ∉ A j) → p.get q' c = p.get q c) → Fill p (A k) v q' (body k q')) :
    Fill p {c | ∃ k, k < n ∧ c ∈ A k} v q (forN n body q) := by
  have key : ∀ m, m ≤ n → Fill p {c | ∃ k, k < m ∧ c ∈ A k} v q (forN m body q) := by
    intro m
    induction m with
    | zero =>
      intro _ c hc
      exact ⟨fun ⟨k, hk, _⟩ => absurd hk (Nat.not_lt_zero _), fun _ => rfl⟩
    | succ m ih =>
      intro hm c hc
      have ih := ih (by omega)
      rw [forN_succ]
      have hb := h m (by omega) (forN m body q) (fun c hc hn => (ih c hc).2 fun ⟨k, hk, hck⟩ => hn k (by omega) hck)
      constructor
      · rintro ⟨k, hk, hck⟩
        by_cases hcm : c ∈ A m
        · exact (hb c hc).1 hcm
        · rw [(hb c hc).2 hcm]
          refine (ih c hc).1 ⟨k, ?_, hck⟩
          have : k ≠ m := fun e => hcm (e ▸ hck)
          omega
      · intro hn
        rw [(hb c hc).2 fun hcm => hn ⟨m, by omega, hcm⟩]
        exact (ih c hc).2 fun ⟨k, hk, hck⟩ => hn ⟨k, by omega, hck⟩
  exact key n le_rfl

/-- One after the other, with values in terms of the first array. -/
theorem Fill.seq {p : Par} {A B : Set (ℕ × ℕ × ℕ)} {v w : ℕ × ℕ × ℕ → α} {q q1 q2 : ℕ → α} (h1 : Fill p A v q q1) (h2 : Fill p B w q1 q2)
    {u : ℕ × ℕ × ℕ → α} (hA : ∀ c ∈ A, c ∉ B → v c = u c) (hB : ∀ c ∈ B, w c = u c) : Fill p (A ∪ B) u q q2 := by
  intro c hc
  constructor
  · intro h
    by_cases hb : c ∈ B
    · rw [(h2 c hc).1 hb, hB c hb]
    · have ha : c ∈ A := h.resolve_right hb
      rw [(h2 c hc).2 hb, (h1 c hc).1 ha, hA c ha hb]
  · intro h
    rw [(h2 c hc).2 fun hb => h (Or.inr hb), (h1 c hc).2 fun ha => h (Or.inl ha)]

theorem Fill.congr {p : Par} {A B : Set (ℕ × ℕ × ℕ)} {v w : ℕ × ℕ × ℕ → α} {q q' : ℕ → α} (h : Fill p A v q q')
    (hAB : ∀ c, p.In c → (c ∈ A ↔ c ∈ B)) (hv : ∀ c ∈ B, v c = w c) : Fill p B w q q' := by
  intro c hc
  refine ⟨fun hb => ?_, fun hb => ?_⟩
  · rw [(h c hc).1 ((hAB c hc).mpr hb), hv c hb]
  · exact (h c hc).2 fun ha => hb ((hAB c hc).mp ha)

/-- The loop over a range, in terms of the index itself. -/
theorem Fill.range (p : Par) {a b : ℕ} {body : ℕ → (ℕ → α) → ℕ → α} {A : ℕ → Set (ℕ × ℕ × ℕ)} {v : ℕ × ℕ × ℕ → α} {q : ℕ → α}
    (h : ∀ k, a ≤ k → k < b → ∀ q', (∀ c, p.In c → (∀ j, a ≤ j → j < b → c ∉ A j) → p.get q' c = p.get q c) → Fill p (A k) v q' (body k q')) :
    Fill p {c | ∃ k, a ≤ k ∧ k < b ∧ c ∈ A k} v q (PadMod.range a b body q) := by
  unfold PadMod.range
  refine (Fill.loop p (A := fun d => A (a + d)) (v := v) fun k hk q' hq' => h (a + k) (by omega) (by omega) q' fun c hc hn =>
    hq' c hc fun j hj => hn (a + j) (by omega) (by omega)).congr (fun c _ => ?_) (fun _ _ => rfl)
  constructor
  · rintro ⟨k, hk, hc⟩; exact ⟨a + k, by omega, by omega, hc⟩
  · rintro ⟨k, h1, h2, hc⟩
    refine ⟨k - a, by omega, ?_⟩
    rwa [show a + (k - a) = k by omega]

theorem Fill.down (p : Par) {a : ℕ} {body : ℕ → (ℕ → α) → ℕ → α} {A : ℕ → Set (ℕ × ℕ × ℕ)} {v : ℕ × ℕ × ℕ → α} {q : ℕ → α}
    (h : ∀ k, k < a → ∀ q', (∀ c, p.In c → (∀ j, j < a → c ∉ A j) → p.get q' c = p.get q c) → Fill p (A k) v q' (body k q')) :
    Fill p {c | ∃ k, k < a ∧ c ∈ A k} v q (PadMod.down a body q) := by
  unfold PadMod.down
  refine (Fill.loop p (A := fun d => A (a - 1 - d)) (v := v) fun k hk q' hq' => h (a - 1 - k) (by omega) q' fun c hc hn =>
    hq' c hc fun j hj => hn (a - 1 - j) (by omega)).congr (fun c _ => ?_) (fun _ _ => rfl)
  constructor
  · rintro ⟨k, hk, hc⟩; exact ⟨a - 1 - k, by omega, hc⟩
  · rintro ⟨k, h2, hc⟩
    refine ⟨a - 1 - k, by omega, ?_⟩
    rwa [show a - 1 - (a - 1 - k) = k by omega]

/-! ### The original data -/

/-- The sample of the model at a position. -/
def Par.src (p : Par) (d : ℕ → α) (iy ix iz : ℕ) : α := d (iy * p.nx * p.nz + ix * p.nz + iz)

theorem fit_fill (p : Par) (zero : α) (d : ℕ → α) :
    Fill p {c | (p.nypad ≤ c.1 ∧ c.1 < p.ny + p.nypad) ∧ (p.nxpad ≤ c.2.1 ∧ c.2.1 < p.nx + p.nxpad) ∧ p.nzpad ≤ c.2.2 ∧ c.2.2 < p.nz + p.nzpad}
      (fun c => p.src d (c.1 - p.nypad) (c.2.1 - p.nxpad) (c.2.2 - p.nzpad)) (fun _ => zero) (fit p zero d) := by
  unfold fit
  refine (Fill.loop p (A := fun iy => {c | c.1 = iy + p.nypad ∧ (p.nxpad ≤ c.2.1 ∧ c.2.1 < p.nx + p.nxpad) ∧ p.nzpad ≤ c.2.2 ∧
    c.2.2 < p.nz + p.nzpad}) fun iy hy q1 _ => ?_).congr (fun c _ => ?_) fun _ _ => rfl
  · refine (Fill.loop p (A := fun ix => {c | c.1 = iy + p.nypad ∧ c.2.1 = ix + p.nxpad ∧ p.nzpad ≤ c.2.2 ∧ c.2.2 < p.nz + p.nzpad})
      fun ix hx q2 _ => ?_).congr (fun c _ => ?_) fun _ _ => rfl
    · refine (Fill.loop p (A := fun iz => {(iy + p.nypad, ix + p.nxpad, iz + p.nzpad)}) fun iz hz q3 _ => ?_).congr (fun c _ => ?_) fun _ _ => rfl
      · refine Fill.one p (c := (iy + p.nypad, ix + p.nxpad, iz + p.nzpad)) ⟨?_, ?_, ?_⟩ ?_ q3
        · unfold Par.nyout; dsimp only; omega
        · unfold Par.nxout; dsimp only; omega
        · unfold Par.nzout; dsimp only; omega
        · dsimp only; rw [Nat.add_sub_cancel, Nat.add_sub_cancel, Nat.add_sub_cancel]; rfl
      · obtain ⟨c1, c2, c3⟩ := c
        constructor
        · rintro ⟨k, hk, h⟩
          obtain ⟨rfl, rfl, rfl⟩ : c1 = _ ∧ c2 = _ ∧ c3 = _ := by simpa using h
          exact ⟨rfl, rfl, by dsimp only; omega, by dsimp only; omega⟩
        · rintro ⟨h1, h2, h3, h4⟩
          dsimp only at h1 h2 h3 h4
          refine ⟨c3 - p.nzpad, by omega, ?_⟩
          rw [Set.mem_singleton_iff, h1, h2, Nat.sub_add_cancel h3]
    · constructor
      · rintro ⟨k, hk, h1, h2, h3⟩; exact ⟨h1, ⟨by omega, by omega⟩, h3⟩
      · rintro ⟨h1, h2, h3⟩; exact ⟨c.2.1 - p.nxpad, by omega, h1, by omega, h3⟩
  · constructor
    · rintro ⟨k, hk, h1, h2⟩; exact ⟨⟨by omega, by omega⟩, h2⟩
    · rintro ⟨h1, h2⟩; exact ⟨c.1 - p.nypad, by omega, by omega, h2⟩

/-! ### Three nested loops over all of the model -/

/-- `for (iz = a; iz < b; ...) for (iy) for (ix) out[iy][ix][iz] = out[src(iy,ix)]`, reading other cells. -/
theorem slab_fill (p : Par) {a b : ℕ} (hb : b ≤ p.nzout) (val : (ℕ → α) → ℕ → ℕ → α) (q : ℕ → α)
    (hval : ∀ q' : ℕ → α, (∀ c, p.In c → ¬ (a ≤ c.2.2 ∧ c.2.2 < b) → p.get q' c = p.get q c) → ∀ iy ix, iy < p.nyout → ix < p.nxout →
      val q' iy ix = val q iy ix) :
    Fill p {c | a ≤ c.2.2 ∧ c.2.2 < b} (fun c => val q c.1 c.2.1) q
      (PadMod.range a b (fun iz o => PadMod.range 0 p.nyout (fun iy o => PadMod.range 0 p.nxout (fun ix o =>
        aset o (p.at iy ix iz) (val o iy ix)) o) o) q) := by
  refine (Fill.range p (A := fun iz => {c | c.2.2 = iz}) fun iz hz1 hz2 q1 e1 => ?_).congr (fun c _ => ?_) fun _ _ => rfl
  · refine (Fill.range p (A := fun iy => {c | c.1 = iy ∧ c.2.2 = iz}) fun iy _ hy q2 e2 => ?_).congr (fun c hc => ?_) fun _ _ => rfl
    · refine (Fill.range p (A := fun ix => {(iy, ix, iz)}) fun ix _ hx q3 e3 => ?_).congr (fun c hc => ?_) fun _ _ => rfl
      · refine Fill.one p (c := (iy, ix, iz)) ⟨hy, hx, by dsimp only; omega⟩ ?_ q3
        refine hval q3 (fun c hc hn => ?_) iy ix hy hx
        rw [e3 c hc, e2 c hc, e1 c hc]
        · rintro j h1 h2 rfl; exact hn ⟨h1, h2⟩
        · rintro j h1 h2 ⟨_, h⟩; rw [h] at hn; exact hn ⟨hz1, hz2⟩
        · rintro j h1 h2 h
          rw [Set.mem_singleton_iff] at h
          rw [h] at hn
          exact hn ⟨hz1, hz2⟩
      · obtain ⟨c1, c2, c3⟩ := c
        constructor
        · rintro ⟨k, _, hk, h⟩
          obtain ⟨rfl, rfl, rfl⟩ : c1 = _ ∧ c2 = _ ∧ c3 = _ := by simpa using h
          exact ⟨rfl, rfl⟩
        · rintro ⟨h1, h2⟩
          dsimp only at h1 h2
          subst h1 h2
          exact ⟨c2, by omega, hc.2.1, rfl⟩
    · constructor
      · rintro ⟨k, _, hk, h1, h2⟩; exact h2
      · intro h; exact ⟨c.1, by omega, hc.1, rfl, h⟩
  · constructor
    · rintro ⟨k, h1, h2, h3⟩; have : c.2.2 = k := h3; exact ⟨by omega, by omega⟩
    · rintro ⟨h1, h2⟩; exact ⟨c.2.2, h1, h2, rfl⟩

/-! ### Constant padding -/

theorem padValue_fill (p : Par) (value : α) (q : ℕ → α) :
    Fill p {c | p.nz ≤ c.2.2 ∨ c.1 < p.nypad ∨ p.ny + p.nypad ≤ c.1 ∨ c.2.1 < p.nxpad ∨ p.nx + p.nxpad ≤ c.2.1} (fun _ => value) q
      (padValue p value q) := by
  unfold padValue
  dsimp only
  refine (Fill.seq (A := {c | c.2.2 < p.nz ∧ (c.1 < p.nypad ∨ p.ny + p.nypad ≤ c.1 ∨ c.2.1 < p.nxpad ∨ p.nx + p.nxpad ≤ c.2.1)})
    (B := {c | p.nz ≤ c.2.2 ∧ c.2.2 < p.nzout}) (v := fun _ => value) (w := fun _ => value) (u := fun _ => value) ?_
    (slab_fill p le_rfl (fun _ _ _ => value) _ fun _ _ _ _ _ _ => rfl) (fun _ _ _ => rfl) fun _ _ => rfl).congr
      (fun c hc => ?_) fun _ _ => rfl
  · refine (Fill.range p (A := fun iz => {c | c.2.2 = iz ∧ (c.1 < p.nypad ∨ p.ny + p.nypad ≤ c.1 ∨ c.2.1 < p.nxpad ∨ p.nx + p.nxpad ≤ c.2.1)})
      fun iz _ hz q1 _ => ?_).congr (fun c _ => ?_) fun _ _ => rfl
    · refine (Fill.seq (q1 := PadMod.range p.nypad (p.ny + p.nypad) (fun iy o =>
        PadMod.range (p.nxpad + p.nx) p.nxout (fun ix o => aset o (p.at iy ix iz) value)
          (PadMod.range 0 p.nxpad (fun ix o => aset o (p.at iy ix iz) value) o)) q1) (A := {c | c.2.2 = iz ∧ (p.nypad ≤ c.1 ∧ c.1 < p.ny + p.nypad) ∧ (c.2.1 < p.nxpad ∨ p.nx + p.nxpad ≤ c.2.1)})
        (B := {c | c.2.2 = iz ∧ (c.1 < p.nypad ∨ p.ny + p.nypad ≤ c.1)}) (v := fun _ => value) (w := fun _ => value) (u := fun _ => value)
        ?_ ?_ (fun _ _ _ => rfl) fun _ _ => rfl).congr (fun c hc => ?_) fun _ _ => rfl
      · refine (Fill.range p (A := fun iy => {c | c.2.2 = iz ∧ c.1 = iy ∧ (c.2.1 < p.nxpad ∨ p.nx + p.nxpad ≤ c.2.1)}) fun iy hy1 hy2 q2 _ =>
          ?_).congr (fun c _ => ?_) fun _ _ => rfl
        · have hr : ∀ (a b : ℕ), b ≤ p.nxout → ∀ q, Fill p {c | ∃ ix, a ≤ ix ∧ ix < b ∧ c ∈ ({(iy, ix, iz)} : Set (ℕ × ℕ × ℕ))} (fun _ => value) q
              (PadMod.range a b (fun ix o => aset o (p.at iy ix iz) value) q) := fun a b hb q =>
            Fill.range p (A := fun ix => {(iy, ix, iz)}) fun ix hx1 hx2 q3 _ => Fill.one p (c := (iy, ix, iz))
              ⟨by unfold Par.nyout; dsimp only; omega, by dsimp only; omega, by unfold Par.nzout; dsimp only; omega⟩ rfl q3
          refine (Fill.seq (hr 0 p.nxpad (by unfold Par.nxout; omega) q2) (hr (p.nxpad + p.nx) p.nxout le_rfl _) (u := fun _ => value)
            (fun _ _ _ => rfl) fun _ _ => rfl).congr (fun c hc => ?_) fun _ _ => rfl
          obtain ⟨c1, c2, c3⟩ := c
          constructor
          · rintro (⟨k, h1, h2, h⟩ | ⟨k, h1, h2, h⟩)
            · obtain ⟨rfl, rfl, rfl⟩ : c1 = _ ∧ c2 = _ ∧ c3 = _ := by simpa using h
              exact ⟨rfl, rfl, Or.inl h2⟩
            · obtain ⟨rfl, rfl, rfl⟩ : c1 = _ ∧ c2 = _ ∧ c3 = _ := by simpa using h
              exact ⟨rfl, rfl, Or.inr (by dsimp only; omega)⟩
          · rintro ⟨h1, h2, h3⟩
            dsimp only at h1 h2 h3
            subst h1 h2
            rcases h3 with h3 | h3
            · exact Or.inl ⟨c2, by omega, h3, rfl⟩
            · exact Or.inr ⟨c2, by omega, hc.2.1, rfl⟩
        · constructor
          · rintro ⟨k, h1, h2, h3, h4, h5⟩; exact ⟨h3, ⟨by omega, by omega⟩, h5⟩
          · rintro ⟨h1, ⟨h2, h3⟩, h4⟩; exact ⟨c.1, h2, h3, h1, rfl, h4⟩
      · refine (Fill.range p (A := fun ix => {c | c.2.2 = iz ∧ c.2.1 = ix ∧ (c.1 < p.nypad ∨ p.ny + p.nypad ≤ c.1)}) fun ix hx1 hx2 q2 _ =>
          ?_).congr (fun c hc => ?_) fun _ _ => rfl
        · have hr : ∀ (a b : ℕ), b ≤ p.nyout → ∀ q, Fill p {c | ∃ iy, a ≤ iy ∧ iy < b ∧ c ∈ ({(iy, ix, iz)} : Set (ℕ × ℕ × ℕ))} (fun _ => value) q
              (PadMod.range a b (fun iy o => aset o (p.at iy ix iz) value) q) := fun a b hb q =>
            Fill.range p (A := fun iy => {(iy, ix, iz)}) fun iy hy1 hy2 q3 _ => Fill.one p (c := (iy, ix, iz))
              ⟨by dsimp only; omega, hx2, by unfold Par.nzout; dsimp only; omega⟩ rfl q3
          refine (Fill.seq (hr 0 p.nypad (by unfold Par.nyout; omega) q2) (hr (p.nypad + p.ny) p.nyout le_rfl _) (u := fun _ => value)
            (fun _ _ _ => rfl) fun _ _ => rfl).congr (fun c hc => ?_) fun _ _ => rfl
          obtain ⟨c1, c2, c3⟩ := c
          constructor
          · rintro (⟨k, h1, h2, h⟩ | ⟨k, h1, h2, h⟩)
            · obtain ⟨rfl, rfl, rfl⟩ : c1 = _ ∧ c2 = _ ∧ c3 = _ := by simpa using h
              exact ⟨rfl, rfl, Or.inl h2⟩
            · obtain ⟨rfl, rfl, rfl⟩ : c1 = _ ∧ c2 = _ ∧ c3 = _ := by simpa using h
              exact ⟨rfl, rfl, Or.inr (by dsimp only; omega)⟩
          · rintro ⟨h1, h2, h3⟩
            dsimp only at h1 h2 h3
            subst h1 h2
            rcases h3 with h3 | h3
            · exact Or.inl ⟨c1, by omega, h3, rfl⟩
            · exact Or.inr ⟨c1, by omega, hc.1, rfl⟩
        · constructor
          · rintro ⟨k, h1, h2, h3, h4, h5⟩; exact ⟨h3, h5⟩
          · rintro ⟨h1, h2⟩; exact ⟨c.2.1, by omega, hc.2.1, h1, rfl, h2⟩
      · simp only [Set.mem_union, Set.mem_ofPred_eq]
        omega
    · constructor
      · rintro ⟨k, h1, h2, h3, h4⟩; exact ⟨by omega, h4⟩
      · rintro ⟨h1, h2⟩; exact ⟨c.2.2, by omega, h1, rfl, h2⟩
  · have := hc.2.2
    simp only [Set.mem_union, Set.mem_ofPred_eq]
    omega

/-! ### Edges -/

/-- The nearest index inside, for an index of the extended model. -/
def clamp (n pad i : ℕ) : ℕ := min (i - pad) (n - 1)

theorem padEdge_fill (p : Par) (hx : 0 < p.nx) (hy : 0 < p.ny) (hz : 0 < p.nz) (q : ℕ → α) (c : ℕ × ℕ × ℕ) (hc : p.In c) :
    p.get (padEdge p q) c = p.get q (clamp p.ny p.nypad c.1 + p.nypad, clamp p.nx p.nxpad c.2.1 + p.nxpad,
      (if c.2.2 < p.nz then c.2.2 - p.nzpad else p.nz - 1 - p.nzpad) + p.nzpad) := by
  unfold padEdge
  dsimp only
  -- the first part
  set q1 := PadMod.range p.nzpad (p.nz + p.nzpad) (fun iz o =>
    let o := PadMod.range p.nypad (p.ny + p.nypad) (fun iy o =>
      let o := PadMod.down p.nxpad (fun ix o => aset o (p.at iy ix iz) (o (p.at iy p.nxpad iz))) o
      PadMod.range (p.nxpad + p.nx) p.nxout (fun ix o => aset o (p.at iy ix iz) (o (p.at iy (p.nxpad + p.nx - 1) iz))) o) o
    PadMod.range 0 p.nxout (fun ix o =>
      let o := PadMod.down p.nypad (fun iy o => aset o (p.at iy ix iz) (o (p.at p.nypad ix iz))) o
      PadMod.range (p.nypad + p.ny) p.nyout (fun iy o => aset o (p.at iy ix iz) (o (p.at (p.nypad + p.ny - 1) ix iz))) o) o) q with hq1
  have nxo : p.nxout = p.nx + 2 * p.nxpad := rfl
  have nyo : p.nyout = p.ny + 2 * p.nypad := rfl
  have nzo : p.nzout = p.nz + 2 * p.nzpad := rfl
  set D : Set (ℕ × ℕ × ℕ) := {c | (p.nypad ≤ c.1 ∧ c.1 < p.ny + p.nypad) ∧ (p.nxpad ≤ c.2.1 ∧ c.2.1 < p.nx + p.nxpad)} with hD
  set v : ℕ × ℕ × ℕ → α := fun c => p.get q (clamp p.ny p.nypad c.1 + p.nypad, clamp p.nx p.nxpad c.2.1 + p.nxpad, c.2.2) with hv
  have f1 : Fill p {c | (p.nzpad ≤ c.2.2 ∧ c.2.2 < p.nz + p.nzpad) ∧ c ∉ D} v q q1 := by
    rw [hq1]
    refine (Fill.range p (A := fun iz => {c | c.2.2 = iz ∧ c ∉ D}) fun iz hz1 hz2 q2 e2 => ?_).congr (fun c _ => ?_) fun _ _ => rfl
    · -- one depth
      dsimp only
      have e2' : ∀ c, p.In c → c ∈ D → p.get q2 c = p.get q c := fun c hc hcD => e2 c hc fun j _ _ h => h.2 hcD
      have g1 : Fill p {c | c.2.2 = iz ∧ (p.nypad ≤ c.1 ∧ c.1 < p.ny + p.nypad) ∧ (c.2.1 < p.nxpad ∨ p.nx + p.nxpad ≤ c.2.1)} v q2
          (PadMod.range p.nypad (p.ny + p.nypad) (fun iy o =>
            PadMod.range (p.nxpad + p.nx) p.nxout (fun ix o => aset o (p.at iy ix iz) (o (p.at iy (p.nxpad + p.nx - 1) iz)))
              (PadMod.down p.nxpad (fun ix o => aset o (p.at iy ix iz) (o (p.at iy p.nxpad iz))) o)) q2) := by
        refine (Fill.range p (A := fun iy => {c | c.2.2 = iz ∧ c.1 = iy ∧ (c.2.1 < p.nxpad ∨ p.nx + p.nxpad ≤ c.2.1)}) fun iy hy1 hy2 q3 e3 =>
          ?_).congr (fun c _ => ?_) fun _ _ => rfl
        · have e3' : ∀ ix, p.nxpad ≤ ix → ix < p.nx + p.nxpad → p.get q3 (iy, ix, iz) = p.get q (iy, ix, iz) := fun ix h1 h2 => by
            have hin : p.In (iy, ix, iz) := ⟨by dsimp only; omega, by dsimp only; omega, by dsimp only; omega⟩
            rw [e3 _ hin (fun j _ _ h => by have := h.2.2; dsimp only at this; omega), e2' _ hin ⟨⟨hy1, hy2⟩, h1, h2⟩]
          have d1 : Fill p {c | ∃ ix, ix < p.nxpad ∧ c ∈ ({(iy, ix, iz)} : Set (ℕ × ℕ × ℕ))} v q3
              (PadMod.down p.nxpad (fun ix o => aset o (p.at iy ix iz) (o (p.at iy p.nxpad iz))) q3) := by
            refine Fill.down p (A := fun ix => {(iy, ix, iz)}) fun ix hx1 q4 e4 => Fill.one p (c := (iy, ix, iz))
              ⟨by dsimp only; omega, by dsimp only; omega, by dsimp only; omega⟩ ?_ q4
            have hin : p.In (iy, p.nxpad, iz) := ⟨by dsimp only; omega, by dsimp only; omega, by dsimp only; omega⟩
            refine (e4 _ hin fun j hj h => ?_).trans ((e3' p.nxpad le_rfl (by omega)).trans ?_)
            · rw [Set.mem_singleton_iff, Prod.mk.injEq, Prod.mk.injEq] at h; omega
            · rw [hv]; dsimp only; unfold clamp
              rw [show min (iy - p.nypad) (p.ny - 1) + p.nypad = iy by omega, show min (ix - p.nxpad) (p.nx - 1) + p.nxpad = p.nxpad by omega]
          have d2 : ∀ q5, (∀ c, p.In c → (∀ ix, ix < p.nxpad → c ≠ (iy, ix, iz)) → p.get q5 c = p.get q3 c) →
              Fill p {c | ∃ ix, p.nxpad + p.nx ≤ ix ∧ ix < p.nxout ∧ c ∈ ({(iy, ix, iz)} : Set (ℕ × ℕ × ℕ))} v q5
              (PadMod.range (p.nxpad + p.nx) p.nxout (fun ix o => aset o (p.at iy ix iz) (o (p.at iy (p.nxpad + p.nx - 1) iz))) q5) := by
            intro q5 e5
            refine Fill.range p (A := fun ix => {(iy, ix, iz)}) fun ix hx1 hx2 q4 e4 => Fill.one p (c := (iy, ix, iz))
              ⟨by dsimp only; omega, by dsimp only; omega, by dsimp only; omega⟩ ?_ q4
            have hin : p.In (iy, p.nxpad + p.nx - 1, iz) := ⟨by dsimp only; omega, by dsimp only; omega, by dsimp only; omega⟩
            refine (e4 _ hin fun j hj _ h => ?_).trans ((e5 _ hin fun j hj h => ?_).trans ((e3' _ (by omega) (by omega)).trans ?_))
            · rw [Set.mem_singleton_iff, Prod.mk.injEq, Prod.mk.injEq] at h; omega
            · rw [Prod.mk.injEq, Prod.mk.injEq] at h; omega
            · rw [hv]; dsimp only; unfold clamp
              rw [show min (iy - p.nypad) (p.ny - 1) + p.nypad = iy by omega,
                show min (ix - p.nxpad) (p.nx - 1) + p.nxpad = p.nxpad + p.nx - 1 by omega]
          refine (Fill.seq d1 (d2 _ fun c hc hn => (d1 c hc).2 fun ⟨ix, h1, h2⟩ => hn ix h1 (Set.mem_singleton_iff.mp h2)) (u := v)
            (fun _ _ _ => rfl) fun _ _ => rfl).congr (fun c hc => ?_) fun _ _ => rfl
          obtain ⟨c1, c2, c3⟩ := c
          constructor
          · rintro (⟨k, h2, h⟩ | ⟨k, h1, h2, h⟩)
            · obtain ⟨rfl, rfl, rfl⟩ : c1 = _ ∧ c2 = _ ∧ c3 = _ := by simpa using h
              exact ⟨rfl, rfl, Or.inl h2⟩
            · obtain ⟨rfl, rfl, rfl⟩ : c1 = _ ∧ c2 = _ ∧ c3 = _ := by simpa using h
              exact ⟨rfl, rfl, Or.inr (by dsimp only; omega)⟩
          · rintro ⟨h1, h2, h3⟩
            dsimp only at h1 h2 h3
            subst h1 h2
            rcases h3 with h3 | h3
            · exact Or.inl ⟨c2, h3, rfl⟩
            · exact Or.inr ⟨c2, by omega, hc.2.1, rfl⟩
        · constructor
          · rintro ⟨k, h1, h2, h3, h4, h5⟩; exact ⟨h3, ⟨by omega, by omega⟩, h5⟩
          · rintro ⟨h1, ⟨h2, h3⟩, h4⟩; exact ⟨c.1, h2, h3, h1, rfl, h4⟩
      generalize PadMod.range p.nypad (p.ny + p.nypad) _ q2 = q6 at g1 ⊢
      -- rows inside, at this depth
      have e6 : ∀ iy ix, p.nypad ≤ iy → iy < p.ny + p.nypad → ix < p.nxout → p.get q6 (iy, ix, iz) = v (iy, ix, iz) := by
        intro iy ix h1 h2 h3
        have hin : p.In (iy, ix, iz) := ⟨by dsimp only; omega, h3, by dsimp only; omega⟩
        by_cases h : ix < p.nxpad ∨ p.nx + p.nxpad ≤ ix
        · exact (g1 _ hin).1 ⟨rfl, ⟨h1, h2⟩, h⟩
        · rw [(g1 _ hin).2 fun h' => h h'.2.2, e2' _ hin ⟨⟨h1, h2⟩, by dsimp only; omega, by dsimp only; omega⟩, hv]
          dsimp only
          unfold clamp
          rw [show min (iy - p.nypad) (p.ny - 1) + p.nypad = iy by omega, show min (ix - p.nxpad) (p.nx - 1) + p.nxpad = ix by omega]
      have g2 : Fill p {c | c.2.2 = iz ∧ (c.1 < p.nypad ∨ p.ny + p.nypad ≤ c.1)} v q6
          (PadMod.range 0 p.nxout (fun ix o =>
            PadMod.range (p.nypad + p.ny) p.nyout (fun iy o => aset o (p.at iy ix iz) (o (p.at (p.nypad + p.ny - 1) ix iz)))
              (PadMod.down p.nypad (fun iy o => aset o (p.at iy ix iz) (o (p.at p.nypad ix iz))) o)) q6) := by
        refine (Fill.range p (A := fun ix => {c | c.2.2 = iz ∧ c.2.1 = ix ∧ (c.1 < p.nypad ∨ p.ny + p.nypad ≤ c.1)}) fun ix hx1 hx2 q3 e3 =>
          ?_).congr (fun c hc => ?_) fun _ _ => rfl
        · have e3' : ∀ iy, p.nypad ≤ iy → iy < p.ny + p.nypad → p.get q3 (iy, ix, iz) = v (iy, ix, iz) := fun iy h1 h2 => by
            have hin : p.In (iy, ix, iz) := ⟨by dsimp only; omega, by dsimp only; omega, by dsimp only; omega⟩
            rw [e3 _ hin (fun j _ _ h => by have := h.2.2; dsimp only at this; omega), e6 iy ix h1 h2 hx2]
          have d1 : Fill p {c | ∃ iy, iy < p.nypad ∧ c ∈ ({(iy, ix, iz)} : Set (ℕ × ℕ × ℕ))} v q3
              (PadMod.down p.nypad (fun iy o => aset o (p.at iy ix iz) (o (p.at p.nypad ix iz))) q3) := by
            refine Fill.down p (A := fun iy => {(iy, ix, iz)}) fun iy hy1 q4 e4 => Fill.one p (c := (iy, ix, iz))
              ⟨by dsimp only; omega, by dsimp only; omega, by dsimp only; omega⟩ ?_ q4
            have hin : p.In (p.nypad, ix, iz) := ⟨by dsimp only; omega, by dsimp only; omega, by dsimp only; omega⟩
            refine (e4 _ hin fun j hj h => ?_).trans ((e3' p.nypad le_rfl (by omega)).trans ?_)
            · rw [Set.mem_singleton_iff, Prod.mk.injEq, Prod.mk.injEq] at h; omega
            · rw [hv]; dsimp only; unfold clamp
              rw [show min (iy - p.nypad) (p.ny - 1) = min (p.nypad - p.nypad) (p.ny - 1) by omega]
          have d2 : ∀ q5, (∀ c, p.In c → (∀ iy, iy < p.nypad → c ≠ (iy, ix, iz)) → p.get q5 c = p.get q3 c) →
              Fill p {c | ∃ iy, p.nypad + p.ny ≤ iy ∧ iy < p.nyout ∧ c ∈ ({(iy, ix, iz)} : Set (ℕ × ℕ × ℕ))} v q5
              (PadMod.range (p.nypad + p.ny) p.nyout (fun iy o => aset o (p.at iy ix iz) (o (p.at (p.nypad + p.ny - 1) ix iz))) q5) := by
            intro q5 e5
            refine Fill.range p (A := fun iy => {(iy, ix, iz)}) fun iy hy1 hy2 q4 e4 => Fill.one p (c := (iy, ix, iz))
              ⟨by dsimp only; omega, by dsimp only; omega, by dsimp only; omega⟩ ?_ q4
            have hin : p.In (p.nypad + p.ny - 1, ix, iz) := ⟨by dsimp only; omega, by dsimp only; omega, by dsimp only; omega⟩
            refine (e4 _ hin fun j hj _ h => ?_).trans ((e5 _ hin fun j hj h => ?_).trans ((e3' _ (by omega) (by omega)).trans ?_))
            · rw [Set.mem_singleton_iff, Prod.mk.injEq, Prod.mk.injEq] at h; omega
            · rw [Prod.mk.injEq, Prod.mk.injEq] at h; omega
            · rw [hv]; dsimp only; unfold clamp
              rw [show min (iy - p.nypad) (p.ny - 1) = min (p.nypad + p.ny - 1 - p.nypad) (p.ny - 1) by omega]
          refine (Fill.seq d1 (d2 _ fun c hc hn => (d1 c hc).2 fun ⟨iy, h1, h2⟩ => hn iy h1 (Set.mem_singleton_iff.mp h2)) (u := v)
            (fun _ _ _ => rfl) fun _ _ => rfl).congr (fun c hc => ?_) fun _ _ => rfl
          obtain ⟨c1, c2, c3⟩ := c
          constructor
          · rintro (⟨k, h2, h⟩ | ⟨k, h1, h2, h⟩)
            · obtain ⟨rfl, rfl, rfl⟩ : c1 = _ ∧ c2 = _ ∧ c3 = _ := by simpa using h
              exact ⟨rfl, rfl, Or.inl h2⟩
            · obtain ⟨rfl, rfl, rfl⟩ : c1 = _ ∧ c2 = _ ∧ c3 = _ := by simpa using h
              exact ⟨rfl, rfl, Or.inr (by dsimp only; omega)⟩
          · rintro ⟨h1, h2, h3⟩
            dsimp only at h1 h2 h3
            subst h1 h2
            rcases h3 with h3 | h3
            · exact Or.inl ⟨c1, h3, rfl⟩
            · exact Or.inr ⟨c1, by omega, hc.1, rfl⟩
        · constructor
          · rintro ⟨k, h1, h2, h3, h4, h5⟩; exact ⟨h3, h5⟩
          · rintro ⟨h1, h2⟩; exact ⟨c.2.1, by omega, hc.2.1, h1, rfl, h2⟩
      refine (Fill.seq g1 g2 (u := v) (fun _ _ _ => rfl) fun _ _ => rfl).congr (fun c hc => ?_) fun _ _ => rfl
      rw [hD]
      simp only [Set.mem_union, Set.mem_ofPred_eq]
      omega
    · constructor
      · rintro ⟨k, h1, h2, h3, h4⟩; exact ⟨by omega, h4⟩
      · rintro ⟨h1, h2⟩; exact ⟨c.2.2, h1.1, h1.2, rfl, h2⟩
  -- all cells with data in depth
  have e1 : ∀ c, p.In c → p.nzpad ≤ c.2.2 → c.2.2 < p.nz + p.nzpad → p.get q1 c = v c := by
    intro c hc h1 h2
    by_cases h : c ∈ D
    · rw [(f1 c hc).2 fun h' => h'.2 h, hv]
      dsimp only
      unfold clamp
      rw [hD] at h
      obtain ⟨⟨a1, a2⟩, a3, a4⟩ := h
      rw [show min (c.1 - p.nypad) (p.ny - 1) + p.nypad = c.1 by omega, show min (c.2.1 - p.nxpad) (p.nx - 1) + p.nxpad = c.2.1 by omega]
    · exact (f1 c hc).1 ⟨⟨h1, h2⟩, h⟩
  clear_value q1
  have f2 := slab_fill p (a := 0) (b := p.nzpad) (by omega) (fun o iy ix => o (p.at iy ix p.nzpad)) q1
    (fun q' e iy ix h1 h2 => e (iy, ix, p.nzpad) ⟨h1, h2, by dsimp only; omega⟩ (by dsimp only; omega))
  generalize PadMod.range 0 p.nzpad _ q1 = q2 at f2 ⊢
  have e2 : ∀ c, p.In c → c.2.2 < p.nz + p.nzpad → p.get q2 c = v (c.1, c.2.1, c.2.2 - p.nzpad + p.nzpad) := by
    intro c hc h
    by_cases h1 : c.2.2 < p.nzpad
    · rw [(f2 c hc).1 ⟨by omega, h1⟩]
      have := e1 (c.1, c.2.1, p.nzpad) ⟨hc.1, hc.2.1, by dsimp only; omega⟩ le_rfl (by dsimp only; omega)
      rw [show c.2.2 - p.nzpad + p.nzpad = p.nzpad by omega]
      exact this
    · rw [(f2 c hc).2 fun h' => h1 h'.2, e1 c hc (by omega) h, show c.2.2 - p.nzpad + p.nzpad = c.2.2 by omega]
  have f3 := slab_fill p (a := p.nz) (b := p.nzout) le_rfl (fun o iy ix => o (p.at iy ix (p.nz - 1))) q2
    (fun q' e iy ix h1 h2 => e (iy, ix, p.nz - 1) ⟨h1, h2, by dsimp only; omega⟩ (by dsimp only; omega))
  generalize PadMod.range p.nz p.nzout _ q2 = q3 at f3 ⊢
  by_cases h : c.2.2 < p.nz
  · rw [(f3 c hc).2 (fun h' => absurd h'.1 (by omega)), e2 c hc (by omega), if_pos h]
  · rw [(f3 c hc).1 ⟨by omega, hc.2.2⟩, if_neg h]
    exact e2 (c.1, c.2.1, p.nz - 1) ⟨hc.1, hc.2.1, by dsimp only; omega⟩ (by dsimp only; omega)

/-! ### Properties -/

/-- What should be written: the model at the nearest position inside, or the given value outside. -/
def Par.wanted (p : Par) (value : Option α) (d : ℕ → α) (iy ix iz : ℕ) : α :=
  match value with
  | none => p.src d (clamp p.ny p.nypad iy) (clamp p.nx p.nxpad ix) (clamp p.nz p.nzpad iz)
  | some v => if (p.nypad ≤ iy ∧ iy < p.ny + p.nypad) ∧ (p.nxpad ≤ ix ∧ ix < p.nx + p.nxpad) ∧ p.nzpad ≤ iz ∧ iz < p.nz + p.nzpad then
      p.src d (iy - p.nypad) (ix - p.nxpad) (iz - p.nzpad) else v

/-- **What is written with edges**, for all paddings. -/
theorem padmodel_edges (p : Par) (zero : α) (hx : 0 < p.nx) (hy : 0 < p.ny) (hz : 0 < p.nz) (d : ℕ → α) (iy ix iz : ℕ) (h1 : iy < p.nyout)
    (h2 : ix < p.nxout) (h3 : iz < p.nzout) : padmodel p zero none d (p.at iy ix iz) =
      p.src d (clamp p.ny p.nypad iy) (clamp p.nx p.nxpad ix) (if iz < p.nz then iz - p.nzpad else p.nz - 1 - p.nzpad) := by
  have e := padEdge_fill p hx hy hz (fit p zero d) (iy, ix, iz) ⟨h1, h2, h3⟩
  refine Eq.trans e ?_
  have nxo : p.nxout = p.nx + 2 * p.nxpad := rfl
  have nyo : p.nyout = p.ny + 2 * p.nypad := rfl
  have nzo : p.nzout = p.nz + 2 * p.nzpad := rfl
  dsimp only
  have hc : clamp p.ny p.nypad iy < p.ny ∧ clamp p.nx p.nxpad ix < p.nx := by unfold clamp; omega
  have hz' : (if iz < p.nz then iz - p.nzpad else p.nz - 1 - p.nzpad) < p.nz := by split <;> omega
  generalize clamp p.ny p.nypad iy = a at hc
  generalize clamp p.nx p.nxpad ix = b at hc
  generalize (if iz < p.nz then iz - p.nzpad else p.nz - 1 - p.nzpad) = k at hz'
  rw [(fit_fill p zero d (a + p.nypad, b + p.nxpad, k + p.nzpad) ⟨by dsimp only; omega, by dsimp only; omega, by dsimp only; omega⟩).1
    ⟨⟨by dsimp only; omega, by dsimp only; omega⟩, ⟨by dsimp only; omega, by dsimp only; omega⟩, by dsimp only; omega, by dsimp only; omega⟩]
  dsimp only
  rw [Nat.add_sub_cancel, Nat.add_sub_cancel, Nat.add_sub_cancel]

/-- **What is written with a value**, for all paddings. -/
theorem padmodel_value (p : Par) (zero v : α) (d : ℕ → α) (iy ix iz : ℕ) (h1 : iy < p.nyout) (h2 : ix < p.nxout) (h3 : iz < p.nzout) :
    padmodel p zero (some v) d (p.at iy ix iz) =
      if p.nz ≤ iz ∨ iy < p.nypad ∨ p.ny + p.nypad ≤ iy ∨ ix < p.nxpad ∨ p.nx + p.nxpad ≤ ix then v
      else if iz < p.nzpad then zero else p.src d (iy - p.nypad) (ix - p.nxpad) (iz - p.nzpad) := by
  have e := padValue_fill p v (fit p zero d) (iy, ix, iz) ⟨h1, h2, h3⟩
  by_cases h : p.nz ≤ iz ∨ iy < p.nypad ∨ p.ny + p.nypad ≤ iy ∨ ix < p.nxpad ∨ p.nx + p.nxpad ≤ ix
  · rw [if_pos h]; exact e.1 h
  · rw [if_neg h]
    refine (e.2 h).trans ?_
    have f := fit_fill p zero d (iy, ix, iz) ⟨h1, h2, h3⟩
    by_cases hz : iz < p.nzpad
    · rw [if_pos hz]
      exact f.2 fun h' => by have := h'.2.2.1; dsimp only at this; omega
    · rw [if_neg hz]
      exact f.1 ⟨⟨by dsimp only; omega, by dsimp only; omega⟩, ⟨by dsimp only; omega, by dsimp only; omega⟩, by dsimp only; omega,
        by dsimp only; omega⟩

/-- **Padding in the horizontal directions** gives the wanted model.  Missing: padding in depth, which is wrong (see below). -/
theorem padmodel_partial (p : Par) (zero : α) (hx : 0 < p.nx) (hy : 0 < p.ny) (hz : 0 < p.nz) (hp : p.nzpad = 0) (value : Option α) (d : ℕ → α)
    (iy ix iz : ℕ) (h1 : iy < p.nyout) (h2 : ix < p.nxout) (h3 : iz < p.nzout) :
    padmodel p zero value d (p.at iy ix iz) = p.wanted value d iy ix iz := by
  have nzo : p.nzout = p.nz + 2 * p.nzpad := rfl
  have hlt : iz < p.nz := by omega
  unfold Par.wanted
  cases value with
  | none =>
    rw [padmodel_edges p zero hx hy hz d iy ix iz h1 h2 h3, if_pos hlt]
    dsimp only
    congr 1
    unfold clamp
    omega
  | some v =>
    rw [padmodel_value p zero v d iy ix iz h1 h2 h3]
    dsimp only
    have hz0 : ¬ iz < p.nzpad := by omega
    rw [if_neg hz0]
    by_cases h : p.nz ≤ iz ∨ iy < p.nypad ∨ p.ny + p.nypad ≤ iy ∨ ix < p.nxpad ∨ p.nx + p.nxpad ≤ ix
    · have h' : ¬ ((p.nypad ≤ iy ∧ iy < p.ny + p.nypad) ∧ (p.nxpad ≤ ix ∧ ix < p.nx + p.nxpad) ∧ p.nzpad ≤ iz ∧ iz < p.nz + p.nzpad) := by omega
      rw [if_pos h, if_neg h']
    · have h' : (p.nypad ≤ iy ∧ iy < p.ny + p.nypad) ∧ (p.nxpad ≤ ix ∧ ix < p.nx + p.nxpad) ∧ p.nzpad ≤ iz ∧ iz < p.nz + p.nzpad := by omega
      rw [if_neg h, if_pos h']

/-- A model of 2 by 1 by 2 samples with two columns on either side. -/
example : (List.range 12).map (padmodel ⟨2, 1, 2, 2, 0, 0⟩ 0 none fun i => i + 10) = [10, 11, 10, 11, 10, 11, 12, 13, 12, 13, 12, 13] := by decide

example : padmodel ⟨2, 1, 2, 2, 0, 0⟩ 0 none (fun i => i + 10) (Par.at ⟨2, 1, 2, 2, 0, 0⟩ 0 5 1) =
    Par.wanted ⟨2, 1, 2, 2, 0, 0⟩ none (fun i => i + 10) 0 5 1 :=
  padmodel_partial ⟨2, 1, 2, 2, 0, 0⟩ 0 (by decide) (by decide) (by decide) rfl none _ 0 5 1 (by decide) (by decide) (by decide)

/-- **The bottom is lost**: with padding in depth the deepest `nzpad` samples of every column do not matter at all, and the sample `nzpad`
above the deepest one is repeated. -/
theorem padmodel_bottom_lost (p : Par) (zero : α) (hx : 0 < p.nx) (hy : 0 < p.ny) (hz : p.nzpad < p.nz) (d d' : ℕ → α)
    (hd : ∀ iy ix iz, iy < p.ny → ix < p.nx → iz + p.nzpad < p.nz → p.src d iy ix iz = p.src d' iy ix iz) (iy ix iz : ℕ) (h1 : iy < p.nyout)
    (h2 : ix < p.nxout) (h3 : iz < p.nzout) : padmodel p zero none d (p.at iy ix iz) = padmodel p zero none d' (p.at iy ix iz) ∧
      (p.nz ≤ iz → padmodel p zero none d (p.at iy ix iz) = p.src d (clamp p.ny p.nypad iy) (clamp p.nx p.nxpad ix) (p.nz - 1 - p.nzpad)) := by
  constructor
  · rw [padmodel_edges p zero hx hy (by omega) d iy ix iz h1 h2 h3, padmodel_edges p zero hx hy (by omega) d' iy ix iz h1 h2 h3]
    exact hd _ _ _ (by unfold clamp; omega) (by unfold clamp; omega) (by split <;> omega)
  · intro h
    have : ¬ iz < p.nz := by omega
    rw [padmodel_edges p zero hx hy (by omega) d iy ix iz h1 h2 h3, if_neg this]

/-- Three samples in depth and one of padding: the last one is gone. -/
example : (List.range 5).map (padmodel ⟨1, 1, 3, 0, 0, 1⟩ 0 none fun i => i + 10) = [10, 10, 11, 11, 11] := by decide

/-- **With a value** the padding above the model gets zero in place of the value, and the deepest samples get the value. -/
theorem padmodel_value_misplaced (p : Par) (zero v : α) (d : ℕ → α) (iy ix iz : ℕ) (h1 : p.nypad ≤ iy) (h1' : iy < p.ny + p.nypad)
    (h2 : p.nxpad ≤ ix) (h2' : ix < p.nx + p.nxpad) :
    (iz < p.nzpad → iz < p.nz → padmodel p zero (some v) d (p.at iy ix iz) = zero) ∧
      (p.nz ≤ iz → iz < p.nz + p.nzpad → padmodel p zero (some v) d (p.at iy ix iz) = v) := by
  have nxo : p.nxout = p.nx + 2 * p.nxpad := rfl
  have nyo : p.nyout = p.ny + 2 * p.nypad := rfl
  have nzo : p.nzout = p.nz + 2 * p.nzpad := rfl
  constructor
  · intro h3 h4
    have h : ¬ (p.nz ≤ iz ∨ iy < p.nypad ∨ p.ny + p.nypad ≤ iy ∨ ix < p.nxpad ∨ p.nx + p.nxpad ≤ ix) := by omega
    rw [padmodel_value p zero v d iy ix iz (by omega) (by omega) (by omega), if_neg h, if_pos h3]
  · intro h3 h4
    rw [padmodel_value p zero v d iy ix iz (by omega) (by omega) (by omega), if_pos (Or.inl h3)]

/-- A velocity of 1500 around a model of three samples: 0 above it, and the last sample overwritten. -/
example : (List.range 5).map (padmodel ⟨1, 1, 3, 0, 0, 1⟩ 0 (some 1500) fun i => i + 10) = [0, 10, 11, 1500, 1500] := by decide

/-- **Positions**: a sample of the model keeps its position. -/
theorem origin_kept (x0 dx : ℚ) (npad i : ℕ) : origin x0 dx npad + (i + npad : ℕ) * dx = x0 + i * dx := by
  unfold origin; push_cast; ring

/-! ### Truncation -/

/-- What `truncate` gives: the data to write, an error message, or reading beyond the array. -/
inductive Out (α : Type*) where
  | data (d : ℕ → α)
  | refused
  | ub

/-- utils/truncate.c:70-105, for `ntr` traces of `nz` samples; `izt` is the index of the depth. -/
def truncate (ntr nz : ℕ) (ztrunc z0 dz : ℚ) (d : ℕ → α) : Out α :=
  let izt := NINT ((ztrunc - z0) / dz)
  if izt > nz then .refused
  else if izt < 1 then .refused
  else if ∃ ix, ix < ntr ∧ ntr * nz ≤ ix * nz + izt.toNat then .ub
  else .data (forN ntr (fun ix d => let tmp := d (ix * nz + izt.toNat)
    forN (nz - (izt.toNat + 1)) (fun k d => aset d (ix * nz + (izt.toNat + 1 + k)) tmp) d) d)

theorem trunc_row (nz a base : ℕ) (tmp : α) (d : ℕ → α) (m : ℕ) :
    forN nz (fun k d => aset d (base + (a + k)) tmp) d m = if base + a ≤ m ∧ m < base + a + nz then tmp else d m := by
  induction nz with
  | zero =>
    have : ¬ (base + a ≤ m ∧ m < base + a + 0) := by omega
    rw [forN_zero, if_neg this]
  | succ n ih =>
    rw [forN_succ]
    generalize forN n (fun k d => aset d (base + (a + k)) tmp) d = q at ih
    unfold aset
    by_cases h : m = base + (a + n)
    · have h2 : base + a ≤ m ∧ m < base + a + (n + 1) := by omega
      rw [if_pos h, if_pos h2]
    · rw [if_neg h, ih]
      refine if_congr ?_ rfl rfl
      omega

theorem cell_lt {ntr nz ix iz : ℕ} (h1 : ix < ntr) (h2 : iz < nz) : ix * nz + iz < ntr * nz := by
  have := Nat.mul_le_mul_right nz (show ix + 1 ≤ ntr from h1)
  rw [Nat.add_mul] at this
  omega

/-- **Truncation**: below the sample nearest to the depth every trace is constant, above it is unchanged. -/
theorem truncate_spec (ntr nz : ℕ) (ztrunc z0 dz : ℚ) (hdz : 0 < dz) (d : ℕ → α) (h1 : 1 ≤ NINT ((ztrunc - z0) / dz))
    (h2 : NINT ((ztrunc - z0) / dz) < nz) :
    ∃ k : ℕ, |z0 + k * dz - ztrunc| ≤ dz / 2 ∧ ∃ d', truncate ntr nz ztrunc z0 dz d = .data d' ∧
      ∀ ix iz, ix < ntr → iz < nz → d' (ix * nz + iz) = d (ix * nz + min iz k) := by
  unfold truncate
  have hpos : 0 < (ztrunc - z0) / dz := by
    by_contra hneg
    unfold NINT at h1
    rw [if_neg hneg] at h1
    have : ⌈(ztrunc - z0) / dz - 1 / 2⌉ ≤ 0 := Int.ceil_le.mpr (by push_cast; linarith)
    omega
  have hk : NINT ((ztrunc - z0) / dz) = ⌊(ztrunc - z0) / dz + 1 / 2⌋ := by unfold NINT; rw [if_pos hpos]
  obtain ⟨k, hkk⟩ : ∃ k : ℕ, NINT ((ztrunc - z0) / dz) = k := ⟨(NINT ((ztrunc - z0) / dz)).toNat, by omega⟩
  rw [hkk] at h1 h2 ⊢
  refine ⟨k, ?_, ?_⟩
  · rw [hkk] at hk
    have a := Int.floor_le ((ztrunc - z0) / dz + 1 / 2)
    have b := Int.lt_floor_add_one ((ztrunc - z0) / dz + 1 / 2)
    rw [← hk] at a b
    have e : ztrunc - z0 = (ztrunc - z0) / dz * dz := by field_simp
    generalize (ztrunc - z0) / dz = r at a b e
    have hz : z0 + k * dz - ztrunc = (k - r) * dz := by rw [sub_mul, ← e]; ring
    rw [hz, abs_le]
    push_cast at a b
    constructor <;> nlinarith
  · dsimp only
    have c1 : ¬ (k : ℤ) > nz := by omega
    have c2 : ¬ (k : ℤ) < 1 := by omega
    rw [Int.toNat_natCast]
    have c3 : ¬ ∃ ix, ix < ntr ∧ ntr * nz ≤ ix * nz + k := fun ⟨ix, h, h'⟩ => by
      have := cell_lt (nz := nz) (iz := k) h (by omega); omega
    rw [if_neg c1, if_neg c2, if_neg c3]
    refine ⟨_, rfl, ?_⟩
    have key := forN_inv (n := ntr) (s := d) (body := fun ix d => forN (nz - (k + 1)) (fun j e => aset e (ix * nz + (k + 1 + j)) (d (ix * nz + k))) d)
      (fun a d' => ∀ ix iz, ix < ntr → iz < nz → d' (ix * nz + iz) = if ix < a then d (ix * nz + min iz k) else d (ix * nz + iz))
      (fun ix iz _ _ => by rw [if_neg (Nat.not_lt_zero _)]) (fun a ha d' ih ix iz hx hz => ?_)
    · intro ix iz hx hz
      rw [key ix iz hx hz, if_pos hx]
    · 
      rw [trunc_row, ih a k ha (by omega), ih ix iz hx hz, if_neg (lt_irrefl a)]
      by_cases hxa : ix = a
      · subst hxa
        rw [if_neg (lt_irrefl _), if_pos (Nat.lt_succ_self _)]
        by_cases hzk : k < iz
        · have h : ix * nz + (k + 1) ≤ ix * nz + iz ∧ ix * nz + iz < ix * nz + (k + 1) + (nz - (k + 1)) := by omega
          rw [if_pos h, min_eq_right hzk.le]
        · have h : ¬ (ix * nz + (k + 1) ≤ ix * nz + iz ∧ ix * nz + iz < ix * nz + (k + 1) + (nz - (k + 1))) := by omega
          rw [if_neg h, min_eq_left (by omega)]
      · have h : ¬ (a * nz + (k + 1) ≤ ix * nz + iz ∧ ix * nz + iz < a * nz + (k + 1) + (nz - (k + 1))) := by
          rcases Nat.lt_or_ge ix a with hlt | hge
          · have := cell_lt (nz := nz) hlt hz; omega
          · have := Nat.mul_le_mul_right nz (show a + 1 ≤ ix by omega)
            rw [Nat.add_mul] at this
            omega
        rw [if_neg h]
        refine if_congr ?_ rfl rfl
        omega

example : ∃ d', truncate 2 4 12 0 10 (fun i => i) = .data d' ∧ d' 3 = 1 ∧ d' 7 = 5 := by
  have e : NINT ((12 - 0) / 10) = 1 := by unfold NINT; norm_num
  obtain ⟨k, h, d', e', hd⟩ := truncate_spec 2 4 12 0 10 (by norm_num) (fun i => i) (by rw [e]) (by rw [e]; norm_num)
  have hk : k = 1 := by
    rw [abs_le] at h
    have h1 : (k : ℚ) < 2 := by linarith
    have h2 : (0 : ℚ) < k := by linarith
    have : k < 2 := by exact_mod_cast h1
    have : 0 < k := by exact_mod_cast h2
    omega
  subst hk
  exact ⟨d', e', hd 0 3 (by norm_num) (by norm_num), hd 1 3 (by norm_num) (by norm_num)⟩

/-- **One beyond the last sample** is accepted: the first sample of the next trace, or memory after the data, is read. -/
theorem truncate_last (ntr nz : ℕ) (hn : 0 < ntr) (hz : 1 ≤ nz) (ztrunc z0 dz : ℚ) (d : ℕ → α) (h : NINT ((ztrunc - z0) / dz) = nz) :
    truncate ntr nz ztrunc z0 dz d = .ub := by
  unfold truncate
  dsimp only
  rw [h, Int.toNat_natCast]
  have c1 : ¬ (nz : ℤ) > nz := by omega
  have c2 : ¬ (nz : ℤ) < 1 := by omega
  have c3 : ∃ ix, ix < ntr ∧ ntr * nz ≤ ix * nz + nz := ⟨ntr - 1, by omega, by
    rw [← Nat.succ_mul, Nat.succ_eq_add_one, Nat.sub_add_cancel hn]⟩
  rw [if_neg c1, if_neg c2, if_pos c3]

example : truncate 2 4 40 0 10 (fun i => i) = .ub := truncate_last 2 4 (by norm_num) (by norm_num) 40 0 10 _ (by unfold NINT; norm_num)

/-- The first sample, a valid depth, is refused. -/
theorem truncate_first_refused (ntr nz : ℕ) (z0 dz : ℚ) (d : ℕ → α) : truncate ntr nz z0 z0 dz d = .refused := by
  unfold truncate
  have h : NINT ((z0 - z0) / dz) = 0 := by
    unfold NINT
    rw [sub_self, zero_div, if_neg (lt_irrefl _)]
    norm_num
  dsimp only
  rw [h]
  have c1 : ¬ (0 : ℤ) > nz := by omega
  rw [if_neg c1, if_pos (by norm_num)]

end Verif.PadMod

import Verif.Med.Loops
import Verif.Med.Spec

/-! # The extension into the borders repeats the nearest value -/

namespace Verif.Med

section
variable {K : Type}

/-- The array holds `V` at the model points, and the nearest value in borders of the given widths. -/
def Holds (p : Par) (m : Mem K) (a : Arr) (V : Int → Int → K) (l r t b : Int) : Prop :=
  ∀ x z, ox p a - l ≤ x → x < ox p a + p.nx + r → oz p a - t ≤ z → z < oz p a + p.nz + b →
    m a x z = V (nearX p (x - ox p a)) (nearZ p (z - oz p a))

theorem nearX_id {p : Par} {i : Int} (h0 : 0 ≤ i) (h1 : i < p.nx) : nearX p i = i := by unfold nearX; omega
theorem nearZ_id {p : Par} {i : Int} (h0 : 0 ≤ i) (h1 : i < p.nz) : nearZ p i = i := by unfold nearZ; omega

variable {p : Par} {m : Mem K} {a : Arr} {V : Int → Int → K} {x0 x1 z0 z1 s n l r t b : Int}

private theorem one_nodup : [a].Nodup := by simp

theorem holds_left (hv : Valid p) (hn : 0 ≤ n) (e0 : x0 = ox p a - n) (e1 : x1 = ox p a) (es : s = ox p a)
    (g0 : 0 ≤ x0) (g1 : ox p a < p.nax) (k0 : 0 ≤ z0) (k1 : z1 ≤ p.naz) (j0 : z0 ≤ oz p a) (j1 : oz p a + p.nz ≤ z1)
    (h : Holds p m a V 0 0 0 0) :
    ∃ m', copyXZ p [a] x0 x1 z0 z1 (fun _ _ z => (s, z)) m = some m' ∧ Holds p m' a V n 0 0 0 ∧
      ∀ c, c ≠ a → m' c = m c := by
  have hx := hv.nx
  refine ⟨_, copyXZ_spec one_nodup ?_, ?_, ?_⟩
  · intro x z h1 h2 h3 h4
    refine ⟨⟨⟨by omega, by omega⟩, by omega, by omega⟩, fun c _ => ⟨⟨⟨?_, ?_⟩, ?_, ?_⟩, ?_⟩⟩ <;> dsimp only <;> omega
  · intro x z h1 h2 h3 h4
    by_cases hc : x < ox p a
    · rw [upd_in ⟨by simp, by omega, by omega⟩]
      dsimp only
      rw [h s z (by omega) (by omega) h3 h4]
      congr 1
      unfold nearX; omega
    · rw [upd_out (by rintro ⟨_, hh, _⟩; omega)]
      exact h x z (by omega) h2 h3 h4
  · intro c hc
    funext x z
    exact upd_out (by rintro ⟨hh, _⟩; simp at hh; exact hc hh)

theorem holds_right (hv : Valid p) (hn : 0 ≤ n) (hl : 0 ≤ l) (e0 : x0 = ox p a + p.nx) (e1 : x1 = ox p a + p.nx + n)
    (es : s = ox p a + p.nx - 1) (g0 : 0 ≤ ox p a) (g1 : x1 ≤ p.nax) (k0 : 0 ≤ z0) (k1 : z1 ≤ p.naz)
    (j0 : z0 ≤ oz p a) (j1 : oz p a + p.nz ≤ z1) (h : Holds p m a V l 0 0 0) :
    ∃ m', copyXZ p [a] x0 x1 z0 z1 (fun _ _ z => (s, z)) m = some m' ∧ Holds p m' a V l n 0 0 ∧
      ∀ c, c ≠ a → m' c = m c := by
  have hx := hv.nx
  refine ⟨_, copyXZ_spec one_nodup ?_, ?_, ?_⟩
  · intro x z h1 h2 h3 h4
    refine ⟨⟨⟨by omega, by omega⟩, by omega, by omega⟩, fun c _ => ⟨⟨⟨?_, ?_⟩, ?_, ?_⟩, ?_⟩⟩ <;> dsimp only <;> omega
  · intro x z h1 h2 h3 h4
    by_cases hc : ox p a + p.nx ≤ x
    · rw [upd_in ⟨by simp, by omega, by omega⟩]
      dsimp only
      rw [h s z (by omega) (by omega) h3 h4]
      congr 1
      unfold nearX; omega
    · rw [upd_out (by rintro ⟨_, hh, _⟩; omega)]
      exact h x z h1 (by omega) h3 h4
  · intro c hc
    funext x z
    exact upd_out (by rintro ⟨hh, _⟩; simp at hh; exact hc hh)

theorem holds_top (hv : Valid p) (hn : 0 ≤ n) (e0 : z0 = oz p a - n) (e1 : z1 = oz p a) (es : s = oz p a)
    (g0 : 0 ≤ x0) (g1 : x1 ≤ p.nax) (k0 : 0 ≤ z0) (k1 : oz p a < p.naz) (j0 : x0 ≤ ox p a - l)
    (j1 : ox p a + p.nx + r ≤ x1) (h : Holds p m a V l r 0 0) :
    ∃ m', copyXZ p [a] x0 x1 z0 z1 (fun _ x _ => (x, s)) m = some m' ∧ Holds p m' a V l r n 0 ∧
      ∀ c, c ≠ a → m' c = m c := by
  have hx := hv.nz
  refine ⟨_, copyXZ_spec one_nodup ?_, ?_, ?_⟩
  · intro x z h1 h2 h3 h4
    refine ⟨⟨⟨by omega, by omega⟩, by omega, by omega⟩, fun c _ => ⟨⟨⟨?_, ?_⟩, ?_, ?_⟩, ?_⟩⟩ <;> dsimp only <;> omega
  · intro x z h1 h2 h3 h4
    by_cases hc : z < oz p a
    · rw [upd_in ⟨by simp, by omega, by omega⟩]
      dsimp only
      rw [h x s h1 h2 (by omega) (by omega)]
      congr 1
      unfold nearZ; omega
    · rw [upd_out (by rintro ⟨_, _, hh⟩; omega)]
      exact h x z h1 h2 (by omega) h4
  · intro c hc
    funext x z
    exact upd_out (by rintro ⟨hh, _⟩; simp at hh; exact hc hh)

theorem holds_bottom (hv : Valid p) (hn : 0 ≤ n) (ht : 0 ≤ t) (e0 : z0 = oz p a + p.nz) (e1 : z1 = oz p a + p.nz + n)
    (es : s = oz p a + p.nz - 1) (g0 : 0 ≤ x0) (g1 : x1 ≤ p.nax) (k0 : 0 ≤ oz p a) (k1 : z1 ≤ p.naz)
    (j0 : x0 ≤ ox p a - l) (j1 : ox p a + p.nx + r ≤ x1) (h : Holds p m a V l r t 0) :
    ∃ m', copyXZ p [a] x0 x1 z0 z1 (fun _ x _ => (x, s)) m = some m' ∧ Holds p m' a V l r t n ∧
      ∀ c, c ≠ a → m' c = m c := by
  have hx := hv.nz
  refine ⟨_, copyXZ_spec one_nodup ?_, ?_, ?_⟩
  · intro x z h1 h2 h3 h4
    refine ⟨⟨⟨by omega, by omega⟩, by omega, by omega⟩, fun c _ => ⟨⟨⟨?_, ?_⟩, ?_, ?_⟩, ?_⟩⟩ <;> dsimp only <;> omega
  · intro x z h1 h2 h3 h4
    by_cases hc : oz p a + p.nz ≤ z
    · rw [upd_in ⟨by simp, by omega, by omega⟩]
      dsimp only
      rw [h x s h1 h2 (by omega) (by omega)]
      congr 1
      unfold nearZ; omega
    · rw [upd_out (by rintro ⟨_, _, hh⟩; omega)]
      exact h x z h1 h2 h3 (by omega)
  · intro c hc
    funext x z
    exact upd_out (by rintro ⟨hh, _⟩; simp at hh; exact hc hh)

theorem Holds.congr {m' : Mem K} (h : Holds p m a V l r t b) (e : m' a = m a) : Holds p m' a V l r t b := by
  intro x z h1 h2 h3 h4
  rw [e]; exact h x z h1 h2 h3 h4

theorem pad_nonneg (hv : Valid p) (s : Int) : 0 ≤ p.pad s := by
  have := hv.npml
  unfold Par.pad; split <;> omega

theorem add_nonneg' (hv : Valid p) : 0 ≤ p.add := by
  have := hv.topadd
  unfold Par.add; split <;> omega

theorem pad_abs {s : Int} (h : absorbs s = true) : p.pad s = p.npml := by
  unfold absorbs at h
  simp only [Bool.or_eq_true, decide_eq_true_eq] at h
  unfold Par.pad; rw [if_pos h]

theorem pad_not {s : Int} (h : absorbs s = false) : p.pad s = 0 := by
  unfold absorbs at h
  simp only [Bool.or_eq_false_iff, decide_eq_false_iff_not] at h
  unfold Par.pad; rw [if_neg (by omega)]

/-- All the widths at once: every array used by the scheme holds its values. -/
def HoldsAll (p : Par) (m : Mem K) (V : Arr → Int → Int → K) (l r t b : Int) : Prop :=
  ∀ a, used p a → Holds p m a (V a) l r t b

end

end Verif.Med

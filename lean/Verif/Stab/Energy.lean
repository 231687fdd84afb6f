import Verif.Stab.Sum

/-! # Conservation of a discrete energy by the staggered leapfrog scheme, and what follows from it -/

namespace Verif.Stab

/-- The wave field. -/
structure St where
  vx : X → ℝ
  vz : X → ℝ
  p : X → ℝ

/-- One time step of the interior scheme with coefficients `cs`, everywhere; where a medium parameter is zero nothing changes. -/
def leap (cs : List ℝ) (rx rz L : X → ℝ) (s : St) : St :=
  let vx := fun a => s.vx a - rx a * gradF .x 0 cs s.p a
  let vz := fun a => s.vz a - rz a * gradF .z 0 cs s.p a
  ⟨vx, vz, fun a => s.p a - L a * (divF .x 0 cs vx a + divF .z 0 cs vz a)⟩

/-- The field is zero where the medium parameter is. -/
structure Live (rx rz L : X → ℝ) (s : St) : Prop where
  vx : ∀ a, rx a = 0 → s.vx a = 0
  vz : ∀ a, rz a = 0 → s.vz a = 0
  p : ∀ a, L a = 0 → s.p a = 0

/-- Medium parameters: nowhere negative, and positive at finitely many points only. -/
structure Medium (rx rz L : X → ℝ) : Prop where
  prx : ∀ a, 0 ≤ rx a
  prz : ∀ a, 0 ≤ rz a
  pL : ∀ a, 0 ≤ L a
  frx : Fin' rx
  frz : Fin' rz
  fL : Fin' L

/-- Twice the energy of the field: `Σ v²/buoyancy + Σ p²/modulus`. -/
noncomputable def energy (rx rz L : X → ℝ) (s : St) : ℝ :=
  S (fun a => s.vx a ^ 2 / rx a) + S (fun a => s.vz a ^ 2 / rz a) + S (fun a => s.p a ^ 2 / L a)

/-- The conserved quantity. -/
noncomputable def inv (cs : List ℝ) (rx rz L : X → ℝ) (s : St) : ℝ :=
  energy rx rz L s - S (fun a => s.vx a * gradF .x 0 cs s.p a) - S (fun a => s.vz a * gradF .z 0 cs s.p a)

section
variable {cs : List ℝ} {rx rz L : X → ℝ} {s : St}

theorem Live.leap (h : Live rx rz L s) : Live rx rz L (leap cs rx rz L s) where
  vx a ha := by simp [Stab.leap, ha, h.vx a ha]
  vz a ha := by simp [Stab.leap, ha, h.vz a ha]
  p a ha := by simp [Stab.leap, ha, h.p a ha]

theorem Live.fvx (h : Live rx rz L s) (m : Medium rx rz L) : Fin' s.vx := m.frx.mono h.vx
theorem Live.fvz (h : Live rx rz L s) (m : Medium rx rz L) : Fin' s.vz := m.frz.mono h.vz
theorem Live.fp (h : Live rx rz L s) (m : Medium rx rz L) : Fin' s.p := m.fL.mono h.p

theorem Fin'.sqdiv {f r : X → ℝ} (hf : Fin' f) : Fin' fun a => f a ^ 2 / r a := hf.mono fun a h => by simp [h]

/-- The velocity part: `v²/r - v·grad p = v v'/r`. -/
private theorem part {r v g : X → ℝ} (hv : Fin' v) (h0 : ∀ a, r a = 0 → v a = 0) :
    S (fun a => v a ^ 2 / r a) - S (fun a => v a * g a) = S (fun a => v a * (v a - r a * g a) / r a) := by
  rw [← S_sub hv.sqdiv (hv.mul_right _)]
  apply S_congr
  intro a
  by_cases hr : r a = 0
  · simp [hr, h0 a hr]
  · field_simp

/-- **The energy is conserved.** -/
theorem inv_leap (m : Medium rx rz L) (h : Live rx rz L s) : inv cs rx rz L (leap cs rx rz L s) = inv cs rx rz L s := by
  have h' := h.leap (cs := cs)
  set t := leap cs rx rz L s with ht
  have hvx := h.fvx m; have hvz := h.fvz m; have hp := h.fp m
  have hvx' := h'.fvx m; have hvz' := h'.fvz m; have hp' := h'.fp m
  have etx : ∀ a, t.vx a = s.vx a - rx a * gradF .x 0 cs s.p a := fun a => rfl
  have etz : ∀ a, t.vz a = s.vz a - rz a * gradF .z 0 cs s.p a := fun a => rfl
  have etp : ∀ a, t.p a = s.p a - L a * (divF .x 0 cs t.vx a + divF .z 0 cs t.vz a) := fun a => rfl
  -- the velocity terms before the step, seen from the new velocity
  have qx : S (fun a => s.vx a ^ 2 / rx a) - S (fun a => s.vx a * gradF .x 0 cs s.p a) =
      S (fun a => t.vx a ^ 2 / rx a) + S (fun a => t.vx a * gradF .x 0 cs s.p a) := by
    rw [part hvx h.vx, ← S_add hvx'.sqdiv (hvx'.mul_right _)]
    apply S_congr; intro a
    by_cases hr : rx a = 0
    · simp [hr, h.vx a hr, h'.vx a hr]
    · rw [etx a]; field_simp; ring
  have qz : S (fun a => s.vz a ^ 2 / rz a) - S (fun a => s.vz a * gradF .z 0 cs s.p a) =
      S (fun a => t.vz a ^ 2 / rz a) + S (fun a => t.vz a * gradF .z 0 cs s.p a) := by
    rw [part hvz h.vz, ← S_add hvz'.sqdiv (hvz'.mul_right _)]
    apply S_congr; intro a
    by_cases hr : rz a = 0
    · simp [hr, h.vz a hr, h'.vz a hr]
    · rw [etz a]; field_simp; ring
  -- the pressure terms
  have qp : S (fun a => t.p a ^ 2 / L a) - S (fun a => s.p a ^ 2 / L a) =
      - S (fun a => (t.p a + s.p a) * divF .x 0 cs t.vx a) - S (fun a => (t.p a + s.p a) * divF .z 0 cs t.vz a) := by
    have hps := hp'.add hp
    rw [← S_sub hp'.sqdiv hp.sqdiv, ← S_neg, ← S_sub ((hps.mul_right _).neg) (hps.mul_right _)]
    apply S_congr; intro a
    by_cases hr : L a = 0
    · simp [hr, h.p a hr, h'.p a hr]
    · rw [← sub_div, div_eq_iff hr, sq_sub_sq]
      have : t.p a - s.p a = - (L a * (divF .x 0 cs t.vx a + divF .z 0 cs t.vz a)) := by rw [etp a]; ring
      rw [this]; ring
  have px : - S (fun a => (t.p a + s.p a) * divF .x 0 cs t.vx a) =
      S (fun a => t.vx a * gradF .x 0 cs t.p a) + S (fun a => t.vx a * gradF .x 0 cs s.p a) := by
    rw [← parts .x 0 cs hvx' (hp'.add hp), ← S_add (hvx'.mul_right _) (hvx'.mul_right _)]
    apply S_congr; intro a; rw [gradF_add]; ring
  have pz : - S (fun a => (t.p a + s.p a) * divF .z 0 cs t.vz a) =
      S (fun a => t.vz a * gradF .z 0 cs t.p a) + S (fun a => t.vz a * gradF .z 0 cs s.p a) := by
    rw [← parts .z 0 cs hvz' (hp'.add hp), ← S_add (hvz'.mul_right _) (hvz'.mul_right _)]
    apply S_congr; intro a; rw [gradF_add]; ring
  unfold inv energy
  linarith

/-- The differences of the pressure are bounded by `q` times its energy. -/
def Bound (cs : List ℝ) (rx rz L : X → ℝ) (q : ℝ) : Prop :=
  ∀ p : X → ℝ, (∀ a, L a = 0 → p a = 0) →
    S (fun a => rx a * gradF .x 0 cs p a ^ 2) + S (fun a => rz a * gradF .z 0 cs p a ^ 2) ≤ q ^ 2 * S (fun a => p a ^ 2 / L a)

private theorem young {r v g : X → ℝ} {q : ℝ} (hq : 0 < q) (hr : ∀ a, 0 ≤ r a) (hv : Fin' v) (hg : Fin' g)
    (h0 : ∀ a, r a = 0 → v a = 0) :
    |S (fun a => v a * g a)| ≤ q / 2 * S (fun a => v a ^ 2 / r a) + 1 / (2 * q) * S (fun a => r a * g a ^ 2) := by
  have pt : ∀ a, |v a * g a| ≤ q / 2 * (v a ^ 2 / r a) + 1 / (2 * q) * (r a * g a ^ 2) := by
    intro a
    by_cases hz : r a = 0
    · simp [hz, h0 a hz]
    · have hp : 0 < r a := lt_of_le_of_ne (hr a) (Ne.symm hz)
      have e : q / 2 * (v a ^ 2 / r a) + 1 / (2 * q) * (r a * g a ^ 2) - |v a * g a| =
          (q * |v a| - r a * |g a|) ^ 2 / (2 * q * r a) := by
        rw [abs_mul, ← sq_abs (v a), ← sq_abs (g a)]; field_simp; ring
      have : 0 ≤ (q * |v a| - r a * |g a|) ^ 2 / (2 * q * r a) := by positivity
      linarith
  have f1 : Fin' fun a => q / 2 * (v a ^ 2 / r a) := hv.sqdiv.mul_left _
  have f2 : Fin' fun a => 1 / (2 * q) * (r a * g a ^ 2) := (hg.sq.mul_left _).mul_left _
  rw [← S_mul, ← S_mul, ← S_add f1 f2, abs_le]
  have fv : Fin' fun a => v a * g a := hv.mul_right _
  constructor
  · rw [← S_neg]
    exact S_le (f1.add f2).neg fv fun a => by have := neg_abs_le (v a * g a); linarith [pt a]
  · exact S_le fv (f1.add f2) fun a => le_trans (le_abs_self _) (pt a)

/-- The conserved quantity is comparable with the energy. -/
theorem inv_energy {q : ℝ} (hq : 0 < q) (m : Medium rx rz L) (hb : Bound cs rx rz L q) (h : Live rx rz L s) :
    |inv cs rx rz L s - energy rx rz L s| ≤ q / 2 * energy rx rz L s := by
  have hp := h.fp m
  have h1 := young hq m.prx (h.fvx m) (hp.gradF .x 0 cs) h.vx
  have h2 := young hq m.prz (h.fvz m) (hp.gradF .z 0 cs) h.vz
  have h3 := hb s.p h.p
  have e : inv cs rx rz L s - energy rx rz L s =
      - (S (fun a => s.vx a * gradF .x 0 cs s.p a) + S (fun a => s.vz a * gradF .z 0 cs s.p a)) := by unfold inv; ring
  rw [e, abs_neg]
  refine le_trans (abs_add_le _ _) ?_
  have h4 : 1 / (2 * q) * (S (fun a => rx a * gradF .x 0 cs s.p a ^ 2) + S (fun a => rz a * gradF .z 0 cs s.p a ^ 2)) ≤
      1 / (2 * q) * (q ^ 2 * S (fun a => s.p a ^ 2 / L a)) := by gcongr
  have e5 : 1 / (2 * q) * (q ^ 2 * S (fun a => s.p a ^ 2 / L a)) = q / 2 * S (fun a => s.p a ^ 2 / L a) := by
    field_simp
  unfold energy
  linarith

/-- `n` time steps. -/
def leaps (cs : List ℝ) (rx rz L : X → ℝ) : ℕ → St → St
  | 0, s => s
  | n + 1, s => leap cs rx rz L (leaps cs rx rz L n s)

theorem leaps_live (h : Live rx rz L s) (n : ℕ) : Live rx rz L (leaps cs rx rz L n s) := by
  induction n with
  | zero => exact h
  | succ n ih => exact ih.leap

theorem leaps_inv (m : Medium rx rz L) (h : Live rx rz L s) (n : ℕ) : inv cs rx rz L (leaps cs rx rz L n s) = inv cs rx rz L s := by
  induction n with
  | zero => rfl
  | succ n ih => rw [← ih]; exact inv_leap m (leaps_live h n)

/-- **Stability**: if the differences are bounded by `q < 2`, the energy never exceeds `(2+q)/(2-q)` times the initial one. -/
theorem energy_bounded {q : ℝ} (hq : 0 < q) (hq2 : q < 2) (m : Medium rx rz L) (hb : Bound cs rx rz L q) (h : Live rx rz L s)
    (n : ℕ) : energy rx rz L (leaps cs rx rz L n s) ≤ (2 + q) / (2 - q) * energy rx rz L s := by
  have h1 := inv_energy hq m hb h
  have h2 := inv_energy hq m hb (leaps_live (cs := cs) h n)
  rw [leaps_inv m h n] at h2
  rw [abs_le] at h1 h2
  have hd : 0 < 2 - q := by linarith
  rw [div_mul_eq_mul_div, le_div_iff₀ hd]
  nlinarith [h1.1, h1.2, h2.1, h2.2]

end

end Verif.Stab

import Verif.Stab.Growth
import Mathlib.Analysis.SpecialFunctions.Sqrt

/-! # From energies to the field itself: bounded for ever, or growing beyond every bound -/

namespace Verif.Stab

variable {cs : List ℝ} {rx rz L : X → ℝ} {f : X → ℝ}

theorem Fin'.bdd (hf : Fin' f) : ∃ R, 0 ≤ R ∧ ∀ a, |f a| ≤ R := by
  have h1 : (f '' Function.support f).Finite := hf.image f
  have h2 : ((fun x => |x|) '' (f '' Function.support f)).Finite := h1.image _
  obtain ⟨R, hR⟩ := h2.bddAbove
  refine ⟨max R 0, le_max_right _ _, fun a => ?_⟩
  by_cases h : f a = 0
  · rw [h]; simp
  · exact le_trans (hR ⟨f a, ⟨a, h, rfl⟩, rfl⟩) (le_max_left _ _)

theorem S_single (hf : Fin' f) (h : ∀ a, 0 ≤ f a) (a : X) : f a ≤ S f :=
  hf.summable.le_tsum a fun b _ => h b

/-- A constant bounds all amplitudes at all times. -/
def Stays (run : ℕ → St) : Prop := ∃ B : ℝ, ∀ n a, |(run n).vx a| ≤ B ∧ |(run n).vz a| ≤ B ∧ |(run n).p a| ≤ B

/-- No constant bounds the pressure. -/
def BlowsUp (run : ℕ → St) : Prop := ∀ B : ℝ, ∃ n a, B < |(run n).p a|

theorem not_both {run : ℕ → St} (h : Stays run) : ¬ BlowsUp run := by
  obtain ⟨B, h⟩ := h
  intro hb
  obtain ⟨n, a, h2⟩ := hb B
  exact absurd (h n a).2.2 (not_le.2 h2)

private theorem amp {r v : X → ℝ} {E R : ℝ} (hr : ∀ a, 0 ≤ r a) (hR : ∀ a, |r a| ≤ R) (hv : Fin' v) (h0 : ∀ a, r a = 0 → v a = 0)
    (hE : S (fun a => v a ^ 2 / r a) ≤ E) (a : X) : |v a| ≤ Real.sqrt (R * E) := by
  have hpos : ∀ a, 0 ≤ v a ^ 2 / r a := fun a => by have := hr a; positivity
  have h1 := S_single hv.sqdiv hpos a
  rw [← Real.sqrt_sq_eq_abs]
  apply Real.sqrt_le_sqrt
  have hE0 : 0 ≤ E := le_trans (hpos a) (le_trans h1 hE)
  by_cases hz : r a = 0
  · rw [h0 a hz]
    have : 0 ≤ R := le_trans (abs_nonneg _) (hR a)
    simp; positivity
  · have hp : 0 < r a := lt_of_le_of_ne (hr a) (Ne.symm hz)
    have h2 : v a ^ 2 / r a ≤ E := le_trans h1 hE
    rw [div_le_iff₀ hp] at h2
    have h3 : r a ≤ R := le_trans (le_abs_self _) (hR a)
    calc v a ^ 2 ≤ E * r a := h2
      _ ≤ E * R := by gcongr
      _ = R * E := by ring

/-- **Stable**: if the differences are bounded by less than twice the energy of the pressure, every field stays bounded. -/
theorem stays {s : St} {q : ℝ} (hq : 0 < q) (hq2 : q < 2) (m : Medium rx rz L) (hb : Bound cs rx rz L q) (h : Live rx rz L s) :
    Stays fun n => leaps cs rx rz L n s := by
  obtain ⟨R1, _, h1⟩ := m.frx.bdd
  obtain ⟨R2, _, h2⟩ := m.frz.bdd
  obtain ⟨R3, _, h3⟩ := m.fL.bdd
  set E := (2 + q) / (2 - q) * energy rx rz L s with hE
  refine ⟨max (Real.sqrt (R1 * E)) (max (Real.sqrt (R2 * E)) (Real.sqrt (R3 * E))), fun n a => ?_⟩
  have he := energy_bounded hq hq2 m hb h n
  have hl := leaps_live (cs := cs) h n
  set t := leaps cs rx rz L n s
  have p1 : 0 ≤ S (fun a => t.vx a ^ 2 / rx a) := S_nonneg fun a => by have := m.prx a; positivity
  have p2 : 0 ≤ S (fun a => t.vz a ^ 2 / rz a) := S_nonneg fun a => by have := m.prz a; positivity
  have p3 : 0 ≤ S (fun a => t.p a ^ 2 / L a) := S_nonneg fun a => by have := m.pL a; positivity
  rw [← hE] at he
  unfold energy at he
  refine ⟨le_trans (amp m.prx h1 (hl.fvx m) hl.vx (E := E) (by linarith) a) (le_max_left _ _),
    le_trans (amp m.prz h2 (hl.fvz m) hl.vz (by linarith) a) (le_trans (le_max_left _ _) (le_max_right _ _)),
    le_trans (amp m.pL h3 (hl.fp m) hl.p (by linarith) a) (le_trans (le_max_right _ _) (le_max_right _ _))⟩

/-- **Unstable**: if there is a pressure whose differences exceed four times its energy, then there is, however small, an initial
field that grows beyond every bound. -/
theorem blows_up (m : Medium rx rz L) {w : X → ℝ} (hw : ∀ a, L a = 0 → w a = 0)
    (hbig : 4 * S (fun a => w a ^ 2 / L a) < S (fun a => rx a * gradF .x 0 cs w a ^ 2) + S (fun a => rz a * gradF .z 0 cs w a ^ 2))
    {ε : ℝ} (hε : 0 < ε) :
    ∃ s, Live rx rz L s ∧ (∀ a, |s.vx a| ≤ ε ∧ |s.vz a| ≤ ε ∧ |s.p a| ≤ ε) ∧ BlowsUp fun n => leaps cs rx rz L n s := by
  -- scale the field
  have kl := kick_live (cs := cs) (rx := rx) (rz := rz) hw
  obtain ⟨B1, b1, h1⟩ := (kl.fvx m).bdd
  obtain ⟨B2, b2, h2⟩ := (kl.fvz m).bdd
  obtain ⟨B3, b3, h3⟩ := (kl.fp m).bdd
  set D := B1 + B2 + B3 + 1 with hD
  have hD0 : 0 < D := by linarith
  set κ := ε / D with hκ
  have hκ0 : 0 < κ := div_pos hε hD0
  have hsm : ∀ x, |x| ≤ D → |κ * x| ≤ ε := by
    intro x hx
    rw [abs_mul, abs_of_pos hκ0]
    calc κ * |x| ≤ κ * D := by gcongr
      _ = ε := by rw [hκ]; field_simp
  set u : X → ℝ := fun a => κ * w a with hu
  have hul : ∀ a, L a = 0 → u a = 0 := fun a h => by simp [hu, hw a h]
  refine ⟨kick cs rx rz u, kick_live hul, fun a => ?_, ?_⟩
  · refine ⟨?_, ?_, ?_⟩
    · have e : (kick cs rx rz u).vx a = κ * (kick cs rx rz w).vx a := by
        simp only [kick, hu, gradF_smul]; ring
      rw [e]; exact hsm _ (by have := h1 a; linarith)
    · have e : (kick cs rx rz u).vz a = κ * (kick cs rx rz w).vz a := by
        simp only [kick, hu, gradF_smul]; ring
      rw [e]; exact hsm _ (by have := h2 a; linarith)
    · exact hsm _ (by have := h3 a; simp only [kick] at this; linarith)
  · -- the excess
    set δ := S (fun a => rx a * gradF .x 0 cs u a ^ 2) + S (fun a => rz a * gradF .z 0 cs u a ^ 2) -
        4 * S (fun a => u a ^ 2 / L a) with hδ
    have hδ0 : 0 < δ := by
      have e1 : ∀ (d : Dir) (r : X → ℝ), S (fun a => r a * gradF d 0 cs u a ^ 2) = κ ^ 2 * S (fun a => r a * gradF d 0 cs w a ^ 2) := by
        intro d r; rw [← S_mul]; apply S_congr; intro a; rw [hu, gradF_smul]; ring
      have e2 : S (fun a => u a ^ 2 / L a) = κ ^ 2 * S (fun a => w a ^ 2 / L a) := by
        rw [← S_mul]; apply S_congr; intro a; simp only [hu]; ring
      rw [hδ, e1, e1, e2]
      have : 0 < κ ^ 2 := by positivity
      nlinarith
    intro B
    by_contra hc
    push Not at hc
    -- bounded pressure would mean bounded energy
    have fL' : Fin' fun a => B ^ 2 * (1 / L a) := (m.fL.mono fun a h => by simp [h] : Fin' fun a => 1 / L a).mul_left _
    have up : ∀ n, S (fun a => (leaps cs rx rz L n (kick cs rx rz u)).p a ^ 2 / L a) ≤ S (fun a => B ^ 2 * (1 / L a)) := by
      intro n
      refine S_le ((leaps_live (kick_live hul) n).fp m).sqdiv fL' fun a => ?_
      have h := hc n a
      have hB : 0 ≤ B := le_trans (abs_nonneg _) h
      have h2 : (leaps cs rx rz L n (kick cs rx rz u)).p a ^ 2 ≤ B ^ 2 := by
        rw [← sq_abs]; gcongr
      rw [div_eq_mul_one_div]
      have := m.pL a
      gcongr
    set T := S (fun a => B ^ 2 * (1 / L a)) with hT
    obtain ⟨n, hn⟩ := exists_nat_gt (T / δ)
    have h4 := grows (cs := cs) m hul (n + 1)
    have h5 := up (n + 1)
    have h6 : 0 ≤ S (fun a => u a ^ 2 / L a) := S_nonneg fun a => by have := m.pL a; positivity
    rw [← hδ] at h4
    rw [div_lt_iff₀ hδ0] at hn
    have hn0 : (0 : ℝ) ≤ n := Nat.cast_nonneg n
    push_cast at h4
    have h7 : (n : ℝ) * δ ≤ (n + 1) ^ 2 * δ := mul_le_mul_of_nonneg_right (by nlinarith) hδ0.le
    linarith

end Verif.Stab

import Verif.Med.Fill

/-! # The first extension into the PML, and the air -/

namespace Verif.Med

section
variable {K : Type}

/-- Column and row whose value is found at a model point of `roz` after the first extension into the PML. -/
def pmlCol (p : Par) (i : Int) : Int := if p.lef = 2 ∧ i = 0 then 1 else i
def pmlRow (p : Par) (j : Int) : Int := if p.bot = 2 ∧ j = p.nz - 1 then p.nz - 2 else j

variable {p : Par} {m : Mem K}

/-- Bounds of a copy. -/
macro "bnd" : tactic => `(tactic|
  (intro x z h1 h2 h3 h4; revert h1 h2 h3 h4; simp only [Par.inG]
   refine fun h1 h2 h3 h4 => ⟨?_, fun a ha => ?_⟩ <;> revert h1 h2 h3 h4 <;> geo))

theorem cpmlLef_spec (hv : Valid p) (h2 : 2 ≤ p.nx) (m : Mem K) : ∃ m', cpmlLef p m = some m' ∧
    ∀ a i j, 0 ≤ i → i < p.nx → 0 ≤ j → j < p.nz →
      m' a (i + ox p a) (j + oz p a) = m a ((if a = .roz ∧ i = 0 then 1 else i) + ox p a) (j + oz p a) := by
  have := hv.nx; have := hv.nz; have := hv.iorder; have := hv.even; have := hv.npml
  have t1 := pad_nonneg hv p.lef; have t2 := pad_nonneg hv p.rig; have t3 := pad_nonneg hv p.top
  have t4 := pad_nonneg hv p.bot; have t5 := add_nonneg' hv
  unfold cpmlLef
  rw [copyXZ_spec (by decide) (by bnd)]
  simp only [Option.bind_eq_bind, Option.bind_some]
  rw [copyXZ_spec (by decide) (by bnd)]
  simp only [Option.bind_some]
  rw [copyXZ_spec (by decide) (by bnd)]
  refine ⟨_, rfl, ?_⟩
  intro a i j h1 h2 h3 h4
  cases a
  · rw [upd_out (by simp), upd_out (by simp), upd_out (by rintro ⟨_, hh, _⟩; revert hh; geo)]
    simp
  · rw [upd_out (by simp), upd_out (by simp)]
    by_cases hi : i = 0
    · subst hi
      rw [upd_in ⟨by simp, by geo, by geo⟩]
      simp only [true_and, if_true]
      congr 1
      geo
    · rw [upd_out (by rintro ⟨_, hh, _⟩; revert hh; geo)]
      simp [hi]
  · rw [upd_out (by simp), upd_out (by rintro ⟨_, hh, _⟩; revert hh; geo), upd_out (by simp)]
    simp
  · rw [upd_out (by simp), upd_out (by rintro ⟨_, hh, _⟩; revert hh; geo), upd_out (by simp)]
    simp
  · rw [upd_out (by rintro ⟨_, hh, _⟩; revert hh; geo), upd_out (by simp), upd_out (by simp)]
    simp

theorem cpmlRig_spec (hv : Valid p) (m : Mem K) : ∃ m', cpmlRig p m = some m' ∧
    ∀ a i j, 0 ≤ i → i < p.nx → 0 ≤ j → j < p.nz →
      m' a (i + ox p a) (j + oz p a) = m a (i + ox p a) (j + oz p a) := by
  have := hv.nx; have := hv.nz; have := hv.iorder; have := hv.even; have := hv.npml
  have t1 := pad_nonneg hv p.lef; have t2 := pad_nonneg hv p.rig; have t3 := pad_nonneg hv p.top
  have t4 := pad_nonneg hv p.bot; have t5 := add_nonneg' hv
  unfold cpmlRig
  rw [copyXZ_spec (by decide) (by bnd)]
  simp only [Option.bind_eq_bind, Option.bind_some]
  rw [copyXZ_spec (by decide) (by bnd)]
  simp only [Option.bind_some]
  rw [copyXZ_spec (by decide) (by bnd)]
  refine ⟨_, rfl, ?_⟩
  intro a i j h1 h2 h3 h4
  cases a
  · rw [upd_out (by simp), upd_out (by simp), upd_out (by rintro ⟨_, hh, _⟩; revert hh; geo)]
  · rw [upd_out (by simp), upd_out (by simp), upd_out (by rintro ⟨_, hh, _⟩; revert hh; geo)]
  · rw [upd_out (by simp), upd_out (by rintro ⟨_, hh, _⟩; revert hh; geo), upd_out (by simp)]
  · rw [upd_out (by simp), upd_out (by rintro ⟨_, hh, _⟩; revert hh; geo), upd_out (by simp)]
  · rw [upd_out (by rintro ⟨_, hh, _⟩; revert hh; geo), upd_out (by simp), upd_out (by simp)]

theorem cpmlTop_spec (hv : Valid p) (m : Mem K) : ∃ m', cpmlTop p m = some m' ∧
    ∀ a i j, 0 ≤ i → i < p.nx → 0 ≤ j → j < p.nz →
      m' a (i + ox p a) (j + oz p a) = m a (i + ox p a) (j + oz p a) := by
  have := hv.nx; have := hv.nz; have := hv.iorder; have := hv.even; have := hv.npml
  have t1 := pad_nonneg hv p.lef; have t2 := pad_nonneg hv p.rig; have t3 := pad_nonneg hv p.top
  have t4 := pad_nonneg hv p.bot; have t5 := add_nonneg' hv
  unfold cpmlTop
  rw [copyZX_spec (by decide) (by
    intro x z h1 h2 h3 h4
    refine ⟨?_, fun a ha => ?_⟩
    · revert h1 h2 h3 h4; simp only [Par.inG]; geo
    · revert h1 h2 h3 h4; cases a <;> simp only [Par.inG, topSrc] <;> geo)]
  refine ⟨_, rfl, ?_⟩
  intro a i j h1 h2 h3 h4
  rw [upd_out]
  rintro ⟨_, _, hh⟩
  revert hh
  cases a <;> geo

theorem cpmlBot_spec (hv : Valid p) (h2 : 2 ≤ p.nz) (m : Mem K) : ∃ m', cpmlBot p m = some m' ∧
    ∀ a i j, 0 ≤ i → i < p.nx → 0 ≤ j → j < p.nz →
      m' a (i + ox p a) (j + oz p a) = m a (i + ox p a) ((if a = .roz ∧ j = p.nz - 1 then p.nz - 2 else j) + oz p a) := by
  have := hv.nx; have := hv.nz; have := hv.iorder; have := hv.even; have := hv.npml
  have t1 := pad_nonneg hv p.lef; have t2 := pad_nonneg hv p.rig; have t3 := pad_nonneg hv p.top
  have t4 := pad_nonneg hv p.bot; have t5 := add_nonneg' hv
  unfold cpmlBot
  rw [copyZX_spec (by decide) (by bnd)]
  simp only [Option.bind_eq_bind, Option.bind_some]
  rw [copyZX_spec (by decide) (by bnd)]
  simp only [Option.bind_some]
  rw [copyZX_spec (by decide) (by bnd)]
  refine ⟨_, rfl, ?_⟩
  intro a i j h1 h2 h3 h4
  cases a
  · rw [upd_out (by simp), upd_out (by simp), upd_out (by rintro ⟨_, _, hh⟩; revert hh; geo)]
    simp
  · rw [upd_out (by simp), upd_out (by simp)]
    by_cases hi : j = p.nz - 1
    · subst hi
      rw [upd_in ⟨by simp, by geo, by geo⟩]
      simp only [true_and, if_true]
      congr 1
      geo
    · rw [upd_out (by rintro ⟨_, _, hh⟩; revert hh; geo)]
      simp [hi]
  · rw [upd_out (by simp), upd_out (by rintro ⟨_, _, hh⟩; revert hh; geo), upd_out (by simp)]
    simp
  · rw [upd_out (by simp), upd_out (by rintro ⟨_, _, hh⟩; revert hh; geo), upd_out (by simp)]
    simp
  · rw [upd_out (by rintro ⟨_, _, hh⟩; revert hh; geo), upd_out (by simp), upd_out (by simp)]
    simp

/-- Column and row by array. -/
def srcCol (p : Par) (a : Arr) (i : Int) : Int := if a = .roz then pmlCol p i else i
def srcRow (p : Par) (a : Arr) (j : Int) : Int := if a = .roz then pmlRow p j else j

/-- The first extension leaves the model points alone, except those of `roz` in the first column (left PML) and the last row
(bottom PML), which get the value of their neighbour inside the model. -/
theorem cpml_spec (hv : Valid p) (hl : p.lef = 2 → 2 ≤ p.nx) (hb : p.bot = 2 → 2 ≤ p.nz) (m : Mem K) :
    ∃ m', cpml p m = some m' ∧ ∀ a i j, 0 ≤ i → i < p.nx → 0 ≤ j → j < p.nz →
      m' a (i + ox p a) (j + oz p a) = m a (srcCol p a i + ox p a) (srcRow p a j + oz p a) := by
  have s1 : ∃ m1, cond (p.lef = 2) (cpmlLef p) m = some m1 ∧ ∀ a i j, 0 ≤ i → i < p.nx → 0 ≤ j → j < p.nz →
      m1 a (i + ox p a) (j + oz p a) = m a (srcCol p a i + ox p a) (j + oz p a) := by
    by_cases h : p.lef = 2
    · rw [cond_true (by simpa using h)]
      obtain ⟨m1, e, k⟩ := cpmlLef_spec hv (hl h) m
      refine ⟨m1, e, fun a i j h1 h2 h3 h4 => ?_⟩
      rw [k a i j h1 h2 h3 h4]
      congr 2
      unfold srcCol pmlCol
      by_cases ha : a = .roz <;> simp [ha, h]
    · rw [cond_false (by simpa using h)]
      refine ⟨m, rfl, fun a i j _ _ _ _ => ?_⟩
      congr 2
      unfold srcCol pmlCol
      by_cases ha : a = .roz <;> simp [ha, h]
  obtain ⟨m1, e1, k1⟩ := s1
  have s2 : ∃ m2, cond (p.rig = 2) (cpmlRig p) m1 = some m2 ∧ ∀ a i j, 0 ≤ i → i < p.nx → 0 ≤ j → j < p.nz →
      m2 a (i + ox p a) (j + oz p a) = m1 a (i + ox p a) (j + oz p a) := by
    by_cases h : p.rig = 2
    · rw [cond_true (by simpa using h)]; exact cpmlRig_spec hv m1
    · rw [cond_false (by simpa using h)]; exact ⟨m1, rfl, fun _ _ _ _ _ _ _ => rfl⟩
  obtain ⟨m2, e2, k2⟩ := s2
  have s3 : ∃ m3, cond (p.top = 2) (cpmlTop p) m2 = some m3 ∧ ∀ a i j, 0 ≤ i → i < p.nx → 0 ≤ j → j < p.nz →
      m3 a (i + ox p a) (j + oz p a) = m2 a (i + ox p a) (j + oz p a) := by
    by_cases h : p.top = 2
    · rw [cond_true (by simpa using h)]; exact cpmlTop_spec hv m2
    · rw [cond_false (by simpa using h)]; exact ⟨m2, rfl, fun _ _ _ _ _ _ _ => rfl⟩
  obtain ⟨m3, e3, k3⟩ := s3
  have s4 : ∃ m4, cond (p.bot = 2) (cpmlBot p) m3 = some m4 ∧ ∀ a i j, 0 ≤ i → i < p.nx → 0 ≤ j → j < p.nz →
      m4 a (i + ox p a) (j + oz p a) = m3 a (i + ox p a) (srcRow p a j + oz p a) ∧
      (0 ≤ srcRow p a j ∧ srcRow p a j < p.nz) := by
    by_cases h : p.bot = 2
    · rw [cond_true (by simpa using h)]
      obtain ⟨m4, e, k⟩ := cpmlBot_spec hv (hb h) m3
      have hz := hb h
      refine ⟨m4, e, fun a i j h1 h2 h3 h4 => ⟨?_, ?_⟩⟩
      · rw [k a i j h1 h2 h3 h4]
        congr 2
        unfold srcRow pmlRow
        by_cases ha : a = .roz <;> simp [ha, h]
      · unfold srcRow pmlRow; split
        · split <;> omega
        · omega
    · rw [cond_false (by simpa using h)]
      refine ⟨m3, rfl, fun a i j _ _ h3 h4 => ⟨?_, ?_⟩⟩
      · congr 2
        unfold srcRow pmlRow
        by_cases ha : a = .roz <;> simp [ha, h]
      · unfold srcRow pmlRow; simp only [h, false_and, if_false, ite_self]; omega
  obtain ⟨m4, e4, k4⟩ := s4
  refine ⟨m4, ?_, ?_⟩
  · unfold cpml
    simp only [Option.bind_eq_bind, e1, Option.bind_some, e2, e3, e4]
  · intro a i j h1 h2 h3 h4
    obtain ⟨k5, k6, k7⟩ := k4 a i j h1 h2 h3 h4
    rw [k5, k3 a i _ h1 h2 k6 k7, k2 a i _ h1 h2 k6 k7, k1 a i _ h1 h2 k6 k7]

variable [Field K] [LinearOrder K]

/-- The buoyancies are cleared where `λ+2μ` is zero, nothing else changes at the model points. -/
theorem air_spec (hv : Valid p) (m : Mem K) : ∃ m', air p m = some m' ∧
    ∀ a i j, 0 ≤ i → i < p.nx → 0 ≤ j → j < p.nz →
      m' a (i + ox p a) (j + oz p a) =
        if (a = .rox ∨ a = .roz) ∧ m .l2m (i + ox p .l2m) (j + oz p .l2m) = 0 then 0
        else m a (i + ox p a) (j + oz p a) := by
  have e1 : p.rPx = ox p .l2m := rfl
  have e2 : p.rPz = oz p .l2m := by geo
  have e7 : p.ioXx = ox p .rox := rfl
  have e8 : p.ioXz = oz p .rox := rfl
  have e9 : p.ioZx = ox p .roz := rfl
  have e10 : p.ioZz = oz p .roz := rfl
  unfold air
  have key := loop2_spec (K := K) (m := m) (body := airBody p) (x0 := 0) (x1 := p.nx) (z0 := 0) (z1 := p.nz)
    (W := fun u v a x z => (a = .rox ∨ a = .roz) ∧ x = u + ox p a ∧ z = v + oz p a)
    (F := fun a x z => if m .l2m (x - ox p a + ox p .l2m) (z - oz p a + oz p .l2m) = 0 then 0 else m a x z)
    (T := fun a x z => (a = .rox ∨ a = .roz) ∧ inModel p a x z) ?_ ?_
  · refine ⟨_, key, ?_⟩
    intro a i j h1 h2 h3 h4
    by_cases ha : a = .rox ∨ a = .roz
    · rw [upd_in ⟨ha, by unfold inModel; omega⟩]
      simp only [ha, true_and]
      have c1 : i + ox p a - ox p a = i := by omega
      have c2 : j + oz p a - oz p a = j := by omega
      rw [c1, c2]
    · rw [upd_out (fun hh => ha hh.1)]
      simp only [ha, false_and, if_false]
  · intro a x z
    constructor
    · rintro ⟨ha, hb⟩
      unfold inModel at hb
      exact ⟨x - ox p a, z - oz p a, by omega, by omega, ha, by omega, by omega⟩
    · rintro ⟨u, v, h1, h2, ha, h3, h4⟩
      exact ⟨ha, by unfold inModel; omega⟩
  · intro u v h1 h2 h3 h4 m' hm' hm1
    have g := fun a => inG_model hv a (i := u) (j := v) ⟨h1, h2⟩ ⟨h3, h4⟩
    unfold airBody
    rw [e1, e2, e7, e8, e9, e10, rd_ok (g .l2m)]
    simp only [Option.bind_eq_bind, Option.bind_some]
    have hl : m' .l2m (u + ox p .l2m) (v + oz p .l2m) = m .l2m (u + ox p .l2m) (v + oz p .l2m) :=
      hm' _ _ _ (by rintro ⟨hh, _⟩; simp at hh)
    have c1 : ∀ a, u + ox p a - ox p a = u := fun a => by omega
    have c2 : ∀ a, v + oz p a - oz p a = v := fun a => by omega
    rw [hl]
    by_cases h0 : m .l2m (u + ox p .l2m) (v + oz p .l2m) = 0
    · rw [if_pos h0, wr_ok (g .rox)]
      simp only [Option.bind_some]
      rw [wr_ok (g .roz)]
      rw [set_eq_upd (F := fun a x z => if m .l2m (x - ox p a + ox p .l2m) (z - oz p a + oz p .l2m) = 0 then 0 else m a x z)
        (a := .rox) 0 (by simp only [c1, c2, h0, if_true]),
        set_eq_upd (F := fun a x z => if m .l2m (x - ox p a + ox p .l2m) (z - oz p a + oz p .l2m) = 0 then 0 else m a x z)
        (a := .roz) 0 (by simp only [c1, c2, h0, if_true]), upd_upd]
      congr 1
      apply upd_congr
      intro a x z
      cases a <;> simp
    · rw [if_neg h0]
      congr 1
      funext a x z
      by_cases hc : (a = .rox ∨ a = .roz) ∧ x = u + ox p a ∧ z = v + oz p a
      · rw [upd_in hc]
        obtain ⟨ha, rfl, rfl⟩ := hc
        have hF := hm1 a (u + ox p a) (v + oz p a)
        rw [c1, c2, if_neg h0] at hF ⊢
        rcases hF with hF | hF <;> exact hF
      · rw [upd_out hc]

end

end Verif.Med

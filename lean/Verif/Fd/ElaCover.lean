import Verif.Fd.AcouInterior
import Verif.Fd.Elastic4

/-!
# The assignments of the elastic time step

For every loop of the step: a property of all its assignments follows from the property of the assignments at the grid points
the loop visits.  The inequalities about the grid are settled here once.
-/

namespace Verif.Fd.Ela

open Verif.Sten
open Verif.Fd.Acou (Cfg Coef max0 minTo Valid grid le_of_max0 lt_of_minTo)

section
variable {K : Type} {g : Cfg} {Q : Stmt Cell K → Prop}

/-- The grid point exists. -/
def InG (g : Cfg) (ix iz : Int) : Prop := 0 ≤ ix ∧ ix < g.nax ∧ 0 ≤ iz ∧ iz < g.naz

/-- Points of the interior loops. -/
def InX (g : Cfg) (ix iz : Int) : Prop := g.ioXx ≤ ix ∧ ix < g.ieXx ∧ g.ioXz ≤ iz ∧ iz < g.ieXz
def InZ (g : Cfg) (ix iz : Int) : Prop := g.ioZx ≤ ix ∧ ix < g.ieZx ∧ g.ioZz ≤ iz ∧ iz < g.ieZz
def InS (g : Cfg) (ix iz : Int) : Prop := ix0 g ≤ ix ∧ ix < ix1 g ∧ iz0 g ≤ iz ∧ iz < iz1 g

theorem inX_iff {ix iz : Int} : InX g ix iz ↔ 2 + g.pad g.lef ≤ ix ∧ ix < g.nx + 2 + g.pad g.lef ∧ 1 + g.pad g.top ≤ iz ∧
    iz < g.nz + 1 + g.pad g.top := Iff.rfl
theorem inZ_iff {ix iz : Int} : InZ g ix iz ↔ 1 + g.pad g.lef ≤ ix ∧ ix < g.nx + 1 + g.pad g.lef ∧ 2 + g.pad g.top ≤ iz ∧
    iz < g.nz + 2 + g.pad g.top := Iff.rfl

theorem pad_of {s : Int} (h : s ≠ 2 ∧ s ≠ 4) : g.pad s = 0 := by
  unfold Cfg.pad; rw [if_neg (by omega)]

/-- The stress loops. -/
theorem inS_grid (hv : Valid g) {ix iz : Int} (h : InS g ix iz) :
    1 ≤ ix ∧ ix + 2 < g.nax ∧ 1 ≤ iz ∧ iz + 2 < g.naz ∧ (g.lef = 2 → 2 ≤ ix) := by
  obtain ⟨⟨g1, g2, g3, g4, g5⟩, ⟨p1, p2, p3, p4⟩, q1, q2, q3, q4⟩ := grid hv
  obtain ⟨h1, h2, h3, h4⟩ := h
  simp only [ix0, ix1, iz0, iz1, Cfg.ioXx, Cfg.ieXx, Cfg.ioXz, Cfg.ieXz, Cfg.ioPx, Cfg.iePx, Cfg.ioPz, Cfg.iePz] at h1 h2 h3 h4
  refine ⟨?_, ?_, ?_, ?_, ?_⟩
  · split_ifs at h1 <;> omega
  · split_ifs at h2 <;> omega
  · split_ifs at h3 <;> omega
  · split_ifs at h4 <;> omega
  · intro hl; rw [if_pos hl] at h1; omega

theorem inX_grid (hv : Valid g) {ix iz : Int} (h : InX g ix iz) : 2 ≤ ix ∧ ix + 2 < g.nax ∧ 1 ≤ iz ∧ iz + 2 < g.naz := by
  obtain ⟨⟨g1, g2, g3, g4, g5⟩, ⟨p1, p2, p3, p4⟩, q1, q2, q3, q4⟩ := grid hv
  rw [inX_iff] at h; omega

theorem inZ_grid (hv : Valid g) {ix iz : Int} (h : InZ g ix iz) : 1 ≤ ix ∧ ix + 2 < g.nax ∧ 2 ≤ iz ∧ iz + 2 < g.naz := by
  obtain ⟨⟨g1, g2, g3, g4, g5⟩, ⟨p1, p2, p3, p4⟩, q1, q2, q3, q4⟩ := grid hv
  rw [inZ_iff] at h; omega

theorem all_vel {k : Coef K} (hx : ∀ ix iz, InX g ix iz → Q (vxS g k.c1 k.c2 ix iz))
    (hz : ∀ ix iz, InZ g ix iz → Q (vzS g k.c1 k.c2 ix iz)) : All Q (velPhase g k).flatten := by
  unfold velPhase
  rw [List.flatten_append]
  exact all_append (all_sweep fun ix h1 h2 iz h3 h4 => all_one (hx ix iz ⟨h1, h2, h3, h4⟩))
    (all_sweep fun ix h1 h2 iz h3 h4 => all_one (hz ix iz ⟨h1, h2, h3, h4⟩))

theorem all_str {k : Coef K} (hn : ∀ ix iz, InS g ix iz → All Q (nrmS g k.c1 k.c2 ix iz))
    (ht : ∀ ix iz, InS g ix iz → Q (shrS g k.c1 k.c2 ix iz)) : All Q (strPhase g k).flatten := by
  unfold strPhase
  rw [List.flatten_append]
  exact all_append (all_sweep fun ix h1 h2 iz h3 h4 => hn ix iz ⟨h1, h2, h3, h4⟩)
    (all_sweep fun ix h1 h2 iz h3 h4 => all_one (ht ix iz ⟨h1, h2, h3, h4⟩))

/-- The rigid walls. -/
theorem all_walls (hv : Valid g)
    (hz : ∀ ix iz jz, 1 ≤ ix → ix + 3 < g.nax → 0 ≤ iz → iz < g.naz → 0 ≤ jz → jz < g.naz →
      (g.top = 3 ∧ iz ≤ 1) ∨ (g.bot = 3 ∧ (iz = g.nz + 1 ∨ iz = g.nz + 2)) → Q (ng g .vz ix iz ix jz))
    (hx : ∀ ix iz jx, 1 ≤ iz → iz + 3 < g.naz → 0 ≤ ix → ix < g.nax → 0 ≤ jx → jx < g.nax →
      (g.lef = 3 ∧ ix ≤ 1) ∨ (g.rig = 3 ∧ (ix = g.nx + 1 ∨ ix = g.nx + 2)) → Q (ng g .vx ix iz jx iz)) :
    All Q (wallPhase g).flatten := by
  obtain ⟨⟨g1, g2, g3, g4, g5⟩, ⟨p1, p2, p3, p4⟩, q1, q2, q3, q4⟩ := grid hv
  unfold wallPhase rigidTop rigidRig rigidBot rigidLef
  simp only [List.flatten_append, Cfg.ibnd]
  refine all_append (all_append (all_append ?_ ?_) ?_) ?_ <;>
    refine all_itef fun hc => all_parfor fun i h1 h2 => all_cons ?_ (all_loop fun ib h3 h4 => all_one ?_)
  · apply hz <;> omega
  · apply hz <;> omega
  · apply hx <;> omega
  · apply hx <;> omega
  · apply hz <;> omega
  · apply hz <;> omega
  · apply hx <;> omega
  · apply hx <;> omega

/-- The memory variables. -/
def IsPsi (a : Arr) : Prop := a = .psiVxX ∨ a = .psiVxZ ∨ a = .psiVzZ ∨ a = .psiVzX ∨ a = .psiPX ∨ a = .psiPZ ∨ a = .psiTX ∨ a = .psiTZ

theorem all_clear {a : Arr} (h : ∀ i, 0 ≤ i → i < g.nax * g.naz → Q ⟨(a, i), .zero⟩) : All Q (clear g a) :=
  all_loop fun i h1 h2 => all_one (h i h1 h2)

/-- A loop over PML cells visits cells outside the interior only. -/
theorem all_pmlLoop {a b c d xlo xhi zlo zhi : Int} {body : Int → Int → Bool → Bool → List (Stmt Cell K)}
    (h : ∀ ix iz inx inz, a ≤ ix → ix < b → c ≤ iz → iz < d → (ix < xlo ∨ xhi ≤ ix ∨ iz < zlo ∨ zhi ≤ iz) →
      All Q (body ix iz inx inz)) : All Q (pmlLoop g a b c d xlo xhi zlo zhi body).flatten := by
  refine all_sweep fun ix h1 h2 iz h3 h4 => all_ite (fun _ => all_nil) fun hc => h ix iz _ _ h1 h2 h3 h4 ?_
  simp only [inX, inZ, Bool.and_eq_true, Bool.not_eq_true', Bool.or_eq_false_iff, Bool.and_eq_false_iff,
    decide_eq_false_iff_not] at hc
  by_contra hn
  exact hc ⟨⟨.inr (by omega), .inr (by omega)⟩, ⟨.inr (by omega), .inr (by omega)⟩⟩

theorem all_pmlP (hv : Valid g) {k : Coef K} {first : Bool}
    (hc : ∀ a i, IsPsi a → 0 ≤ i → i < g.nax * g.naz → Q ⟨(a, i), .zero⟩)
    (hx : ∀ ix iz inx inz, InG g ix iz → ¬ InX g ix iz → All Q (vxPml g k ix iz inx inz))
    (hz : ∀ ix iz inx inz, InG g ix iz → ¬ InZ g ix iz → All Q (vzPml g k ix iz inx inz))
    (hl : ∀ a ix iz, a = .vx ∨ a = .vz → g.lef = 2 → 0 ≤ ix → ix ≤ 1 → 0 ≤ iz → iz < g.naz → Q (cp g a ix iz 2 iz))
    (ht : ∀ a ix iz, a = .vx ∨ a = .vz → g.top = 2 → 0 ≤ ix → ix < g.nax → 0 ≤ iz → iz ≤ 1 → Q (cp g a ix iz ix 2)) :
    AllP Q (pmlP g k first) := by
  obtain ⟨⟨g1, g2, g3, g4, g5⟩, ⟨p1, p2, p3, p4⟩, q1, q2, q3, q4⟩ := grid hv
  refine allP_when fun _ => allP_append ?_ (allP_cons ?_ (allP_cons ?_ (allP_cons ?_ (allP_one ?_))))
  · refine allP_when fun _ => allP_one ?_
    rw [List.flatten_cons, List.flatten_nil, List.append_nil]
    refine all_append (all_append (all_append ?_ ?_) ?_) ?_ <;>
      exact all_clear fun i h1 h2 => hc _ i (by simp [IsPsi]) h1 h2
  · refine all_pmlLoop fun ix iz inx inz h1 h2 h3 h4 h5 => hx ix iz inx inz ⟨(le_of_max0 h1).1, (lt_of_minTo h2).2, ?_, ?_⟩ ?_
    · split_ifs at h3
      · exact (le_of_max0 h3).1
      · simp only [Cfg.ioXz] at h3; omega
    · split_ifs at h4
      · exact (lt_of_minTo h4).2
      · simp only [Cfg.ieXz] at h4; omega
    · unfold InX; omega
  · refine all_pmlLoop fun ix iz inx inz h1 h2 h3 h4 h5 => hz ix iz inx inz ⟨(le_of_max0 h1).1, (lt_of_minTo h2).2, ?_, ?_⟩ ?_
    · split_ifs at h3
      · exact (le_of_max0 h3).1
      · simp only [Cfg.ioZz] at h3; omega
    · split_ifs at h4
      · exact (lt_of_minTo h4).2
      · simp only [Cfg.ieZz] at h4; omega
    · unfold InZ; omega
  · refine all_itef fun h => all_parfor fun iz h1 h2 => ?_
    exact all_cons (hl _ _ _ (.inl rfl) h (by omega) (by omega) h1 h2)
      (all_cons (hl _ _ _ (.inl rfl) h (by omega) (by omega) h1 h2)
      (all_cons (hl _ _ _ (.inr rfl) h (by omega) (by omega) h1 h2)
      (all_one (hl _ _ _ (.inr rfl) h (by omega) (by omega) h1 h2))))
  · refine all_itef fun h => all_parfor fun iz h1 h2 => ?_
    exact all_cons (ht _ _ _ (.inl rfl) h h1 h2 (by omega) (by omega))
      (all_cons (ht _ _ _ (.inl rfl) h h1 h2 (by omega) (by omega))
      (all_cons (ht _ _ _ (.inr rfl) h h1 h2 (by omega) (by omega))
      (all_one (ht _ _ _ (.inr rfl) h h1 h2 (by omega) (by omega)))))

/-- The tapers. -/
def IsTap (a : Arr) : Prop := a = .tapx ∨ a = .tapz ∨ a = .tapxz

theorem tap2 {n a b : Int} (h1 : 0 ≤ a) (h2 : a < n) (h3 : 0 ≤ b) (h4 : b < n) : 0 ≤ a * n + b ∧ a * n + b < n * n :=
  el_range h1 h2 h3 h4

theorem all_taperX {k : Coef K} {a b c d : Int} {t : Arr} {w : Int → Int → Int}
    (h : ∀ ix iz, a ≤ ix → ix < b → c ≤ iz → iz < d → Q (vxS g k.d1 k.d2 ix iz) ∧ Q (tapS g .vx ix iz t (w ix iz))) :
    All Q (taperX g k a b c d t w).flatten :=
  all_sweep fun ix h1 h2 iz h3 h4 => all_cons (h ix iz h1 h2 h3 h4).1 (all_one (h ix iz h1 h2 h3 h4).2)

theorem all_taperZ {k : Coef K} {a b c d : Int} {t : Arr} {w : Int → Int → Int}
    (h : ∀ ix iz, a ≤ ix → ix < b → c ≤ iz → iz < d → Q (vzS g k.d1 k.d2 ix iz) ∧ Q (tapS g .vz ix iz t (w ix iz))) :
    All Q (taperZ g k a b c d t w).flatten :=
  all_sweep fun ix h1 h2 iz h3 h4 => all_cons (h ix iz h1 h2 h3 h4).1 (all_one (h ix iz h1 h2 h3 h4).2)

theorem all_tapers (hv : Valid g) {k : Coef K}
    (hx : ∀ ix iz t j, 2 ≤ ix → ix + 2 < g.nax → 1 ≤ iz → iz + 2 < g.naz → ¬ InX g ix iz → IsTap t → 0 ≤ j → j < size g t →
      Q (vxS g k.d1 k.d2 ix iz) ∧ Q (tapS g .vx ix iz t j))
    (hz : ∀ ix iz t j, 1 ≤ ix → ix + 2 < g.nax → 2 ≤ iz → iz + 2 < g.naz → ¬ InZ g ix iz → IsTap t → 0 ≤ j → j < size g t →
      Q (vzS g k.d1 k.d2 ix iz) ∧ Q (tapS g .vz ix iz t j)) :
    AllP Q (taperTop g k ++ taperBot g k ++ taperLef g k ++ taperRig g k) := by
  obtain ⟨⟨g1, g2, g3, g4, g5⟩, ⟨p1, p2, p3, p4⟩, q1, q2, q3, q4⟩ := grid hv
  have X : ∀ ix iz t j, 2 ≤ ix → ix + 2 < g.nax → 1 ≤ iz → iz + 2 < g.naz →
      (ix < 2 + g.pad g.lef ∨ g.nx + 2 + g.pad g.lef ≤ ix ∨ iz < 1 + g.pad g.top ∨ g.nz + 1 + g.pad g.top ≤ iz) →
      (t = .tapx ∧ 0 ≤ j ∧ j < g.npml) ∨ (t = .tapxz ∧ 0 ≤ j ∧ j < g.npml * g.npml) →
      Q (vxS g k.d1 k.d2 ix iz) ∧ Q (tapS g .vx ix iz t j) := by
    intro ix iz t j h1 h2 h3 h4 h5 h6
    refine hx ix iz t j h1 h2 h3 h4 (by rw [inX_iff]; omega) ?_ ?_ ?_ <;> rcases h6 with ⟨rfl, h6, h7⟩ | ⟨rfl, h6, h7⟩ <;>
      first | exact h6 | exact h7 | simp [IsTap]
  have Z : ∀ ix iz t j, 1 ≤ ix → ix + 2 < g.nax → 2 ≤ iz → iz + 2 < g.naz →
      (ix < 1 + g.pad g.lef ∨ g.nx + 1 + g.pad g.lef ≤ ix ∨ iz < 2 + g.pad g.top ∨ g.nz + 2 + g.pad g.top ≤ iz) →
      (t = .tapz ∧ 0 ≤ j ∧ j < g.npml) ∨ (t = .tapxz ∧ 0 ≤ j ∧ j < g.npml * g.npml) →
      Q (vzS g k.d1 k.d2 ix iz) ∧ Q (tapS g .vz ix iz t j) := by
    intro ix iz t j h1 h2 h3 h4 h5 h6
    refine hz ix iz t j h1 h2 h3 h4 (by rw [inZ_iff]; omega) ?_ ?_ ?_ <;> rcases h6 with ⟨rfl, h6, h7⟩ | ⟨rfl, h6, h7⟩ <;>
      first | exact h6 | exact h7 | simp [IsTap]
  clear hx hz
  refine allP_append (allP_append (allP_append ?_ ?_) ?_) ?_
  · refine allP_when fun h => ?_
    have q := q1 (.inr h)
    simp only [Cfg.ioXx, Cfg.ieXx, Cfg.ioXz, Cfg.ioZx, Cfg.ieZx, Cfg.ioZz]
    refine allP_append (allP_append (allP_append (allP_append (allP_append ?_ ?_) ?_) ?_) ?_) ?_
    · refine allP_one (all_taperX fun ix iz h1 h2 h3 h4 => X _ _ _ _ ?_ ?_ ?_ ?_ ?_ (.inl ⟨rfl, ?_, ?_⟩)) <;> omega
    · refine allP_when fun hr => ?_
      have q' := q4 (.inr hr)
      refine allP_one (all_taperX fun ix iz h1 h2 h3 h4 => X _ _ _ _ ?_ ?_ ?_ ?_ ?_ (.inr ⟨rfl, tap2 ?_ ?_ ?_ ?_⟩)) <;> omega
    · refine allP_when fun hr => ?_
      have q' := q3 (.inr hr)
      refine allP_one (all_taperX fun ix iz h1 h2 h3 h4 => X _ _ _ _ ?_ ?_ ?_ ?_ ?_ (.inr ⟨rfl, tap2 ?_ ?_ ?_ ?_⟩)) <;> omega
    · refine allP_one (all_taperZ fun ix iz h1 h2 h3 h4 => Z _ _ _ _ ?_ ?_ ?_ ?_ ?_ (.inl ⟨rfl, ?_, ?_⟩)) <;> omega
    · refine allP_when fun hr => ?_
      have q' := q4 (.inr hr)
      refine allP_one (all_taperZ fun ix iz h1 h2 h3 h4 => Z _ _ _ _ ?_ ?_ ?_ ?_ ?_ (.inr ⟨rfl, tap2 ?_ ?_ ?_ ?_⟩)) <;> omega
    · refine allP_when fun hr => ?_
      have q' := q3 (.inr hr)
      refine allP_one (all_taperZ fun ix iz h1 h2 h3 h4 => Z _ _ _ _ ?_ ?_ ?_ ?_ ?_ (.inr ⟨rfl, tap2 ?_ ?_ ?_ ?_⟩)) <;> omega
  · refine allP_when fun h => ?_
    have q := q2 (.inr h)
    simp only [Cfg.ioXx, Cfg.ieXx, Cfg.ieXz, Cfg.ioZx, Cfg.ieZx, Cfg.ieZz]
    refine allP_append (allP_append (allP_append (allP_append (allP_append ?_ ?_) ?_) ?_) ?_) ?_
    · refine allP_one (all_taperX fun ix iz h1 h2 h3 h4 => X _ _ _ _ ?_ ?_ ?_ ?_ ?_ (.inl ⟨rfl, ?_, ?_⟩)) <;> omega
    · refine allP_when fun hr => ?_
      have q' := q4 (.inr hr)
      refine allP_one (all_taperX fun ix iz h1 h2 h3 h4 => X _ _ _ _ ?_ ?_ ?_ ?_ ?_ (.inr ⟨rfl, tap2 ?_ ?_ ?_ ?_⟩)) <;> omega
    · refine allP_when fun hr => ?_
      have q' := q3 (.inr hr)
      refine allP_one (all_taperX fun ix iz h1 h2 h3 h4 => X _ _ _ _ ?_ ?_ ?_ ?_ ?_ (.inr ⟨rfl, tap2 ?_ ?_ ?_ ?_⟩)) <;> omega
    · refine allP_one (all_taperZ fun ix iz h1 h2 h3 h4 => Z _ _ _ _ ?_ ?_ ?_ ?_ ?_ (.inl ⟨rfl, ?_, ?_⟩)) <;> omega
    · refine allP_when fun hr => ?_
      have q' := q4 (.inr hr)
      refine allP_one (all_taperZ fun ix iz h1 h2 h3 h4 => Z _ _ _ _ ?_ ?_ ?_ ?_ ?_ (.inr ⟨rfl, tap2 ?_ ?_ ?_ ?_⟩)) <;> omega
    · refine allP_when fun hr => ?_
      have q' := q3 (.inr hr)
      refine allP_one (all_taperZ fun ix iz h1 h2 h3 h4 => Z _ _ _ _ ?_ ?_ ?_ ?_ ?_ (.inr ⟨rfl, tap2 ?_ ?_ ?_ ?_⟩)) <;> omega
  · refine allP_when fun h => ?_
    have q := q3 (.inr h)
    simp only [Cfg.ioXx, Cfg.ioXz, Cfg.ieXz, Cfg.ioZx, Cfg.ioZz, Cfg.ieZz]
    refine allP_cons (all_taperX fun ix iz h1 h2 h3 h4 => X _ _ _ _ ?_ ?_ ?_ ?_ ?_ (.inl ⟨rfl, ?_, ?_⟩))
      (allP_one (all_taperZ fun ix iz h1 h2 h3 h4 => Z _ _ _ _ ?_ ?_ ?_ ?_ ?_ (.inl ⟨rfl, ?_, ?_⟩))) <;> omega
  · refine allP_when fun h => ?_
    have q := q4 (.inr h)
    simp only [Cfg.ieXx, Cfg.ioXz, Cfg.ieXz, Cfg.ieZx, Cfg.ioZz, Cfg.ieZz]
    refine allP_cons (all_taperX fun ix iz h1 h2 h3 h4 => X _ _ _ _ ?_ ?_ ?_ ?_ ?_ (.inl ⟨rfl, ?_, ?_⟩))
      (allP_one (all_taperZ fun ix iz h1 h2 h3 h4 => Z _ _ _ _ ?_ ?_ ?_ ?_ ?_ (.inl ⟨rfl, ?_, ?_⟩))) <;> omega

/-- Cells the stress loops of the PML visit. -/
def OutS (g : Cfg) (ix iz : Int) : Prop := ix < g.ioXx ∨ g.ieXx ≤ ix ∨ iz < g.ioXz ∨ g.ieXz ≤ iz

theorem all_pmlV (hv : Valid g) {k : Coef K} {first : Bool}
    (hc : ∀ a i, IsPsi a → 0 ≤ i → i < g.nax * g.naz → Q ⟨(a, i), .zero⟩)
    (hn : ∀ ix iz inx inz, 1 ≤ ix → ix < g.nax → 1 ≤ iz → iz < g.naz → OutS g ix iz → All Q (nrmPml g k ix iz inx inz))
    (hs : ∀ ix iz inx inz, 2 ≤ ix → ix < g.nax → 1 ≤ iz → iz < g.naz → (g.top = 2 → 2 ≤ iz) → (inx || inz) = true →
      inx = inX g g.ioXx g.ieXx ix → inz = inZ g g.ioXz g.ieXz iz → (g.top ≠ 2 → g.ioXz ≤ iz) → (g.bot ≠ 2 → iz < g.ieXz) →
      All Q (shrPml g k ix iz inx inz)) :
    AllP Q (pmlV g k first) := by
  obtain ⟨⟨g1, g2, g3, g4, g5⟩, ⟨p1, p2, p3, p4⟩, q1, q2, q3, q4⟩ := grid hv
  refine allP_when fun _ => allP_append ?_ (allP_cons ?_ (allP_one ?_))
  · refine allP_when fun _ => allP_one ?_
    rw [List.flatten_cons, List.flatten_nil, List.append_nil]
    refine all_append (all_append (all_append ?_ ?_) ?_) ?_ <;>
      exact all_clear fun i h1 h2 => hc _ i (by simp [IsPsi]) h1 h2
  · refine all_pmlLoop fun ix iz inx inz h1 h2 h3 h4 h5 => hn ix iz inx inz ?_ ?_ ?_ ?_ h5
    · simpa only [Cfg.ioPx] using h1
    · split_ifs at h2
      · exact (lt_of_minTo h2).2
      · simp only [Cfg.iePx] at h2; omega
    · simp only [Cfg.ioPz, Cfg.ioXz] at h3; split_ifs at h3 <;> omega
    · split_ifs at h4
      · exact (lt_of_minTo h4).2
      · simp only [Cfg.ieXz] at h4; omega
  · unfold pmlShr pmlLoop
    refine all_sweep fun ix h1 h2 iz h3 h4 => all_ite (fun _ => all_nil) fun hh => hs ix iz _ _ ?_ ?_ ?_ ?_ ?_ ?_ rfl rfl ?_ ?_
    · simpa only [ioTx] using h1
    · split_ifs at h2
      · exact (lt_of_minTo h2).2
      · simp only [ieTx] at h2; omega
    · simp only [ioTz, Cfg.ioXz] at h3; split_ifs at h3 <;> omega
    · split_ifs at h4
      · exact (lt_of_minTo h4).2
      · simp only [Cfg.ieXz] at h4; omega
    · intro ht; rw [if_pos ht] at h3; simpa only [ioTz] using h3
    · revert hh; cases inX g g.ioXx g.ieXx ix <;> cases inZ g g.ioXz g.ieXz iz <;> simp
    · intro ht; rw [if_neg ht] at h3; exact h3
    · intro ht; rw [if_neg ht] at h4; exact h4

/-- The free surfaces. -/
theorem all_free {k : Coef K}
    (htop : g.top = 1 → ∀ ix, (1 ≤ ix → ix < g.iePx → Q (zr g .tzz ix 1) ∧ Q (surf g .txx ix 1 (dvx g k.d1 k.d2 ix 1))) ∧
      (2 ≤ ix → ix < ieTx g → Q (ng g .txz ix 1 ix 2) ∧ Q (ng g .txz ix 0 ix 3)))
    (hrig : g.rig = 1 → ∀ iz, (1 ≤ iz → iz < g.iePz → Q (zr g .txx g.iePx iz) ∧
        Q (surf g .tzz g.iePx iz (dvz g k.d1 k.d2 g.iePx iz))) ∧
      (2 ≤ iz → iz < ieTz g → Q (ng g .txz (g.iePx + 1) iz g.iePx iz) ∧ Q (ng g .txz (g.iePx + 2) iz (g.iePx - 1) iz)))
    (hbot : g.bot = 1 → ∀ ix, (1 ≤ ix → ix < g.iePx → Q (zr g .tzz ix g.iePz) ∧
        Q (surf g .txx ix g.iePz (dvx g k.d1 k.d2 ix g.iePz))) ∧
      (2 ≤ ix → ix < ieTx g → Q (ng g .txz ix (g.iePz + 1) ix g.iePz) ∧ Q (ng g .txz ix (g.iePz + 2) ix (g.iePz - 1))))
    (hlef : g.lef = 1 → ∀ iz, (1 ≤ iz → iz < g.iePz → Q (zr g .txx 1 iz) ∧ Q (surf g .tzz 1 iz (dvz g k.d1 k.d2 1 iz))) ∧
      (2 ≤ iz → iz < ieTz g → Q (ng g .txz 1 iz 2 iz) ∧ Q (ng g .txz 0 iz 3 iz))) :
    AllP Q (free g k) := by
  refine allP_append (allP_append (allP_append ?_ ?_) ?_) ?_ <;> refine allP_when fun h =>
      allP_cons (all_parfor fun i h1 h2 => all_one ?_) (allP_cons (all_parfor fun i h1 h2 => all_cons ?_ (all_one ?_))
        (allP_one (all_parfor fun i h1 h2 => all_one ?_)))
  · exact ((htop h i).1 h1 h2).1
  · exact ((htop h i).2 h1 h2).1
  · exact ((htop h i).2 h1 h2).2
  · exact ((htop h i).1 h1 h2).2
  · exact ((hrig h i).1 h1 h2).1
  · exact ((hrig h i).2 h1 h2).1
  · exact ((hrig h i).2 h1 h2).2
  · exact ((hrig h i).1 h1 h2).2
  · exact ((hbot h i).1 h1 h2).1
  · exact ((hbot h i).2 h1 h2).1
  · exact ((hbot h i).2 h1 h2).2
  · exact ((hbot h i).1 h1 h2).2
  · exact ((hlef h i).1 h1 h2).1
  · exact ((hlef h i).2 h1 h2).1
  · exact ((hlef h i).2 h1 h2).2
  · exact ((hlef h i).1 h1 h2).2

/-- The parts of a step. -/
theorem all_step {k : Coef K} {first : Bool} (h1 : All Q (velPhase g k).flatten) (h2 : All Q (wallPhase g).flatten)
    (h3 : AllP Q (pmlP g k first)) (h4 : AllP Q (taperTop g k ++ taperBot g k ++ taperLef g k ++ taperRig g k))
    (h5 : All Q (strPhase g k).flatten) (h6 : AllP Q (pmlV g k first)) (h7 : AllP Q (free g k)) :
    All Q (stepProg g k first) := by
  show AllP Q (phases g k first)
  unfold phases bndP
  refine allP_append (allP_append (allP_append (allP_append (allP_one h1) ?_) (allP_one h5)) h6) h7
  have : [wallPhase g] ++ pmlP g k first ++ taperTop g k ++ taperBot g k ++ taperLef g k ++ taperRig g k =
      ([wallPhase g] ++ pmlP g k first) ++ (taperTop g k ++ taperBot g k ++ taperLef g k ++ taperRig g k) := by
    simp only [List.append_assoc]
  rw [this]
  exact allP_append (allP_append (allP_one h2) h3) h4

end
end Verif.Fd.Ela

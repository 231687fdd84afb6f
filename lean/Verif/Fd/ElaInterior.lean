import Verif.Fd.ElaSched
import Mathlib.Tactic.Ring

/-! # C67, C68: what one elastic time step does inside the model and on free surfaces -/

namespace Verif.Fd.Ela

open Verif.Sten
open Verif.Par (store)
open Verif.Fd.Acou (Cfg Coef max0 minTo Valid grid le_of_max0 lt_of_minTo)

section
variable {K : Type} {g : Cfg}

/-- The assignment writes none of the arrays `l`. -/
def Spares (l : List Arr) (s : Stmt Cell K) : Prop := s.dst.1 ∉ l

theorem run_spares [CommRing K] {l : List Arr} {p : List (Stmt Cell K)} (h : All (Spares l) p) {c : Cell} (hc : c.1 ∈ l)
    (m : Cell → K) : run p m c = m c :=
  run_untouched (fun s hs e => h s hs (by rw [e]; exact hc)) m

/-! ### Which part of a step writes what -/

/-- Everything after the velocity loops that works on velocities. -/
def half (g : Cfg) (k : Coef K) (first : Bool) : List (List (List (Stmt Cell K))) :=
  [wallPhase g] ++ pmlP g k first ++ (taperTop g k ++ taperBot g k ++ taperLef g k ++ taperRig g k)

theorem stepProg_parts (k : Coef K) (first : Bool) : stepProg g k first =
    (velPhase g k).flatten ++ (seqOf (half g k first) ++
      ((strPhase g k).flatten ++ (seqOf (pmlV g k first) ++ seqOf (free g k)))) := by
  unfold stepProg phases half bndP seqOf
  simp only [List.flatten_append, List.flatten_cons, List.flatten_nil, List.append_nil, List.append_assoc]

theorem vxPml_spares {l : List Arr} (h : ∀ a ∈ wX, a ∉ l) (k : Coef K) (ix iz : Int) (inx inz : Bool) :
    All (Spares l) (vxPml g k ix iz inx inz) :=
  all_append (all_append (all_when fun _ => all_one (h .psiVxX (by decide))) (all_when fun _ => all_one (h .psiVxZ (by decide))))
    (all_one (h .vx (by decide)))
theorem vzPml_spares {l : List Arr} (h : ∀ a ∈ wZ, a ∉ l) (k : Coef K) (ix iz : Int) (inx inz : Bool) :
    All (Spares l) (vzPml g k ix iz inx inz) :=
  all_append (all_append (all_when fun _ => all_one (h .psiVzZ (by decide))) (all_when fun _ => all_one (h .psiVzX (by decide))))
    (all_one (h .vz (by decide)))
theorem nrmPml_spares {l : List Arr} (h : ∀ a ∈ wN, a ∉ l) (k : Coef K) (ix iz : Int) (inx inz : Bool) :
    All (Spares l) (nrmPml g k ix iz inx inz) :=
  all_append (all_append (all_when fun _ => all_one (h .psiPX (by decide))) (all_when fun _ => all_one (h .psiPZ (by decide))))
    (all_cons (h .txx (by decide)) (all_one (h .tzz (by decide))))
theorem shrPml_spares {l : List Arr} (h : ∀ a ∈ wT, a ∉ l) (k : Coef K) (ix iz : Int) (inx inz : Bool) :
    All (Spares l) (shrPml g k ix iz inx inz) :=
  all_append (all_append (all_when fun _ => all_one (h .psiTX (by decide))) (all_when fun _ => all_one (h .psiTZ (by decide))))
    (all_one (h .txz (by decide)))

def vels : List Arr := [.vx, .vz]
def strs : List Arr := [.txx, .tzz, .txz]

theorem isPsi_strs {a : Arr} (h : IsPsi a) : a ∉ strs ∧ a ∉ vels := by
  rcases h with rfl | rfl | rfl | rfl | rfl | rfl | rfl | rfl <;> decide

/-- The velocity half leaves the stresses alone. -/
theorem half_spares (hv : Valid g) (k : Coef K) (first : Bool) :
    All (Spares strs) ((velPhase g k).flatten ++ seqOf (half g k first)) := by
  have hx : Arr.vx ∉ strs := by decide
  have hz : Arr.vz ∉ strs := by decide
  refine all_append (all_vel (fun _ _ _ => hx) (fun _ _ _ => hz)) ?_
  refine allP_append (allP_append (allP_one (all_walls hv (fun _ _ _ _ _ _ _ _ _ _ => hz) fun _ _ _ _ _ _ _ _ _ _ => hx)) ?_) ?_
  · refine all_pmlP hv (fun a i h _ _ => (isPsi_strs h).1) (fun _ _ _ _ _ _ => vxPml_spares (by decide) k _ _ _ _)
      (fun _ _ _ _ _ _ => vzPml_spares (by decide) k _ _ _ _) (fun a _ _ h _ _ _ _ _ => ?_) (fun a _ _ h _ _ _ _ _ => ?_) <;>
      rcases h with rfl | rfl <;> first | exact hx | exact hz
  · exact all_tapers hv (fun _ _ _ _ _ _ _ _ _ _ _ _ => ⟨hx, hx⟩) (fun _ _ _ _ _ _ _ _ _ _ _ _ => ⟨hz, hz⟩)

/-- The stress half leaves the velocities alone. -/
theorem late_spares (hv : Valid g) (k : Coef K) (first : Bool) :
    All (Spares vels) ((strPhase g k).flatten ++ (seqOf (pmlV g k first) ++ seqOf (free g k))) := by
  have hx : Arr.txx ∉ vels := by decide
  have hz : Arr.tzz ∉ vels := by decide
  have ht : Arr.txz ∉ vels := by decide
  refine all_append (all_str (fun _ _ _ => all_cons hx (all_one hz)) (fun _ _ _ => ht)) (all_append ?_ ?_)
  · exact all_pmlV hv (fun a i h _ _ => (isPsi_strs h).2) (fun _ _ _ _ _ _ _ _ _ => nrmPml_spares (by decide) k _ _ _ _)
      (fun _ _ _ _ _ _ _ _ _ _ _ _ _ _ => shrPml_spares (by decide) k _ _ _ _)
  · exact all_free (fun _ _ => ⟨fun _ _ => ⟨hz, hx⟩, fun _ _ => ⟨ht, ht⟩⟩) (fun _ _ => ⟨fun _ _ => ⟨hx, hz⟩, fun _ _ => ⟨ht, ht⟩⟩)
      (fun _ _ => ⟨fun _ _ => ⟨hz, hx⟩, fun _ _ => ⟨ht, ht⟩⟩) (fun _ _ => ⟨fun _ _ => ⟨hx, hz⟩, fun _ _ => ⟨ht, ht⟩⟩)

/-! ### Points that are left alone -/

section
variable {ix iz : Int}

theorem av {a b : Arr} {jx jz : Int} {e : Expr Cell K} (h : b = a → 0 ≤ jz ∧ jz < g.naz ∧ (jx ≠ ix ∨ jz ≠ iz)) :
    Avoids g.naz a ix iz (⟨(b, el g.naz jx jz), e⟩ : Stmt Cell K) := avoids_el h

/-- The boundary treatment leaves interior points of `vx` alone, except next to a rigid right side. -/
theorem half_vx (hv : Valid g) (k : Coef K) (first : Bool) (hi : InX g ix iz) (hw : g.rig = 3 → ix ≠ g.nx + 1 ∧ ix ≠ g.nx + 2) :
    All (Avoids g.naz .vx ix iz) (seqOf (half g k first)) := by
  have hi' := hi
  rw [inX_iff] at hi'
  obtain ⟨⟨g1, g2, g3, g4, g5⟩, ⟨p1, p2, p3, p4⟩, q1, q2, q3, q4⟩ := grid hv
  have hne : ∀ {jx jz : Int}, ¬ InX g jx jz → jx ≠ ix ∨ jz ≠ iz := by
    intro jx jz h; by_contra hn; exact h (by rw [show jx = ix by omega, show jz = iz by omega]; exact hi)
  refine allP_append (allP_append (allP_one (all_walls hv ?_ ?_)) ?_) ?_
  · exact fun _ _ _ _ _ _ _ _ _ _ => avoids_arr (by decide)
  · intro jx jz _ h1 h2 h3 h4 _ _ h5
    refine av fun _ => ⟨by omega, by omega, .inl ?_⟩
    rintro rfl
    rcases h5 with h5 | ⟨h5, h6⟩
    · omega
    · have := hw h5; omega
  · refine all_pmlP hv (fun a i h _ _ => avoids_arr (by rintro rfl; revert h; simp [IsPsi])) (fun jx jz inx inz h1 h2 => ?_)
      (fun jx jz inx inz h1 h2 => ?_) (fun a jx jz h h1 h2 h3 h4 h5 => ?_) (fun a jx jz h h1 h2 h3 h4 h5 => ?_)
    · exact all_append (all_append (all_when fun _ => all_one (avoids_arr (by decide)))
        (all_when fun _ => all_one (avoids_arr (by decide)))) (all_one (av fun _ => ⟨h1.2.2.1, h1.2.2.2, hne h2⟩))
    · exact all_append (all_append (all_when fun _ => all_one (avoids_arr (by decide)))
        (all_when fun _ => all_one (avoids_arr (by decide)))) (all_one (avoids_arr (by decide)))
    · exact av fun _ => ⟨h4, h5, .inl (by omega)⟩
    · have := q1 (.inl h1)
      exact av fun _ => ⟨h4, by omega, .inr (by omega)⟩
  · refine all_tapers hv (fun jx jz t j h1 h2 h3 h4 h5 _ _ _ => ⟨av fun _ => ⟨by omega, by omega, hne h5⟩,
      av fun _ => ⟨by omega, by omega, hne h5⟩⟩) (fun _ _ _ _ _ _ _ _ _ _ _ _ => ⟨avoids_arr (by decide), avoids_arr (by decide)⟩)

theorem half_vz (hv : Valid g) (k : Coef K) (first : Bool) (hi : InZ g ix iz) (hw : g.bot = 3 → iz ≠ g.nz + 1 ∧ iz ≠ g.nz + 2) :
    All (Avoids g.naz .vz ix iz) (seqOf (half g k first)) := by
  have hi' := hi
  rw [inZ_iff] at hi'
  obtain ⟨⟨g1, g2, g3, g4, g5⟩, ⟨p1, p2, p3, p4⟩, q1, q2, q3, q4⟩ := grid hv
  have hne : ∀ {jx jz : Int}, ¬ InZ g jx jz → jx ≠ ix ∨ jz ≠ iz := by
    intro jx jz h; by_contra hn; exact h (by rw [show jx = ix by omega, show jz = iz by omega]; exact hi)
  refine allP_append (allP_append (allP_one (all_walls hv ?_ ?_)) ?_) ?_
  · intro jx jz _ h1 h2 h3 h4 _ _ h5
    refine av fun _ => ⟨by omega, by omega, .inr ?_⟩
    rintro rfl
    rcases h5 with h5 | ⟨h5, h6⟩
    · omega
    · have := hw h5; omega
  · exact fun _ _ _ _ _ _ _ _ _ _ => avoids_arr (by decide)
  · refine all_pmlP hv (fun a i h _ _ => avoids_arr (by rintro rfl; revert h; simp [IsPsi])) (fun jx jz inx inz h1 h2 => ?_)
      (fun jx jz inx inz h1 h2 => ?_) (fun a jx jz h h1 h2 h3 h4 h5 => ?_) (fun a jx jz h h1 h2 h3 h4 h5 => ?_)
    · exact all_append (all_append (all_when fun _ => all_one (avoids_arr (by decide)))
        (all_when fun _ => all_one (avoids_arr (by decide)))) (all_one (avoids_arr (by decide)))
    · exact all_append (all_append (all_when fun _ => all_one (avoids_arr (by decide)))
        (all_when fun _ => all_one (avoids_arr (by decide)))) (all_one (av fun _ => ⟨h1.2.2.1, h1.2.2.2, hne h2⟩))
    · have := q3 (.inl h1)
      exact av fun _ => ⟨h4, h5, .inl (by omega)⟩
    · exact av fun _ => ⟨h4, by omega, .inr (by omega)⟩
  · refine all_tapers hv (fun _ _ _ _ _ _ _ _ _ _ _ _ => ⟨avoids_arr (by decide), avoids_arr (by decide)⟩)
      (fun jx jz t j h1 h2 h3 h4 h5 _ _ _ => ⟨av fun _ => ⟨by omega, by omega, hne h5⟩, av fun _ => ⟨by omega, by omega, hne h5⟩⟩)

/-- Points of the PML, for the stresses. -/
def InPml (g : Cfg) (ix iz : Int) : Prop :=
  (g.lef = 2 ∧ ix < g.ioXx) ∨ (g.rig = 2 ∧ g.ieXx ≤ ix) ∨ (g.top = 2 ∧ iz < g.ioXz) ∨ (g.bot = 2 ∧ g.ieXz ≤ iz)

theorem pmlLoop_avoids {a b c d : Int} {body : Int → Int → Bool → Bool → List (Stmt Cell K)} {Q : Stmt Cell K → Prop}
    (hp : ¬ InPml g ix iz)
    (h : ∀ jx jz inx inz, c ≤ jz → jz < d → (jx ≠ ix ∨ jz ≠ iz) → All Q (body jx jz inx inz)) :
    All Q (pmlLoop g a b c d g.ioXx g.ieXx g.ioXz g.ieXz body).flatten := by
  unfold pmlLoop
  refine all_sweep fun jx h1 h2 jz h3 h4 => all_ite (fun _ => all_nil) fun hh => h jx jz _ _ h3 h4 ?_
  simp only [inX, inZ, Bool.and_eq_true, Bool.not_eq_true', Bool.or_eq_false_iff, Bool.and_eq_false_iff,
    decide_eq_false_iff_not] at hh
  by_contra hn
  refine hh ?_
  obtain ⟨rfl, rfl⟩ : jx = ix ∧ jz = iz := by omega
  unfold InPml at hp
  omega

theorem pmlV_avoids (hv : Valid g) (k : Coef K) (first : Bool) {a : Arr} (ha : a ∈ strs) (hp : ¬ InPml g ix iz) :
    All (Avoids g.naz a ix iz) (seqOf (pmlV g k first)) := by
  obtain ⟨⟨g1, g2, g3, g4, g5⟩, ⟨p1, p2, p3, p4⟩, q1, q2, q3, q4⟩ := grid hv
  have na : ∀ {b : Arr} {i : Int} {e : Expr Cell K}, b ∉ strs → Avoids g.naz a ix iz (⟨(b, i), e⟩ : Stmt Cell K) :=
    fun hb => avoids_arr fun e => hb (by rw [e]; exact ha)
  refine allP_when fun _ => allP_append ?_ (allP_cons ?_ (allP_one ?_))
  · refine allP_when fun _ => allP_one ?_
    rw [List.flatten_cons, List.flatten_nil, List.append_nil]
    refine all_append (all_append (all_append ?_ ?_) ?_) ?_ <;>
      exact all_clear fun i h1 h2 => na (by decide)
  · refine pmlLoop_avoids hp fun jx jz inx inz h3 h4 h5 => ?_
    have e1 : 0 ≤ jz := by simp only [Cfg.ioPz, Cfg.ioXz] at h3; split_ifs at h3 <;> omega
    have e2 : jz < g.naz := by
      split_ifs at h4
      · exact (lt_of_minTo h4).2
      · simp only [Cfg.ieXz] at h4; omega
    exact all_append (all_append (all_when fun _ => all_one (na (by decide))) (all_when fun _ => all_one (na (by decide))))
      (all_cons (av fun _ => ⟨e1, e2, h5⟩) (all_one (av fun _ => ⟨e1, e2, h5⟩)))
  · refine pmlLoop_avoids hp fun jx jz inx inz h3 h4 h5 => ?_
    have e1 : 0 ≤ jz := by simp only [ioTz, Cfg.ioXz] at h3; split_ifs at h3 <;> omega
    have e2 : jz < g.naz := by
      split_ifs at h4
      · exact (lt_of_minTo h4).2
      · simp only [Cfg.ieXz] at h4; omega
    exact all_append (all_append (all_when fun _ => all_one (na (by decide))) (all_when fun _ => all_one (na (by decide))))
      (all_one (av fun _ => ⟨e1, e2, h5⟩))

/-- Points of the free surfaces, for the normal stresses. -/
def FreedN (g : Cfg) (ix iz : Int) : Prop :=
  (g.top = 1 ∧ iz = 1 ∧ 1 ≤ ix ∧ ix < g.iePx) ∨ (g.rig = 1 ∧ ix = g.iePx ∧ 1 ≤ iz ∧ iz < g.iePz) ∨
  (g.bot = 1 ∧ iz = g.iePz ∧ 1 ≤ ix ∧ ix < g.iePx) ∨ (g.lef = 1 ∧ ix = 1 ∧ 1 ≤ iz ∧ iz < g.iePz)

/-- Points on and outside the free surfaces where the shear stress is prescribed. -/
def FreedT (g : Cfg) (ix iz : Int) : Prop :=
  (g.top = 1 ∧ iz ≤ 1 ∧ 2 ≤ ix ∧ ix < ieTx g) ∨ (g.rig = 1 ∧ (ix = g.iePx + 1 ∨ ix = g.iePx + 2) ∧ 2 ≤ iz ∧ iz < ieTz g) ∨
  (g.bot = 1 ∧ (iz = g.iePz + 1 ∨ iz = g.iePz + 2) ∧ 2 ≤ ix ∧ ix < ieTx g) ∨ (g.lef = 1 ∧ ix ≤ 1 ∧ 2 ≤ iz ∧ iz < ieTz g)

theorem free_avoids (hv : Valid g) (k : Coef K) {a : Arr} (hn : a = .txx ∨ a = .tzz → ¬ FreedN g ix iz)
    (ht : a = .txz → ¬ FreedT g ix iz) : All (Avoids g.naz a ix iz) (seqOf (free g k)) := by
  obtain ⟨⟨g1, g2, g3, g4, g5⟩, ⟨p1, p2, p3, p4⟩, q1, q2, q3, q4⟩ := grid hv
  have ez : g.iePz + 3 = g.naz := by simp only [Cfg.iePz]; omega
  have tz : ieTz g + 2 = g.naz := by simp only [ieTz]; omega
  have e2 : 2 ≤ g.iePz := by simp only [Cfg.iePz]; omega
  unfold FreedN at hn
  unfold FreedT at ht
  refine all_free (fun h i => ⟨fun h1 h2 => ⟨av fun e => ?_, av fun e => ?_⟩, fun h1 h2 => ⟨av fun e => ?_, av fun e => ?_⟩⟩)
    (fun h i => ⟨fun h1 h2 => ⟨av fun e => ?_, av fun e => ?_⟩, fun h1 h2 => ⟨av fun e => ?_, av fun e => ?_⟩⟩)
    (fun h i => ⟨fun h1 h2 => ⟨av fun e => ?_, av fun e => ?_⟩, fun h1 h2 => ⟨av fun e => ?_, av fun e => ?_⟩⟩)
    (fun h i => ⟨fun h1 h2 => ⟨av fun e => ?_, av fun e => ?_⟩, fun h1 h2 => ⟨av fun e => ?_, av fun e => ?_⟩⟩) <;>
    first
      | (have := hn (.inr e.symm); clear hn ht; omega)
      | (have := hn (.inl e.symm); clear hn ht; omega)
      | (have := ht e.symm; clear hn ht; omega)

end

/-! ### The interior loops -/

variable [CommRing K]

theorem run_two {s1 s2 : Stmt Cell K} (m : Cell → K) (h : s1.dst ≠ s2.dst) : run [s1, s2] m s1.dst = s1.e.eval m ∧
    (s1.dst ∉ s2.e.reads → run [s1, s2] m s2.dst = s2.e.eval m) := by
  constructor
  · show store (s1.run m) s2.dst _ s1.dst = _
    refine (if_neg h).trans ?_
    exact if_pos rfl
  · intro hr
    show store (s1.run m) s2.dst _ s2.dst = _
    refine (if_pos rfl).trans (Expr.eval_congr _ fun c hc => if_neg ?_)
    rintro rfl; exact hr hc

theorem vel_vx (hv : Valid g) (k : Coef K) {ix iz : Int} (hi : InX g ix iz) (m : Cell → K) :
    run (velPhase g k).flatten m (.vx, el g.naz ix iz) = (vxS g k.c1 k.c2 ix iz).e.eval m := by
  have hr := (rows hv).1
  obtain ⟨i1, i2, i3, i4⟩ := hi
  unfold velPhase
  have hz : Arr.vz ∉ [Arr.vx] := by decide
  rw [List.flatten_append, run_append, run_spares (l := [.vx]),
    run_sweep_el (W := In [.vx]) (n := g.naz) _ i1 i2 i3 i4 (by omega) (by omega)]
  · show store _ _ _ _ = _
    exact if_pos rfl
  · intro jx e1 e2 jz e3 e4 s hs
    rw [List.mem_singleton] at hs; subst hs
    exact ⟨vxS_key _ _ fun a => colOf_el (by omega) (by omega), vxS_key _ _ fun a => rowOf_el (by omega) (by omega)⟩
  · exact all_sweep fun _ _ _ _ _ _ => all_one hz
  · exact List.mem_singleton.mpr rfl

theorem vel_vz (hv : Valid g) (k : Coef K) {ix iz : Int} (hi : InZ g ix iz) (m : Cell → K) :
    run (velPhase g k).flatten m (.vz, el g.naz ix iz) = (vzS g k.c1 k.c2 ix iz).e.eval m := by
  have hr := (rows hv).2.1
  obtain ⟨i1, i2, i3, i4⟩ := hi
  unfold velPhase
  rw [List.flatten_append, run_append, run_sweep_el (W := In [.vz]) (n := g.naz) _ i1 i2 i3 i4 (by omega) (by omega)]
  · show store _ _ _ _ = _
    refine (if_pos rfl).trans (Expr.eval_congr _ fun a ha => run_untouched ?_ m)
    refine all_sweep fun _ _ _ _ _ _ => all_one fun e => ?_
    have : ∀ a ∈ (vzS g k.c1 k.c2 ix iz).e.reads, ¬ In [.vx] a := by cells [vzS, rd, in1]
    exact this a ha (by rw [← e]; exact List.mem_singleton.mpr rfl)
  · intro jx e1 e2 jz e3 e4 s hs
    rw [List.mem_singleton] at hs; subst hs
    exact ⟨vzS_key _ _ fun a => colOf_el (by omega) (by omega), vzS_key _ _ fun a => rowOf_el (by omega) (by omega)⟩

/-- The stress loops at a point they visit, for what comes after them leaves the point alone. -/
theorem str_nrm (hv : Valid g) (k : Coef K) {ix iz : Int} (hi : InS g ix iz) (m : Cell → K) :
    run (strPhase g k).flatten m (.txx, el g.naz ix iz) = m (.txx, el g.naz ix iz) -
      (m (.l2m, el g.naz ix iz) * (dvx g k.c1 k.c2 ix iz).eval m + m (.lam, el g.naz ix iz) * (dvz g k.c1 k.c2 ix iz).eval m) ∧
    run (strPhase g k).flatten m (.tzz, el g.naz ix iz) = m (.tzz, el g.naz ix iz) -
      (m (.l2m, el g.naz ix iz) * (dvz g k.c1 k.c2 ix iz).eval m + m (.lam, el g.naz ix iz) * (dvx g k.c1 k.c2 ix iz).eval m) := by
  have hr := (rows hv).2.2
  obtain ⟨i1, i2, i3, i4⟩ := hi
  have E : ∀ a, a = .txx ∨ a = .tzz → run (strPhase g k).flatten m (a, el g.naz ix iz) =
      run (nrmS g k.c1 k.c2 ix iz) m (a, el g.naz ix iz) := by
    intro a ha
    unfold strPhase
    have hz : Arr.txz ∉ [Arr.txx, Arr.tzz] := by decide
    rw [List.flatten_append, run_append, run_spares (l := [.txx, .tzz]) (all_sweep fun _ _ _ _ _ _ => ?_) (c := (a, el g.naz ix iz))
      (by simpa using ha), run_sweep_el (W := In [.txx, .tzz]) (n := g.naz) _ i1 i2 i3 i4 (by omega) (by omega)]
    rotate_left
    · exact all_one hz
    intro jx e1 e2 jz e3 e4 s hs
    exact ⟨nrmS_key _ _ (fun a => colOf_el (by omega) (by omega)) s hs, nrmS_key _ _ (fun a => rowOf_el (by omega) (by omega)) s hs⟩
  constructor
  · rw [E _ (.inl rfl)]
    exact (run_two m (by simp)).1
  · rw [E _ (.inr rfl)]
    refine (run_two m (by simp)).2 fun h => ?_
    have : ∀ c ∈ (rd g .tzz ix iz - (rd g .l2m ix iz * dvz g k.c1 k.c2 ix iz + rd g .lam ix iz * dvx g k.c1 k.c2 ix iz) :
      Expr Cell K).reads, ¬ In [.txx] c := by cells [rd, dvx, dvz, in1]
    exact this _ h (List.mem_singleton.mpr rfl)

theorem str_shr (hv : Valid g) (k : Coef K) {ix iz : Int} (hi : InS g ix iz) (m : Cell → K) :
    run (strPhase g k).flatten m (.txz, el g.naz ix iz) = (shrS g k.c1 k.c2 ix iz).e.eval m := by
  have hr := (rows hv).2.2
  obtain ⟨i1, i2, i3, i4⟩ := hi
  unfold strPhase
  rw [List.flatten_append, run_append, run_sweep_el (W := In [.txz]) (n := g.naz) _ i1 i2 i3 i4 (by omega) (by omega)]
  · show store _ _ _ _ = _
    refine (if_pos rfl).trans (Expr.eval_congr _ fun a ha => ?_)
    refine run_untouched (all_sweep fun _ _ _ _ _ _ => all_cons (fun e => ?_) (all_one fun e => ?_)) m
    · have : ∀ a ∈ (shrS g k.c1 k.c2 ix iz).e.reads, ¬ In [.txx] a := by cells [shrS, rd, in1]
      exact this a ha (by rw [← e]; exact List.mem_singleton.mpr rfl)
    · have : ∀ a ∈ (shrS g k.c1 k.c2 ix iz).e.reads, ¬ In [.tzz] a := by cells [shrS, rd, in1]
      exact this a ha (by rw [← e]; exact List.mem_singleton.mpr rfl)
  · intro jx e1 e2 jz e3 e4 s hs
    rw [List.mem_singleton] at hs; subst hs
    exact ⟨shrS_key _ _ fun a => colOf_el (by omega) (by omega), shrS_key _ _ fun a => rowOf_el (by omega) (by omega)⟩

/-! ### Free surfaces -/

theorem el_ne {n ix iz jx jz : Int} (h1 : 0 ≤ iz) (h2 : iz < n) (h3 : 0 ≤ jz) (h4 : jz < n) (h : ix ≠ jx ∨ iz ≠ jz) :
    el n ix iz ≠ el n jx jz := by
  intro e
  have c := colOf_el (a := Arr.vx) (ix := ix) h1 h2
  have r := rowOf_el (a := Arr.vx) (ix := ix) h1 h2
  rw [e, colOf_el h3 h4] at c
  rw [e, rowOf_el h3 h4] at r
  omega

theorem zero_line {lo hi i : Int} {a : Arr} {p : Int → Int} (h1 : lo ≤ i) (h2 : i < hi) (m : Cell → K) :
    run (parfor lo hi fun j => [(⟨(a, p j), .zero⟩ : Stmt Cell K)]).flatten m (a, p i) = 0 := by
  refine (run_zero ?_ _ _).1 ?_
  · have : ∀ l : List (Stmt Cell K), All (fun s => s.e = .zero) l → ∀ s ∈ l, s.e = .zero := fun _ h => h
    exact this _ (all_parfor fun i h1 h2 => all_one rfl)
  · exact ⟨_, List.mem_flatten.mpr ⟨_, mem_parfor.mpr ⟨i, h1, h2, rfl⟩, List.mem_singleton.mpr rfl⟩, rfl⟩

theorem shear_line {κ : Cell → Int} {lo hi i : Int} {p q r s : Int → Int} (h1 : lo ≤ i) (h2 : i < hi)
    (hk : ∀ j, lo ≤ j → j < hi → κ (.txz, p j) = j ∧ κ (.txz, q j) = j ∧ κ (.txz, r j) = j ∧ κ (.txz, s j) = j)
    (hd : p i ≠ q i ∧ p i ≠ r i ∧ p i ≠ s i ∧ r i ≠ q i ∧ r i ≠ s i) (m m' : Cell → K)
    (hm : m' = run (parfor lo hi fun j => [(⟨(.txz, p j), .zero - .rd (.txz, q j)⟩ : Stmt Cell K),
      ⟨(.txz, r j), .zero - .rd (.txz, s j)⟩]).flatten m) :
    m' (.txz, p i) = - m' (.txz, q i) ∧ m' (.txz, r i) = - m' (.txz, s i) := by
  subst hm
  have hkey : ∀ j : Int, lo ≤ j → j < hi → ∀ t ∈ [(⟨(.txz, p j), .zero - .rd (.txz, q j)⟩ : Stmt Cell K),
      ⟨(.txz, r j), .zero - .rd (.txz, s j)⟩], InKey (In [.txz]) κ j t := by
    intro j e1 e2
    obtain ⟨k1, k2, k3, k4⟩ := hk j e1 e2
    exact all_cons (key_stmt (List.mem_singleton.mpr rfl) k1 (ekey_sub ekey_zero (ekey_rd fun _ => k2)))
      (all_one (key_stmt (List.mem_singleton.mpr rfl) k3 (ekey_sub ekey_zero (ekey_rd fun _ => k4))))
  obtain ⟨k1, k2, k3, k4⟩ := hk i h1 h2
  obtain ⟨d1, d2, d3, d4, d5⟩ := hd
  rw [parfor_flatten, run_loop_at (W := In [.txz]) (κ := κ) hkey h1 h2 k1, run_loop_at (W := In [.txz]) (κ := κ) hkey h1 h2 k2,
    run_loop_at (W := In [.txz]) (κ := κ) hkey h1 h2 k3, run_loop_at (W := In [.txz]) (κ := κ) hkey h1 h2 k4]
  have e1 := (run_two (s1 := (⟨(.txz, p i), .zero - .rd (.txz, q i)⟩ : Stmt Cell K))
    (s2 := ⟨(.txz, r i), .zero - .rd (.txz, s i)⟩) m (by simpa using d2))
  have hs : (Arr.txz, p i) ∉ ((.zero - .rd (.txz, s i)) : Expr Cell K).reads := by
    rw [rds_sub, rds_zero, rds_rd]; simpa using d3
  constructor
  · rw [show run _ m (Arr.txz, p i) = _ from e1.1, run_untouched]
    · show (0 : K) - _ = _
      rw [zero_sub]; rfl
    · exact all_cons (by simpa using d1) (all_one (by simpa using d4))
  · rw [show run _ m (Arr.txz, r i) = _ from e1.2 hs, run_untouched]
    · show (0 : K) - _ = _
      rw [zero_sub]; rfl
    · exact all_cons (by simpa using d3) (all_one (by simpa using d5))

theorem surf_line {κ : Cell → Int} {lo hi i : Int} {a : Arr} {x z : Int → Int} {dv : Int → Expr Cell K} (h1 : lo ≤ i) (h2 : i < hi)
    (hk : ∀ j, lo ≤ j → j < hi → ∀ a, κ (a, el g.naz (x j) (z j)) = j) (ho : ∀ j, Off [a] (dv j)) (m : Cell → K) :
    run (parfor lo hi fun j => [surf g a (x j) (z j) (dv j)]).flatten m (a, el g.naz (x i) (z i)) =
      m (.keep, el g.naz (x i) (z i)) * m (a, el g.naz (x i) (z i)) - (dv i).eval m * m (.frs, el g.naz (x i) (z i)) := by
  rw [parfor_flatten, run_loop_at (W := In [a]) (κ := κ) _ h1 h2 (hk i h1 h2 a)]
  · show store _ _ _ _ = _
    refine (if_pos rfl).trans ?_
    show _ * _ + ((0 : K) - _) = _
    rw [zero_sub, ← sub_eq_add_neg]
    rfl
  · intro j e1 e2 s hs
    rw [List.mem_singleton] at hs; subst hs
    exact surf_key (hk j e1 e2) (ho j)

omit [CommRing K] in
theorem off_dvx (k1 k2 : K) (ix iz : Int) : Off [.txx] (dvx g k1 k2 ix iz) := by
  show ∀ c ∈ _, ¬ In [.txx] c; cells [dvx, rd, in1]
omit [CommRing K] in
theorem off_dvz (k1 k2 : K) (ix iz : Int) : Off [.tzz] (dvz g k1 k2 ix iz) := by
  show ∀ c ∈ _, ¬ In [.tzz] c; cells [dvz, rd, in1]

section
variable {ix iz : Int} {a : Arr}

omit [CommRing K] in
theorem rig_avoids (hv : Valid g) (k : Coef K) (hn : a = .txx ∨ a = .tzz → g.rig = 1 → ix ≠ g.iePx)
    (ht : a = .txz → g.rig = 1 → 2 ≤ iz → iz < ieTz g → ix ≠ g.iePx + 1 ∧ ix ≠ g.iePx + 2) :
    All (Avoids g.naz a ix iz) (seqOf (freeRig g k)) := by
  obtain ⟨⟨g1, g2, g3, g4, g5⟩, ⟨p1, p2, p3, p4⟩, q1, q2, q3, q4⟩ := grid hv
  have ez : g.iePz + 3 = g.naz := by simp only [Cfg.iePz]; omega
  have tz : ieTz g + 2 = g.naz := by simp only [ieTz]; omega
  refine allP_when fun h => allP_cons (all_parfor fun i h1 h2 => all_one (av fun e => ?_))
    (allP_cons (all_parfor fun i h1 h2 => all_cons (av fun e => ?_) (all_one (av fun e => ?_)))
      (allP_one (all_parfor fun i h1 h2 => all_one (av fun e => ?_)))) <;> simp only [Cfg.ioPz, ioTz] at h1
  · have := hn (.inl e.symm) h; omega
  · have := ht e.symm h; omega
  · have := ht e.symm h; omega
  · have := hn (.inr e.symm) h; omega

omit [CommRing K] in
theorem bot_avoids (hv : Valid g) (k : Coef K) (hn : a = .txx ∨ a = .tzz → g.bot = 1 → 1 ≤ ix → ix < g.iePx → iz ≠ g.iePz)
    (ht : a = .txz → g.bot = 1 → 2 ≤ ix → ix < ieTx g → iz ≠ g.iePz + 1 ∧ iz ≠ g.iePz + 2) :
    All (Avoids g.naz a ix iz) (seqOf (freeBot g k)) := by
  obtain ⟨⟨g1, g2, g3, g4, g5⟩, ⟨p1, p2, p3, p4⟩, q1, q2, q3, q4⟩ := grid hv
  have ez : g.iePz + 3 = g.naz := by simp only [Cfg.iePz]; omega
  refine allP_when fun h => allP_cons (all_parfor fun i h1 h2 => all_one (av fun e => ?_))
    (allP_cons (all_parfor fun i h1 h2 => all_cons (av fun e => ?_) (all_one (av fun e => ?_)))
      (allP_one (all_parfor fun i h1 h2 => all_one (av fun e => ?_)))) <;> simp only [Cfg.ioPx, ioTx] at h1
  · have := hn (.inr e.symm) h; omega
  · have := ht e.symm h; omega
  · have := ht e.symm h; omega
  · have := hn (.inl e.symm) h; omega

omit [CommRing K] in
theorem lef_avoids (hv : Valid g) (k : Coef K) (hn : a = .txx ∨ a = .tzz → g.lef = 1 → 1 ≤ iz → iz < g.iePz → ix ≠ 1)
    (ht : a = .txz → g.lef = 1 → 2 ≤ iz → iz < ieTz g → ix ≠ 0 ∧ ix ≠ 1) :
    All (Avoids g.naz a ix iz) (seqOf (freeLef g k)) := by
  obtain ⟨⟨g1, g2, g3, g4, g5⟩, ⟨p1, p2, p3, p4⟩, q1, q2, q3, q4⟩ := grid hv
  have ez : g.iePz + 3 = g.naz := by simp only [Cfg.iePz]; omega
  have tz : ieTz g + 2 = g.naz := by simp only [ieTz]; omega
  refine allP_when fun h => allP_cons (all_parfor fun i h1 h2 => all_one (av fun e => ?_))
    (allP_cons (all_parfor fun i h1 h2 => all_cons (av fun e => ?_) (all_one (av fun e => ?_)))
      (allP_one (all_parfor fun i h1 h2 => all_one (av fun e => ?_)))) <;> simp only [Cfg.ioPz, ioTz] at h1 <;>
    simp only [Cfg.ioPx]
  · have := hn (.inl e.symm) h; omega
  · have := ht e.symm h; omega
  · have := ht e.symm h; omega
  · have := hn (.inr e.symm) h; omega

end

/-! ## Property theorems -/

open Verif.Fd.Acou (at2 stag)

theorem late_vel (hv : Valid g) (k : Coef K) (first : Bool) {c : Cell} (hc : c.1 ∈ vels) (m : Cell → K) :
    run (stepProg g k first) m c = run ((velPhase g k).flatten ++ seqOf (half g k first)) m c := by
  rw [stepProg_parts, ← List.append_assoc, run_append, run_spares (late_spares hv k first) hc]

/-- C67, first half: at every point of the model that is not next to a rigid right or bottom wall the particle velocities are
advanced by the staggered differences of the stresses before the step. -/
theorem elastic_velocity (hv : Valid g) (k : Coef K) (med : Cell → K) (n : Nat) (u0 : Field K) (ix iz : Int) :
    let u := propagate g k med n u0
    let u' := propagate g k med (n + 1) u0
    (g.ioXx ≤ ix → ix < g.ieXx → g.ioXz ≤ iz → iz < g.ieXz → (g.rig = 3 → ix ≠ g.nx + 1 ∧ ix ≠ g.nx + 2) →
      at2 g u'.vx ix iz = at2 g u.vx ix iz - med (.rox, ix * g.naz + iz) *
        ((stag k.c1 k.c2 fun j => at2 g u.txx (ix + j) iz) + (stag k.c1 k.c2 fun j => at2 g u.txz ix (iz + 1 + j)))) ∧
    (g.ioZx ≤ ix → ix < g.ieZx → g.ioZz ≤ iz → iz < g.ieZz → (g.bot = 3 → iz ≠ g.nz + 1 ∧ iz ≠ g.nz + 2) →
      at2 g u'.vz ix iz = at2 g u.vz ix iz - med (.roz, ix * g.naz + iz) *
        ((stag k.c1 k.c2 fun j => at2 g u.tzz ix (iz + j)) + (stag k.c1 k.c2 fun j => at2 g u.txz (ix + 1 + j) iz))) := by
  intro u u'
  refine ⟨fun h1 h2 h3 h4 hw => ?_, fun h1 h2 h3 h4 hw => ?_⟩
  · have hi : InX g ix iz := ⟨h1, h2, h3, h4⟩
    obtain ⟨b1, b2, b3, b4⟩ := inX_grid hv hi
    show steps g k (n + 1) (mem med u0) (.vx, el g.naz ix iz) = _
    rw [steps, late_vel hv k _ (show Arr.vx ∈ vels by decide), run_append, run_avoids (half_vx hv k _ hi hw) (by omega) (by omega), vel_vx hv k hi]
    simp only [vxS, eval_add, eval_sub, eval_mul, rd, Expr.eval, stag, at2, u, propagate, fieldOf, el,
      elastic_medium g k med n u0 _ (show fld (.rox, ix * g.naz + iz) = false from rfl)]
    rw [show ix + 0 = ix by omega, show ix + -1 = ix - 1 by omega, show ix + -2 = ix - 2 by omega,
      show iz + 1 + 0 = iz + 1 by omega, show iz + 1 + -1 = iz by omega, show iz + 1 + 1 = iz + 2 by omega,
      show iz + 1 + -2 = iz - 1 by omega]
    ring
  · have hi : InZ g ix iz := ⟨h1, h2, h3, h4⟩
    obtain ⟨b1, b2, b3, b4⟩ := inZ_grid hv hi
    show steps g k (n + 1) (mem med u0) (.vz, el g.naz ix iz) = _
    rw [steps, late_vel hv k _ (show Arr.vz ∈ vels by decide), run_append, run_avoids (half_vz hv k _ hi hw) (by omega) (by omega), vel_vz hv k hi]
    simp only [vzS, eval_add, eval_sub, eval_mul, rd, Expr.eval, stag, at2, u, propagate, fieldOf, el,
      elastic_medium g k med n u0 _ (show fld (.roz, ix * g.naz + iz) = false from rfl)]
    rw [show iz + 0 = iz by omega, show iz + -1 = iz - 1 by omega, show iz + -2 = iz - 2 by omega,
      show ix + 1 + 0 = ix + 1 by omega, show ix + 1 + -1 = ix by omega, show ix + 1 + 1 = ix + 2 by omega,
      show ix + 1 + -2 = ix - 1 by omega]
    ring

/-- The memory between the two halves of a step. -/
theorem mid (hv : Valid g) (k : Coef K) (med : Cell → K) (n : Nat) (u0 : Field K) : ∃ m1 : Cell → K,
    (∀ c, steps g k (n + 1) (mem med u0) c =
      run (seqOf (pmlV g k (n = 0)) ++ seqOf (free g k)) (run (strPhase g k).flatten m1) c) ∧
    (∀ i, m1 (.vx, i) = (propagate g k med (n + 1) u0).vx i) ∧ (∀ i, m1 (.vz, i) = (propagate g k med (n + 1) u0).vz i) ∧
    (∀ i, m1 (.txx, i) = (propagate g k med n u0).txx i) ∧ (∀ i, m1 (.tzz, i) = (propagate g k med n u0).tzz i) ∧
    (∀ i, m1 (.txz, i) = (propagate g k med n u0).txz i) ∧ (∀ c, fld c = false → m1 c = med c) := by
  refine ⟨run ((velPhase g k).flatten ++ seqOf (half g k (n = 0))) (steps g k n (mem med u0)), ?_, ?_, ?_, ?_, ?_, ?_, ?_⟩
  · intro c; rw [steps, stepProg_parts]; simp only [run_append]
  · intro i; exact (late_vel hv k _ (c := (.vx, i)) (show Arr.vx ∈ vels by decide) _).symm
  · intro i; exact (late_vel hv k _ (c := (.vz, i)) (show Arr.vz ∈ vels by decide) _).symm
  · intro i; exact run_spares (half_spares hv k _) (c := (.txx, i)) (show Arr.txx ∈ strs by decide) _
  · intro i; exact run_spares (half_spares hv k _) (c := (.tzz, i)) (show Arr.tzz ∈ strs by decide) _
  · intro i; exact run_spares (half_spares hv k _) (c := (.txz, i)) (show Arr.txz ∈ strs by decide) _
  · intro c hc
    have hlin := step_lin g k (n = 0)
    rw [stepProg_parts] at hlin
    rw [run_nonfield (fld := fld) (fun s hs => (hlin s ?_).1) _ _ hc, elastic_medium g k med n u0 _ hc]
    rw [← List.append_assoc]
    exact List.mem_append_left _ hs

theorem inS_notPml {ix iz : Int} (h : InS g ix iz) : ¬ InPml g ix iz := by
  obtain ⟨h1, h2, h3, h4⟩ := h
  unfold ix0 at h1; unfold ix1 at h2; unfold iz0 at h3; unfold iz1 at h4
  rintro (⟨e, h⟩ | ⟨e, h⟩ | ⟨e, h⟩ | ⟨e, h⟩)
  · rw [if_pos e] at h1; omega
  · rw [if_pos e] at h2; omega
  · rw [if_pos e] at h3; omega
  · rw [if_pos e] at h4; omega

/-- C67, second half: at every point of the stress grids that is not on a free surface the stresses are advanced by the
staggered differences of the particle velocities *after* their update (leapfrog). -/
theorem elastic_stress (hv : Valid g) (k : Coef K) (med : Cell → K) (n : Nat) (u0 : Field K) (ix iz : Int)
    (h1 : ix0 g ≤ ix) (h2 : ix < ix1 g) (h3 : iz0 g ≤ iz) (h4 : iz < iz1 g) :
    let u := propagate g k med n u0
    let u' := propagate g k med (n + 1) u0
    let dvx := stag k.c1 k.c2 fun j => at2 g u'.vx (ix + 1 + j) iz
    let dvz := stag k.c1 k.c2 fun j => at2 g u'.vz ix (iz + 1 + j)
    (¬ FreedN g ix iz →
      at2 g u'.txx ix iz = at2 g u.txx ix iz - (med (.l2m, ix * g.naz + iz) * dvx + med (.lam, ix * g.naz + iz) * dvz) ∧
      at2 g u'.tzz ix iz = at2 g u.tzz ix iz - (med (.l2m, ix * g.naz + iz) * dvz + med (.lam, ix * g.naz + iz) * dvx)) ∧
    (¬ FreedT g ix iz → 2 ≤ ix → 2 ≤ iz →
      at2 g u'.txz ix iz = at2 g u.txz ix iz - med (.mul, ix * g.naz + iz) *
        ((stag k.c1 k.c2 fun j => at2 g u'.vx ix (iz + j)) + (stag k.c1 k.c2 fun j => at2 g u'.vz (ix + j) iz))) := by
  have hi : InS g ix iz := ⟨h1, h2, h3, h4⟩
  obtain ⟨b1, b2, b3, b4, -⟩ := inS_grid hv hi
  have hp := inS_notPml hi
  obtain ⟨m1, hs, hvx, hvz, hxx, hzz, hxz, hmed⟩ := mid hv k med n u0
  intro u u' dvx' dvz'
  have X : ∀ jx jz : Int, m1 (.vx, el g.naz jx jz) = at2 g u'.vx jx jz := fun jx jz => hvx _
  have Z : ∀ jx jz : Int, m1 (.vz, el g.naz jx jz) = at2 g u'.vz jx jz := fun jx jz => hvz _
  have DX : (dvx g k.c1 k.c2 ix iz).eval m1 = dvx' := by
    simp only [dvx, dvx', eval_add, eval_sub, eval_mul, rd, Expr.eval, X, stag]
    rw [show ix + 1 + 0 = ix + 1 by omega, show ix + 1 + -1 = ix by omega, show ix + 1 + 1 = ix + 2 by omega,
      show ix + 1 + -2 = ix - 1 by omega]
  have DZ : (dvz g k.c1 k.c2 ix iz).eval m1 = dvz' := by
    simp only [dvz, dvz', eval_add, eval_sub, eval_mul, rd, Expr.eval, Z, stag]
    rw [show iz + 1 + 0 = iz + 1 by omega, show iz + 1 + -1 = iz by omega, show iz + 1 + 1 = iz + 2 by omega,
      show iz + 1 + -2 = iz - 1 by omega]
  refine ⟨fun hf => ?_, fun hf e1 e2 => ?_⟩
  · have R : ∀ a, a = .txx ∨ a = .tzz → steps g k (n + 1) (mem med u0) (a, el g.naz ix iz) =
        run (strPhase g k).flatten m1 (a, el g.naz ix iz) := by
      intro a ha
      rw [hs, run_avoids (all_append (pmlV_avoids hv k _ (by rcases ha with rfl | rfl <;> decide) hp)
        (free_avoids hv k (fun _ => hf) (by rcases ha with rfl | rfl <;> (intro e; cases e)))) (by omega) (by omega)]
    have S := str_nrm hv k hi m1
    rw [DX, DZ, hxx, hzz, hmed _ rfl, hmed _ rfl] at S
    exact ⟨(R _ (.inl rfl)).trans S.1, (R _ (.inr rfl)).trans S.2⟩
  · show steps g k (n + 1) (mem med u0) (.txz, el g.naz ix iz) = _
    rw [hs, run_avoids (all_append (pmlV_avoids hv k _ (by decide) hp)
        (free_avoids hv k (by rintro (e | e) <;> cases e) fun _ => hf)) (by omega) (by omega), str_shr hv k hi]
    simp only [shrS, eval_add, eval_sub, eval_mul, rd, Expr.eval, X, Z, stag, hxz, hmed (.mul, el g.naz ix iz) rfl]
    rw [show ix + 0 = ix by omega, show ix + -1 = ix - 1 by omega, show ix + -2 = ix - 2 by omega,
      show iz + 0 = iz by omega, show iz + -1 = iz - 1 by omega, show iz + -2 = iz - 2 by omega]
    show at2 g u.txz ix iz - med (.mul, ix * g.naz + iz) * _ = _
    ring

/-- C67, a defect: the loop over the shear stress stops where the loop over the normal stresses stops, although the shear grid
has one more column and one more row.  Without PML at the right (or bottom) the last column (or row) of the shear stress keeps
its initial value for ever, whatever the velocities around it do. -/
theorem elastic_shear_frozen (hv : Valid g) (k : Coef K) (med : Cell → K) (n : Nat) (u0 : Field K) (ix iz : Int)
    (h : (g.rig ≠ 2 ∧ ix = ieTx g - 1 ∧ 2 ≤ iz ∧ iz < ieTz g) ∨ (g.bot ≠ 2 ∧ iz = ieTz g - 1 ∧ 2 ≤ ix ∧ ix < ieTx g))
    (hp : ¬ InPml g ix iz) : at2 g (propagate g k med n u0).txz ix iz = at2 g u0.txz ix iz := by
  obtain ⟨⟨g1, g2, g3, g4, g5⟩, ⟨p1, p2, p3, p4⟩, q1, q2, q3, q4⟩ := grid hv
  have ex : g.iePx + 1 = ieTx g := by simp only [Cfg.iePx, ieTx]; omega
  have ez : g.iePz + 1 = ieTz g := by simp only [Cfg.iePz, ieTz]; omega
  have tz : ieTz g + 2 = g.naz := by simp only [ieTz]; omega
  have tx : 3 ≤ ieTx g := by simp only [ieTx]; omega
  have tz' : 3 ≤ ieTz g := by simp only [ieTz]; omega
  induction n with
  | zero => rfl
  | succ n ih =>
    obtain ⟨m1, hs, -, -, -, -, hxz, -⟩ := mid hv k med n u0
    rw [← ih]
    show steps g k (n + 1) (mem med u0) (.txz, el g.naz ix iz) = _
    rw [hs, run_avoids (all_append (pmlV_avoids hv k _ (by decide) hp)
        (free_avoids hv k (by rintro (e | e) <;> cases e) fun _ => ?_)) (by omega) (by omega), run_avoids (all_str ?_ ?_) (by omega)
        (by omega)]
    · exact hxz _
    · exact fun _ _ _ => all_cons (avoids_arr (by decide)) (all_one (avoids_arr (by decide)))
    · intro jx jz hj
      have hj' := inS_grid hv hj
      obtain ⟨j1, j2, j3, j4⟩ := hj
      refine av fun _ => ⟨by omega, by omega, ?_⟩
      rcases h with ⟨e, h⟩ | ⟨e, h⟩
      · unfold ix1 at j2; rw [if_neg e] at j2; left; omega
      · unfold iz1 at j4; rw [if_neg e] at j4; right; omega
    · unfold FreedT; omega

/-- The relation `tzz=0` leaves between the other normal stress and the derivative along the surface. -/
def surfaceStress (med : Cell → K) (i : Int) (t dv : K) : Prop :=
  med (.l2m, i) ≠ 0 → t * med (.l2m, i) = - (med (.l2m, i) * med (.l2m, i) - med (.lam, i) * med (.lam, i)) * dv

/-- The memory before the free surfaces are treated. -/
theorem before_free (k : Coef K) (med : Cell → K) (n : Nat) (u0 : Field K) : ∃ mf : Cell → K,
    steps g k (n + 1) (mem med u0) = run (seqOf (free g k)) mf ∧ ∀ c, fld c = false → mf c = med c := by
  refine ⟨run ((velPhase g k).flatten ++ (seqOf (half g k (n = 0)) ++ ((strPhase g k).flatten ++ seqOf (pmlV g k (n = 0)))))
    (steps g k n (mem med u0)), ?_, ?_⟩
  · rw [steps, stepProg_parts]; simp only [run_append]
  · intro c hc
    have hlin := step_lin g k (n = 0)
    rw [stepProg_parts] at hlin
    rw [run_nonfield (fld := fld) (fun s hs => (hlin s ?_).1) _ _ hc, elastic_medium g k med n u0 _ hc]
    rw [← List.append_assoc, ← List.append_assoc, ← List.append_assoc]
    refine List.mem_append_left _ ?_
    simpa only [List.append_assoc] using hs

theorem free_parts (k : Coef K) (m : Cell → K) : run (seqOf (free g k)) m =
    run (seqOf (freeLef g k)) (run (seqOf (freeBot g k)) (run (seqOf (freeRig g k)) (run (seqOf (freeTop g k)) m))) := by
  unfold free seqOf
  simp only [List.flatten_append, run_append]

theorem side_parts {P1 P2 P3 : List (List (Stmt Cell K))} (m : Cell → K) :
    run (seqOf [P1, P2, P3]) m = run P3.flatten (run P2.flatten (run P1.flatten m)) := by
  unfold seqOf
  simp only [List.flatten_append, run_append, List.flatten_cons, List.flatten_nil, List.append_nil]

/-- Velocities and medium while a free surface is treated. -/
theorem free_keeps (hv : Valid g) (k : Coef K) (med : Cell → K) (n : Nat) (u0 : Field K) (mf : Cell → K)
    (h : steps g k (n + 1) (mem med u0) = run (seqOf (free g k)) mf) {p : List (Stmt Cell K)} (hp : All (Spares vels) p) :
    (∀ i, run p mf (.vx, i) = (propagate g k med (n + 1) u0).vx i) ∧
    (∀ i, run p mf (.vz, i) = (propagate g k med (n + 1) u0).vz i) := by
  have hl : All (Spares vels) (seqOf (free g k)) := fun s hs => late_spares hv k (n = 0) s
    (List.mem_append_right _ (List.mem_append_right _ hs))
  have hx : Arr.vx ∈ vels := by decide
  have hz : Arr.vz ∈ vels := by decide
  constructor
  · intro i
    rw [run_spares hp hx]
    show _ = steps g k (n + 1) (mem med u0) (.vx, i)
    rw [h, run_spares hl hx]
  · intro i
    rw [run_spares hp hz]
    show _ = steps g k (n + 1) (mem med u0) (.vz, i)
    rw [h, run_spares hl hz]

/-- The sides treated before leave velocities and medium alone. -/
theorem sides_spare (hv : Valid g) (k : Coef K) {l : List (Stmt Cell K)} (hl : l = seqOf (freeTop g k) ∨
    l = seqOf (freeTop g k) ++ seqOf (freeRig g k) ∨ l = seqOf (freeTop g k) ++ seqOf (freeRig g k) ++ seqOf (freeBot g k)) :
    All (Spares vels) l ∧ ∀ (m : Cell → K) (c : Cell), fld c = false → run l m c = m c := by
  have hsub : ∀ s ∈ l, s ∈ seqOf (free g k) := by
    intro s hs
    unfold free seqOf
    simp only [List.flatten_append, List.mem_append]
    unfold seqOf at hl
    rcases hl with rfl | rfl | rfl
    · exact .inl (.inl (.inl hs))
    · rcases List.mem_append.mp hs with h | h
      · exact .inl (.inl (.inl h))
      · exact .inl (.inl (.inr h))
    · rcases List.mem_append.mp hs with h | h
      · rcases List.mem_append.mp h with h | h
        · exact .inl (.inl (.inl h))
        · exact .inl (.inl (.inr h))
      · exact .inl (.inr h)
  refine ⟨fun s hs => late_spares hv k true s (List.mem_append_right _ (List.mem_append_right _ (hsub s hs))), fun m c hc => ?_⟩
  have hlin := step_lin g k true
  rw [stepProg_parts] at hlin
  refine run_nonfield (fld := fld) (fun s hs => (hlin s ?_).1) m c hc
  exact List.mem_append_right _ (List.mem_append_right _ (List.mem_append_right _ (List.mem_append_right _ (hsub s hs))))

theorem surf_value {med : Cell → K} (hfm : FreeMed med) {i : Int} {t t0 dv : K}
    (h : t = med (.keep, i) * t0 - dv * med (.frs, i)) : surfaceStress med i t dv := by
  intro hl
  obtain ⟨h1, h2⟩ := (hfm i).2 hl
  rw [h, h1, ← h2]
  ring

/-- One side: normal stress `za` cleared, shear stress mirrored, normal stress `sa` from the derivative along the side. -/
theorem side {κ : Cell → Int} {lo hi lo' hi' : Int} {za sa : Arr} {x z px pz qx qz rx rz sx sz : Int → Int}
    {dv : Int → Expr Cell K} (ha : (za = .tzz ∧ sa = .txx) ∨ (za = .txx ∧ sa = .tzz))
    (hk : ∀ j, lo ≤ j → j < hi → ∀ a, κ (a, el g.naz (x j) (z j)) = j) (ho : ∀ j, Off [sa] (dv j)) (m : Cell → K) (M : Cell → K)
    (hM : M = run (seqOf [parfor lo hi fun j => [zr g za (x j) (z j)],
      parfor lo' hi' fun j => [ng g .txz (px j) (pz j) (qx j) (qz j), ng g .txz (rx j) (rz j) (sx j) (sz j)],
      parfor lo hi fun j => [surf g sa (x j) (z j) (dv j)]]) m) (i : Int) :
    (lo ≤ i → i < hi → M (za, el g.naz (x i) (z i)) = 0 ∧ ∃ (p : List (Stmt Cell K)) (t0 : K), All (Spares vels) p ∧
      (∀ c, fld c = false → run p m c = m c) ∧
      M (sa, el g.naz (x i) (z i)) = m (.keep, el g.naz (x i) (z i)) * t0 - (dv i).eval (run p m) * m (.frs, el g.naz (x i) (z i))) ∧
    (lo' ≤ i → i < hi' →
      (∀ j, lo' ≤ j → j < hi' → κ (.txz, el g.naz (px j) (pz j)) = j ∧ κ (.txz, el g.naz (qx j) (qz j)) = j ∧
        κ (.txz, el g.naz (rx j) (rz j)) = j ∧ κ (.txz, el g.naz (sx j) (sz j)) = j) →
      (el g.naz (px i) (pz i) ≠ el g.naz (qx i) (qz i) ∧ el g.naz (px i) (pz i) ≠ el g.naz (rx i) (rz i) ∧
        el g.naz (px i) (pz i) ≠ el g.naz (sx i) (sz i) ∧ el g.naz (rx i) (rz i) ≠ el g.naz (qx i) (qz i) ∧
        el g.naz (rx i) (rz i) ≠ el g.naz (sx i) (sz i)) →
      M (.txz, el g.naz (px i) (pz i)) = - M (.txz, el g.naz (qx i) (qz i)) ∧
      M (.txz, el g.naz (rx i) (rz i)) = - M (.txz, el g.naz (sx i) (sz i))) := by
  rw [side_parts] at hM
  have hsz : ∀ c : Cell, c.1 = za → sa ∉ [za] := by rcases ha with ⟨rfl, rfl⟩ | ⟨rfl, rfl⟩ <;> exact fun _ _ => by decide
  have htz : Arr.txz ∉ [za] := by rcases ha with ⟨rfl, rfl⟩ | ⟨rfl, rfl⟩ <;> decide
  have hst : sa ∉ [Arr.txz] := by rcases ha with ⟨rfl, rfl⟩ | ⟨rfl, rfl⟩ <;> decide
  have hzv : za ∉ vels := by rcases ha with ⟨rfl, rfl⟩ | ⟨rfl, rfl⟩ <;> decide
  have htv : Arr.txz ∉ vels := by decide
  have hzf : ∀ i, fld (za, i) = true := by rcases ha with ⟨rfl, rfl⟩ | ⟨rfl, rfl⟩ <;> exact fun _ => rfl
  refine ⟨fun h1 h2 => ⟨?_, ?_⟩, fun h1 h2 hk' hd => ?_⟩
  · rw [hM, run_spares (l := [za]), run_spares (l := [za])]
    · exact zero_line (p := fun j => el g.naz (x j) (z j)) h1 h2 m
    · exact all_parfor fun _ _ _ => all_cons htz (all_one htz)
    · exact List.mem_singleton.mpr rfl
    · exact all_parfor fun _ _ _ => all_one (hsz (za, 0) rfl)
    · exact List.mem_singleton.mpr rfl
  · rw [← run_append (parfor lo hi _).flatten] at hM
    rw [hM, surf_line (dv := dv) h1 h2 hk ho]
    clear hM
    have hf : ∀ c, fld c = false → run ((parfor lo hi fun j => [(zr g za (x j) (z j) : Stmt Cell K)]).flatten ++
        (parfor lo' hi' fun j => [(ng g .txz (px j) (pz j) (qx j) (qz j) : Stmt Cell K),
          ng g .txz (rx j) (rz j) (sx j) (sz j)]).flatten) m c = m c := by
      intro c hc
      refine run_untouched (all_append (all_parfor fun _ _ _ => all_one ?_) (all_parfor fun _ _ _ => all_cons ?_ (all_one ?_))) m <;>
        rintro rfl
      · have e := hzf (el g.naz (x ‹_›) (z ‹_›))
        exact absurd (e.symm.trans hc) (by decide)
      · exact absurd hc (by show ¬ (true = false); decide)
      · exact absurd hc (by show ¬ (true = false); decide)
    have hp : All (Spares vels) ((parfor lo hi fun j => [(zr g za (x j) (z j) : Stmt Cell K)]).flatten ++
        (parfor lo' hi' fun j => [(ng g .txz (px j) (pz j) (qx j) (qz j) : Stmt Cell K),
          ng g .txz (rx j) (rz j) (sx j) (sz j)]).flatten) :=
      all_append (all_parfor fun _ _ _ => all_one hzv) (all_parfor fun _ _ _ => all_cons htv (all_one htv))
    revert hf hp
    generalize (parfor lo hi fun j => [(zr g za (x j) (z j) : Stmt Cell K)]).flatten ++
        (parfor lo' hi' fun j => [(ng g .txz (px j) (pz j) (qx j) (qz j) : Stmt Cell K),
          ng g .txz (rx j) (rz j) (sx j) (sz j)]).flatten = p
    intro hf hp
    exact ⟨p, run p m (sa, el g.naz (x i) (z i)), hp, hf, by
      rw [hf (.keep, _) rfl, hf (.frs, _) rfl]⟩
  · have hE : ∀ c : Cell, c.1 = .txz → M c = run (parfor lo' hi' fun j => [(ng g .txz (px j) (pz j) (qx j) (qz j) : Stmt Cell K),
          ng g .txz (rx j) (rz j) (sx j) (sz j)]).flatten (run (parfor lo hi fun j => [zr g za (x j) (z j)]).flatten m) c := by
      intro c hc
      have hS : All (Spares [.txz]) (parfor lo hi fun j => [surf g sa (x j) (z j) (dv j)]).flatten :=
        all_parfor fun _ _ _ => all_one hst
      rw [hM, run_spares hS (List.mem_singleton.mpr hc)]
    rw [hE _ rfl, hE _ rfl, hE _ rfl, hE _ rfl]
    exact shear_line (p := fun j => el g.naz (px j) (pz j)) (q := fun j => el g.naz (qx j) (qz j))
      (r := fun j => el g.naz (rx j) (rz j)) (s := fun j => el g.naz (sx j) (sz j)) h1 h2 hk' hd _ _ rfl

theorem ev_dvx (k1 k2 : K) {m : Cell → K} {f : Int → K} (h : ∀ i, m (.vx, i) = f i) (ix iz : Int) :
    (dvx g k1 k2 ix iz).eval m = stag k1 k2 fun j => at2 g f (ix + 1 + j) iz := by
  simp only [dvx, eval_add, eval_sub, rd, Expr.eval, h, stag, at2, el]
  rw [show ix + 1 + 0 = ix + 1 by omega, show ix + 1 + -1 = ix by omega, show ix + 1 + 1 = ix + 2 by omega,
    show ix + 1 + -2 = ix - 1 by omega]

theorem ev_dvz (k1 k2 : K) {m : Cell → K} {f : Int → K} (h : ∀ i, m (.vz, i) = f i) (ix iz : Int) :
    (dvz g k1 k2 ix iz).eval m = stag k1 k2 fun j => at2 g f ix (iz + 1 + j) := by
  simp only [dvz, eval_add, eval_sub, rd, Expr.eval, h, stag, at2, el]
  rw [show iz + 1 + 0 = iz + 1 by omega, show iz + 1 + -1 = iz by omega, show iz + 1 + 1 = iz + 2 by omega,
    show iz + 1 + -2 = iz - 1 by omega]

/-- C68, free surface at the top: after every time step the vertical normal stress vanishes on the surface, the shear stress
is antisymmetric about it, and the horizontal normal stress satisfies the stress-free relation.  The corner of two free
surfaces belongs to the left one. -/
theorem elastic_free_top (hv : Valid g) (k : Coef K) (med : Cell → K) (hfm : FreeMed med) (n : Nat) (u0 : Field K)
    (ht : g.top = 1) (ix : Int) :
    let u' := propagate g k med (n + 1) u0
    (1 ≤ ix → ix < g.iePx → (g.lef = 1 → ix ≠ 1) →
      at2 g u'.tzz ix 1 = 0 ∧
      surfaceStress med (ix * g.naz + 1) (at2 g u'.txx ix 1) (stag k.d1 k.d2 fun j => at2 g u'.vx (ix + 1 + j) 1)) ∧
    (2 ≤ ix → ix < ieTx g → at2 g u'.txz ix 1 = - at2 g u'.txz ix 2 ∧
      ((g.bot = 1 → 2 ≤ g.nz) → at2 g u'.txz ix 0 = - at2 g u'.txz ix 3)) := by
  obtain ⟨⟨g1, g2, g3, g4, g5⟩, ⟨p1, p2, p3, p4⟩, q1, q2, q3, q4⟩ := grid hv
  have ex : g.iePx + 1 = ieTx g := by simp only [Cfg.iePx, ieTx]; omega
  have ez : g.iePz + 3 = g.naz := by simp only [Cfg.iePz]; omega
  have ez' : g.nz + 1 ≤ g.iePz := by simp only [Cfg.iePz]; omega
  have tz : ieTz g + 2 = g.naz := by simp only [ieTz]; omega
  obtain ⟨mf, hs, hmed⟩ := before_free k med n u0
  have eT : run (seqOf (freeTop g k)) mf = run (seqOf [parfor 1 g.iePx fun ix => [zr g .tzz ix 1],
      parfor 2 (ieTx g) fun ix => [ng g .txz ix 1 ix 2, ng g .txz ix 0 ix 3],
      parfor 1 g.iePx fun ix => [surf g .txx ix 1 (dvx g k.d1 k.d2 ix 1)]]) mf := by rw [freeTop, if_pos ht]; rfl
  have late : ∀ (a : Arr) (jx jz : Int), 0 ≤ jz → jz < g.naz →
      (a = .txx ∨ a = .tzz → jz = 1 ∧ jx < g.iePx ∧ (g.lef = 1 → jx ≠ 1)) →
      (a = .txz → 2 ≤ jx ∧ jx < ieTx g ∧ (g.bot = 1 → jz ≤ g.iePz)) →
      steps g k (n + 1) (mem med u0) (a, el g.naz jx jz) = run (seqOf (freeTop g k)) mf (a, el g.naz jx jz) := by
    intro a jx jz e1 e2 hn hx
    rw [hs, free_parts, run_avoids (lef_avoids hv k (fun e h _ _ => (hn e).2.2 h) fun e _ _ _ => ?_) e1 e2,
      run_avoids (bot_avoids hv k (fun e h _ _ => ?_) fun e h _ _ => ?_) e1 e2,
      run_avoids (rig_avoids hv k (fun e h => ?_) fun e h _ _ => ?_) e1 e2]
    · have := hn e; omega
    · have := hx e; omega
    · have := hn e; omega
    · have := (hx e).2.2 h; omega
    · have := hx e; omega
  intro u'
  have S := side (κ := colOf g.naz) (.inl ⟨rfl, rfl⟩) (fun j _ _ a => colOf_el (by decide) (by omega))
    (fun j => off_dvx k.d1 k.d2 j 1) mf _ eT ix
  refine ⟨fun h1 h2 h3 => ?_, fun h1 h2 => ?_⟩
  · obtain ⟨e0, p, t0, hp, hf, e1⟩ := S.1 h1 h2
    have L : ∀ a, a = .txx ∨ a = .tzz → steps g k (n + 1) (mem med u0) (a, el g.naz ix 1) = _ := fun a ha =>
      late a ix 1 (by omega) (by omega) (fun _ => ⟨rfl, h2, h3⟩) (by rcases ha with rfl | rfl <;> (intro e; cases e))
    refine ⟨(L _ (.inr rfl)).trans e0, surf_value hfm (t0 := t0) ((L _ (.inl rfl)).trans ?_)⟩
    rw [e1, hmed _ rfl, hmed _ rfl, ev_dvx _ _ (free_keeps hv k med n u0 mf hs hp).1]
    rfl
  · obtain ⟨e0, e1⟩ := S.2 h1 h2 (fun j _ _ => by refine ⟨colOf_el ?_ ?_, colOf_el ?_ ?_, colOf_el ?_ ?_, colOf_el ?_ ?_⟩ <;>
      omega) (by refine ⟨?_, ?_, ?_, ?_, ?_⟩ <;> refine el_ne ?_ ?_ ?_ ?_ ?_ <;> omega)
    have L : ∀ jz, 0 ≤ jz → jz < g.naz → (g.bot = 1 → jz ≤ g.iePz) → at2 g u'.txz ix jz = _ := fun jz a1 a2 hb =>
      late .txz ix jz a1 a2 (by rintro (e | e) <;> cases e) fun _ => ⟨h1, h2, hb⟩
    refine ⟨?_, fun hb => ?_⟩
    · rw [L 1 (by omega) (by omega) (by omega), L 2 (by omega) (by omega) (by omega)]; exact e0
    · rw [L 0 (by omega) (by omega) (by omega), L 3 (by omega) (by omega) (by omega)]; exact e1

/-- C68, free surface at the right. -/
theorem elastic_free_right (hv : Valid g) (k : Coef K) (med : Cell → K) (hfm : FreeMed med) (n : Nat) (u0 : Field K)
    (ht : g.rig = 1) (iz : Int) :
    let u' := propagate g k med (n + 1) u0
    (1 ≤ iz → iz < g.iePz →
      at2 g u'.txx g.iePx iz = 0 ∧
      surfaceStress med (g.iePx * g.naz + iz) (at2 g u'.tzz g.iePx iz)
        (stag k.d1 k.d2 fun j => at2 g u'.vz g.iePx (iz + 1 + j))) ∧
    (2 ≤ iz → iz < ieTz g → at2 g u'.txz (g.iePx + 1) iz = - at2 g u'.txz g.iePx iz ∧
      ((g.lef = 1 → 2 ≤ g.nx) → at2 g u'.txz (g.iePx + 2) iz = - at2 g u'.txz (g.iePx - 1) iz)) := by
  obtain ⟨⟨g1, g2, g3, g4, g5⟩, ⟨p1, p2, p3, p4⟩, q1, q2, q3, q4⟩ := grid hv
  have ex : g.nx + 1 ≤ g.iePx := by simp only [Cfg.iePx]; omega
  have ez : g.iePz + 3 = g.naz := by simp only [Cfg.iePz]; omega
  have tz : ieTz g + 2 = g.naz := by simp only [ieTz]; omega
  obtain ⟨mf, hs, hmed⟩ := before_free k med n u0
  obtain ⟨mt, hmt⟩ : ∃ mt, mt = run (seqOf (freeTop g k)) mf := ⟨_, rfl⟩
  have eT : run (seqOf (freeRig g k)) mt = run (seqOf [parfor 1 g.iePz fun iz => [zr g .txx g.iePx iz],
      parfor 2 (ieTz g) fun iz => [ng g .txz (g.iePx + 1) iz g.iePx iz, ng g .txz (g.iePx + 2) iz (g.iePx - 1) iz],
      parfor 1 g.iePz fun iz => [surf g .tzz g.iePx iz (dvz g k.d1 k.d2 g.iePx iz)]]) mt := by rw [freeRig, if_pos ht]; rfl
  have late : ∀ (a : Arr) (jx jz : Int), 0 ≤ jz → jz < g.naz →
      (a = .txx ∨ a = .tzz → jx = g.iePx ∧ jz < g.iePz) →
      (a = .txz → 2 ≤ jz ∧ jz < ieTz g ∧ (g.lef = 1 → 2 ≤ jx)) →
      steps g k (n + 1) (mem med u0) (a, el g.naz jx jz) = run (seqOf (freeRig g k)) mt (a, el g.naz jx jz) := by
    intro a jx jz e1 e2 hn hx
    rw [hs, free_parts, hmt, run_avoids (lef_avoids hv k (fun e h _ _ => ?_) fun e h _ _ => ?_) e1 e2,
      run_avoids (bot_avoids hv k (fun e h _ _ => ?_) fun e h _ _ => ?_) e1 e2]
    · have := hn e; omega
    · have := hx e; omega
    · have := hn e; omega
    · have := (hx e).2.2 h; omega
  intro u'
  have hvl := sides_spare hv k (l := seqOf (freeTop g k)) (K := K) (.inl rfl)
  have S := side (κ := rowOf g.naz) (.inr ⟨rfl, rfl⟩) (fun j h1 h2 a => rowOf_el (by omega) (by omega))
    (fun j => off_dvz k.d1 k.d2 g.iePx j) mt _ eT iz
  refine ⟨fun h1 h2 => ?_, fun h1 h2 => ?_⟩
  · obtain ⟨e0, p, t0, hp, hf, e1⟩ := S.1 h1 h2
    have L : ∀ a, a = .txx ∨ a = .tzz → steps g k (n + 1) (mem med u0) (a, el g.naz g.iePx iz) = _ := fun a ha =>
      late a g.iePx iz (by omega) (by omega) (fun _ => ⟨rfl, h2⟩) (by rcases ha with rfl | rfl <;> (intro e; cases e))
    refine ⟨(L _ (.inl rfl)).trans e0, surf_value hfm (t0 := t0) ((L _ (.inr rfl)).trans ?_)⟩
    have V := (free_keeps hv k med n u0 mf hs (all_append hvl.1 hp)).2
    rw [run_append, ← hmt] at V
    rw [e1, hmt, hvl.2 _ _ rfl, hvl.2 _ _ rfl, hmed _ rfl, hmed _ rfl, ← hmt, ev_dvz _ _ V]
    rfl
  · obtain ⟨e0, e1⟩ := S.2 h1 h2 (fun j _ _ => by refine ⟨rowOf_el ?_ ?_, rowOf_el ?_ ?_, rowOf_el ?_ ?_, rowOf_el ?_ ?_⟩ <;>
      omega) (by refine ⟨?_, ?_, ?_, ?_, ?_⟩ <;> refine el_ne ?_ ?_ ?_ ?_ ?_ <;> omega)
    have L : ∀ jx, (g.lef = 1 → 2 ≤ jx) → at2 g u'.txz jx iz = _ := fun jx hb =>
      late .txz jx iz (by omega) (by omega) (by rintro (e | e) <;> cases e) fun _ => ⟨h1, h2, hb⟩
    refine ⟨?_, fun hb => ?_⟩
    · rw [L (g.iePx + 1) (by omega), L g.iePx (by omega)]; exact e0
    · rw [L (g.iePx + 2) (by omega), L (g.iePx - 1) (by omega)]; exact e1

/-- C68, free surface at the bottom. -/
theorem elastic_free_bottom (hv : Valid g) (k : Coef K) (med : Cell → K) (hfm : FreeMed med) (n : Nat) (u0 : Field K)
    (ht : g.bot = 1) (ix : Int) :
    let u' := propagate g k med (n + 1) u0
    (1 ≤ ix → ix < g.iePx →
      at2 g u'.tzz ix g.iePz = 0 ∧
      surfaceStress med (ix * g.naz + g.iePz) (at2 g u'.txx ix g.iePz)
        (stag k.d1 k.d2 fun j => at2 g u'.vx (ix + 1 + j) g.iePz)) ∧
    (2 ≤ ix → ix < ieTx g → at2 g u'.txz ix (g.iePz + 1) = - at2 g u'.txz ix g.iePz ∧
      at2 g u'.txz ix (g.iePz + 2) = - at2 g u'.txz ix (g.iePz - 1)) := by
  obtain ⟨⟨g1, g2, g3, g4, g5⟩, ⟨p1, p2, p3, p4⟩, q1, q2, q3, q4⟩ := grid hv
  have ez : g.iePz + 3 = g.naz := by simp only [Cfg.iePz]; omega
  have ez' : g.nz + 1 ≤ g.iePz := by simp only [Cfg.iePz]; omega
  have tz : ieTz g + 2 = g.naz := by simp only [ieTz]; omega
  obtain ⟨mf, hs, hmed⟩ := before_free k med n u0
  obtain ⟨mt, hmt⟩ : ∃ mt, mt = run (seqOf (freeTop g k) ++ seqOf (freeRig g k)) mf := ⟨_, rfl⟩
  have eT : run (seqOf (freeBot g k)) mt = run (seqOf [parfor 1 g.iePx fun ix => [zr g .tzz ix g.iePz],
      parfor 2 (ieTx g) fun ix => [ng g .txz ix (g.iePz + 1) ix g.iePz, ng g .txz ix (g.iePz + 2) ix (g.iePz - 1)],
      parfor 1 g.iePx fun ix => [surf g .txx ix g.iePz (dvx g k.d1 k.d2 ix g.iePz)]]) mt := by rw [freeBot, if_pos ht]; rfl
  have late : ∀ (a : Arr) (jx jz : Int), 0 ≤ jz → jz < g.naz →
      (a = .txx ∨ a = .tzz → jz = g.iePz) → (a = .txz → 2 ≤ jx) →
      steps g k (n + 1) (mem med u0) (a, el g.naz jx jz) = run (seqOf (freeBot g k)) mt (a, el g.naz jx jz) := by
    intro a jx jz e1 e2 hn hx
    rw [hs, free_parts, hmt, run_avoids (lef_avoids hv k (fun e h _ _ => ?_) fun e h _ _ => ?_) e1 e2, run_append]
    · have := hn e; omega
    · have := hx e; omega
  intro u'
  have hvl := sides_spare hv k (l := seqOf (freeTop g k) ++ seqOf (freeRig g k)) (K := K) (.inr (.inl rfl))
  have S := side (κ := colOf g.naz) (.inl ⟨rfl, rfl⟩) (fun j _ _ a => colOf_el (by omega) (by omega))
    (fun j => off_dvx k.d1 k.d2 j g.iePz) mt _ eT ix
  refine ⟨fun h1 h2 => ?_, fun h1 h2 => ?_⟩
  · obtain ⟨e0, p, t0, hp, hf, e1⟩ := S.1 h1 h2
    have L : ∀ a, a = .txx ∨ a = .tzz → steps g k (n + 1) (mem med u0) (a, el g.naz ix g.iePz) = _ := fun a ha =>
      late a ix g.iePz (by omega) (by omega) (fun _ => rfl) (by rcases ha with rfl | rfl <;> (intro e; cases e))
    refine ⟨(L _ (.inr rfl)).trans e0, surf_value hfm (t0 := t0) ((L _ (.inl rfl)).trans ?_)⟩
    have V := (free_keeps hv k med n u0 mf hs (all_append hvl.1 hp)).1
    rw [run_append, ← hmt] at V
    rw [e1, hmt, hvl.2 _ _ rfl, hvl.2 _ _ rfl, hmed _ rfl, hmed _ rfl, ← hmt, ev_dvx _ _ V]
    rfl
  · obtain ⟨e0, e1⟩ := S.2 h1 h2 (fun j _ _ => by refine ⟨colOf_el ?_ ?_, colOf_el ?_ ?_, colOf_el ?_ ?_, colOf_el ?_ ?_⟩ <;>
      omega) (by refine ⟨?_, ?_, ?_, ?_, ?_⟩ <;> refine el_ne ?_ ?_ ?_ ?_ ?_ <;> omega)
    have L : ∀ jz, 0 ≤ jz → jz < g.naz → at2 g u'.txz ix jz = _ := fun jz a1 a2 =>
      late .txz ix jz a1 a2 (by rintro (e | e) <;> cases e) fun _ => h1
    rw [L (g.iePz + 1) (by omega) (by omega), L g.iePz (by omega) (by omega), L (g.iePz + 2) (by omega) (by omega),
      L (g.iePz - 1) (by omega) (by omega)]
    exact ⟨e0, e1⟩

/-- C68, free surface at the left. -/
theorem elastic_free_left (hv : Valid g) (k : Coef K) (med : Cell → K) (hfm : FreeMed med) (n : Nat) (u0 : Field K)
    (ht : g.lef = 1) (iz : Int) :
    let u' := propagate g k med (n + 1) u0
    (1 ≤ iz → iz < g.iePz →
      at2 g u'.txx 1 iz = 0 ∧
      surfaceStress med (1 * g.naz + iz) (at2 g u'.tzz 1 iz) (stag k.d1 k.d2 fun j => at2 g u'.vz 1 (iz + 1 + j))) ∧
    (2 ≤ iz → iz < ieTz g → at2 g u'.txz 1 iz = - at2 g u'.txz 2 iz ∧ at2 g u'.txz 0 iz = - at2 g u'.txz 3 iz) := by
  obtain ⟨⟨g1, g2, g3, g4, g5⟩, ⟨p1, p2, p3, p4⟩, q1, q2, q3, q4⟩ := grid hv
  have ez : g.iePz + 3 = g.naz := by simp only [Cfg.iePz]; omega
  have tz : ieTz g + 2 = g.naz := by simp only [ieTz]; omega
  obtain ⟨mf, hs, hmed⟩ := before_free k med n u0
  obtain ⟨mt, hmt⟩ : ∃ mt, mt = run (seqOf (freeTop g k) ++ seqOf (freeRig g k) ++ seqOf (freeBot g k)) mf := ⟨_, rfl⟩
  have eT : run (seqOf (freeLef g k)) mt = run (seqOf [parfor 1 g.iePz fun iz => [zr g .txx 1 iz],
      parfor 2 (ieTz g) fun iz => [ng g .txz 1 iz 2 iz, ng g .txz 0 iz 3 iz],
      parfor 1 g.iePz fun iz => [surf g .tzz 1 iz (dvz g k.d1 k.d2 1 iz)]]) mt := by rw [freeLef, if_pos ht]; rfl
  have late : steps g k (n + 1) (mem med u0) = run (seqOf (freeLef g k)) mt := by
    rw [hs, free_parts, hmt, run_append, run_append]
  intro u'
  have hvl := sides_spare hv k (l := seqOf (freeTop g k) ++ seqOf (freeRig g k) ++ seqOf (freeBot g k)) (K := K)
    (.inr (.inr rfl))
  have S := side (κ := rowOf g.naz) (x := fun _ => 1) (.inr ⟨rfl, rfl⟩) (fun j h1 h2 a => rowOf_el (by omega) (by omega))
    (fun j => off_dvz k.d1 k.d2 1 j) mt _ eT iz
  refine ⟨fun h1 h2 => ?_, fun h1 h2 => ?_⟩
  · obtain ⟨e0, p, t0, hp, hf, e1⟩ := S.1 h1 h2
    rw [← late] at e0 e1
    refine ⟨e0, surf_value hfm (t0 := t0) (e1.trans ?_)⟩
    have V := (free_keeps hv k med n u0 mf hs (all_append hvl.1 hp)).2
    rw [run_append, ← hmt] at V
    rw [hmt, hvl.2 _ _ rfl, hvl.2 _ _ rfl, hmed _ rfl, hmed _ rfl, ← hmt, ev_dvz _ _ V]
    rfl
  · have e := S.2 h1 h2 (fun j _ _ => by refine ⟨rowOf_el ?_ ?_, rowOf_el ?_ ?_, rowOf_el ?_ ?_, rowOf_el ?_ ?_⟩ <;>
      omega) (by refine ⟨?_, ?_, ?_, ?_, ?_⟩ <;> refine el_ne ?_ ?_ ?_ ?_ ?_ <;> omega)
    rw [← late] at e
    exact e

end

/-- A grid with four free sides and a medium that is not trivial meet the hypotheses. -/
example : Valid ⟨4, 4, 5, 1, 1, 1, 1⟩ ∧ FreeMed (K := Int) (fun c => match c.1 with
    | .l2m => 2 | .lam => 2 | _ => 0) ∧ ¬ FreedN ⟨4, 4, 5, 1, 1, 1, 1⟩ 3 3 ∧ ¬ FreedT ⟨4, 4, 5, 1, 1, 1, 1⟩ 3 3 ∧
    InS ⟨4, 4, 5, 1, 1, 1, 1⟩ 3 3 ∧ ¬ InPml ⟨4, 4, 5, 1, 1, 1, 1⟩ 5 3 ∧ (5 : Int) = ieTx ⟨4, 4, 5, 1, 1, 1, 1⟩ - 1 := by
  refine ⟨⟨by decide, by decide, by decide, by decide, by decide, by decide, by decide⟩, ?_, ?_, ?_, ?_, ?_, by decide⟩
  · intro i; simp
  · simp only [FreedN]; decide
  · simp only [FreedT]; decide
  · simp only [InS]; decide
  · simp only [InPml]; decide

/-- A field that does move: one time step on a 3×3 grid with free surfaces turns a unit shear stress in the middle into
particle velocities and normal stress. -/
example : let u0 : Field Int := { Field.rest with txz := fun i => if i = 3 * 7 + 3 then 1 else 0 }
    let u : Field Int := propagate ⟨3, 3, 5, 1, 1, 1, 1⟩ ⟨27, -1, 27, -1⟩ (fun _ => 1) 1 u0
    u.vx (3 * 7 + 2) = -27 ∧ u.vz (2 * 7 + 3) = -27 ∧ u.txx (3 * 7 + 3) ≠ 0 := by
  decide +kernel

end Verif.Fd.Ela

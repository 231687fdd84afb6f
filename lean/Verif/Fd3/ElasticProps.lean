import Verif.Fd3.Elastic3D
import Verif.Fd3.Props

/-! # C178-C181: the elastic sweeps of fdelmodc3D -/

namespace Verif.Fd3.El

open Verif.Sten

/-! ## Specification -/

section Spec
variable {K : Type} [CommRing K]

/-- Value of a wave field at plane `iy`, column `ix`, row `iz`. -/
def at3 (g : Cfg) (m : Ce → K) (a : Fd) (iy ix iz : Int) : K := m (.w a (g.idx iy ix iz))

/-- Staggered differences of a field along the three axes: towards the smaller indices (`B`), towards the larger (`F`). -/
def Bx (g : Cfg) (c1 c2 : K) (m : Ce → K) (a : Fd) (iy ix iz : Int) : K := stag c1 c2 fun j => at3 g m a iy (ix + j) iz
def By (g : Cfg) (c1 c2 : K) (m : Ce → K) (a : Fd) (iy ix iz : Int) : K := stag c1 c2 fun j => at3 g m a (iy + j) ix iz
def Bz (g : Cfg) (c1 c2 : K) (m : Ce → K) (a : Fd) (iy ix iz : Int) : K := stag c1 c2 fun j => at3 g m a iy ix (iz + j)
def Fx (g : Cfg) (c1 c2 : K) (m : Ce → K) (a : Fd) (iy ix iz : Int) : K := stag c1 c2 fun j => at3 g m a iy (ix + 1 + j) iz
def Fy (g : Cfg) (c1 c2 : K) (m : Ce → K) (a : Fd) (iy ix iz : Int) : K := stag c1 c2 fun j => at3 g m a (iy + 1 + j) ix iz
def Fz (g : Cfg) (c1 c2 : K) (m : Ce → K) (a : Fd) (iy ix iz : Int) : K := stag c1 c2 fun j => at3 g m a iy ix (iz + 1 + j)

/-- Newton's law (velocities) and Hooke's law (stresses) for one time step, from the fields `m`. -/
def law (g : Cfg) (c1 c2 : K) (m : Ce → K) (a : Fd) (iy ix iz : Int) : K :=
  let B x := (Bx g c1 c2 m x iy ix iz, By g c1 c2 m x iy ix iz, Bz g c1 c2 m x iy ix iz)
  let F x := (Fx g c1 c2 m x iy ix iz, Fy g c1 c2 m x iy ix iz, Fz g c1 c2 m x iy ix iz)
  let med x := m (.m x iy ix iz)
  at3 g m a iy ix iz - match a with
    | .vx => med .rox * ((B .txx).1 + (F .txy).2.1 + (F .txz).2.2)
    | .vy => med .roy * ((F .txy).1 + (B .tyy).2.1 + (F .tyz).2.2)
    | .vz => med .roz * ((F .txz).1 + (F .tyz).2.1 + (B .tzz).2.2)
    | .txx => med .l2m * (F .vx).1 + med .lam * ((F .vy).2.1 + (F .vz).2.2)
    | .tyy => med .l2m * (F .vy).2.1 + med .lam * ((F .vx).1 + (F .vz).2.2)
    | .tzz => med .l2m * (F .vz).2.2 + med .lam * ((F .vx).1 + (F .vy).2.1)
    | .txz => med .mul * ((B .vx).2.2 + (B .vz).1)
    | .txy => med .mul * ((B .vx).2.1 + (B .vy).1)
    | .tyz => med .mul * ((B .vz).2.1 + (B .vy).2.2)

/-- The points at which a field is advanced. -/
def In (g : Cfg) (a : Fd) (iy ix iz : Int) : Prop := InS g (sw a) iy ix iz

end Spec

/-! ## Lemmas -/

section
variable {g : Cfg} {K : Type} [CommRing K] {c1 c2 : K}

theorem upd_law (a : Fd) (iy ix iz : Int) (m : Ce → K) :
    (upd g c1 c2 a iy ix iz).e.eval m = law g c1 c2 m a iy ix iz := by
  have e : ∀ i : Int, i + 1 + 0 = i + 1 ∧ i + 1 + -1 = i ∧ i + 1 + 1 = i + 2 ∧ i + 1 + -2 = i - 1 := by intro i; omega
  cases a <;> simp only [upd, vxS, vyS, vzS, txxS, tyyS, tzzS, txzS, txyS, tyzS, dvx, dvy, dvz, rd, md, eval_sub,
    Expr.eval, law, Bx, By, Bz, Fx, Fy, Fz, stag, at3, add_zero, ← sub_eq_add_neg, (e _).1, (e _).2.1, (e _).2.2.1,
    (e _).2.2.2] <;> ring

theorem step_run (m : Ce → K) : step g c1 c2 m = run (seqOf (strPhases g c1 c2)) (run (seqOf (velPhases g c1 c2)) m) := by
  unfold step phases seqOf
  simp only [List.flatten_append, run_append]

end

/-! ## Property theorems -/

section
variable {g : Cfg} {K : Type} [CommRing K] {c1 c2 : K}

/-- C178: the sweeps of the elastic time step touch only elements of the arrays, for all sizes, widths of the boundaries and
types of the sides. -/
theorem elastic_in_bounds (hv : Valid g) (m : Ce → K) :
    runChecked (ok g) (seqOf (phases g c1 c2)) m = some (step g c1 c2 m) := by
  rw [runChecked_eq, if_pos]
  · rfl
  have h : ∀ s, All (fun st => ∀ c ∈ st.cells, ok g c = true) (sweep g c1 c2 s).flatten := fun s =>
    sweep_all fun a iy ix iz ha hi => upd_ok hv (ha ▸ hi)
  refine allP_append (allP_cons ?_ (allP_one (h _))) (allP_cons ?_ (allP_cons (h _) (allP_one (h _)))) <;>
    rw [List.flatten_append] <;> exact all_append (h _) (h _)

open Classical in
/-- C179, first half: the velocity sweeps advance the three velocities by Newton's law at the points of their grids, and change
nothing else. -/
theorem elastic_velocity_update (hv : Valid g) (m : Ce → K) (a : Fd) (iy ix iz : Int) (hp : Pt g iy ix iz) :
    at3 g (run (seqOf (velPhases g c1 c2)) m) a iy ix iz =
      (if vel a ∧ In g a iy ix iz then law g c1 c2 m a iy ix iz else at3 g m a iy ix iz) ∧
    ∀ b, run (seqOf (velPhases g c1 c2)) m (.m b iy ix iz) = m (.m b iy ix iz) := by
  refine ⟨?_, fun b => by rw [vel_seq, sweeps_med]⟩
  unfold at3
  rw [vel_seq, sweeps_at hv (k := true) _ (by decide) (by decide) hp, upd_law]
  have : sw a ∈ [Sw.x, .y, .z] ↔ vel a = true := by cases a <;> decide
  by_cases hc : vel a = true ∧ In g a iy ix iz
  · rw [if_pos hc, if_pos ⟨this.mpr hc.1, hc.2⟩]
  · rw [if_neg hc, if_neg fun k => hc ⟨this.mp k.1, k.2⟩]

open Classical in
/-- C179, second half: the stress sweeps advance the six stresses by Hooke's law at the points of their grids, and change
nothing else. -/
theorem elastic_stress_update (hv : Valid g) (m : Ce → K) (a : Fd) (iy ix iz : Int) (hp : Pt g iy ix iz) :
    at3 g (run (seqOf (strPhases g c1 c2)) m) a iy ix iz =
      (if ¬ vel a ∧ In g a iy ix iz then law g c1 c2 m a iy ix iz else at3 g m a iy ix iz) ∧
    ∀ b, run (seqOf (strPhases g c1 c2)) m (.m b iy ix iz) = m (.m b iy ix iz) := by
  refine ⟨?_, fun b => by rw [str_seq, sweeps_med]⟩
  unfold at3
  rw [str_seq, sweeps_at hv (k := false) _ (by decide) (by decide) hp, upd_law]
  have : sw a ∈ [Sw.p, .xz, .xy, .yz] ↔ ¬ vel a = true := by cases a <;> decide
  by_cases hc : ¬ vel a = true ∧ In g a iy ix iz
  · rw [if_pos hc, if_pos ⟨this.mpr hc.1, hc.2⟩]
  · rw [if_neg hc, if_neg fun k => hc ⟨this.mp k.1, k.2⟩]

/-- C179: the points at which a field is advanced, in numbers: the model and, for the stresses only, the absorbing strips; each
field begins and ends half a cell further along the axes in which its grid is shifted. -/
theorem elastic_grids (g : Cfg) (iy ix iz : Int) :
    (∀ a, (a = .txz ∨ a = .txy ∨ a = .tyz) → (In g a iy ix iz ↔
      (2 ≤ iy ∧ iy < g.ny + 2 + g.pad g.fro + g.pad g.bac) ∧ (2 ≤ ix ∧ ix < g.nx + 2 + g.pad g.lef + g.pad g.rig) ∧
        2 ≤ iz ∧ iz < g.nz + 2 + g.pad g.top + g.pad g.bot)) ∧
    (∀ a, (a = .txx ∨ a = .tyy ∨ a = .tzz) → (In g a iy ix iz ↔
      (1 ≤ iy ∧ iy < g.ny + 1 + g.pad g.fro + g.pad g.bac) ∧ (1 ≤ ix ∧ ix < g.nx + 1 + g.pad g.lef + g.pad g.rig) ∧
        1 ≤ iz ∧ iz < g.nz + 1 + g.pad g.top + g.pad g.bot)) ∧
    (In g .vx iy ix iz ↔ (1 ≤ iy - g.pad g.fro ∧ iy - g.pad g.fro ≤ g.ny) ∧ (2 ≤ ix - g.pad g.lef ∧ ix - g.pad g.lef ≤ g.nx + 1) ∧
      1 ≤ iz - g.pad g.top ∧ iz - g.pad g.top ≤ g.nz) ∧
    (In g .vy iy ix iz ↔ (2 ≤ iy - g.pad g.fro ∧ iy - g.pad g.fro ≤ g.ny + 1) ∧ (1 ≤ ix - g.pad g.lef ∧ ix - g.pad g.lef ≤ g.nx) ∧
      1 ≤ iz - g.pad g.top ∧ iz - g.pad g.top ≤ g.nz) ∧
    (In g .vz iy ix iz ↔ (1 ≤ iy - g.pad g.fro ∧ iy - g.pad g.fro ≤ g.ny) ∧ (1 ≤ ix - g.pad g.lef ∧ ix - g.pad g.lef ≤ g.nx) ∧
      2 ≤ iz - g.pad g.top ∧ iz - g.pad g.top ≤ g.nz + 1) := by
  refine ⟨?_, ?_, ?_, ?_, ?_⟩
  · rintro a (rfl | rfl | rfl) <;> simp only [In, InS, sw, lo, hi, ieTx, ieTy, ieTz] <;> omega
  · rintro a (rfl | rfl | rfl) <;> simp only [In, InS, sw, lo, hi, Cfg.iePx, Cfg.iePy, Cfg.iePz] <;> omega
  · simp only [In, InS, sw, lo, hi, Cfg.ioXx, Cfg.ioXy, Cfg.ioXz, Cfg.ieXx, Cfg.ieXy, Cfg.ieXz]; omega
  · simp only [In, InS, sw, lo, hi, Cfg.ioYx, Cfg.ioYy, Cfg.ioYz, Cfg.ieYx, Cfg.ieYy, Cfg.ieYz]; omega
  · simp only [In, InS, sw, lo, hi, Cfg.ioZx, Cfg.ioZy, Cfg.ioZz, Cfg.ieZx, Cfg.ieZy, Cfg.ieZz]; omega

/-- C180: every schedule of the threads gives the fields of the sequential program. -/
theorem elastic_schedule (hv : Valid g) (m m' : Ce → K) (h : ParResult (phases g c1 c2) m m') : m' = step g c1 c2 m := by
  refine parResult_unique (fun ph hph => ?_) h
  simp only [phases, velPhases, strPhases, List.cons_append, List.nil_append, List.mem_cons, List.not_mem_nil, or_false] at hph
  rcases hph with rfl | rfl | rfl | rfl | rfl
  · exact two_free hv rfl (by decide)
  · exact phaseFree_of_pairwise (sweep_apart hv _)
  · exact two_free hv rfl (by decide)
  · exact phaseFree_of_pairwise (sweep_apart hv _)
  · exact phaseFree_of_pairwise (sweep_apart hv _)

/-- C180: the sweeps are linear in the wave fields. -/
theorem elastic_linear (s t : K) (m1 m2 : Ce → K) (hm : ∀ a, fld a = false → m1 a = m2 a) :
    step g c1 c2 (comb fld s t m1 m2) = comb fld s t (step g c1 c2 m1) (step g c1 c2 m2) := by
  refine run_comb ?_ s t m1 m2 hm
  have h : ∀ s, All (fun s => fld s.dst = true ∧ s.e.lin fld = true) (sweep g c1 c2 s).flatten := fun s =>
    sweep_all fun a iy ix iz ha hi => by cases a <;> exact ⟨rfl, rfl⟩
  refine allP_append (allP_cons ?_ (allP_one (h _))) (allP_cons ?_ (allP_cons (h _) (allP_one (h _)))) <;>
    rw [List.flatten_append] <;> exact all_append (h _) (h _)

/-- An elastic state that describes a fluid with the acoustic state `q`: the three normal stresses are the pressure, the
shear stresses and the shear modulus are zero, both moduli are the bulk modulus. -/
structure Fluid (g : Cfg) (m : Ce → K) (q : Cell → K) : Prop where
  vx : ∀ iy ix iz, Pt g iy ix iz → at3 g m .vx iy ix iz = Fd3.at3 g q .vx iy ix iz
  vy : ∀ iy ix iz, Pt g iy ix iz → at3 g m .vy iy ix iz = Fd3.at3 g q .vy iy ix iz
  vz : ∀ iy ix iz, Pt g iy ix iz → at3 g m .vz iy ix iz = Fd3.at3 g q .vz iy ix iz
  nor : ∀ a, a = .txx ∨ a = .tyy ∨ a = .tzz → ∀ iy ix iz, Pt g iy ix iz → at3 g m a iy ix iz = Fd3.at3 g q .p iy ix iz
  she : ∀ a, a = .txz ∨ a = .txy ∨ a = .tyz → ∀ iy ix iz, Pt g iy ix iz → at3 g m a iy ix iz = 0
  rox : ∀ iy ix iz, Pt g iy ix iz → m (.m .rox iy ix iz) = q (.m .rox iy ix iz)
  roy : ∀ iy ix iz, Pt g iy ix iz → m (.m .roy iy ix iz) = q (.m .roy iy ix iz)
  roz : ∀ iy ix iz, Pt g iy ix iz → m (.m .roz iy ix iz) = q (.m .roz iy ix iz)
  l2m : ∀ iy ix iz, Pt g iy ix iz → m (.m .l2m iy ix iz) = q (.m .l2m iy ix iz)
  lam : ∀ iy ix iz, Pt g iy ix iz → m (.m .lam iy ix iz) = q (.m .l2m iy ix iz)
  mul : ∀ iy ix iz, Pt g iy ix iz → m (.m .mul iy ix iz) = 0

/-- A staggered difference of values that agree on the four points. -/
theorem stag_congr {f h : Int → K} (e : ∀ j : Int, -2 ≤ j → j ≤ 1 → f j = h j) : stag c1 c2 f = stag c1 c2 h := by
  unfold stag
  rw [e 0 (by decide) (by decide), e (-1) (by decide) (by decide), e 1 (by decide) (by decide), e (-2) (by decide) (by decide)]

theorem stag_zero {f : Int → K} (e : ∀ j : Int, -2 ≤ j → j ≤ 1 → f j = 0) : stag c1 c2 f = 0 := by
  rw [stag_congr (h := fun _ => 0) e]; unfold stag; ring

/-- Both kernels use the same velocity grids, and without PML the same pressure grid. -/
theorem in_eq (hl : g.lef ≠ 2) (hr : g.rig ≠ 2) (hf : g.fro ≠ 2) (hb : g.bac ≠ 2) (ht : g.top ≠ 2) (ho : g.bot ≠ 2) (iy ix iz : Int) :
    (In g .vx iy ix iz ↔ Fd3.In g .vx iy ix iz) ∧ (In g .vy iy ix iz ↔ Fd3.In g .vy iy ix iz) ∧
    (In g .vz iy ix iz ↔ Fd3.In g .vz iy ix iz) ∧
    ∀ a, a = .txx ∨ a = .tyy ∨ a = .tzz → (In g a iy ix iz ↔ Fd3.In g .p iy ix iz) := by
  refine ⟨Iff.rfl, Iff.rfl, Iff.rfl, ?_⟩
  rintro a (rfl | rfl | rfl) <;>
    simp only [In, InS, sw, lo, hi, Fd3.In, Cfg.ioPx', Cfg.iePx', Cfg.ioPy', Cfg.iePy', Cfg.ioPz', Cfg.iePz', if_neg hl, if_neg hr,
      if_neg hf, if_neg hb, if_neg ht, if_neg ho]

/-- C181: in a fluid the elastic kernel computes what the acoustic one does: after the sweeps of both, the elastic state again
describes the fluid with the acoustic state. -/
theorem elastic_fluid (hv : Valid g) (hl : g.lef ≠ 2) (hr : g.rig ≠ 2) (hf : g.fro ≠ 2) (hb : g.bac ≠ 2) (ht : g.top ≠ 2)
    (ho : g.bot ≠ 2) {m : Ce → K} {q : Cell → K} (h : Fluid g m q) :
    Fluid g (step g c1 c2 m) (run (pPhase g c1 c2).flatten (run (velPhase g c1 c2).flatten q)) := by
  classical
  have grid := in_eq (g := g) hl hr hf hb ht ho
  have half : Fluid g (run (seqOf (velPhases g c1 c2)) m) (run (velPhase g c1 c2).flatten q) := by
    have e := elastic_velocity_update (c1 := c1) (c2 := c2) hv m
    have f := velocity_update (c1 := c1) (c2 := c2) hv q
    refine ⟨?_, ?_, ?_, ?_, ?_, ?_, ?_, ?_, ?_, ?_, ?_⟩
    · intro iy ix iz hp
      rw [(e .vx iy ix iz hp).1, (f .vx iy ix iz hp).1, velNew]
      by_cases hi : In g .vx iy ix iz
      · rw [if_pos ⟨rfl, hi⟩, if_pos ((grid iy ix iz).1.mp hi)]
        have mg := in_marg hv hi
        have m7 := mg.2.2.2.2.2.2.1 rfl
        simp only [law, Bx, Fy, Fz]
        rw [h.vx _ _ _ hp, h.rox _ _ _ hp, stag_zero (f := fun j => at3 g m .txy (iy + 1 + j) ix iz) fun j a b =>
            h.she _ (.inr (.inl rfl)) _ _ _ (by unfold Pt; omega),
          stag_zero (f := fun j => at3 g m .txz iy ix (iz + 1 + j)) fun j a b => h.she _ (.inl rfl) _ _ _ (by unfold Pt; omega),
          stag_congr (f := fun j => at3 g m .txx iy (ix + j) iz) fun j a b => h.nor _ (.inl rfl) _ _ _ (by unfold Pt; omega)]
        ring
      · rw [if_neg (fun k => hi k.2), if_neg (fun k => hi ((grid iy ix iz).1.mpr k)), h.vx _ _ _ hp]
    · intro iy ix iz hp
      rw [(e .vy iy ix iz hp).1, (f .vy iy ix iz hp).1, velNew]
      by_cases hi : In g .vy iy ix iz
      · rw [if_pos ⟨rfl, hi⟩, if_pos ((grid iy ix iz).2.1.mp hi)]
        have mg := in_marg hv hi
        have m7 := mg.2.2.2.2.2.2.2.1 rfl
        simp only [law, By, Fx, Fz]
        rw [h.vy _ _ _ hp, h.roy _ _ _ hp, stag_zero (f := fun j => at3 g m .txy iy (ix + 1 + j) iz) fun j a b =>
            h.she _ (.inr (.inl rfl)) _ _ _ (by unfold Pt; omega),
          stag_zero (f := fun j => at3 g m .tyz iy ix (iz + 1 + j)) fun j a b => h.she _ (.inr (.inr rfl)) _ _ _ (by unfold Pt; omega),
          stag_congr (f := fun j => at3 g m .tyy (iy + j) ix iz) fun j a b => h.nor _ (.inr (.inl rfl)) _ _ _ (by unfold Pt; omega)]
        ring
      · rw [if_neg (fun k => hi k.2), if_neg (fun k => hi ((grid iy ix iz).2.1.mpr k)), h.vy _ _ _ hp]
    · intro iy ix iz hp
      rw [(e .vz iy ix iz hp).1, (f .vz iy ix iz hp).1, velNew]
      by_cases hi : In g .vz iy ix iz
      · rw [if_pos ⟨rfl, hi⟩, if_pos ((grid iy ix iz).2.2.1.mp hi)]
        have mg := in_marg hv hi
        have m7 := mg.2.2.2.2.2.2.2.2.1 rfl
        simp only [law, Bz, Fx, Fy]
        rw [h.vz _ _ _ hp, h.roz _ _ _ hp, stag_zero (f := fun j => at3 g m .txz iy (ix + 1 + j) iz) fun j a b =>
            h.she _ (.inl rfl) _ _ _ (by unfold Pt; omega),
          stag_zero (f := fun j => at3 g m .tyz (iy + 1 + j) ix iz) fun j a b => h.she _ (.inr (.inr rfl)) _ _ _ (by unfold Pt; omega),
          stag_congr (f := fun j => at3 g m .tzz iy ix (iz + j)) fun j a b => h.nor _ (.inr (.inr rfl)) _ _ _ (by unfold Pt; omega)]
        ring
      · rw [if_neg (fun k => hi k.2), if_neg (fun k => hi ((grid iy ix iz).2.2.1.mpr k)), h.vz _ _ _ hp]
    · intro a ha iy ix iz hp
      rw [(e a iy ix iz hp).1, (f .p iy ix iz hp).1, velNew, if_neg (by rcases ha with rfl | rfl | rfl <;> simp [vel]),
        h.nor a ha _ _ _ hp]
      simp
    · intro a ha iy ix iz hp
      rw [(e a iy ix iz hp).1, if_neg (by rcases ha with rfl | rfl | rfl <;> simp [vel]), h.she a ha _ _ _ hp]
    all_goals intro iy ix iz hp
    · rw [(e .vx iy ix iz hp).2, (f .p iy ix iz hp).2, h.rox _ _ _ hp]
    · rw [(e .vx iy ix iz hp).2, (f .p iy ix iz hp).2, h.roy _ _ _ hp]
    · rw [(e .vx iy ix iz hp).2, (f .p iy ix iz hp).2, h.roz _ _ _ hp]
    · rw [(e .vx iy ix iz hp).2, (f .p iy ix iz hp).2, h.l2m _ _ _ hp]
    · rw [(e .vx iy ix iz hp).2, (f .p iy ix iz hp).2, h.lam _ _ _ hp]
    · rw [(e .vx iy ix iz hp).2, h.mul _ _ _ hp]
  clear h
  rw [step_run]
  generalize run (seqOf (velPhases g c1 c2)) m = m1 at half ⊢
  generalize run (velPhase g c1 c2).flatten q = q1 at half ⊢
  have e := elastic_stress_update (c1 := c1) (c2 := c2) hv m1
  have f := pressure_update (c1 := c1) (c2 := c2) hv q1
  refine ⟨?_, ?_, ?_, ?_, ?_, ?_, ?_, ?_, ?_, ?_, ?_⟩
  · intro iy ix iz hp
    rw [(e .vx iy ix iz hp).1, (f iy ix iz hp).2.1 .vx (by simp), if_neg (by simp [vel]), half.vx _ _ _ hp]
  · intro iy ix iz hp
    rw [(e .vy iy ix iz hp).1, (f iy ix iz hp).2.1 .vy (by simp), if_neg (by simp [vel]), half.vy _ _ _ hp]
  · intro iy ix iz hp
    rw [(e .vz iy ix iz hp).1, (f iy ix iz hp).2.1 .vz (by simp), if_neg (by simp [vel]), half.vz _ _ _ hp]
  · intro a ha iy ix iz hp
    rw [(e a iy ix iz hp).1, (f iy ix iz hp).1]
    by_cases hi : In g a iy ix iz
    · have hv' : ¬ vel a = true := by rcases ha with rfl | rfl | rfl <;> simp [vel]
      rw [if_pos ⟨hv', hi⟩, if_pos (((grid iy ix iz).2.2.2 a ha).mp hi)]
      have mg := in_marg hv hi
      have ex : (stag c1 c2 fun j => at3 g m1 .vx iy (ix + 1 + j) iz) = stag c1 c2 fun j => Fd3.at3 g q1 .vx iy (ix + 1 + j) iz :=
        stag_congr fun j a b => half.vx _ _ _ (by unfold Pt; omega)
      have ey : (stag c1 c2 fun j => at3 g m1 .vy (iy + 1 + j) ix iz) = stag c1 c2 fun j => Fd3.at3 g q1 .vy (iy + 1 + j) ix iz :=
        stag_congr fun j a b => half.vy _ _ _ (by unfold Pt; omega)
      have ez : (stag c1 c2 fun j => at3 g m1 .vz iy ix (iz + 1 + j)) = stag c1 c2 fun j => Fd3.at3 g q1 .vz iy ix (iz + 1 + j) :=
        stag_congr fun j a b => half.vz _ _ _ (by unfold Pt; omega)
      rcases ha with rfl | rfl | rfl <;> simp only [law, Fx, Fy, Fz, pNew] <;>
        rw [ex, ey, ez, half.nor _ (by simp) _ _ _ hp, half.l2m _ _ _ hp, half.lam _ _ _ hp] <;> ring
    · rw [if_neg (fun k => hi k.2), if_neg (fun k => hi (((grid iy ix iz).2.2.2 a ha).mpr k)), half.nor a ha _ _ _ hp]
  · intro a ha iy ix iz hp
    rw [(e a iy ix iz hp).1]
    split
    · rcases ha with rfl | rfl | rfl <;> simp only [law] <;> rw [half.mul _ _ _ hp, half.she _ (by simp) _ _ _ hp] <;> ring
    · exact half.she a ha _ _ _ hp
  all_goals intro iy ix iz hp
  · rw [(e .vx iy ix iz hp).2, (f iy ix iz hp).2.2, half.rox _ _ _ hp]
  · rw [(e .vx iy ix iz hp).2, (f iy ix iz hp).2.2, half.roy _ _ _ hp]
  · rw [(e .vx iy ix iz hp).2, (f iy ix iz hp).2.2, half.roz _ _ _ hp]
  · rw [(e .vx iy ix iz hp).2, (f iy ix iz hp).2.2, half.l2m _ _ _ hp]
  · rw [(e .vx iy ix iz hp).2, (f iy ix iz hp).2.2, half.lam _ _ _ hp]
  · rw [(e .vx iy ix iz hp).2, half.mul _ _ _ hp]

end

/-! ## Examples -/

/-- Sides of all types meet the hypothesis of C178-C180; a point inside the model is advanced. -/
example : Valid ⟨6, 5, 7, 5, 1, 2, 4, 3, 4, 2⟩ := ⟨by decide, by decide, by decide, by decide⟩

example : ∀ a, In box a 3 3 3 := by intro a; cases a <;> simp only [In, InS] <;> decide

/-- A fluid with a pressure that is not constant. -/
example : Fluid box (K := ℚ)
    (fun | .w .vx i => i | .w .txx i => 2 * i | .w .tyy i => 2 * i | .w .tzz i => 2 * i | .w _ _ => 0 | .m .mul _ _ _ => 0 | .m _ _ _ _ => 5)
    (fun | .w .vx i => i | .w .p i => 2 * i | .w _ _ => 0 | .m _ _ _ _ => 5) := by
  refine ⟨?_, ?_, ?_, ?_, ?_, ?_, ?_, ?_, ?_, ?_, ?_⟩
  case refine_4 => rintro a (rfl | rfl | rfl) <;> intros <;> rfl
  case refine_5 => rintro a (rfl | rfl | rfl) <;> intros <;> rfl
  all_goals intros; rfl

end Verif.Fd3.El

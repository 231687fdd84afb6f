import Verif.Fd.ElaCover

/-! # C64: which elements the elastic time step touches -/

namespace Verif.Fd.Ela

open Verif.Sten
open Verif.Fd.Acou (Cfg Coef Valid grid)

section
variable {K : Type} {g : Cfg}

/-- All cells of the assignment exist. -/
def Ok (g : Cfg) (s : Stmt Cell K) : Prop := ∀ c ∈ s.cells, ok g c = true

theorem ok_iff (c : Cell) : ok g c = true ↔ 0 ≤ c.2 ∧ c.2 < size g c.1 := by unfold ok; simp

theorem ok_el {a : Arr} (ha : size g a = g.nax * g.naz) {ix iz : Int} (h : InG g ix iz) : ok g (a, el g.naz ix iz) = true := by
  rw [ok_iff]
  obtain ⟨h1, h2, h3, h4⟩ := h
  have := el_range h1 h2 h3 h4
  exact ⟨this.1, by rw [show (a, el g.naz ix iz).1 = a from rfl, ha]; exact this.2⟩

theorem ok_row {a : Arr} (ha : size g a = g.naz) {iz : Int} (h1 : 0 ≤ iz) (h2 : iz < g.naz) : ok g (a, iz) = true := by
  rw [ok_iff]; exact ⟨h1, by rw [show (a, iz).1 = a from rfl, ha]; exact h2⟩

theorem ok_col {a : Arr} (ha : size g a = g.nax) {ix : Int} (h1 : 0 ≤ ix) (h2 : ix < g.nax) : ok g (a, ix) = true := by
  rw [ok_iff]; exact ⟨h1, by rw [show (a, ix).1 = a from rfl, ha]; exact h2⟩

/-- Close goals about existing cells. -/
macro "okc" : tactic => `(tactic| ((try and_intros) <;> first
  | exact ok_el rfl ⟨by omega, by omega, by omega, by omega⟩
  | exact ok_row rfl (by omega) (by omega)
  | exact ok_col rfl (by omega) (by omega)))

theorem vxS_ok (k1 k2 : K) {ix iz : Int} (h1 : 2 ≤ ix) (h2 : ix + 2 < g.nax) (h3 : 1 ≤ iz) (h4 : iz + 2 < g.naz) :
    Ok g (vxS g k1 k2 ix iz) := by
  unfold Ok; cells [vxS, rd]; okc

theorem vzS_ok (k1 k2 : K) {ix iz : Int} (h1 : 1 ≤ ix) (h2 : ix + 2 < g.nax) (h3 : 2 ≤ iz) (h4 : iz + 2 < g.naz) :
    Ok g (vzS g k1 k2 ix iz) := by
  unfold Ok; cells [vzS, rd]; okc

theorem nrmS_ok (k1 k2 : K) {ix iz : Int} (h1 : 1 ≤ ix) (h2 : ix + 2 < g.nax) (h3 : 1 ≤ iz) (h4 : iz + 2 < g.naz) :
    All (Ok g) (nrmS g k1 k2 ix iz) := by
  refine all_cons ?_ (all_one ?_) <;> unfold Ok <;> cells [dvx, dvz, rd] <;> okc

/-- The shear stress: row -1 is the last row of the column before. -/
theorem shrS_ok (k1 k2 : K) {ix iz : Int} (h1 : 2 ≤ ix) (h2 : ix + 2 < g.nax) (h3 : 1 ≤ iz) (h4 : iz + 2 < g.naz) :
    Ok g (shrS g k1 k2 ix iz) := by
  have hw : ok g (.vx, el g.naz ix (iz - 2)) = true := by
    by_cases h : 2 ≤ iz
    · exact ok_el rfl ⟨by omega, by omega, by omega, by omega⟩
    · rw [el_wrap]; exact ok_el rfl ⟨by omega, by omega, by omega, by omega⟩
  unfold Ok; cells [shrS, rd]
  and_intros <;> first | exact hw | okc

theorem uppr_range {i n : Int} (h1 : 0 ≤ i) (h2 : i < n) : 0 ≤ uppr i n ∧ uppr i n < n := by unfold uppr; split_ifs <;> omega
theorem lowr_range {i n : Int} (h1 : 0 ≤ i) (h2 : i < n) : 0 ≤ lowr i ∧ lowr i < n := by unfold lowr; split_ifs <;> omega

/-- All cells an expression reads exist. -/
def OkE (g : Cfg) (e : Expr Cell K) : Prop := ∀ c ∈ e.reads, ok g c = true

theorem okE_diff (k : Coef K) {ix iz : Int} (h : InG g ix iz) :
    OkE g (dpxX g k ix iz) ∧ OkE g (dpzX g k ix iz) ∧ OkE g (dpzZ g k ix iz) ∧ OkE g (dpxZ g k ix iz) ∧
    OkE g (dvxN g k ix iz) ∧ OkE g (dvzN g k ix iz) ∧ OkE g (dvzT g k ix iz) ∧ OkE g (dvxT g k ix iz) := by
  obtain ⟨h1, h2, h3, h4⟩ := h
  have u1 := uppr_range h1 h2
  have u2 := uppr_range h3 h4
  have l1 := lowr_range h1 h2
  have l2 := lowr_range h3 h4
  generalize hu1 : uppr ix g.nax = ux at u1
  generalize hu2 : uppr iz g.naz = uz at u2
  generalize hl1 : lowr ix = lx at l1
  generalize hl2 : lowr iz = lz at l2
  refine ⟨?_, ?_, ?_, ?_, ?_, ?_, ?_, ?_⟩
  · unfold dpxX; split_ifs <;> unfold OkE <;> cells [rd, hu1, hl1] <;> okc
  · unfold dpzX; split_ifs <;> unfold OkE <;> cells [rd, hu2, hl2] <;> okc
  · unfold dpzZ; split_ifs <;> unfold OkE <;> cells [rd, hu2, hl2] <;> okc
  · unfold dpxZ; split_ifs <;> unfold OkE <;> cells [rd, hu1, hl1] <;> okc
  · unfold dvxN; split_ifs <;> unfold OkE <;> cells [rd, dvx, hu1, hl1] <;> okc
  · unfold dvzN; split_ifs <;> unfold OkE <;> cells [rd, dvz, hu2, hl2] <;> okc
  · unfold dvzT; split_ifs <;> unfold OkE <;> cells [rd, hl1] <;> okc
  · unfold dvxT; split_ifs <;> unfold OkE <;> cells [rd, hl2] <;> okc

theorem okE_add {x y : Expr Cell K} (hx : OkE g x) (hy : OkE g y) : OkE g (x + y) := by
  intro c hc; rw [rds_add] at hc; rcases List.mem_append.mp hc with h | h
  · exact hx c h
  · exact hy c h
theorem okE_sub {x y : Expr Cell K} (hx : OkE g x) (hy : OkE g y) : OkE g (x - y) := by
  intro c hc; rw [rds_sub] at hc; rcases List.mem_append.mp hc with h | h
  · exact hx c h
  · exact hy c h
theorem okE_mul {x y : Expr Cell K} (hx : OkE g x) (hy : OkE g y) : OkE g (x * y) := by
  intro c hc; rw [rds_mul] at hc; rcases List.mem_append.mp hc with h | h
  · exact hx c h
  · exact hy c h
theorem okE_rd {a : Arr} (ha : size g a = g.nax * g.naz) {ix iz : Int} (h : InG g ix iz) : OkE g (rd g a ix iz : Expr Cell K) := by
  intro c hc; rw [rd, rds_rd, List.mem_singleton] at hc; subst hc; exact ok_el ha h
theorem okE_rd1 {a : Arr} {j : Int} (h : ok g (a, j) = true) : OkE g (rd1 a j : Expr Cell K) := by
  intro c hc; rw [rd1, rds_rd, List.mem_singleton] at hc; subst hc; exact h

theorem ok_stmt {a : Arr} (ha : size g a = g.nax * g.naz) {ix iz : Int} (h : InG g ix iz) {e : Expr Cell K} (he : OkE g e) :
    Ok g ⟨(a, el g.naz ix iz), e⟩ := by
  unfold Ok Stmt.cells
  rw [List.forall_mem_cons]
  exact ⟨ok_el ha h, he⟩

theorem mem_ok {on : Bool} {psi b c : Arr} {j ix iz : Int} {d : Expr Cell K} (hp : size g psi = g.nax * g.naz) (h : InG g ix iz)
    (hb : ok g (b, j) = true) (hc : ok g (c, j) = true) (hd : OkE g d) : All (Ok g) (mem' g on psi b c j ix iz d) :=
  all_when fun _ => all_one (ok_stmt hp h (okE_add (okE_mul (okE_rd1 hb) (okE_rd hp h)) (okE_mul (okE_rd1 hc) hd)))

theorem str_ok {on : Bool} {psi ik : Arr} {j ix iz : Int} {d : Expr Cell K} (hp : size g psi = g.nax * g.naz) (h : InG g ix iz)
    (hb : ok g (ik, j) = true) (hd : OkE g d) : OkE g (str g on psi ik j ix iz d) := by
  unfold str
  split
  · exact okE_add (okE_mul (okE_rd1 hb) hd) (okE_rd hp h)
  · exact hd

theorem pml_ok (k : Coef K) {ix iz : Int} (inx inz : Bool) (h : InG g ix iz) :
    All (Ok g) (vxPml g k ix iz inx inz) ∧ All (Ok g) (vzPml g k ix iz inx inz) ∧
    All (Ok g) (nrmPml g k ix iz inx inz) ∧ All (Ok g) (shrPml g k ix iz inx inz) := by
  obtain ⟨d1, d2, d3, d4, d5, d6, d7, d8⟩ := okE_diff k h
  have X : ∀ a, size g a = g.nax → ok g (a, ix) = true := fun a ha => ok_col ha h.1 h.2.1
  have Z : ∀ a, size g a = g.naz → ok g (a, iz) = true := fun a ha => ok_row ha h.2.2.1 h.2.2.2
  refine ⟨?_, ?_, ?_, ?_⟩
  · exact all_append (all_append (mem_ok rfl h (X _ rfl) (X _ rfl) d1) (mem_ok rfl h (Z _ rfl) (Z _ rfl) d2))
      (all_one (ok_stmt rfl h (okE_sub (okE_rd rfl h) (okE_mul (okE_rd rfl h)
        (okE_add (str_ok rfl h (X _ rfl) d1) (str_ok rfl h (Z _ rfl) d2))))))
  · exact all_append (all_append (mem_ok rfl h (Z _ rfl) (Z _ rfl) d3) (mem_ok rfl h (X _ rfl) (X _ rfl) d4))
      (all_one (ok_stmt rfl h (okE_sub (okE_rd rfl h) (okE_mul (okE_rd rfl h)
        (okE_add (str_ok rfl h (Z _ rfl) d3) (str_ok rfl h (X _ rfl) d4))))))
  · refine all_append (all_append (mem_ok rfl h (X _ rfl) (X _ rfl) d5) (mem_ok rfl h (Z _ rfl) (Z _ rfl) d6)) (all_cons ?_ (all_one ?_))
    · exact ok_stmt rfl h (okE_sub (okE_rd rfl h) (okE_add (okE_mul (okE_rd rfl h) (str_ok rfl h (X _ rfl) d5))
        (okE_mul (okE_rd rfl h) (str_ok rfl h (Z _ rfl) d6))))
    · exact ok_stmt rfl h (okE_sub (okE_rd rfl h) (okE_add (okE_mul (okE_rd rfl h) (str_ok rfl h (Z _ rfl) d6))
        (okE_mul (okE_rd rfl h) (str_ok rfl h (X _ rfl) d5))))
  · exact all_append (all_append (mem_ok rfl h (X _ rfl) (X _ rfl) d7) (mem_ok rfl h (Z _ rfl) (Z _ rfl) d8))
      (all_one (ok_stmt rfl h (okE_sub (okE_rd rfl h) (okE_mul (okE_rd rfl h)
        (okE_add (str_ok rfl h (X _ rfl) d7) (str_ok rfl h (Z _ rfl) d8))))))

theorem okE_zero : OkE g (.zero : Expr Cell K) := by intro c hc; rw [rds_zero] at hc; cases hc

theorem cp_ok {a : Arr} (ha : size g a = g.nax * g.naz) {ix iz jx jz : Int} (h : InG g ix iz) (h' : InG g jx jz) :
    Ok g (cp g a ix iz jx jz : Stmt Cell K) := ok_stmt ha h (okE_rd ha h')
theorem ng_ok {a : Arr} (ha : size g a = g.nax * g.naz) {ix iz jx jz : Int} (h : InG g ix iz) (h' : InG g jx jz) :
    Ok g (ng g a ix iz jx jz : Stmt Cell K) := ok_stmt ha h (okE_sub okE_zero (okE_rd ha h'))
theorem zr_ok {a : Arr} (ha : size g a = g.nax * g.naz) {ix iz : Int} (h : InG g ix iz) :
    Ok g (zr g a ix iz : Stmt Cell K) := ok_stmt ha h okE_zero
theorem surf_ok {a : Arr} (ha : size g a = g.nax * g.naz) {ix iz : Int} (h : InG g ix iz) {dv : Expr Cell K} (hd : OkE g dv) :
    Ok g (surf g a ix iz dv) :=
  ok_stmt ha h (okE_add (okE_mul (okE_rd rfl h) (okE_rd ha h)) (okE_sub okE_zero (okE_mul hd (okE_rd rfl h))))
theorem tapS_ok {a : Arr} (ha : size g a = g.nax * g.naz) {ix iz : Int} (h : InG g ix iz) {t : Arr} {j : Int}
    (h1 : 0 ≤ j) (h2 : j < size g t) : Ok g (tapS g a ix iz t j : Stmt Cell K) :=
  ok_stmt ha h (okE_mul (okE_rd ha h) (okE_rd1 ((ok_iff _).mpr ⟨h1, h2⟩)))

theorem dvx_ok (k1 k2 : K) {ix iz : Int} (h1 : 1 ≤ ix) (h2 : ix + 2 < g.nax) (h3 : 0 ≤ iz) (h4 : iz < g.naz) :
    OkE g (dvx g k1 k2 ix iz) := by unfold OkE; cells [dvx, rd]; okc
theorem dvz_ok (k1 k2 : K) {ix iz : Int} (h1 : 0 ≤ ix) (h2 : ix < g.nax) (h3 : 1 ≤ iz) (h4 : iz + 2 < g.naz) :
    OkE g (dvz g k1 k2 ix iz) := by unfold OkE; cells [dvz, rd]; okc

theorem step_ok (hv : Valid g) (hl : g.lef = 2) (k : Coef K) (first : Bool) : All (Ok g) (stepProg g k first) := by
  obtain ⟨⟨g1, g2, g3, g4, g5⟩, ⟨p1, p2, p3, p4⟩, q1, q2, q3, q4⟩ := grid hv
  have hpsi : ∀ a i, IsPsi a → 0 ≤ i → i < g.nax * g.naz → Ok g (⟨(a, i), .zero⟩ : Stmt Cell K) := by
    intro a i ha h1 h2
    unfold Ok; cells [ok_iff]
    rcases ha with rfl | rfl | rfl | rfl | rfl | rfl | rfl | rfl <;> exact ⟨h1, h2⟩
  refine all_step ?_ ?_ ?_ ?_ ?_ ?_ ?_
  · refine all_vel (fun ix iz h => ?_) (fun ix iz h => ?_)
    · obtain ⟨h1, h2, h3, h4⟩ := inX_grid hv h; exact vxS_ok _ _ h1 h2 h3 h4
    · obtain ⟨h1, h2, h3, h4⟩ := inZ_grid hv h; exact vzS_ok _ _ h1 h2 h3 h4
  · refine all_walls hv (fun ix iz jz h1 h2 h3 h4 h5 h6 _ => ?_) (fun ix iz jz h1 h2 h3 h4 h5 h6 _ => ?_)
    · exact ng_ok rfl ⟨by omega, by omega, h3, h4⟩ ⟨by omega, by omega, h5, h6⟩
    · exact ng_ok rfl ⟨h3, h4, by omega, by omega⟩ ⟨h5, h6, by omega, by omega⟩
  · refine all_pmlP hv hpsi (fun ix iz inx inz h _ => (pml_ok k inx inz h).1) (fun ix iz inx inz h _ => (pml_ok k inx inz h).2.1)
      (fun a ix iz ha _ h1 h2 h3 h4 => ?_) (fun a ix iz ha _ h1 h2 h3 h4 => ?_)
    · rcases ha with rfl | rfl <;> exact cp_ok rfl ⟨h1, by omega, h3, h4⟩ ⟨by omega, by omega, h3, h4⟩
    · rcases ha with rfl | rfl <;> exact cp_ok rfl ⟨h1, h2, h3, by omega⟩ ⟨h1, h2, by omega, by omega⟩
  · refine all_tapers hv (fun ix iz t j h1 h2 h3 h4 _ _ h5 h6 => ?_) (fun ix iz t j h1 h2 h3 h4 _ _ h5 h6 => ?_)
    · exact ⟨vxS_ok _ _ h1 h2 h3 h4, tapS_ok rfl ⟨by omega, by omega, by omega, by omega⟩ h5 h6⟩
    · exact ⟨vzS_ok _ _ h1 h2 h3 h4, tapS_ok rfl ⟨by omega, by omega, by omega, by omega⟩ h5 h6⟩
  · refine all_str (fun ix iz h => ?_) (fun ix iz h => ?_)
    · obtain ⟨h1, h2, h3, h4, -⟩ := inS_grid hv h; exact nrmS_ok _ _ h1 h2 h3 h4
    · obtain ⟨-, h2, h3, h4, h5⟩ := inS_grid hv h; exact shrS_ok _ _ (h5 hl) h2 h3 h4
  · refine all_pmlV hv hpsi (fun ix iz inx inz h1 h2 h3 h4 _ => ?_) (fun ix iz inx inz h1 h2 h3 h4 _ _ _ _ _ _ => ?_)
    · exact (pml_ok k inx inz ⟨by omega, h2, by omega, h4⟩).2.2.1
    · exact (pml_ok k inx inz ⟨by omega, h2, by omega, h4⟩).2.2.2
  · have ex : g.iePx + 3 = g.nax := by simp only [Cfg.iePx]; omega
    have ez : g.iePz + 3 = g.naz := by simp only [Cfg.iePz]; omega
    have tx : ieTx g + 2 = g.nax := by simp only [ieTx]; omega
    have tz : ieTz g + 2 = g.naz := by simp only [ieTz]; omega
    refine all_free (fun _ i => ⟨fun h1 h2 => ⟨zr_ok rfl ?_, surf_ok rfl ?_ (dvx_ok _ _ ?_ ?_ ?_ ?_)⟩, fun h1 h2 => ⟨ng_ok rfl ?_ ?_, ng_ok rfl ?_ ?_⟩⟩)
      (fun _ i => ⟨fun h1 h2 => ⟨zr_ok rfl ?_, surf_ok rfl ?_ (dvz_ok _ _ ?_ ?_ ?_ ?_)⟩, fun h1 h2 => ⟨ng_ok rfl ?_ ?_, ng_ok rfl ?_ ?_⟩⟩)
      (fun _ i => ⟨fun h1 h2 => ⟨zr_ok rfl ?_, surf_ok rfl ?_ (dvx_ok _ _ ?_ ?_ ?_ ?_)⟩, fun h1 h2 => ⟨ng_ok rfl ?_ ?_, ng_ok rfl ?_ ?_⟩⟩)
      (fun _ i => ⟨fun h1 h2 => ⟨zr_ok rfl ?_, surf_ok rfl ?_ (dvz_ok _ _ ?_ ?_ ?_ ?_)⟩, fun h1 h2 => ⟨ng_ok rfl ?_ ?_, ng_ok rfl ?_ ?_⟩⟩) <;>
      first | (refine ⟨?_, ?_, ?_, ?_⟩ <;> omega) | omega

end

/-! ## Property theorems -/

section
variable {K : Type} [CommRing K]

/-- C64 for a PML at the left side (the default of the program for elastic modelling): no element outside its array is
touched, for every grid, every other boundary setting and every medium.  Missing: the other left boundaries, where
`elastic_out_of_bounds` shows the claim to be false. -/
theorem elastic_in_bounds_partial (g : Cfg) (hv : Valid g) (hl : g.lef = 2) (k : Coef K) (first : Bool) (m : Cell → K) :
    runChecked (ok g) (stepProg g k first) m = some (run (stepProg g k first) m) := by
  rw [runChecked_eq, if_pos]
  exact step_ok hv hl k first

/-- C64 fails for every grid whose left side is not a PML: the shear stress loop starts at the first column and reads two
columns further to the left (elastic4.c:139-146). -/
theorem elastic_out_of_bounds (g : Cfg) (hv : Valid g) (hl : g.lef ≠ 2) (k : Coef K) (first : Bool) (m : Cell → K) :
    runChecked (ok g) (stepProg g k first) m = none := by
  obtain ⟨⟨g1, g2, g3, g4, g5⟩, ⟨p1, p2, p3, p4⟩, q1, q2, q3, q4⟩ := grid hv
  rw [runChecked_eq, if_neg]
  intro h
  have hz : iz0 g < iz1 g ∧ 0 ≤ iz0 g ∧ iz0 g < g.naz := by
    simp only [iz0, iz1, Cfg.ioXz, Cfg.ieXz, Cfg.ioPz, Cfg.iePz]
    refine ⟨?_, ?_, ?_⟩ <;> split_ifs <;> omega
  have hx : ix0 g = 1 ∧ 1 < ix1 g := by
    simp only [ix0, if_neg hl, ix1, Cfg.ieXx, Cfg.ioPx, Cfg.iePx, true_and]
    split_ifs <;> omega
  have hs : shrS g k.c1 k.c2 1 (iz0 g) ∈ stepProg g k first := by
    unfold stepProg seqOf phases
    simp only [List.flatten_append, List.flatten_cons, List.flatten_nil, List.append_nil]
    refine List.mem_append_left _ (List.mem_append_left _ (List.mem_append_right _ ?_))
    unfold strPhase
    rw [List.flatten_append]
    refine List.mem_append_right _ ?_
    unfold sweep
    rw [List.mem_flatten]
    exact ⟨_, mem_parfor.mpr ⟨1, by omega, hx.2, rfl⟩, mem_loop.mpr ⟨iz0 g, le_refl _, hz.1, by simp⟩⟩
  have := h _ hs (.vz, el g.naz (1 - 2) (iz0 g)) (by simp [Stmt.cells, shrS, rd, rds_add, rds_sub, rds_mul, rds_rd, rds_c])
  rw [ok_iff] at this
  have h0 : 0 ≤ el g.naz (1 - 2) (iz0 g) := this.1
  unfold el at h0
  omega

end

/-- Both cases occur: the default of the program (free surface on top, PML elsewhere), and free surfaces everywhere. -/
example : Valid ⟨4, 5, 6, 1, 2, 2, 2⟩ ∧ Valid ⟨4, 5, 6, 1, 1, 1, 1⟩ :=
  ⟨⟨by decide, by decide, by decide, by decide, by decide, by decide, by decide⟩,
    ⟨by decide, by decide, by decide, by decide, by decide, by decide, by decide⟩⟩

end Verif.Fd.Ela

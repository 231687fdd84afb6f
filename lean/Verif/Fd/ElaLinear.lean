import Verif.Fd.ElaCover

/-! # C65: the elastic time step is linear in the wave field -/

namespace Verif.Fd.Ela

open Verif.Sten
open Verif.Fd.Acou (Cfg Coef Valid grid)

section
variable {K : Type} {g : Cfg}

/-- The assignment changes a wave field and is linear in the wave fields. -/
def Lin (s : Stmt Cell K) : Prop := fld s.dst = true ∧ s.e.lin fld = true

theorem lin_diff (k : Coef K) (ix iz : Int) :
    (dpxX g k ix iz).lin fld = true ∧ (dpzX g k ix iz).lin fld = true ∧ (dpzZ g k ix iz).lin fld = true ∧
    (dpxZ g k ix iz).lin fld = true ∧ (dvxN g k ix iz).lin fld = true ∧ (dvzN g k ix iz).lin fld = true ∧
    (dvzT g k ix iz).lin fld = true ∧ (dvxT g k ix iz).lin fld = true := by
  refine ⟨?_, ?_, ?_, ?_, ?_, ?_, ?_, ?_⟩
  · unfold dpxX; split_ifs <;> rfl
  · unfold dpzX; split_ifs <;> rfl
  · unfold dpzZ; split_ifs <;> rfl
  · unfold dpxZ; split_ifs <;> rfl
  · unfold dvxN; split_ifs <;> rfl
  · unfold dvzN; split_ifs <;> rfl
  · unfold dvzT; split_ifs <;> rfl
  · unfold dvxT; split_ifs <;> rfl

theorem lin_add {x y : Expr Cell K} (hx : x.lin fld = true) (hy : y.lin fld = true) : (x + y).lin fld = true := by
  show (x.lin fld && y.lin fld) = true; rw [hx, hy]; rfl
theorem lin_sub {x y : Expr Cell K} (hx : x.lin fld = true) (hy : y.lin fld = true) : (x - y).lin fld = true := by
  show (x.lin fld && y.lin fld) = true; rw [hx, hy]; rfl
theorem lin_mul {x y : Expr Cell K} (hx : x.con fld = true) (hy : y.lin fld = true) : (x * y).lin fld = true := by
  show ((x.con fld && y.lin fld) || (x.lin fld && y.con fld)) = true; rw [hx, hy]; rfl
theorem lin_mul' {x y : Expr Cell K} (hx : x.lin fld = true) (hy : y.con fld = true) : (x * y).lin fld = true := by
  show ((x.con fld && y.lin fld) || (x.lin fld && y.con fld)) = true; rw [hx, hy]; simp

theorem mem_lin {on : Bool} {psi b c : Arr} {j ix iz : Int} {d : Expr Cell K} (hp : ∀ i, fld (psi, i) = true)
    (hb : fld (b, j) = false) (hc : fld (c, j) = false) (hd : d.lin fld = true) : All Lin (mem' g on psi b c j ix iz d) := by
  refine all_when fun _ => all_one ⟨hp _, lin_add (lin_mul ?_ (hp _)) (lin_mul ?_ hd)⟩
  · show (!fld (b, j)) = true; rw [hb]; rfl
  · show (!fld (c, j)) = true; rw [hc]; rfl

theorem str_lin {on : Bool} {psi ik : Arr} {j ix iz : Int} {d : Expr Cell K} (hp : ∀ i, fld (psi, i) = true)
    (hb : fld (ik, j) = false) (hd : d.lin fld = true) : (str g on psi ik j ix iz d).lin fld = true := by
  unfold str
  split
  · exact lin_add (lin_mul (by show (!fld (ik, j)) = true; rw [hb]; rfl) hd) (hp _)
  · exact hd

theorem pml_lin (k : Coef K) (ix iz : Int) (inx inz : Bool) :
    All Lin (vxPml g k ix iz inx inz) ∧ All Lin (vzPml g k ix iz inx inz) ∧
    All Lin (nrmPml g k ix iz inx inz) ∧ All Lin (shrPml g k ix iz inx inz) := by
  obtain ⟨d1, d2, d3, d4, d5, d6, d7, d8⟩ := lin_diff (g := g) k ix iz
  have F : ∀ {a : Arr}, (∀ i, fld (a, i) = true) → ∀ i, fld (a, i) = true := fun h => h
  refine ⟨?_, ?_, ?_, ?_⟩
  · exact all_append (all_append (mem_lin (fun _ => rfl) rfl rfl d1) (mem_lin (fun _ => rfl) rfl rfl d2))
      (all_one ⟨rfl, lin_sub rfl (lin_mul rfl (lin_add (str_lin (fun _ => rfl) rfl d1) (str_lin (fun _ => rfl) rfl d2)))⟩)
  · exact all_append (all_append (mem_lin (fun _ => rfl) rfl rfl d3) (mem_lin (fun _ => rfl) rfl rfl d4))
      (all_one ⟨rfl, lin_sub rfl (lin_mul rfl (lin_add (str_lin (fun _ => rfl) rfl d3) (str_lin (fun _ => rfl) rfl d4)))⟩)
  · refine all_append (all_append (mem_lin (fun _ => rfl) rfl rfl d5) (mem_lin (fun _ => rfl) rfl rfl d6)) (all_cons ?_ (all_one ?_))
    · exact ⟨rfl, lin_sub rfl (lin_add (lin_mul rfl (str_lin (fun _ => rfl) rfl d5)) (lin_mul rfl (str_lin (fun _ => rfl) rfl d6)))⟩
    · exact ⟨rfl, lin_sub rfl (lin_add (lin_mul rfl (str_lin (fun _ => rfl) rfl d6)) (lin_mul rfl (str_lin (fun _ => rfl) rfl d5)))⟩
  · exact all_append (all_append (mem_lin (fun _ => rfl) rfl rfl d7) (mem_lin (fun _ => rfl) rfl rfl d8))
      (all_one ⟨rfl, lin_sub rfl (lin_mul rfl (lin_add (str_lin (fun _ => rfl) rfl d7) (str_lin (fun _ => rfl) rfl d8)))⟩)

theorem all_loops {Q : Stmt Cell K → Prop} {a b c d xlo xhi zlo zhi : Int} {body : Int → Int → Bool → Bool → List (Stmt Cell K)}
    (h : ∀ ix iz inx inz, All Q (body ix iz inx inz)) : All Q (pmlLoop g a b c d xlo xhi zlo zhi body).flatten :=
  all_sweep fun _ _ _ _ _ _ => all_ite (fun _ => all_nil) fun _ => h _ _ _ _

theorem tapX_lin {k : Coef K} {a b c d : Int} {t : Arr} {w : Int → Int → Int} (ht : ∀ i, fld (t, i) = false) :
    All Lin (taperX g k a b c d t w).flatten :=
  all_taperX fun ix iz _ _ _ _ => ⟨⟨rfl, rfl⟩, ⟨rfl, lin_mul' rfl (by show (!fld (t, _)) = true; rw [ht]; rfl)⟩⟩

theorem tapZ_lin {k : Coef K} {a b c d : Int} {t : Arr} {w : Int → Int → Int} (ht : ∀ i, fld (t, i) = false) :
    All Lin (taperZ g k a b c d t w).flatten :=
  all_taperZ fun ix iz _ _ _ _ => ⟨⟨rfl, rfl⟩, ⟨rfl, lin_mul' rfl (by show (!fld (t, _)) = true; rw [ht]; rfl)⟩⟩

theorem step_lin (g : Cfg) (k : Coef K) (first : Bool) : All Lin (stepProg g k first) := by
  have clr : ∀ a : Arr, (∀ i, fld (a, i) = true) → All Lin (clear g a : List (Stmt Cell K)) :=
    fun a ha => all_clear fun i _ _ => ⟨ha i, rfl⟩
  refine all_step ?_ ?_ ?_ ?_ ?_ ?_ ?_
  · exact all_vel (fun _ _ _ => ⟨rfl, rfl⟩) (fun _ _ _ => ⟨rfl, rfl⟩)
  · unfold wallPhase rigidTop rigidRig rigidBot rigidLef
    simp only [List.flatten_append]
    refine all_append (all_append (all_append ?_ ?_) ?_) ?_ <;>
      exact all_itef fun hc => all_parfor fun i h1 h2 => all_cons ⟨rfl, rfl⟩ (all_loop fun ib h3 h4 => all_one ⟨rfl, rfl⟩)
  · refine allP_when fun _ => allP_append ?_ (allP_cons ?_ (allP_cons ?_ (allP_cons ?_ (allP_one ?_))))
    · refine allP_when fun _ => allP_one ?_
      rw [List.flatten_cons, List.flatten_nil, List.append_nil]
      exact all_append (all_append (all_append (clr _ fun _ => rfl) (clr _ fun _ => rfl)) (clr _ fun _ => rfl)) (clr _ fun _ => rfl)
    · exact all_loops fun ix iz inx inz => (pml_lin k ix iz inx inz).1
    · exact all_loops fun ix iz inx inz => (pml_lin k ix iz inx inz).2.1
    · exact all_itef fun _ => all_parfor fun _ _ _ => all_cons ⟨rfl, rfl⟩ (all_cons ⟨rfl, rfl⟩ (all_cons ⟨rfl, rfl⟩ (all_one ⟨rfl, rfl⟩)))
    · exact all_itef fun _ => all_parfor fun _ _ _ => all_cons ⟨rfl, rfl⟩ (all_cons ⟨rfl, rfl⟩ (all_cons ⟨rfl, rfl⟩ (all_one ⟨rfl, rfl⟩)))
  · refine allP_append (allP_append (allP_append ?_ ?_) ?_) ?_
    · refine allP_when fun _ => ?_
      refine allP_append (allP_append (allP_append (allP_append (allP_append (allP_one (tapX_lin fun _ => rfl)) ?_) ?_)
        (allP_one (tapZ_lin fun _ => rfl))) ?_) ?_
      · exact allP_when fun _ => allP_one (tapX_lin fun _ => rfl)
      · exact allP_when fun _ => allP_one (tapX_lin fun _ => rfl)
      · exact allP_when fun _ => allP_one (tapZ_lin fun _ => rfl)
      · exact allP_when fun _ => allP_one (tapZ_lin fun _ => rfl)
    · refine allP_when fun _ => ?_
      refine allP_append (allP_append (allP_append (allP_append (allP_append (allP_one (tapX_lin fun _ => rfl)) ?_) ?_)
        (allP_one (tapZ_lin fun _ => rfl))) ?_) ?_
      · exact allP_when fun _ => allP_one (tapX_lin fun _ => rfl)
      · exact allP_when fun _ => allP_one (tapX_lin fun _ => rfl)
      · exact allP_when fun _ => allP_one (tapZ_lin fun _ => rfl)
      · exact allP_when fun _ => allP_one (tapZ_lin fun _ => rfl)
    · exact allP_when fun _ => allP_cons (tapX_lin fun _ => rfl) (allP_one (tapZ_lin fun _ => rfl))
    · exact allP_when fun _ => allP_cons (tapX_lin fun _ => rfl) (allP_one (tapZ_lin fun _ => rfl))
  · exact all_str (fun _ _ _ => all_cons ⟨rfl, rfl⟩ (all_one ⟨rfl, rfl⟩)) (fun _ _ _ => ⟨rfl, rfl⟩)
  · refine allP_when fun _ => allP_append ?_ (allP_cons ?_ (allP_one ?_))
    · refine allP_when fun _ => allP_one ?_
      rw [List.flatten_cons, List.flatten_nil, List.append_nil]
      exact all_append (all_append (all_append (clr _ fun _ => rfl) (clr _ fun _ => rfl)) (clr _ fun _ => rfl)) (clr _ fun _ => rfl)
    · exact all_loops fun ix iz inx inz => (pml_lin k ix iz inx inz).2.2.1
    · exact all_loops fun ix iz inx inz => (pml_lin k ix iz inx inz).2.2.2
  · exact all_free (fun _ _ => ⟨fun _ _ => ⟨⟨rfl, rfl⟩, ⟨rfl, rfl⟩⟩, fun _ _ => ⟨⟨rfl, rfl⟩, ⟨rfl, rfl⟩⟩⟩)
      (fun _ _ => ⟨fun _ _ => ⟨⟨rfl, rfl⟩, ⟨rfl, rfl⟩⟩, fun _ _ => ⟨⟨rfl, rfl⟩, ⟨rfl, rfl⟩⟩⟩)
      (fun _ _ => ⟨fun _ _ => ⟨⟨rfl, rfl⟩, ⟨rfl, rfl⟩⟩, fun _ _ => ⟨⟨rfl, rfl⟩, ⟨rfl, rfl⟩⟩⟩)
      (fun _ _ => ⟨fun _ _ => ⟨⟨rfl, rfl⟩, ⟨rfl, rfl⟩⟩, fun _ _ => ⟨⟨rfl, rfl⟩, ⟨rfl, rfl⟩⟩⟩)

/-! ## Property theorems -/

variable [CommRing K]

/-- A wave field: particle velocities, stresses and the memory variables of the PML. -/
structure Field (K : Type) where
  vx : Int → K
  vz : Int → K
  txx : Int → K
  tzz : Int → K
  txz : Int → K
  psiVxX : Int → K
  psiVxZ : Int → K
  psiVzZ : Int → K
  psiVzX : Int → K
  psiPX : Int → K
  psiPZ : Int → K
  psiTX : Int → K
  psiTZ : Int → K

/-- The superposition `s·u + t·v`. -/
def Field.lincomb (s t : K) (u v : Field K) : Field K where
  vx i := s * u.vx i + t * v.vx i
  vz i := s * u.vz i + t * v.vz i
  txx i := s * u.txx i + t * v.txx i
  tzz i := s * u.tzz i + t * v.tzz i
  txz i := s * u.txz i + t * v.txz i
  psiVxX i := s * u.psiVxX i + t * v.psiVxX i
  psiVxZ i := s * u.psiVxZ i + t * v.psiVxZ i
  psiVzZ i := s * u.psiVzZ i + t * v.psiVzZ i
  psiVzX i := s * u.psiVzX i + t * v.psiVzX i
  psiPX i := s * u.psiPX i + t * v.psiPX i
  psiPZ i := s * u.psiPZ i + t * v.psiPZ i
  psiTX i := s * u.psiTX i + t * v.psiTX i
  psiTZ i := s * u.psiTZ i + t * v.psiTZ i

/-- The field without waves. -/
def Field.rest : Field K :=
  ⟨fun _ => 0, fun _ => 0, fun _ => 0, fun _ => 0, fun _ => 0, fun _ => 0, fun _ => 0, fun _ => 0, fun _ => 0, fun _ => 0,
    fun _ => 0, fun _ => 0, fun _ => 0⟩

/-- Memory with the parameters `med` (medium, tapers, PML coefficients) and the field `u`. -/
def mem (med : Cell → K) (u : Field K) : Cell → K
  | (.vx, i) => u.vx i | (.vz, i) => u.vz i | (.txx, i) => u.txx i | (.tzz, i) => u.tzz i | (.txz, i) => u.txz i
  | (.psiVxX, i) => u.psiVxX i | (.psiVxZ, i) => u.psiVxZ i | (.psiVzZ, i) => u.psiVzZ i | (.psiVzX, i) => u.psiVzX i
  | (.psiPX, i) => u.psiPX i | (.psiPZ, i) => u.psiPZ i | (.psiTX, i) => u.psiTX i | (.psiTZ, i) => u.psiTZ i
  | a => med a

/-- The field in a memory. -/
def fieldOf (m : Cell → K) : Field K where
  vx i := m (.vx, i)
  vz i := m (.vz, i)
  txx i := m (.txx, i)
  tzz i := m (.tzz, i)
  txz i := m (.txz, i)
  psiVxX i := m (.psiVxX, i)
  psiVxZ i := m (.psiVxZ, i)
  psiVzZ i := m (.psiVzZ, i)
  psiVzX i := m (.psiVzX, i)
  psiPX i := m (.psiPX, i)
  psiPZ i := m (.psiPZ, i)
  psiTX i := m (.psiTX, i)
  psiTZ i := m (.psiTZ, i)

/-- The wave field after `n` time steps in the medium `med`. -/
def propagate (g : Cfg) (k : Coef K) (med : Cell → K) (n : Nat) (u : Field K) : Field K :=
  fieldOf (steps g k n (mem med u))

theorem mem_lincomb (med : Cell → K) (s t : K) (u v : Field K) :
    mem med (Field.lincomb s t u v) = comb fld s t (mem med u) (mem med v) := by
  funext ⟨a, i⟩; cases a <;> rfl

theorem mem_nonfld (med : Cell → K) (u : Field K) (a : Cell) (h : fld a = false) : mem med u a = med a := by
  obtain ⟨a, i⟩ := a; cases a <;> first | rfl | cases h

theorem steps_nonfld (k : Coef K) (n : Nat) (m : Cell → K) (a : Cell) (h : fld a = false) : steps g k n m a = m a := by
  induction n with
  | zero => rfl
  | succ n ih => rw [steps, run_nonfield (fld := fld) (fun s hs => (step_lin g k _ s hs).1) _ _ h, ih]

theorem steps_comb (k : Coef K) (n : Nat) (s t : K) (m1 m2 : Cell → K) (hm : ∀ a, fld a = false → m1 a = m2 a) :
    steps g k n (comb fld s t m1 m2) = comb fld s t (steps g k n m1) (steps g k n m2) := by
  induction n with
  | zero => rfl
  | succ n ih =>
    rw [steps, ih, run_comb (step_lin g k _)]
    · rfl
    · intro a ha; rw [steps_nonfld k n m1 a ha, steps_nonfld k n m2 a ha, hm a ha]

/-- C65: for every grid, boundary setting, medium and number of time steps, propagation of a superposition of elastic wave
fields is the superposition of the propagated fields. -/
theorem elastic_linear (g : Cfg) (k : Coef K) (med : Cell → K) (n : Nat) (s t : K) (u v : Field K) :
    propagate g k med n (Field.lincomb s t u v) =
      Field.lincomb s t (propagate g k med n u) (propagate g k med n v) := by
  unfold propagate
  rw [mem_lincomb, steps_comb k n s t _ _ (fun a ha => by rw [mem_nonfld med u a ha, mem_nonfld med v a ha])]
  rfl

/-- C65: without source the field at rest stays at rest. -/
theorem elastic_rest (g : Cfg) (k : Coef K) (med : Cell → K) (n : Nat) : propagate g k med n Field.rest = Field.rest := by
  have h := elastic_linear g k med n 0 0 Field.rest Field.rest
  have e : ∀ u v : Field K, Field.lincomb 0 0 u v = Field.rest := by
    intro u v; simp [Field.lincomb, Field.rest]
  rw [e, e] at h
  exact h

/-- C65: the medium, the tapers and the PML coefficients are never written. -/
theorem elastic_medium (g : Cfg) (k : Coef K) (med : Cell → K) (n : Nat) (u : Field K) (a : Cell) (h : fld a = false) :
    steps g k n (mem med u) a = med a := by
  rw [steps_nonfld k n _ a h, mem_nonfld med u a h]

end

end Verif.Fd.Ela

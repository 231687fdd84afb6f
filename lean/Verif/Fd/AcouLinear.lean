import Verif.Fd.AcouBounds

/-! # C27: the acoustic time step without source is linear -/

namespace Verif.Fd.Acou

open Verif.Sten

section
variable {K : Type} {g : Cfg}

/-- A statement property holds for all of a list. -/
def AllQ (Q : Stmt Cell K → Prop) (l : List (Stmt Cell K)) : Prop := ∀ s ∈ l, Q s

variable {Q : Stmt Cell K → Prop}

theorem allQ_nil : AllQ Q [] := by intro s h; cases h

theorem allQ_append {l1 l2 : List (Stmt Cell K)} (h1 : AllQ Q l1) (h2 : AllQ Q l2) : AllQ Q (l1 ++ l2) := by
  intro s hs
  rcases List.mem_append.mp hs with h | h
  · exact h1 s h
  · exact h2 s h

theorem allQ_cons {s : Stmt Cell K} {l : List (Stmt Cell K)} (h1 : Q s) (h2 : AllQ Q l) : AllQ Q (s :: l) :=
  List.forall_mem_cons.mpr ⟨h1, h2⟩

theorem allQ_one {s : Stmt Cell K} (h1 : Q s) : AllQ Q [s] := allQ_cons h1 allQ_nil

theorem allQ_loop {lo hi : Int} {body : Int → List (Stmt Cell K)} (h : ∀ i : Int, lo ≤ i → i < hi → AllQ Q (body i)) :
    AllQ Q (loop lo hi body) := by
  intro s hs
  obtain ⟨i, h1, h2, hb⟩ := mem_loop.mp hs
  exact h i h1 h2 s hb

theorem allQ_parfor {lo hi : Int} {body : Int → List (Stmt Cell K)} (h : ∀ i : Int, lo ≤ i → i < hi → AllQ Q (body i)) :
    AllQ Q (parfor lo hi body).flatten := by
  intro s hs
  rw [List.mem_flatten] at hs
  obtain ⟨t, ht, hs⟩ := hs
  obtain ⟨i, h1, h2, rfl⟩ := mem_parfor.mp ht
  exact h i h1 h2 s hs

theorem allQ_sweep {a b c d : Int} {body : Int → Int → List (Stmt Cell K)}
    (h : ∀ ix : Int, a ≤ ix → ix < b → ∀ iz : Int, c ≤ iz → iz < d → AllQ Q (body ix iz)) :
    AllQ Q (sweep a b c d body).flatten :=
  allQ_parfor fun ix h1 h2 => allQ_loop fun iz h3 h4 => h ix h1 h2 iz h3 h4

theorem allQ_ite {c : Prop} [Decidable c] {l1 l2 : List (Stmt Cell K)} (h1 : c → AllQ Q l1) (h2 : ¬ c → AllQ Q l2) :
    AllQ Q (if c then l1 else l2) := by
  split
  · exact h1 ‹_›
  · exact h2 ‹_›

theorem allQ_itef {c : Prop} [Decidable c] {l1 : List (List (Stmt Cell K))} (h1 : c → AllQ Q l1.flatten) :
    AllQ Q (if c then l1 else []).flatten := by
  split
  · exact h1 ‹_›
  · exact allQ_nil

/-- All statements of a list of phases. -/
def AllQP (Q : Stmt Cell K → Prop) (l : List (List (List (Stmt Cell K)))) : Prop := AllQ Q (seqOf l)

theorem allQP_append {l1 l2 : List (List (List (Stmt Cell K)))} (h1 : AllQP Q l1) (h2 : AllQP Q l2) :
    AllQP Q (l1 ++ l2) := by
  unfold AllQP seqOf at *
  rw [List.flatten_append, List.flatten_append]
  exact allQ_append h1 h2

theorem allQP_nil : AllQP Q [] := allQ_nil

theorem allQP_cons {p : List (List (Stmt Cell K))} {l : List (List (List (Stmt Cell K)))} (h1 : AllQ Q p.flatten)
    (h2 : AllQP Q l) : AllQP Q (p :: l) := by
  unfold AllQP seqOf at *
  rw [List.flatten_cons, List.flatten_append]
  exact allQ_append h1 h2

theorem allQP_single {p : List (List (Stmt Cell K))} (h : AllQ Q p.flatten) : AllQP Q [p] := allQP_cons h allQP_nil

theorem allQP_ite {c : Prop} [Decidable c] {l1 : List (List (List (Stmt Cell K)))} (h1 : c → AllQP Q l1) :
    AllQP Q (if c then l1 else []) := by
  split
  · exact h1 ‹_›
  · exact allQP_nil

/-- A statement assigns a linear expression to a wave-field cell. -/
def Lin (s : Stmt Cell K) : Prop := fld s.dst = true ∧ s.e.lin fld = true

theorem vxS_lin (k1 k2 : K) (ix iz : Int) : Lin (vxS g k1 k2 ix iz) := ⟨rfl, rfl⟩
theorem vzS_lin (k1 k2 : K) (ix iz : Int) : Lin (vzS g k1 k2 ix iz) := ⟨rfl, rfl⟩
theorem pS_lin (k1 k2 : K) (ix iz : Int) : Lin (pS g k1 k2 ix iz) := ⟨rfl, rfl⟩
theorem cpx_lin (i j : Int) : Lin (cp .vx i j : Stmt Cell K) := ⟨rfl, rfl⟩
theorem cpz_lin (i j : Int) : Lin (cp .vz i j : Stmt Cell K) := ⟨rfl, rfl⟩
theorem cpp_lin (i j : Int) : Lin (cp .p i j : Stmt Cell K) := ⟨rfl, rfl⟩
theorem ngx_lin (i j : Int) : Lin (ng .vx i j : Stmt Cell K) := ⟨rfl, rfl⟩
theorem ngz_lin (i j : Int) : Lin (ng .vz i j : Stmt Cell K) := ⟨rfl, rfl⟩
theorem zrp_lin (i : Int) : Lin (zr .p i : Stmt Cell K) := ⟨rfl, rfl⟩
theorem vxPml_lin (k : Coef K) (ix iz : Int) : AllQ Lin (vxPml g k ix iz) :=
  allQ_cons ⟨rfl, rfl⟩ (allQ_one ⟨rfl, rfl⟩)
theorem vzPml_lin (k : Coef K) (ix iz : Int) : AllQ Lin (vzPml g k ix iz) :=
  allQ_cons ⟨rfl, rfl⟩ (allQ_one ⟨rfl, rfl⟩)

theorem taperX_lin (k : Coef K) {a b c d : Int} {t : Arr} (ht : t = .tapx ∨ t = .tapz ∨ t = .tapxz) {w : Int → Int → Int} :
    AllQ Lin (taperX g k a b c d t w).flatten := by
  refine allQ_sweep fun ix e1 e2 iz e3 e4 => allQ_cons (vxS_lin _ _ _ _) (allQ_one ?_)
  rcases ht with rfl | rfl | rfl <;> exact ⟨rfl, rfl⟩

theorem taperZ_lin (k : Coef K) {a b c d : Int} {t : Arr} (ht : t = .tapx ∨ t = .tapz ∨ t = .tapxz) {w : Int → Int → Int} :
    AllQ Lin (taperZ g k a b c d t w).flatten := by
  refine allQ_sweep fun ix e1 e2 iz e3 e4 => allQ_cons (vzS_lin _ _ _ _) (allQ_one ?_)
  rcases ht with rfl | rfl | rfl <;> exact ⟨rfl, rfl⟩

theorem pPml_lin (k : Coef K) (ix iz : Int) (inx inz : Bool) : AllQ Lin (pPml g k ix iz inx inz) := by
  have hx : (dvxPml g k ix iz).lin fld = true := by unfold dvxPml; split <;> rfl
  have hz : (dvzPml g k ix iz).lin fld = true := by unfold dvzPml; split <;> rfl
  have add : ∀ a b : Expr Cell K, (a + b).lin fld = (a.lin fld && b.lin fld) := fun _ _ => rfl
  have sub : ∀ a b : Expr Cell K, (a - b).lin fld = (a.lin fld && b.lin fld) := fun _ _ => rfl
  have mul : ∀ a b : Expr Cell K, (a * b).lin fld = ((a.con fld && b.lin fld) || (a.lin fld && b.con fld)) :=
    fun _ _ => rfl
  have rl : ∀ a i, (rd a i : Expr Cell K).lin fld = fld (a, i) := fun _ _ => rfl
  have rc : ∀ a i, (rd a i : Expr Cell K).con fld = !fld (a, i) := fun _ _ => rfl
  unfold pPml
  refine allQ_append (allQ_append ?_ ?_) (allQ_one ?_)
  · cases inx
    · exact allQ_nil
    · exact allQ_one ⟨rfl, by simp [add, mul, rl, rc, hx, fld]⟩
  · cases inz
    · exact allQ_nil
    · exact allQ_one ⟨rfl, by simp [add, mul, rl, rc, hz, fld]⟩
  · refine ⟨rfl, ?_⟩
    cases inx <;> cases inz <;> simp [add, sub, mul, rl, rc, hx, hz, fld]

theorem pmlP_lin (k : Coef K) (first : Bool) : AllQP Lin (pmlP g k first) := by
  refine allQP_ite fun _ => allQP_append ?_ ?_
  · refine allQP_ite fun _ => allQP_single ?_
    rw [List.flatten_cons, List.flatten_nil, List.append_nil]
    exact allQ_append (allQ_loop fun i _ _ => allQ_one ⟨rfl, rfl⟩) (allQ_loop fun i _ _ => allQ_one ⟨rfl, rfl⟩)
  · refine allQP_cons (allQ_parfor fun ix _ _ => ?_) (allQP_cons (allQ_parfor fun ix _ _ => ?_) (allQP_cons ?_
      (allQP_single ?_)))
    · refine allQ_ite (fun _ => allQ_loop fun iz _ _ => vxPml_lin k ix iz) fun _ => allQ_append ?_ ?_ <;>
        exact allQ_ite (fun _ => allQ_loop fun iz _ _ => allQ_one (vxS_lin _ _ _ _)) fun _ => allQ_nil
    · refine allQ_ite (fun _ => allQ_loop fun iz _ _ => allQ_ite (fun _ => vzPml_lin k ix iz)
        (fun _ => allQ_one (vzS_lin _ _ _ _))) fun _ => allQ_append ?_ ?_ <;>
        exact allQ_ite (fun _ => allQ_loop fun iz _ _ => vzPml_lin k ix iz) fun _ => allQ_nil
    · exact allQ_itef fun _ => allQ_parfor fun i _ _ => allQ_cons (cpx_lin _ _) (allQ_cons (cpx_lin _ _)
        (allQ_cons (cpz_lin _ _) (allQ_one (cpz_lin _ _))))
    · exact allQ_itef fun _ => allQ_parfor fun i _ _ => allQ_cons (cpx_lin _ _) (allQ_cons (cpx_lin _ _)
        (allQ_cons (cpz_lin _ _) (allQ_one (cpz_lin _ _))))

theorem pmlV_lin (k : Coef K) (first : Bool) : AllQP Lin (pmlV g k first) := by
  refine allQP_ite fun _ => allQP_append ?_ ?_
  · refine allQP_ite fun _ => allQP_single ?_
    rw [List.flatten_cons, List.flatten_nil, List.append_nil]
    exact allQ_append (allQ_loop fun i _ _ => allQ_one ⟨rfl, rfl⟩) (allQ_loop fun i _ _ => allQ_one ⟨rfl, rfl⟩)
  · refine allQP_cons (allQ_parfor fun ix _ _ => allQ_loop fun iz _ _ => ?_) (allQP_cons ?_ (allQP_single ?_))
    · exact allQ_ite (fun _ => allQ_nil) fun _ => pPml_lin k ix iz _ _
    · exact allQ_itef fun _ => allQ_parfor fun i _ _ => allQ_cons (cpp_lin _ _) (allQ_one (cpp_lin _ _))
    · exact allQ_itef fun _ => allQ_parfor fun i _ _ => allQ_cons (cpp_lin _ _) (allQ_one (cpp_lin _ _))

theorem taperTop_lin (k : Coef K) : AllQP Lin (taperTop g k) := by
  refine allQP_ite fun ht => ?_
  refine allQP_append (allQP_append (allQP_append (allQP_append (allQP_append ?_ ?_) ?_) ?_) ?_) ?_
  · exact allQP_single (taperX_lin k (by simp))
  · exact allQP_ite fun _ => allQP_single (taperX_lin k (by simp))
  · exact allQP_ite fun _ => allQP_single (taperX_lin k (by simp))
  · exact allQP_single (taperZ_lin k (by simp))
  · exact allQP_ite fun _ => allQP_single (taperZ_lin k (by simp))
  · exact allQP_ite fun _ => allQP_single (taperZ_lin k (by simp))

theorem taperBot_lin (k : Coef K) : AllQP Lin (taperBot g k) := by
  refine allQP_ite fun ht => ?_
  refine allQP_append (allQP_append (allQP_append (allQP_append (allQP_append ?_ ?_) ?_) ?_) ?_) ?_
  · exact allQP_single (taperX_lin k (by simp))
  · exact allQP_ite fun _ => allQP_single (taperX_lin k (by simp))
  · exact allQP_ite fun _ => allQP_single (taperX_lin k (by simp))
  · exact allQP_single (taperZ_lin k (by simp))
  · exact allQP_ite fun _ => allQP_single (taperZ_lin k (by simp))
  · exact allQP_ite fun _ => allQP_single (taperZ_lin k (by simp))

theorem taperLef_lin (k : Coef K) : AllQP Lin (taperLef g k) :=
  allQP_ite fun _ => allQP_cons (taperX_lin k (by simp)) (allQP_single (taperZ_lin k (by simp)))

theorem taperRig_lin (k : Coef K) : AllQP Lin (taperRig g k) :=
  allQP_ite fun _ => allQP_cons (taperX_lin k (by simp)) (allQP_single (taperZ_lin k (by simp)))

theorem wallPhase_lin : AllQ Lin (wallPhase g : List (List (Stmt Cell K))).flatten := by
  unfold wallPhase freeTop rigidTop rigidRig rigidBot rigidLef
  simp only [List.flatten_append]
  refine allQ_append (allQ_append (allQ_append (allQ_append ?_ ?_) ?_) ?_) ?_ <;>
    refine allQ_itef (fun hc => ?_) <;> refine allQ_parfor fun i h1 h2 => ?_
  · exact allQ_cons (cpz_lin _ _) (allQ_one (cpz_lin _ _))
  · exact allQ_cons (ngz_lin _ _) (allQ_loop fun _ _ _ => allQ_one (ngz_lin _ _))
  · exact allQ_cons (ngx_lin _ _) (allQ_loop fun _ _ _ => allQ_one (ngx_lin _ _))
  · exact allQ_cons (ngz_lin _ _) (allQ_loop fun _ _ _ => allQ_one (ngz_lin _ _))
  · exact allQ_cons (ngx_lin _ _) (allQ_loop fun _ _ _ => allQ_one (ngx_lin _ _))

theorem freePhase_lin : AllQ Lin (freePhase g : List (List (Stmt Cell K))).flatten := by
  unfold freePhase
  simp only [List.flatten_append]
  refine allQ_append (allQ_append (allQ_append ?_ ?_) ?_) ?_ <;>
    refine allQ_itef (fun hc => ?_) <;> refine allQ_parfor fun i h1 h2 => allQ_one (zrp_lin _)

theorem step_lin (k : Coef K) (first : Bool) : AllQ Lin (stepProg g k first) := by
  show AllQP Lin (phases g k first)
  unfold phases
  refine allQP_append (allQP_append (allQP_append (allQP_append (allQP_append (allQP_append (allQP_append
    (allQP_append ?_ (pmlP_lin k first)) (taperTop_lin k)) (taperBot_lin k)) (taperLef_lin k)) (taperRig_lin k))
    (allQP_single ?_)) (pmlV_lin k first)) (allQP_single freePhase_lin)
  · refine allQP_cons ?_ (allQP_single wallPhase_lin)
    unfold velPhase
    rw [List.flatten_append]
    exact allQ_append (allQ_sweep fun _ _ _ _ _ _ => allQ_one (vxS_lin _ _ _ _))
      (allQ_sweep fun _ _ _ _ _ _ => allQ_one (vzS_lin _ _ _ _))
  · exact allQ_sweep fun _ _ _ _ _ _ => allQ_one (pS_lin _ _ _ _)

/-! ## Property theorems -/

variable [CommRing K]

/-- A wave field: particle velocities, pressure and the memory variables of the PML. -/
structure Field (K : Type) where
  vx : Int → K
  vz : Int → K
  p : Int → K
  psiVxX : Int → K
  psiVzZ : Int → K
  psiPX : Int → K
  psiPZ : Int → K

/-- The superposition `s·u + t·v`. -/
def Field.lincomb (s t : K) (u v : Field K) : Field K where
  vx i := s * u.vx i + t * v.vx i
  vz i := s * u.vz i + t * v.vz i
  p i := s * u.p i + t * v.p i
  psiVxX i := s * u.psiVxX i + t * v.psiVxX i
  psiVzZ i := s * u.psiVzZ i + t * v.psiVzZ i
  psiPX i := s * u.psiPX i + t * v.psiPX i
  psiPZ i := s * u.psiPZ i + t * v.psiPZ i

/-- The field without waves. -/
def Field.rest : Field K := ⟨fun _ => 0, fun _ => 0, fun _ => 0, fun _ => 0, fun _ => 0, fun _ => 0, fun _ => 0⟩

/-- Memory with the parameters `med` (medium, tapers, PML coefficients) and the field `u`, without sources. -/
def mem (med : Cell → K) (u : Field K) : Cell → K
  | (.vx, i) => u.vx i | (.vz, i) => u.vz i | (.p, i) => u.p i
  | (.psiVxX, i) => u.psiVxX i | (.psiVzZ, i) => u.psiVzZ i | (.psiPX, i) => u.psiPX i | (.psiPZ, i) => u.psiPZ i
  | (.amp, _) => 0 | (.s1x, _) => 0 | (.s1z, _) => 0 | (.s2z, _) => 0
  | a => med a

/-- The field in a memory. -/
def fieldOf (m : Cell → K) : Field K where
  vx i := m (.vx, i)
  vz i := m (.vz, i)
  p i := m (.p, i)
  psiVxX i := m (.psiVxX, i)
  psiVzZ i := m (.psiVzZ, i)
  psiPX i := m (.psiPX, i)
  psiPZ i := m (.psiPZ, i)

/-- The wave field after `n` time steps in the medium `med`. -/
def propagate (g : Cfg) (k : Coef K) (med : Cell → K) (n : Nat) (u : Field K) : Field K :=
  fieldOf (steps g k n (mem med u))

theorem mem_lincomb (med : Cell → K) (s t : K) (u v : Field K) :
    mem med (Field.lincomb s t u v) = comb fld s t (mem med u) (mem med v) := by
  funext ⟨a, i⟩; cases a <;> first | rfl | exact (by simp [mem, comb, fld])

theorem mem_nonfld (med : Cell → K) (u : Field K) (a : Cell) (h : fld a = false) : mem med u a = med a := by
  obtain ⟨a, i⟩ := a; cases a <;> first | rfl | cases h

theorem steps_nonfld (k : Coef K) (n : Nat) (m : Cell → K) (a : Cell) (h : fld a = false) : steps g k n m a = m a := by
  induction n with
  | zero => rfl
  | succ n ih => rw [steps, run_nonfield (fld := fld) (fun s hs => (step_lin k _ s hs).1) _ _ h, ih]

theorem steps_comb (k : Coef K) (n : Nat) (s t : K) (m1 m2 : Cell → K) (hm : ∀ a, fld a = false → m1 a = m2 a) :
    steps g k n (comb fld s t m1 m2) = comb fld s t (steps g k n m1) (steps g k n m2) := by
  induction n with
  | zero => rfl
  | succ n ih =>
    rw [steps, ih, run_comb (step_lin k _)]
    · rfl
    · intro a ha; rw [steps_nonfld k n m1 a ha, steps_nonfld k n m2 a ha, hm a ha]

/-- C27: for every grid, boundary setting, medium and number of time steps, propagation of a superposition is the
superposition of the propagated fields. -/
theorem propagate_linear (g : Cfg) (k : Coef K) (med : Cell → K) (n : Nat) (s t : K) (u v : Field K) :
    propagate g k med n (Field.lincomb s t u v) =
      Field.lincomb s t (propagate g k med n u) (propagate g k med n v) := by
  unfold propagate
  rw [mem_lincomb, steps_comb k n s t _ _ (fun a ha => by rw [mem_nonfld med u a ha, mem_nonfld med v a ha])]
  rfl

/-- C27: without source the field at rest stays at rest. -/
theorem propagate_rest (g : Cfg) (k : Coef K) (med : Cell → K) (n : Nat) : propagate g k med n Field.rest = Field.rest := by
  have h := propagate_linear g k med n 0 0 Field.rest Field.rest
  have e : ∀ u v : Field K, Field.lincomb 0 0 u v = Field.rest := by
    intro u v; simp [Field.lincomb, Field.rest]
  rw [e, e] at h
  exact h

/-- The medium, the tapers and the PML coefficients are never written. -/
theorem propagate_medium (g : Cfg) (k : Coef K) (med : Cell → K) (n : Nat) (u : Field K) (a : Cell) (h : fld a = false) :
    steps g k n (mem med u) a = med a := by
  rw [steps_nonfld k n _ a h, mem_nonfld med u a h]

end

/-- A field that does move: one time step on a 3×3 grid with free surfaces turns a unit pressure in the middle into particle
velocities. -/
example : (propagate (K := Int) ⟨3, 3, 5, 1, 1, 1, 1⟩ ⟨27, -1, 27, -1⟩ (fun _ => 1) 1
    { Field.rest with p := fun i => if i = 2 * 7 + 2 then 1 else 0 }).vx (3 * 7 + 2) = 27 := by
  decide +kernel

end Verif.Fd.Acou

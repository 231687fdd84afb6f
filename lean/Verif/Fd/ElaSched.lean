import Verif.Fd.ElaLinear

/-! # C66: the elastic time step gives the same result under every schedule of its parallel loops -/

namespace Verif.Fd.Ela

open Verif.Sten
open Verif.Fd.Acou (Cfg Coef max0 minTo Valid grid le_of_max0 lt_of_minTo)

section
variable {K : Type} {g : Cfg}

/-- A set of arrays, as a set of cells. -/
def In (l : List Arr) (c : Cell) : Prop := c.1 ∈ l

instance (l : List Arr) (c : Cell) : Decidable (In l c) := inferInstanceAs (Decidable (c.1 ∈ l))

theorem in1 {a : Arr} {c : Cell} : In [a] c ↔ c.1 = a := List.mem_singleton
theorem in2 {a b : Arr} {c : Cell} : In [a, b] c ↔ c.1 = a ∨ c.1 = b := by simp [In]

/-- Cells of `W` the expression reads have key `i`. -/
def EKey (W : Cell → Prop) (κ : Cell → Int) (i : Int) (e : Expr Cell K) : Prop := ∀ c ∈ e.reads, W c → κ c = i

section
variable {W : Cell → Prop} {κ : Cell → Int} {i : Int}

theorem ekey_add {x y : Expr Cell K} (hx : EKey W κ i x) (hy : EKey W κ i y) : EKey W κ i (x + y) := by
  intro c hc; rw [rds_add] at hc; rcases List.mem_append.mp hc with h | h
  · exact hx c h
  · exact hy c h
theorem ekey_sub {x y : Expr Cell K} (hx : EKey W κ i x) (hy : EKey W κ i y) : EKey W κ i (x - y) := by
  intro c hc; rw [rds_sub] at hc; rcases List.mem_append.mp hc with h | h
  · exact hx c h
  · exact hy c h
theorem ekey_mul {x y : Expr Cell K} (hx : EKey W κ i x) (hy : EKey W κ i y) : EKey W κ i (x * y) := by
  intro c hc; rw [rds_mul] at hc; rcases List.mem_append.mp hc with h | h
  · exact hx c h
  · exact hy c h
theorem ekey_zero : EKey W κ i (.zero : Expr Cell K) := by intro c hc; rw [rds_zero] at hc; cases hc
theorem ekey_rd {c : Cell} (h : W c → κ c = i) : EKey W κ i (.rd c : Expr Cell K) := by
  intro c' hc; rw [rds_rd, List.mem_singleton] at hc; subst hc; exact h

theorem key_stmt {c : Cell} {e : Expr Cell K} (hw : W c) (hc : κ c = i) (he : EKey W κ i e) :
    InKey W κ i (⟨c, e⟩ : Stmt Cell K) := by
  refine ⟨hw, ?_⟩
  unfold Stmt.cells
  rw [List.forall_mem_cons]
  exact ⟨fun _ => hc, he⟩

/-- An expression that reads nothing of `l`. -/
def Off (l : List Arr) (e : Expr Cell K) : Prop := ∀ c ∈ e.reads, c.1 ∉ l

theorem ekey_off {l : List Arr} {e : Expr Cell K} (h : Off l e) : EKey (In l) κ i e := fun c hc hw => absurd hw (h c hc)
end

/-- The difference expressions read the stresses or the velocities only. -/
theorem off_diff (k : Coef K) (ix iz : Int) {l : List Arr} (hv : Arr.vx ∉ l ∧ Arr.vz ∉ l) :
    Off l (dvxN g k ix iz) ∧ Off l (dvzN g k ix iz) ∧ Off l (dvzT g k ix iz) ∧ Off l (dvxT g k ix iz) := by
  refine ⟨?_, ?_, ?_, ?_⟩
  · unfold dvxN; split_ifs <;> unfold Off <;> cells [rd, dvx] <;> simp [hv.1, hv.2]
  · unfold dvzN; split_ifs <;> unfold Off <;> cells [rd, dvz] <;> simp [hv.1, hv.2]
  · unfold dvzT; split_ifs <;> unfold Off <;> cells [rd] <;> simp [hv.1, hv.2]
  · unfold dvxT; split_ifs <;> unfold Off <;> cells [rd] <;> simp [hv.1, hv.2]

theorem off_diff' (k : Coef K) (ix iz : Int) {l : List Arr} (hv : Arr.txx ∉ l ∧ Arr.tzz ∉ l ∧ Arr.txz ∉ l) :
    Off l (dpxX g k ix iz) ∧ Off l (dpzX g k ix iz) ∧ Off l (dpzZ g k ix iz) ∧ Off l (dpxZ g k ix iz) := by
  refine ⟨?_, ?_, ?_, ?_⟩
  · unfold dpxX; split_ifs <;> unfold Off <;> cells [rd] <;> simp [hv.1, hv.2]
  · unfold dpzX; split_ifs <;> unfold Off <;> cells [rd] <;> simp [hv.1, hv.2]
  · unfold dpzZ; split_ifs <;> unfold Off <;> cells [rd] <;> simp [hv.1, hv.2]
  · unfold dpxZ; split_ifs <;> unfold Off <;> cells [rd] <;> simp [hv.1, hv.2]

section
variable {l : List Arr} {κ : Cell → Int} {i : Int}

theorem mem_key {on : Bool} {psi b c : Arr} {j ix iz : Int} {d : Expr Cell K} (hp : psi ∈ l) (hk : κ (psi, el g.naz ix iz) = i)
    (hb : b ∉ l) (hc : c ∉ l) (hd : Off l d) : All (InKey (In l) κ i) (mem' g on psi b c j ix iz d) :=
  all_when fun _ => all_one (key_stmt hp hk (ekey_add (ekey_mul (ekey_rd fun h => absurd h hb) (ekey_rd fun _ => hk))
    (ekey_mul (ekey_rd fun h => absurd h hc) (ekey_off hd))))

theorem str_key {on : Bool} {psi ik : Arr} {j ix iz : Int} {d : Expr Cell K} (hk : κ (psi, el g.naz ix iz) = i)
    (hb : ik ∉ l) (hd : Off l d) : EKey (In l) κ i (str g on psi ik j ix iz d) := by
  unfold str
  split
  · exact ekey_add (ekey_mul (ekey_rd fun h => absurd h hb) (ekey_off hd)) (ekey_rd fun _ => hk)
  · exact ekey_off hd
end

/-- Arrays written by the loops. -/
def wX : List Arr := [.vx, .psiVxX, .psiVxZ]
def wZ : List Arr := [.vz, .psiVzZ, .psiVzX]
def wN : List Arr := [.txx, .tzz, .psiPX, .psiPZ]
def wT : List Arr := [.txz, .psiTX, .psiTZ]

theorem pml_key (k : Coef K) (inx inz : Bool) {ix iz : Int} (h1 : 0 ≤ iz) (h2 : iz < g.naz) :
    All (InKey (In wX) (colOf g.naz) ix) (vxPml g k ix iz inx inz) ∧
    All (InKey (In wZ) (colOf g.naz) ix) (vzPml g k ix iz inx inz) ∧
    All (InKey (In wN) (colOf g.naz) ix) (nrmPml g k ix iz inx inz) ∧
    All (InKey (In wT) (colOf g.naz) ix) (shrPml g k ix iz inx inz) := by
  have C : ∀ a : Arr, colOf g.naz (a, el g.naz ix iz) = ix := fun a => colOf_el h1 h2
  obtain ⟨x1, x2, -, -⟩ := off_diff' (g := g) k ix iz (l := wX) (by decide)
  obtain ⟨-, -, z1, z2⟩ := off_diff' (g := g) k ix iz (l := wZ) (by decide)
  obtain ⟨n1, n2, -, -⟩ := off_diff (g := g) k ix iz (l := wN) (by decide)
  obtain ⟨-, -, t1, t2⟩ := off_diff (g := g) k ix iz (l := wT) (by decide)
  have R : ∀ {l : List Arr} {a : Arr}, EKey (In l) (colOf g.naz) ix (rd g a ix iz : Expr Cell K) := fun {l a} => ekey_rd fun _ => C _
  refine ⟨?_, ?_, ?_, ?_⟩
  · exact all_append (all_append (mem_key (by decide) (C _) (by decide) (by decide) x1)
      (mem_key (by decide) (C _) (by decide) (by decide) x2))
      (all_one (key_stmt (show Arr.vx ∈ wX by decide) (C _) (ekey_sub R (ekey_mul R
        (ekey_add (str_key (C _) (by decide) x1) (str_key (C _) (by decide) x2))))))
  · exact all_append (all_append (mem_key (by decide) (C _) (by decide) (by decide) z1)
      (mem_key (by decide) (C _) (by decide) (by decide) z2))
      (all_one (key_stmt (show Arr.vz ∈ wZ by decide) (C _) (ekey_sub R (ekey_mul R
        (ekey_add (str_key (C _) (by decide) z1) (str_key (C _) (by decide) z2))))))
  · refine all_append (all_append (mem_key (by decide) (C _) (by decide) (by decide) n1)
      (mem_key (by decide) (C _) (by decide) (by decide) n2)) (all_cons ?_ (all_one ?_))
    · exact key_stmt (show Arr.txx ∈ wN by decide) (C _) (ekey_sub R (ekey_add (ekey_mul R (str_key (C _) (by decide) n1))
        (ekey_mul R (str_key (C _) (by decide) n2))))
    · exact key_stmt (show Arr.tzz ∈ wN by decide) (C _) (ekey_sub R (ekey_add (ekey_mul R (str_key (C _) (by decide) n2))
        (ekey_mul R (str_key (C _) (by decide) n1))))
  · exact all_append (all_append (mem_key (by decide) (C _) (by decide) (by decide) t1)
      (mem_key (by decide) (C _) (by decide) (by decide) t2))
      (all_one (key_stmt (show Arr.txz ∈ wT by decide) (C _) (ekey_sub R (ekey_mul R
        (ekey_add (str_key (C _) (by decide) t1) (str_key (C _) (by decide) t2))))))

section
variable {κ : Cell → Int} {i : Int}

theorem vxS_key (k1 k2 : K) {ix iz : Int} (h : ∀ a, κ (a, el g.naz ix iz) = i) : InKey (In [.vx]) κ i (vxS g k1 k2 ix iz) := by
  refine key_stmt (List.mem_singleton.mpr rfl) (h _) ?_
  unfold EKey; cells [rd, in1]; exact h _
theorem vzS_key (k1 k2 : K) {ix iz : Int} (h : ∀ a, κ (a, el g.naz ix iz) = i) : InKey (In [.vz]) κ i (vzS g k1 k2 ix iz) := by
  refine key_stmt (List.mem_singleton.mpr rfl) (h _) ?_
  unfold EKey; cells [rd, in1]; exact h _
theorem nrmS_key (k1 k2 : K) {ix iz : Int} (h : ∀ a, κ (a, el g.naz ix iz) = i) :
    All (InKey (In [.txx, .tzz]) κ i) (nrmS g k1 k2 ix iz) := by
  refine all_cons (key_stmt (by simp [In]) (h _) ?_) (all_one (key_stmt (by simp [In]) (h _) ?_)) <;> unfold EKey <;>
    cells [rd, dvx, dvz, in2] <;> exact h _
theorem shrS_key (k1 k2 : K) {ix iz : Int} (h : ∀ a, κ (a, el g.naz ix iz) = i) : InKey (In [.txz]) κ i (shrS g k1 k2 ix iz) := by
  refine key_stmt (List.mem_singleton.mpr rfl) (h _) ?_
  unfold EKey; cells [rd, in1]; exact h _
theorem tapS_key {a t : Arr} {ix iz j : Int} (h : κ (a, el g.naz ix iz) = i) (ht : t ≠ a) :
    InKey (In [a]) κ i (tapS g a ix iz t j : Stmt Cell K) :=
  key_stmt (List.mem_singleton.mpr rfl) h (ekey_mul (ekey_rd fun _ => h)
    (ekey_rd fun e => absurd (List.mem_singleton.mp e) ht))
theorem cp_key {l : List Arr} {a : Arr} {ix iz jx jz : Int} (ha : a ∈ l) (h1 : κ (a, el g.naz ix iz) = i)
    (h2 : κ (a, el g.naz jx jz) = i) : InKey (In l) κ i (cp g a ix iz jx jz : Stmt Cell K) :=
  key_stmt ha h1 (ekey_rd fun _ => h2)
theorem ng_key {l : List Arr} {a : Arr} {ix iz jx jz : Int} (ha : a ∈ l) (h1 : κ (a, el g.naz ix iz) = i)
    (h2 : κ (a, el g.naz jx jz) = i) : InKey (In l) κ i (ng g a ix iz jx jz : Stmt Cell K) :=
  key_stmt ha h1 (ekey_sub ekey_zero (ekey_rd fun _ => h2))
theorem zr_key {a : Arr} {ix iz : Int} (h1 : κ (a, el g.naz ix iz) = i) : InKey (In [a]) κ i (zr g a ix iz : Stmt Cell K) :=
  key_stmt (List.mem_singleton.mpr rfl) h1 ekey_zero
end

theorem sweep_free (l : List Arr) {a b c d : Int} {body : Int → Int → List (Stmt Cell K)} (hc : 0 ≤ c) (hd : d ≤ g.naz)
    (h : ∀ ix iz, 0 ≤ iz → iz < g.naz → All (InKey (In l) (colOf g.naz) ix) (body ix iz)) :
    (sweep a b c d body).Pairwise Apart :=
  parfor_apart (In l) (colOf g.naz) fun ix _ _ => all_loop fun iz h3 h4 => h ix iz (by omega) (by omega)

theorem rows (hv : Valid g) : (0 ≤ g.ioXz ∧ g.ieXz ≤ g.naz) ∧ (0 ≤ g.ioZz ∧ g.ieZz ≤ g.naz) ∧ (0 ≤ iz0 g ∧ iz1 g ≤ g.naz) := by
  obtain ⟨⟨g1, g2, g3, g4, g5⟩, ⟨p1, p2, p3, p4⟩, q1, q2, q3, q4⟩ := grid hv
  simp only [Cfg.ioXz, Cfg.ieXz, Cfg.ioZz, Cfg.ieZz, iz0, iz1, Cfg.ioPz, Cfg.iePz]
  refine ⟨by omega, by omega, ?_, ?_⟩ <;> split_ifs <;> omega

theorem velPhase_free (hv : Valid g) (k : Coef K) : PhaseFree (velPhase g k) := by
  obtain ⟨⟨x1, x2⟩, ⟨z1, z2⟩, -⟩ := rows hv
  refine phaseFree_of_pairwise (append_apart
    (sweep_free [.vx] x1 x2 fun ix iz h1 h2 => all_one (vxS_key _ _ fun a => colOf_el h1 h2))
    (sweep_free [.vz] z1 z2 fun ix iz h1 h2 => all_one (vzS_key _ _ fun a => colOf_el h1 h2))
    (cross_of (W := In [.vx]) (W' := In [.vz]) ?_ ?_))
  · refine all_sweep fun ix _ _ iz _ _ => all_one ⟨List.mem_singleton.mpr rfl, ?_⟩
    cells [vxS, rd, in1]
  · refine all_sweep fun ix _ _ iz _ _ => all_one ⟨List.mem_singleton.mpr rfl, ?_⟩
    cells [vzS, rd, in1]

theorem strPhase_free (hv : Valid g) (k : Coef K) : PhaseFree (strPhase g k) := by
  obtain ⟨-, -, s1, s2⟩ := rows hv
  refine phaseFree_of_pairwise (append_apart
    (sweep_free [.txx, .tzz] s1 s2 fun ix iz h1 h2 => nrmS_key _ _ fun a => colOf_el h1 h2)
    (sweep_free [.txz] s1 s2 fun ix iz h1 h2 => all_one (shrS_key _ _ fun a => colOf_el h1 h2))
    (cross_of (W := In [.txx, .tzz]) (W' := In [.txz]) ?_ ?_))
  · refine all_sweep fun ix _ _ iz _ _ => all_cons ⟨by simp [In], ?_⟩ (all_one ⟨by simp [In], ?_⟩) <;>
      cells [rd, dvx, dvz, in1]
  · refine all_sweep fun ix _ _ iz _ _ => all_one ⟨List.mem_singleton.mpr rfl, ?_⟩
    cells [shrS, rd, in2]

/-! ### The rigid walls -/

/-- The assignment touches the array `a` only, writes keys in `w` and touches keys in `r`. -/
def On (a : Arr) (κ : Cell → Int) (w r : Int → Prop) (s : Stmt Cell K) : Prop :=
  s.dst.1 = a ∧ w (κ s.dst) ∧ ∀ c ∈ s.cells, c.1 = a ∧ r (κ c)

theorem on_cross {a : Arr} {κ : Cell → Int} {w r w' r' : Int → Prop} {p q : List (List (Stmt Cell K))}
    (hp : All (On a κ w r) p.flatten) (hq : All (On a κ w' r') q.flatten) (h1 : ∀ x, w x → ¬ r' x) (h2 : ∀ x, w' x → ¬ r x) :
    ∀ s ∈ p.flatten, ∀ s' ∈ q.flatten, s.dst ∉ s'.cells ∧ s'.dst ∉ s.cells := fun s hs s' hs' =>
  ⟨fun hc => h1 _ (hp s hs).2.1 ((hq s' hs').2.2 _ hc).2, fun hc => h2 _ (hq s' hs').2.1 ((hp s hs).2.2 _ hc).2⟩

theorem on_array {a a' : Arr} {κ κ' : Cell → Int} {w r w' r' : Int → Prop} {p q : List (List (Stmt Cell K))} (ha : a ≠ a')
    (hp : All (On a κ w r) p.flatten) (hq : All (On a' κ' w' r') q.flatten) :
    ∀ s ∈ p.flatten, ∀ s' ∈ q.flatten, s.dst ∉ s'.cells ∧ s'.dst ∉ s.cells := fun s hs s' hs' =>
  ⟨fun hc => ha ((hp s hs).1.symm.trans ((hq s' hs').2.2 _ hc).1),
   fun hc => ha (((hp s hs).2.2 _ hc).1.symm.trans (hq s' hs').1)⟩

theorem ng_on {a : Arr} {κ : Cell → Int} {w r : Int → Prop} {ix iz jx jz : Int} (h1 : w (κ (a, el g.naz ix iz)))
    (h2 : r (κ (a, el g.naz ix iz))) (h3 : r (κ (a, el g.naz jx jz))) : On a κ w r (ng g a ix iz jx jz : Stmt Cell K) := by
  refine ⟨rfl, h1, ?_⟩
  cells [ng, rd]
  exact ⟨h2, h3⟩

theorem wallPhase_free (hv : Valid g) (hx : 3 ≤ g.nx) (hz : 3 ≤ g.nz) : PhaseFree (wallPhase g : List (List (Stmt Cell K))) := by
  obtain ⟨⟨g1, g2, g3, g4, g5⟩, ⟨p1, p2, p3, p4⟩, q1, q2, q3, q4⟩ := grid hv
  have R : ∀ {a : Arr} {ix iz : Int}, 0 ≤ iz → iz < g.naz → rowOf g.naz (a, el g.naz ix iz) = iz := fun h1 h2 => rowOf_el h1 h2
  have C : ∀ {a : Arr} {ix iz : Int}, 0 ≤ iz → iz < g.naz → colOf g.naz (a, el g.naz ix iz) = ix := fun h1 h2 => colOf_el h1 h2
  have rT : All (On .vz (rowOf g.naz) (· ≤ 1) (· ≤ 3)) (rigidTop g : List (List (Stmt Cell K))).flatten := by
    refine all_itef fun _ => all_parfor fun ix h1 h2 => all_cons (ng_on ?_ ?_ ?_) (all_loop fun ib h3 h4 =>
      all_one (ng_on ?_ ?_ ?_)) <;> simp only [Cfg.ibnd] at * <;> rw [R] <;> omega
  have rB : All (On .vz (rowOf g.naz) (g.nz + 1 ≤ ·) (g.nz - 1 ≤ ·)) (rigidBot g : List (List (Stmt Cell K))).flatten := by
    refine all_itef fun _ => all_parfor fun ix h1 h2 => all_cons (ng_on ?_ ?_ ?_) (all_loop fun ib h3 h4 =>
      all_one (ng_on ?_ ?_ ?_)) <;> simp only [Cfg.ibnd] at * <;> rw [R] <;> omega
  have rR : All (On .vx (colOf g.naz) (g.nx + 1 ≤ ·) (g.nx - 1 ≤ ·)) (rigidRig g : List (List (Stmt Cell K))).flatten := by
    refine all_itef fun _ => all_parfor fun iz h1 h2 => all_cons (ng_on ?_ ?_ ?_) (all_loop fun ib h3 h4 =>
      all_one (ng_on ?_ ?_ ?_)) <;> simp only [Cfg.ibnd] at * <;> rw [C] <;> omega
  have rL : All (On .vx (colOf g.naz) (· ≤ 1) (· ≤ 3)) (rigidLef g : List (List (Stmt Cell K))).flatten := by
    refine all_itef fun _ => all_parfor fun iz h1 h2 => all_cons (ng_on ?_ ?_ ?_) (all_loop fun ib h3 h4 =>
      all_one (ng_on ?_ ?_ ?_)) <;> simp only [Cfg.ibnd] at * <;> rw [C] <;> omega
  have aT : (rigidTop g : List (List (Stmt Cell K))).Pairwise Apart := by
    refine when_apart fun _ => parfor_apart (In [.vz]) (colOf g.naz) fun ix h1 h2 => all_cons
      (ng_key (by simp) ?_ ?_) (all_loop fun ib h3 h4 => all_one (ng_key (by simp) ?_ ?_)) <;> simp only [Cfg.ibnd] at * <;>
      rw [C] <;> omega
  have aB : (rigidBot g : List (List (Stmt Cell K))).Pairwise Apart := by
    refine when_apart fun _ => parfor_apart (In [.vz]) (colOf g.naz) fun ix h1 h2 => all_cons
      (ng_key (by simp) ?_ ?_) (all_loop fun ib h3 h4 => all_one (ng_key (by simp) ?_ ?_)) <;> simp only [Cfg.ibnd] at * <;>
      rw [C] <;> omega
  have aR : (rigidRig g : List (List (Stmt Cell K))).Pairwise Apart := by
    refine when_apart fun _ => parfor_apart (In [.vx]) (rowOf g.naz) fun ix h1 h2 => all_cons
      (ng_key (by simp) ?_ ?_) (all_loop fun ib h3 h4 => all_one (ng_key (by simp) ?_ ?_)) <;> simp only [Cfg.ibnd] at * <;>
      rw [R] <;> omega
  have aL : (rigidLef g : List (List (Stmt Cell K))).Pairwise Apart := by
    refine when_apart fun _ => parfor_apart (In [.vx]) (rowOf g.naz) fun ix h1 h2 => all_cons
      (ng_key (by simp) ?_ ?_) (all_loop fun ib h3 h4 => all_one (ng_key (by simp) ?_ ?_)) <;> simp only [Cfg.ibnd] at * <;>
      rw [R] <;> omega
  refine phaseFree_of_pairwise ?_
  unfold wallPhase
  rw [List.append_assoc, List.append_assoc]
  refine append_apart aT (append_apart aR (append_apart aB aL ?_) ?_) ?_
  · exact on_array (by decide) rB rL
  · intro s hs s' hs'
    rw [List.flatten_append, List.mem_append] at hs'
    rcases hs' with h | h
    · exact on_array (by decide) rR rB s hs s' h
    · exact on_cross rR rL (fun x h1 h2 => by omega) (fun x h1 h2 => by omega) s hs s' h
  · intro s hs s' hs'
    rw [List.flatten_append, List.flatten_append, List.mem_append, List.mem_append] at hs'
    rcases hs' with h | h | h
    · exact on_array (by decide) rT rR s hs s' h
    · exact on_cross rT rB (fun x h1 h2 => by omega) (fun x h1 h2 => by omega) s hs s' h
    · exact on_array (by decide) rT rL s hs s' h

/-! ### PML, tapers, free surfaces -/

theorem pmlLoop_free (l : List Arr) {a b c d xlo xhi zlo zhi : Int} {body : Int → Int → Bool → Bool → List (Stmt Cell K)}
    (hcd : ∀ iz, c ≤ iz → iz < d → 0 ≤ iz ∧ iz < g.naz)
    (h : ∀ ix iz inx inz, 0 ≤ iz → iz < g.naz → All (InKey (In l) (colOf g.naz) ix) (body ix iz inx inz)) :
    PhaseFree (pmlLoop g a b c d xlo xhi zlo zhi body) := by
  unfold pmlLoop sweep
  exact phaseFree_of_pairwise (parfor_apart (In l) (colOf g.naz) fun ix _ _ => all_loop fun iz h3 h4 =>
    all_ite (fun _ => all_nil) fun _ => h ix iz _ _ (hcd iz h3 h4).1 (hcd iz h3 h4).2)

theorem pmlP_free (hv : Valid g) (k : Coef K) (first : Bool) : AllFree (pmlP g k first) := by
  obtain ⟨⟨g1, g2, g3, g4, g5⟩, ⟨p1, p2, p3, p4⟩, q1, q2, q3, q4⟩ := grid hv
  refine allFree_when fun _ => allFree_append (allFree_when fun _ => allFree_one (one_free _)) ?_
  refine allFree_cons (pmlLoop_free wX (fun iz h3 h4 => ⟨?_, ?_⟩) fun ix iz inx inz h1 h2 => (pml_key k inx inz h1 h2).1)
    (allFree_cons (pmlLoop_free wZ (fun iz h3 h4 => ⟨?_, ?_⟩) fun ix iz inx inz h1 h2 => (pml_key k inx inz h1 h2).2.1)
    (allFree_cons ?_ (allFree_one ?_)))
  · split_ifs at h3
    · exact (le_of_max0 h3).1
    · simp only [Cfg.ioXz] at h3; omega
  · split_ifs at h4
    · exact (lt_of_minTo h4).2
    · simp only [Cfg.ieXz] at h4; omega
  · split_ifs at h3
    · exact (le_of_max0 h3).1
    · simp only [Cfg.ioZz] at h3; omega
  · split_ifs at h4
    · exact (lt_of_minTo h4).2
    · simp only [Cfg.ieZz] at h4; omega
  · refine phaseFree_of_pairwise (when_apart fun _ => parfor_apart (In [.vx, .vz]) (rowOf g.naz) fun iz h1 h2 => ?_)
    refine all_cons (cp_key ?_ ?_ ?_) (all_cons (cp_key ?_ ?_ ?_) (all_cons (cp_key ?_ ?_ ?_) (all_one (cp_key ?_ ?_ ?_)))) <;>
      first | exact rowOf_el h1 h2 | simp
  · refine phaseFree_of_pairwise (when_apart fun _ => parfor_apart (In [.vx, .vz]) (colOf g.naz) fun iz h1 h2 => ?_)
    refine all_cons (cp_key ?_ ?_ ?_) (all_cons (cp_key ?_ ?_ ?_) (all_cons (cp_key ?_ ?_ ?_) (all_one (cp_key ?_ ?_ ?_)))) <;>
      first | exact colOf_el (by omega) (by omega) | simp

theorem pmlV_free (hv : Valid g) (k : Coef K) (first : Bool) : AllFree (pmlV g k first) := by
  obtain ⟨⟨g1, g2, g3, g4, g5⟩, ⟨p1, p2, p3, p4⟩, q1, q2, q3, q4⟩ := grid hv
  refine allFree_when fun _ => allFree_append (allFree_when fun _ => allFree_one (one_free _)) ?_
  refine allFree_cons (pmlLoop_free wN (fun iz h3 h4 => ⟨?_, ?_⟩) fun ix iz inx inz h1 h2 => (pml_key k inx inz h1 h2).2.2.1)
    (allFree_one (pmlLoop_free wT (fun iz h3 h4 => ⟨?_, ?_⟩) fun ix iz inx inz h1 h2 => (pml_key k inx inz h1 h2).2.2.2))
  · simp only [Cfg.ioPz, Cfg.ioXz] at h3; split_ifs at h3 <;> omega
  · split_ifs at h4
    · exact (lt_of_minTo h4).2
    · simp only [Cfg.ieXz] at h4; omega
  · simp only [ioTz, Cfg.ioXz] at h3; split_ifs at h3 <;> omega
  · split_ifs at h4
    · exact (lt_of_minTo h4).2
    · simp only [Cfg.ieXz] at h4; omega

theorem taperX_free (k : Coef K) {a b c d : Int} {t : Arr} (ht : t ≠ .vx) {w : Int → Int → Int} (hc : 0 ≤ c)
    (hd : d ≤ g.naz) : PhaseFree (taperX g k a b c d t w) :=
  phaseFree_of_pairwise (sweep_free [.vx] hc hd fun ix iz h1 h2 => all_cons (vxS_key _ _ fun a => colOf_el h1 h2) (all_one
    (tapS_key (colOf_el h1 h2) ht)))

theorem taperZ_free (k : Coef K) {a b c d : Int} {t : Arr} (ht : t ≠ .vz) {w : Int → Int → Int} (hc : 0 ≤ c)
    (hd : d ≤ g.naz) : PhaseFree (taperZ g k a b c d t w) :=
  phaseFree_of_pairwise (sweep_free [.vz] hc hd fun ix iz h1 h2 => all_cons (vzS_key _ _ fun a => colOf_el h1 h2) (all_one
    (tapS_key (colOf_el h1 h2) ht)))

theorem tapers_free (hv : Valid g) (k : Coef K) : AllFree (taperTop g k ++ taperBot g k ++ taperLef g k ++ taperRig g k) := by
  obtain ⟨⟨g1, g2, g3, g4, g5⟩, ⟨p1, p2, p3, p4⟩, q1, q2, q3, q4⟩ := grid hv
  obtain ⟨⟨x1, x2⟩, ⟨z1, z2⟩, -⟩ := rows hv
  refine allFree_append (allFree_append (allFree_append ?_ ?_) ?_) ?_
  · refine allFree_when fun h => ?_
    have q := q1 (.inr h)
    have a1 : 0 ≤ g.ioXz - g.npml ∧ g.ioXz ≤ g.naz := by simp only [Cfg.ioXz]; omega
    have a2 : 0 ≤ g.ioZz - g.npml ∧ g.ioZz ≤ g.naz := by simp only [Cfg.ioZz]; omega
    refine allFree_append (allFree_append (allFree_append (allFree_append (allFree_append
      (allFree_one (taperX_free k (by decide) a1.1 a1.2)) ?_) ?_) (allFree_one (taperZ_free k (by decide) a2.1 a2.2))) ?_) ?_
    · exact allFree_when fun _ => allFree_one (taperX_free k (by decide) a1.1 a1.2)
    · exact allFree_when fun _ => allFree_one (taperX_free k (by decide) a1.1 a1.2)
    · exact allFree_when fun _ => allFree_one (taperZ_free k (by decide) a2.1 a2.2)
    · exact allFree_when fun _ => allFree_one (taperZ_free k (by decide) a2.1 a2.2)
  · refine allFree_when fun h => ?_
    have q := q2 (.inr h)
    have a1 : 0 ≤ g.ieXz ∧ g.ieXz + g.npml ≤ g.naz := by simp only [Cfg.ieXz]; omega
    have a2 : 0 ≤ g.ieZz ∧ g.ieZz + g.npml ≤ g.naz := by simp only [Cfg.ieZz]; omega
    refine allFree_append (allFree_append (allFree_append (allFree_append (allFree_append
      (allFree_one (taperX_free k (by decide) a1.1 a1.2)) ?_) ?_) (allFree_one (taperZ_free k (by decide) a2.1 a2.2))) ?_) ?_
    · exact allFree_when fun _ => allFree_one (taperX_free k (by decide) a1.1 a1.2)
    · exact allFree_when fun _ => allFree_one (taperX_free k (by decide) a1.1 a1.2)
    · exact allFree_when fun _ => allFree_one (taperZ_free k (by decide) a2.1 a2.2)
    · exact allFree_when fun _ => allFree_one (taperZ_free k (by decide) a2.1 a2.2)
  · exact allFree_when fun _ => allFree_cons (taperX_free k (by decide) x1 x2) (allFree_one (taperZ_free k (by decide) z1 z2))
  · exact allFree_when fun _ => allFree_cons (taperX_free k (by decide) x1 x2) (allFree_one (taperZ_free k (by decide) z1 z2))

theorem surf_key {κ : Cell → Int} {i : Int} {a : Arr} {ix iz : Int} {dv : Expr Cell K} (h : ∀ a, κ (a, el g.naz ix iz) = i)
    (hd : Off [a] dv) : InKey (In [a]) κ i (surf g a ix iz dv) :=
  key_stmt (List.mem_singleton.mpr rfl) (h _) (ekey_add (ekey_mul (ekey_rd fun _ => h _) (ekey_rd fun _ => h _))
    (ekey_sub ekey_zero (ekey_mul (ekey_off hd) (ekey_rd fun _ => h _))))

theorem free_free (hv : Valid g) (k : Coef K) : AllFree (free g k) := by
  obtain ⟨⟨g1, g2, g3, g4, g5⟩, ⟨p1, p2, p3, p4⟩, q1, q2, q3, q4⟩ := grid hv
  have ez : g.iePz + 3 = g.naz := by simp only [Cfg.iePz]; omega
  have tz : ieTz g + 2 = g.naz := by simp only [ieTz]; omega
  have ox : ∀ ix iz : Int, Off [.txx] (dvx g k.d1 k.d2 ix iz) := by
    intro ix iz; show ∀ c ∈ _, ¬ In [.txx] c; cells [dvx, rd, in1]
  have oz : ∀ ix iz : Int, Off [.tzz] (dvz g k.d1 k.d2 ix iz) := by
    intro ix iz; show ∀ c ∈ _, ¬ In [.tzz] c; cells [dvz, rd, in1]
  refine allFree_append (allFree_append (allFree_append ?_ ?_) ?_) ?_
  · refine allFree_when fun _ => allFree_cons ?_ (allFree_cons ?_ (allFree_one ?_))
    · exact phaseFree_of_pairwise (parfor_apart (In [.tzz]) (colOf g.naz) fun i h1 h2 =>
        all_one (zr_key (colOf_el (by simp only [Cfg.surface]; omega) (by simp only [Cfg.surface]; omega))))
    · refine phaseFree_of_pairwise (parfor_apart (In [.txz]) (colOf g.naz) fun i h1 h2 =>
        all_cons (ng_key (by simp) ?_ ?_) (all_one (ng_key (by simp) ?_ ?_))) <;> simp only [Cfg.surface] <;>
        refine colOf_el ?_ ?_ <;> omega
    · exact phaseFree_of_pairwise (parfor_apart (In [.txx]) (colOf g.naz) fun i h1 h2 =>
        all_one (surf_key (fun a => colOf_el (by simp only [Cfg.surface]; omega) (by simp only [Cfg.surface]; omega)) (ox _ _)))
  · refine allFree_when fun _ => allFree_cons ?_ (allFree_cons ?_ (allFree_one ?_))
    · exact phaseFree_of_pairwise (parfor_apart (In [.txx]) (rowOf g.naz) fun i h1 h2 =>
        all_one (zr_key (rowOf_el (by simp only [Cfg.ioPz] at h1; omega) (by omega))))
    · refine phaseFree_of_pairwise (parfor_apart (In [.txz]) (rowOf g.naz) fun i h1 h2 =>
        all_cons (ng_key (by simp) ?_ ?_) (all_one (ng_key (by simp) ?_ ?_))) <;> simp only [ioTz] at h1 <;>
        refine rowOf_el ?_ ?_ <;> omega
    · exact phaseFree_of_pairwise (parfor_apart (In [.tzz]) (rowOf g.naz) fun i h1 h2 =>
        all_one (surf_key (fun a => rowOf_el (by simp only [Cfg.ioPz] at h1; omega) (by omega)) (oz _ _)))
  · refine allFree_when fun _ => allFree_cons ?_ (allFree_cons ?_ (allFree_one ?_))
    · exact phaseFree_of_pairwise (parfor_apart (In [.tzz]) (colOf g.naz) fun i h1 h2 =>
        all_one (zr_key (colOf_el (by omega) (by omega))))
    · refine phaseFree_of_pairwise (parfor_apart (In [.txz]) (colOf g.naz) fun i h1 h2 =>
        all_cons (ng_key (by simp) ?_ ?_) (all_one (ng_key (by simp) ?_ ?_))) <;>
        refine colOf_el ?_ ?_ <;> omega
    · exact phaseFree_of_pairwise (parfor_apart (In [.txx]) (colOf g.naz) fun i h1 h2 =>
        all_one (surf_key (fun a => colOf_el (by omega) (by omega)) (ox _ _)))
  · refine allFree_when fun _ => allFree_cons ?_ (allFree_cons ?_ (allFree_one ?_))
    · exact phaseFree_of_pairwise (parfor_apart (In [.txx]) (rowOf g.naz) fun i h1 h2 =>
        all_one (zr_key (rowOf_el (by simp only [Cfg.ioPz] at h1; omega) (by omega))))
    · refine phaseFree_of_pairwise (parfor_apart (In [.txz]) (rowOf g.naz) fun i h1 h2 =>
        all_cons (ng_key (by simp) ?_ ?_) (all_one (ng_key (by simp) ?_ ?_))) <;> simp only [ioTz] at h1 <;>
        refine rowOf_el ?_ ?_ <;> omega
    · exact phaseFree_of_pairwise (parfor_apart (In [.tzz]) (rowOf g.naz) fun i h1 h2 =>
        all_one (surf_key (fun a => rowOf_el (by simp only [Cfg.ioPz] at h1; omega) (by omega)) (oz _ _)))

theorem phases_free (hv : Valid g) (hx : 3 ≤ g.nx) (hz : 3 ≤ g.nz) (k : Coef K) (first : Bool) : AllFree (phases g k first) := by
  unfold phases bndP
  refine allFree_append (allFree_append (allFree_append (allFree_append (allFree_one (velPhase_free hv k)) ?_)
    (allFree_one (strPhase_free hv k))) (pmlV_free hv k first)) (free_free hv k)
  have : [wallPhase g] ++ pmlP g k first ++ taperTop g k ++ taperBot g k ++ taperLef g k ++ taperRig g k =
      ([wallPhase g] ++ pmlP g k first) ++ (taperTop g k ++ taperBot g k ++ taperLef g k ++ taperRig g k) := by
    simp only [List.append_assoc]
  rw [this]
  exact allFree_append (allFree_append (allFree_one (wallPhase_free hv hx hz)) (pmlP_free hv k first)) (tapers_free hv k)

/-! ## Property theorems -/

variable [CommRing K]

/-- `m'` is a memory that `n` time steps can leave behind when every iteration of a parallel loop is a thread, the threads of
the loops between two barriers run in any order and interleave at every single memory access. -/
inductive ParSteps (g : Cfg) (k : Coef K) : Nat → (Cell → K) → (Cell → K) → Prop
  | zero (m) : ParSteps g k 0 m m
  | succ {n m m1 m2} : ParSteps g k n m m1 → ParResult (phases g k (n = 0)) m1 m2 → ParSteps g k (n + 1) m m2

/-- C66 (partial): on grids with at least three points in each direction every schedule of every parallel loop of `n` elastic
time steps leaves the same memory, namely the one of the sequential program.  Not covered: smaller grids (`elastic_wall_race`)
and sources. -/
theorem elastic_parSteps_eq_partial (hv : Valid g) (hx : 3 ≤ g.nx) (hz : 3 ≤ g.nz) (k : Coef K) {n : Nat} {m m' : Cell → K}
    (h : ParSteps g k n m m') : m' = steps g k n m := by
  induction h with
  | zero m => rfl
  | succ _ h2 ih =>
    rw [parResult_unique (phases_free hv hx hz k _) h2, ih]
    rfl

/-- There is a schedule, so the theorem above is not about nothing. -/
theorem elastic_parSteps_exists (g : Cfg) (k : Coef K) (n : Nat) (m : Cell → K) : ∃ m', ParSteps g k n m m' := by
  induction n with
  | zero => exact ⟨m, .zero m⟩
  | succ n ih =>
    obtain ⟨m1, h1⟩ := ih
    obtain ⟨m2, h2⟩ := parResult_exists (phases g k (n = 0)) m1
    exact ⟨m2, .succ h1 h2⟩

/-- On grids with one row between rigid top and bottom the two loops over the walls race. -/
theorem elastic_wall_race : ∃ m1 m2 : Cell → Int, PhaseResult (wallPhase ⟨1, 1, 5, 3, 3, 3, 3⟩) (fun c => c.2) m1 ∧
    PhaseResult (wallPhase ⟨1, 1, 5, 3, 3, 3, 3⟩) (fun c => c.2) m2 ∧ m1 ≠ m2 := by
  refine ⟨_, _, phase_order _ _ [0, 1, 2, 3] ?_, phase_order _ _ [2, 1, 0, 3] ?_, ?_⟩
  · decide
  · decide
  · intro h
    have := congrFun h (.vz, 5 + 1)
    revert this
    decide +kernel

end
end Verif.Fd.Ela

import Verif.Fd.ElaInterior

/-! # C70: what the elastic time step does in the tapered zones -/

namespace Verif.Fd.Ela

open Verif.Sten
open Verif.Par (store)
open Verif.Fd.Acou (Cfg Coef max0 minTo Valid grid le_of_max0 lt_of_minTo at2 stag)

section
variable {K : Type} {g : Cfg}

/-- The assignment leaves the element of `a` at `(ix, iz)`, all stresses and all parameters alone. -/
def Quiet (g : Cfg) (a : Arr) (ix iz : Int) (s : Stmt Cell K) : Prop :=
  Avoids g.naz a ix iz s ∧ s.dst.1 ∉ strs ∧ fld s.dst = true

/-- The expression reads the element of `a` at `(ix, iz)`, stresses and parameters only. -/
def Local (g : Cfg) (a : Arr) (ix iz : Int) (e : Expr Cell K) : Prop :=
  ∀ c ∈ e.reads, c = (a, el g.naz ix iz) ∨ c.1 ∈ strs ∨ fld c = false

theorem seqOf_append' (l1 l2 : List (List (List (Stmt Cell K)))) : seqOf (l1 ++ l2) = seqOf l1 ++ seqOf l2 := by
  unfold seqOf; rw [List.flatten_append, List.flatten_append]

theorem seqOf_one (p : List (List (Stmt Cell K))) : seqOf [p] = p.flatten := by
  unfold seqOf; simp only [List.flatten_cons, List.flatten_nil, List.append_nil]

/-- A loop over PML cells does nothing at a point that is in no PML. -/
theorem pml_miss {a b c d xlo xhi zlo zhi ix iz : Int} {body : Int → Int → Bool → Bool → List (Stmt Cell K)}
    {Q : Stmt Cell K → Prop} (hx : inX g xlo xhi ix = false) (hz : inZ g zlo zhi iz = false)
    (h : ∀ jx jz inx inz, c ≤ jz → jz < d → (jx ≠ ix ∨ jz ≠ iz) → All Q (body jx jz inx inz)) :
    All Q (pmlLoop g a b c d xlo xhi zlo zhi body).flatten := by
  unfold pmlLoop
  refine all_sweep fun jx h1 h2 jz h3 h4 => all_ite (fun _ => all_nil) fun hh => h jx jz _ _ h3 h4 ?_
  by_contra hn
  obtain ⟨rfl, rfl⟩ : jx = ix ∧ jz = iz := by omega
  rw [hx, hz] at hh
  exact hh rfl

theorem inX_false {lo hi ix : Int} (h1 : g.lef = 2 → lo ≤ ix) (h2 : g.rig = 2 → ix < hi) : inX g lo hi ix = false := by
  unfold inX
  simp only [Bool.or_eq_false_iff, Bool.and_eq_false_iff, decide_eq_false_iff_not]
  constructor
  · by_cases h : g.lef = 2
    · right; have := h1 h; omega
    · left; exact h
  · by_cases h : g.rig = 2
    · right; have := h2 h; omega
    · left; exact h

theorem inZ_false {lo hi iz : Int} (h1 : g.top = 2 → lo ≤ iz) (h2 : g.bot = 2 → iz < hi) : inZ g lo hi iz = false := by
  unfold inZ
  simp only [Bool.or_eq_false_iff, Bool.and_eq_false_iff, decide_eq_false_iff_not]
  constructor
  · by_cases h : g.top = 2
    · right; have := h1 h; omega
    · left; exact h
  · by_cases h : g.bot = 2
    · right; have := h2 h; omega
    · left; exact h

/-- Distance of `i` to the interval `lo ≤ i < hi`: 0 for its neighbours. -/
def beyond (lo hi i : Int) : Int := if i < lo then lo - 1 - i else i - hi

theorem beyond_lo {lo hi i : Int} (h : i < lo) : beyond lo hi i = lo - 1 - i := if_pos h
theorem beyond_hi {lo hi i : Int} (h : lo ≤ i) : beyond lo hi i = i - hi := if_neg (by omega)

/-- The taper value of a grid point outside `xlo ≤ ix < xhi`, `zlo ≤ iz < zhi`: an element of the one-dimensional taper `t`
beside an edge, of the two-dimensional one in a corner. -/
def tapCell (t : Arr) (npml xlo xhi zlo zhi ix iz : Int) : Cell :=
  if xlo ≤ ix ∧ ix < xhi then (t, beyond zlo zhi iz)
  else if zlo ≤ iz ∧ iz < zhi then (t, beyond xlo xhi ix)
  else (.tapxz, beyond xlo xhi ix * npml + beyond zlo zhi iz)

/-- The points of the loops together with the tapered zones around them. -/
def Framed (g : Cfg) (xlo xhi zlo zhi ix iz : Int) : Prop :=
  (if g.lef = 4 then xlo - g.npml else xlo) ≤ ix ∧ ix < (if g.rig = 4 then xhi + g.npml else xhi) ∧
  (if g.top = 4 then zlo - g.npml else zlo) ≤ iz ∧ iz < (if g.bot = 4 then zhi + g.npml else zhi)

variable [CommRing K]

theorem quiet_run {a : Arr} {ix iz : Int} {p : List (Stmt Cell K)} (h : All (Quiet g a ix iz) p) (h1 : 0 ≤ iz) (h2 : iz < g.naz)
    {e : Expr Cell K} (he : Local g a ix iz e) (m : Cell → K) :
    run p m (a, el g.naz ix iz) = m (a, el g.naz ix iz) ∧ e.eval (run p m) = e.eval m := by
  have A : run p m (a, el g.naz ix iz) = m (a, el g.naz ix iz) := run_avoids (all_mono (fun _ hs => hs.1) h) h1 h2 m
  refine ⟨A, Expr.eval_congr _ fun c hc => ?_⟩
  rcases he c hc with rfl | hc | hc
  · exact A
  · exact run_spares (all_mono (fun _ hs => hs.2.1) h) hc m
  · exact run_untouched (fun s hs e => by have := (h s hs).2.2; rw [e, hc] at this; cases this) m

/-- The phases leave the value of `e` in the element of `a` at `(ix, iz)`. -/
def Hits (g : Cfg) (a : Arr) (ix iz : Int) (e : Expr Cell K) (l : List (List (List (Stmt Cell K)))) : Prop :=
  ∀ m, run (seqOf l) m (a, el g.naz ix iz) = e.eval m

section
variable {a : Arr} {ix iz : Int} {e : Expr Cell K} {l1 l2 : List (List (List (Stmt Cell K)))}

theorem hits_left (hz1 : 0 ≤ iz) (hz2 : iz < g.naz) (h1 : Hits g a ix iz e l1) (h2 : AllP (Quiet g a ix iz) l2) :
    Hits g a ix iz e (l1 ++ l2) := by
  intro m
  rw [seqOf_append', run_append, run_avoids (all_mono (fun _ hs => hs.1) h2) hz1 hz2]
  exact h1 m

theorem hits_right (hz1 : 0 ≤ iz) (hz2 : iz < g.naz) (he : Local g a ix iz e) (h1 : AllP (Quiet g a ix iz) l1)
    (h2 : Hits g a ix iz e l2) : Hits g a ix iz e (l1 ++ l2) := by
  intro m
  rw [seqOf_append', run_append, h2, (quiet_run h1 hz1 hz2 he m).2]

theorem hits_when {c : Prop} [Decidable c] (hc : c) (h : Hits g a ix iz e l1) : Hits g a ix iz e (if c then l1 else []) := by
  rw [if_pos hc]; exact h
end

/-! ### The component `vx` -/

section
variable {ix iz : Int} {k : Coef K}

omit [CommRing K] in
theorem missX {a b c d : Int} {t : Arr} {w : Int → Int → Int} (h0 : 0 ≤ c) (hn : d ≤ g.naz)
    (h : ix < a ∨ b ≤ ix ∨ iz < c ∨ d ≤ iz) : AllP (Quiet g .vx ix iz) [taperX g k a b c d t w] := by
  refine allP_one (all_taperX fun jx jz h1 h2 h3 h4 => ?_)
  have := h
  exact ⟨⟨av fun _ => ⟨by omega, by omega, by omega⟩, (by decide : Arr.vx ∉ strs), rfl⟩,
    ⟨av fun _ => ⟨by omega, by omega, by omega⟩, (by decide : Arr.vx ∉ strs), rfl⟩⟩

omit [CommRing K] in
theorem missXZ {a b c d : Int} {t : Arr} {w : Int → Int → Int} : AllP (Quiet g .vx ix iz) [taperZ g k a b c d t w] :=
  allP_one (all_taperZ fun jx jz h1 h2 h3 h4 =>
    ⟨⟨avoids_arr (by decide), (by decide : Arr.vz ∉ strs), rfl⟩, ⟨avoids_arr (by decide), (by decide : Arr.vz ∉ strs), rfl⟩⟩)

/-- The new value in a taper. -/
def tapEX (g : Cfg) (k : Coef K) (ix iz : Int) : Expr Cell K :=
  (vxS g k.d1 k.d2 ix iz).e * .rd (tapCell .tapx g.npml g.ioXx g.ieXx g.ioXz g.ieXz ix iz)

omit [CommRing K] in
theorem tapEX_local (g : Cfg) (k : Coef K) (ix iz : Int) : Local g .vx ix iz (tapEX g k ix iz) := by
  have h : fld (tapCell .tapx g.npml g.ioXx g.ieXx g.ioXz g.ieXz ix iz) = false := by unfold tapCell; split_ifs <;> rfl
  have hs : Arr.txx ∈ strs ∧ Arr.tzz ∈ strs ∧ Arr.txz ∈ strs := by decide
  unfold tapEX Local
  cells [vxS, rd]
  have hr : fld (.rox, el g.naz ix iz) = false := rfl
  simp [hs, h, hr]

theorem hitX {a b c d : Int} {t : Arr} {w : Int → Int → Int} (h0 : 0 ≤ c) (hn : d ≤ g.naz) (h1 : a ≤ ix) (h2 : ix < b)
    (h3 : c ≤ iz) (h4 : iz < d) (ht : t ≠ .vx)
    (hw : tapCell .tapx g.npml g.ioXx g.ieXx g.ioXz g.ieXz ix iz = (t, w ix iz)) :
    Hits g .vx ix iz (tapEX g k ix iz) [taperX g k a b c d t w] := by
  intro m
  unfold taperX tapEX
  rw [seqOf_one, run_sweep_el (W := In [.vx]) (n := g.naz) _ h1 h2 h3 h4 (by omega) (by omega), hw]
  · show store (store m _ _) _ _ _ = _
    refine (if_pos rfl).trans ?_
    show store m _ _ _ * store m _ _ _ = _ * _
    refine congrArg₂ _ (if_pos rfl) (if_neg fun e => ht ?_)
    exact congrArg Prod.fst e
  · intro jx e1 e2 jz e3 e4 s hs
    have C : ∀ b : Arr, colOf g.naz (b, el g.naz jx jz) = jx := fun b => colOf_el (by omega) (by omega)
    have R : ∀ b : Arr, rowOf g.naz (b, el g.naz jx jz) = jz := fun b => rowOf_el (by omega) (by omega)
    rcases List.mem_cons.mp hs with rfl | hs
    · exact ⟨vxS_key _ _ C, vxS_key _ _ R⟩
    · rw [List.mem_singleton] at hs; subst hs
      exact ⟨tapS_key (C _) ht, tapS_key (R _) ht⟩

omit [CommRing K] in
theorem topX_miss (hv : Valid g) (h : g.top = 4 → g.ioXz ≤ iz) : AllP (Quiet g .vx ix iz) (taperTop g k) := by
  obtain ⟨⟨g1, g2, g3, g4, g5⟩, ⟨p1, p2, p3, p4⟩, q1, q2, q3, q4⟩ := grid hv
  refine allP_when fun ht => ?_
  have := h ht
  have q := q1 (.inr ht)
  have e : g.ioXz = 1 + g.pad g.top := rfl
  refine allP_append (allP_append (allP_append (allP_append (allP_append ?_ ?_) ?_) ?_) ?_) ?_
  · exact missX (by omega) (by omega) (by omega)
  · exact allP_when fun _ => missX (by omega) (by omega) (by omega)
  · exact allP_when fun _ => missX (by omega) (by omega) (by omega)
  · exact missXZ
  · exact allP_when fun _ => missXZ
  · exact allP_when fun _ => missXZ

omit [CommRing K] in
theorem botX_miss (hv : Valid g) (h : g.bot = 4 → iz < g.ieXz) : AllP (Quiet g .vx ix iz) (taperBot g k) := by
  obtain ⟨⟨g1, g2, g3, g4, g5⟩, ⟨p1, p2, p3, p4⟩, q1, q2, q3, q4⟩ := grid hv
  refine allP_when fun ht => ?_
  have := h ht
  have q := q2 (.inr ht)
  have e : g.ieXz = g.nz + 1 + g.pad g.top := rfl
  refine allP_append (allP_append (allP_append (allP_append (allP_append ?_ ?_) ?_) ?_) ?_) ?_
  · exact missX (by omega) (by omega) (by omega)
  · exact allP_when fun _ => missX (by omega) (by omega) (by omega)
  · exact allP_when fun _ => missX (by omega) (by omega) (by omega)
  · exact missXZ
  · exact allP_when fun _ => missXZ
  · exact allP_when fun _ => missXZ

omit [CommRing K] in
theorem lefX_miss (hv : Valid g) (h : g.lef = 4 → g.ioXx ≤ ix ∨ iz < g.ioXz ∨ g.ieXz ≤ iz) :
    AllP (Quiet g .vx ix iz) (taperLef g k) := by
  obtain ⟨⟨g1, g2, g3, g4, g5⟩, ⟨p1, p2, p3, p4⟩, q1, q2, q3, q4⟩ := grid hv
  refine allP_when fun ht => ?_
  have := h ht
  have e : g.ioXz = 1 + g.pad g.top := rfl
  have e' : g.ieXz = g.nz + 1 + g.pad g.top := rfl
  exact allP_append (l1 := [_]) (missX (by omega) (by omega) (by omega)) missXZ

omit [CommRing K] in
theorem rigX_miss (hv : Valid g) (h : g.rig = 4 → ix < g.ieXx ∨ iz < g.ioXz ∨ g.ieXz ≤ iz) :
    AllP (Quiet g .vx ix iz) (taperRig g k) := by
  obtain ⟨⟨g1, g2, g3, g4, g5⟩, ⟨p1, p2, p3, p4⟩, q1, q2, q3, q4⟩ := grid hv
  refine allP_when fun ht => ?_
  have := h ht
  have e : g.ioXz = 1 + g.pad g.top := rfl
  have e' : g.ieXz = g.nz + 1 + g.pad g.top := rfl
  exact allP_append (l1 := [_]) (missX (by omega) (by omega) (by omega)) missXZ

/-- The tapers update every point of the tapered zones once. -/
theorem tapers_hitX (hv : Valid g) (hf : Framed g g.ioXx g.ieXx g.ioXz g.ieXz ix iz) (hi : ¬ InX g ix iz) :
    Hits g .vx ix iz (tapEX g k ix iz) (taperTop g k ++ taperBot g k ++ taperLef g k ++ taperRig g k) := by
  obtain ⟨⟨g1, g2, g3, g4, g5⟩, ⟨p1, p2, p3, p4⟩, q1, q2, q3, q4⟩ := grid hv
  have ex : g.ioXx = 2 + g.pad g.lef := rfl
  have ex' : g.ieXx = g.nx + 2 + g.pad g.lef := rfl
  have ez : g.ioXz = 1 + g.pad g.top := rfl
  have ez' : g.ieXz = g.nz + 1 + g.pad g.top := rfl
  obtain ⟨f1, f2, f3, f4⟩ := hf
  have F1 : g.ioXx ≤ ix ∨ (g.lef = 4 ∧ g.ioXx - g.npml ≤ ix) := by split_ifs at f1 <;> omega
  have F2 : ix < g.ieXx ∨ (g.rig = 4 ∧ ix < g.ieXx + g.npml) := by split_ifs at f2 <;> omega
  have F3 : g.ioXz ≤ iz ∨ (g.top = 4 ∧ g.ioXz - g.npml ≤ iz) := by split_ifs at f3 <;> omega
  have F4 : iz < g.ieXz ∨ (g.bot = 4 ∧ iz < g.ieXz + g.npml) := by split_ifs at f4 <;> omega
  have r1 := fun h => q1 (.inr h)
  have r2 := fun h => q2 (.inr h)
  have r3 := fun h => q3 (.inr h)
  have r4 := fun h => q4 (.inr h)
  clear f1 f2 f3 f4 q1 q2 q3 q4
  have hz1 : 0 ≤ iz := by omega
  have hz2 : iz < g.naz := by omega
  have L := tapEX_local g k ix iz
  have tx : Arr.tapx ≠ .vx := by decide
  have txz : Arr.tapxz ≠ .vx := by decide
  have hi' : ix < g.ioXx ∨ g.ieXx ≤ ix ∨ iz < g.ioXz ∨ g.ieXz ≤ iz := by unfold InX at hi; omega
  by_cases c1 : iz < g.ioXz
  · -- top
    have ht : g.top = 4 := by omega
    have := r1 ht
    refine hits_left hz1 hz2 (hits_left hz1 hz2 (hits_left hz1 hz2 ?_ (botX_miss hv fun _ => by omega))
      (lefX_miss hv fun _ => by omega)) (rigX_miss hv fun _ => by omega)
    refine hits_when ht (hits_left hz1 hz2 (hits_left hz1 hz2 (hits_left hz1 hz2 ?_ missXZ) (allP_when fun _ => missXZ))
      (allP_when fun _ => missXZ))
    by_cases c2 : ix < g.ioXx
    · have hl : g.lef = 4 := by omega
      refine hits_right hz1 hz2 L (allP_append ?_ (allP_when fun _ => ?_)) (hits_when hl ?_)
      · exact missX (by omega) (by omega) (by omega)
      · exact missX (by omega) (by omega) (by omega)
      · refine hitX (by omega) (by omega) (by omega) (by omega) (by omega) (by omega) txz ?_
        rw [tapCell, if_neg (by omega), if_neg (by omega), beyond_lo c2, beyond_lo c1]
        rw [show g.npml + (g.ioXx - g.npml) - 1 - ix = g.ioXx - 1 - ix by omega,
          show g.npml + (g.ioXz - g.npml) - 1 - iz = g.ioXz - 1 - iz by omega]
    · by_cases c3 : ix < g.ieXx
      · refine hits_left hz1 hz2 (hits_left hz1 hz2 ?_ (allP_when fun _ => ?_)) (allP_when fun _ => ?_)
        · refine hitX (by omega) (by omega) (by omega) (by omega) (by omega) (by omega) tx ?_
          rw [tapCell, if_pos (by omega), beyond_lo c1]
          rw [show g.npml + (g.ioXz - g.npml) - 1 - iz = g.ioXz - 1 - iz by omega]
        · exact missX (by omega) (by omega) (by omega)
        · exact missX (by omega) (by omega) (by omega)
      · have hr : g.rig = 4 := by omega
        refine hits_left hz1 hz2 (hits_right hz1 hz2 L ?_ (hits_when hr ?_)) (allP_when fun _ => ?_)
        · exact missX (by omega) (by omega) (by omega)
        · refine hitX (by omega) (by omega) (by omega) (by omega) (by omega) (by omega) txz ?_
          rw [tapCell, if_neg (by omega), if_neg (by omega), beyond_hi (by omega), beyond_lo c1]
          rw [show g.npml + (g.ioXz - g.npml) - 1 - iz = g.ioXz - 1 - iz by omega]
        · exact missX (by omega) (by omega) (by omega)
  by_cases c1' : g.ieXz ≤ iz
  · -- bottom
    have hb : g.bot = 4 := by omega
    have := r2 hb
    refine hits_left hz1 hz2 (hits_left hz1 hz2 (hits_right hz1 hz2 L (topX_miss hv fun _ => by omega) ?_)
      (lefX_miss hv fun _ => by omega)) (rigX_miss hv fun _ => by omega)
    refine hits_when hb (hits_left hz1 hz2 (hits_left hz1 hz2 (hits_left hz1 hz2 ?_ missXZ) (allP_when fun _ => missXZ))
      (allP_when fun _ => missXZ))
    by_cases c2 : ix < g.ioXx
    · have hl : g.lef = 4 := by omega
      refine hits_right hz1 hz2 L (allP_append ?_ (allP_when fun _ => ?_)) (hits_when hl ?_)
      · exact missX (by omega) (by omega) (by omega)
      · exact missX (by omega) (by omega) (by omega)
      · refine hitX (by omega) (by omega) (by omega) (by omega) (by omega) (by omega) txz ?_
        rw [tapCell, if_neg (by omega), if_neg (by omega), beyond_lo c2, beyond_hi (by omega)]
        rw [show g.npml + (g.ioXx - g.npml) - 1 - ix = g.ioXx - 1 - ix by omega]
    · by_cases c3 : ix < g.ieXx
      · refine hits_left hz1 hz2 (hits_left hz1 hz2 ?_ (allP_when fun _ => ?_)) (allP_when fun _ => ?_)
        · refine hitX (by omega) (by omega) (by omega) (by omega) (by omega) (by omega) tx ?_
          rw [tapCell, if_pos (by omega), beyond_hi (by omega)]
          rw [show g.ieXz + g.npml - g.npml = g.ieXz by omega]
        · exact missX (by omega) (by omega) (by omega)
        · exact missX (by omega) (by omega) (by omega)
      · have hr : g.rig = 4 := by omega
        refine hits_left hz1 hz2 (hits_right hz1 hz2 L ?_ (hits_when hr ?_)) (allP_when fun _ => ?_)
        · exact missX (by omega) (by omega) (by omega)
        · refine hitX (by omega) (by omega) (by omega) (by omega) (by omega) (by omega) txz ?_
          rw [tapCell, if_neg (by omega), if_neg (by omega), beyond_hi (by omega), beyond_hi (by omega)]
        · exact missX (by omega) (by omega) (by omega)
  have T : AllP (Quiet g .vx ix iz) (taperTop g k ++ taperBot g k) :=
    allP_append (topX_miss hv fun _ => by omega) (botX_miss hv fun _ => by omega)
  by_cases c2 : ix < g.ioXx
  · have hl : g.lef = 4 := by omega
    refine hits_left hz1 hz2 (hits_right hz1 hz2 L T (hits_when hl ?_)) (rigX_miss hv fun _ => by omega)
    refine hits_left hz1 hz2 (l1 := [_]) ?_ missXZ
    refine hitX (by omega) (by omega) (by omega) (by omega) (by omega) (by omega) tx ?_
    rw [tapCell, if_neg (by omega), if_pos (by omega), beyond_lo c2]
    rw [show g.npml + (g.ioXx - g.npml) - 1 - ix = g.ioXx - 1 - ix by omega]
  · have hr : g.rig = 4 := by omega
    refine hits_right hz1 hz2 L (allP_append T (lefX_miss hv fun _ => by omega)) (hits_when hr ?_)
    refine hits_left hz1 hz2 (l1 := [_]) ?_ missXZ
    refine hitX (by omega) (by omega) (by omega) (by omega) (by omega) (by omega) tx ?_
    rw [tapCell, if_neg (by omega), if_pos (by omega), beyond_hi (by omega)]
    rw [show g.ieXx + g.npml - g.npml = g.ieXx by omega]

omit [CommRing K] in
/-- Neither the rigid walls nor the PML touch the tapered zones, except where a right wall cuts through them. -/
theorem pre_missX (hv : Valid g) (k : Coef K) (first : Bool) (hf : Framed g g.ioXx g.ieXx g.ioXz g.ieXz ix iz)
    (hw : g.rig = 3 → ix ≠ g.nx + 1 ∧ ix ≠ g.nx + 2) : AllP (Quiet g .vx ix iz) ([wallPhase g] ++ pmlP g k first) := by
  obtain ⟨⟨g1, g2, g3, g4, g5⟩, ⟨p1, p2, p3, p4⟩, q1, q2, q3, q4⟩ := grid hv
  have ex : g.ioXx = 2 + g.pad g.lef := rfl
  have ex' : g.ieXx = g.nx + 2 + g.pad g.lef := rfl
  have ez : g.ioXz = 1 + g.pad g.top := rfl
  have ez' : g.ieXz = g.nz + 1 + g.pad g.top := rfl
  obtain ⟨f1, f2, f3, f4⟩ := hf
  have hx : Arr.vx ∉ strs := by decide
  have hz : Arr.vz ∉ strs := by decide
  refine allP_append (allP_one (all_walls hv ?_ ?_)) ?_
  · exact fun _ _ _ _ _ _ _ _ _ _ => ⟨avoids_arr (by decide), hz, rfl⟩
  · intro jx jz _ h1 h2 h3 h4 _ _ h5
    refine ⟨av fun _ => ⟨by omega, by omega, .inl ?_⟩, hx, rfl⟩
    rintro rfl
    rcases h5 with ⟨h5, h6⟩ | ⟨h5, h6⟩
    · rw [if_neg (by omega)] at f1; omega
    · have := hw h5; omega
  · unfold pmlP
    have P : ∀ {psi : Arr} {e : Expr Cell K} {i : Int}, IsPsi psi → Quiet g .vx ix iz (⟨(psi, i), e⟩ : Stmt Cell K) := by
      intro psi e i h
      refine ⟨avoids_arr ?_, (isPsi_strs h).1, ?_⟩ <;> rcases h with rfl | rfl | rfl | rfl | rfl | rfl | rfl | rfl <;>
        first | rfl | decide
    refine allP_when fun _ => allP_append (allP_when fun _ => allP_one ?_) (allP_cons ?_ (allP_cons ?_ (allP_cons ?_ (allP_one ?_))))
    · rw [List.flatten_cons, List.flatten_nil, List.append_nil]
      refine all_append (all_append (all_append ?_ ?_) ?_) ?_ <;> exact all_clear fun i h1 h2 => P (by simp [IsPsi])
    · refine pml_miss (ix := ix) (iz := iz) (inX_false ?_ ?_) (inZ_false ?_ ?_) fun jx jz inx inz h3 h4 h5 => ?_
      · intro h; rwa [if_neg (by omega)] at f1
      · intro h; rwa [if_neg (by omega)] at f2
      · intro h; rwa [if_neg (by omega)] at f3
      · intro h; rwa [if_neg (by omega)] at f4
      · have e1 : 0 ≤ jz := by
          split_ifs at h3
          · exact (le_of_max0 h3).1
          · omega
        have e2 : jz < g.naz := by
          split_ifs at h4
          · exact (lt_of_minTo h4).2
          · omega
        exact all_append (all_append (all_when fun _ => all_one (P (by simp [IsPsi]))) (all_when fun _ => all_one (P (by simp [IsPsi]))))
          (all_one ⟨av fun _ => ⟨e1, e2, h5⟩, hx, rfl⟩)
    · refine all_pmlLoop fun jx jz inx inz _ _ _ _ _ => ?_
      exact all_append (all_append (all_when fun _ => all_one (P (by simp [IsPsi]))) (all_when fun _ => all_one (P (by simp [IsPsi]))))
        (all_one ⟨avoids_arr (by decide), hz, rfl⟩)
    · refine all_itef fun h => all_parfor fun jz h1 h2 => ?_
      have := q3 (.inl h)
      rw [if_neg (by omega)] at f1
      exact all_cons ⟨av fun _ => ⟨h1, h2, .inl (by omega)⟩, hx, rfl⟩ (all_cons ⟨av fun _ => ⟨h1, h2, .inl (by omega)⟩, hx, rfl⟩
        (all_cons ⟨av fun e => ⟨h1, h2, .inl (by omega)⟩, hz, rfl⟩ (all_one ⟨av fun e => ⟨h1, h2, .inl (by omega)⟩, hz, rfl⟩)))
    · refine all_itef fun h => all_parfor fun jx h1 h2 => ?_
      have := q1 (.inl h)
      rw [if_neg (by omega)] at f3
      exact all_cons ⟨av fun _ => ⟨by omega, by omega, .inr (by omega)⟩, hx, rfl⟩
        (all_cons ⟨av fun _ => ⟨by omega, by omega, .inr (by omega)⟩, hx, rfl⟩
        (all_cons ⟨av fun e => ⟨by omega, by omega, .inr (by omega)⟩, hz, rfl⟩
        (all_one ⟨av fun e => ⟨by omega, by omega, .inr (by omega)⟩, hz, rfl⟩)))
end

/-- C70: at every point of a tapered zone that is not in a column a right wall writes (see `wallPhase`) a time step advances
`vx` by the staggered differences of the stresses, with the coefficients of the boundary, and multiplies with the taper value
that belongs to the distance to the model. -/
theorem elastic_taper_vx (hv : Valid g) (k : Coef K) (med : Cell → K) (n : Nat) (u0 : Field K) (ix iz : Int)
    (hf : Framed g g.ioXx g.ieXx g.ioXz g.ieXz ix iz)
    (hi : ¬ (g.ioXx ≤ ix ∧ ix < g.ieXx ∧ g.ioXz ≤ iz ∧ iz < g.ieXz))
    (hw : g.rig = 3 → ix ≠ g.nx + 1 ∧ ix ≠ g.nx + 2) :
    let u := propagate g k med n u0
    let u' := propagate g k med (n + 1) u0
    at2 g u'.vx ix iz = (at2 g u.vx ix iz - med (.rox, ix * g.naz + iz) *
        ((stag k.d1 k.d2 fun j => at2 g u.txx (ix + j) iz) + (stag k.d1 k.d2 fun j => at2 g u.txz ix (iz + 1 + j)))) *
      med (tapCell .tapx g.npml g.ioXx g.ieXx g.ioXz g.ieXz ix iz) := by
  intro u u'
  have hz1 : 0 ≤ iz ∧ iz < g.naz := by
    obtain ⟨⟨g1, g2, g3, g4, g5⟩, ⟨p1, p2, p3, p4⟩, q1, q2, q3, q4⟩ := grid hv
    have ez : g.ioXz = 1 + g.pad g.top := rfl
    have ez' : g.ieXz = g.nz + 1 + g.pad g.top := rfl
    have f3 := hf.2.2.1
    have f4 := hf.2.2.2
    constructor
    · split_ifs at f3 with h
      · have := q1 (.inr h); omega
      · omega
    · split_ifs at f4 with h
      · have := q2 (.inr h); omega
      · omega
  have V : All (Quiet g .vx ix iz) (velPhase g k).flatten := by
    refine all_vel (fun jx jz hj => ⟨av fun _ => ?_, (by decide : Arr.vx ∉ strs), rfl⟩) (fun jx jz hj =>
      ⟨avoids_arr (by decide), (by decide : Arr.vz ∉ strs), rfl⟩)
    have hj' := inX_grid hv hj
    refine ⟨by omega, by omega, ?_⟩
    by_contra hn
    obtain ⟨rfl, rfl⟩ : jx = ix ∧ jz = iz := by omega
    exact hi hj
  have H := hits_right hz1.1 hz1.2 (tapEX_local g k ix iz) (pre_missX hv k (n = 0) hf hw) (tapers_hitX (k := k) hv hf hi)
  have R := (quiet_run V hz1.1 hz1.2 (tapEX_local g k ix iz) (steps g k n (mem med u0))).2
  show steps g k (n + 1) (mem med u0) (.vx, el g.naz ix iz) = _
  rw [steps, late_vel hv k _ (show Arr.vx ∈ vels by decide), run_append]
  unfold half
  rw [H, R]
  have ht : fld (tapCell .tapx g.npml g.ioXx g.ieXx g.ioXz g.ieXz ix iz) = false := by unfold tapCell; split_ifs <;> rfl
  unfold tapEX
  simp only [vxS, eval_sub, rd, Expr.eval, stag, at2, u, propagate, fieldOf, el,
    elastic_medium g k med n u0 _ (show fld (.rox, ix * g.naz + iz) = false from rfl), elastic_medium g k med n u0 _ ht]
  rw [show ix + 0 = ix by omega, show ix + -1 = ix - 1 by omega, show ix + -2 = ix - 2 by omega,
    show iz + 1 + 0 = iz + 1 by omega, show iz + 1 + -1 = iz by omega, show iz + 1 + 1 = iz + 2 by omega,
    show iz + 1 + -2 = iz - 1 by omega]
  ring

/-! ### The component `vz` -/

section
variable {ix iz : Int} {k : Coef K}

omit [CommRing K] in
theorem missZ {a b c d : Int} {t : Arr} {w : Int → Int → Int} (h0 : 0 ≤ c) (hn : d ≤ g.naz)
    (h : ix < a ∨ b ≤ ix ∨ iz < c ∨ d ≤ iz) : AllP (Quiet g .vz ix iz) [taperZ g k a b c d t w] := by
  refine allP_one (all_taperZ fun jx jz h1 h2 h3 h4 => ?_)
  have := h
  exact ⟨⟨av fun _ => ⟨by omega, by omega, by omega⟩, (by decide : Arr.vz ∉ strs), rfl⟩,
    ⟨av fun _ => ⟨by omega, by omega, by omega⟩, (by decide : Arr.vz ∉ strs), rfl⟩⟩

omit [CommRing K] in
theorem missZX {a b c d : Int} {t : Arr} {w : Int → Int → Int} : AllP (Quiet g .vz ix iz) [taperX g k a b c d t w] :=
  allP_one (all_taperX fun jx jz h1 h2 h3 h4 =>
    ⟨⟨avoids_arr (by decide), (by decide : Arr.vx ∉ strs), rfl⟩, ⟨avoids_arr (by decide), (by decide : Arr.vx ∉ strs), rfl⟩⟩)

/-- The new value in a taper. -/
def tapEZ (g : Cfg) (k : Coef K) (ix iz : Int) : Expr Cell K :=
  (vzS g k.d1 k.d2 ix iz).e * .rd (tapCell .tapz g.npml g.ioZx g.ieZx g.ioZz g.ieZz ix iz)

omit [CommRing K] in
theorem tapEZ_local (g : Cfg) (k : Coef K) (ix iz : Int) : Local g .vz ix iz (tapEZ g k ix iz) := by
  have h : fld (tapCell .tapz g.npml g.ioZx g.ieZx g.ioZz g.ieZz ix iz) = false := by unfold tapCell; split_ifs <;> rfl
  have hs : Arr.txx ∈ strs ∧ Arr.tzz ∈ strs ∧ Arr.txz ∈ strs := by decide
  unfold tapEZ Local
  cells [vzS, rd]
  have hr : fld (.roz, el g.naz ix iz) = false := rfl
  simp [hs, h, hr]

theorem hitZ {a b c d : Int} {t : Arr} {w : Int → Int → Int} (h0 : 0 ≤ c) (hn : d ≤ g.naz) (h1 : a ≤ ix) (h2 : ix < b)
    (h3 : c ≤ iz) (h4 : iz < d) (ht : t ≠ .vz)
    (hw : tapCell .tapz g.npml g.ioZx g.ieZx g.ioZz g.ieZz ix iz = (t, w ix iz)) :
    Hits g .vz ix iz (tapEZ g k ix iz) [taperZ g k a b c d t w] := by
  intro m
  unfold taperZ tapEZ
  rw [seqOf_one, run_sweep_el (W := In [.vz]) (n := g.naz) _ h1 h2 h3 h4 (by omega) (by omega), hw]
  · show store (store m _ _) _ _ _ = _
    refine (if_pos rfl).trans ?_
    show store m _ _ _ * store m _ _ _ = _ * _
    refine congrArg₂ _ (if_pos rfl) (if_neg fun e => ht ?_)
    exact congrArg Prod.fst e
  · intro jx e1 e2 jz e3 e4 s hs
    have C : ∀ b : Arr, colOf g.naz (b, el g.naz jx jz) = jx := fun b => colOf_el (by omega) (by omega)
    have R : ∀ b : Arr, rowOf g.naz (b, el g.naz jx jz) = jz := fun b => rowOf_el (by omega) (by omega)
    rcases List.mem_cons.mp hs with rfl | hs
    · exact ⟨vzS_key _ _ C, vzS_key _ _ R⟩
    · rw [List.mem_singleton] at hs; subst hs
      exact ⟨tapS_key (C _) ht, tapS_key (R _) ht⟩

omit [CommRing K] in
theorem topZ_miss (hv : Valid g) (h : g.top = 4 → g.ioZz ≤ iz) : AllP (Quiet g .vz ix iz) (taperTop g k) := by
  obtain ⟨⟨g1, g2, g3, g4, g5⟩, ⟨p1, p2, p3, p4⟩, q1, q2, q3, q4⟩ := grid hv
  refine allP_when fun ht => ?_
  have := h ht
  have q := q1 (.inr ht)
  have e : g.ioZz = 2 + g.pad g.top := rfl
  refine allP_append (allP_append (allP_append (allP_append (allP_append ?_ ?_) ?_) ?_) ?_) ?_
  · exact missZX
  · exact allP_when fun _ => missZX
  · exact allP_when fun _ => missZX
  · exact missZ (by omega) (by omega) (by omega)
  · exact allP_when fun _ => missZ (by omega) (by omega) (by omega)
  · exact allP_when fun _ => missZ (by omega) (by omega) (by omega)

omit [CommRing K] in
theorem botZ_miss (hv : Valid g) (h : g.bot = 4 → iz < g.ieZz) : AllP (Quiet g .vz ix iz) (taperBot g k) := by
  obtain ⟨⟨g1, g2, g3, g4, g5⟩, ⟨p1, p2, p3, p4⟩, q1, q2, q3, q4⟩ := grid hv
  refine allP_when fun ht => ?_
  have := h ht
  have q := q2 (.inr ht)
  have e : g.ieZz = g.nz + 2 + g.pad g.top := rfl
  refine allP_append (allP_append (allP_append (allP_append (allP_append ?_ ?_) ?_) ?_) ?_) ?_
  · exact missZX
  · exact allP_when fun _ => missZX
  · exact allP_when fun _ => missZX
  · exact missZ (by omega) (by omega) (by omega)
  · exact allP_when fun _ => missZ (by omega) (by omega) (by omega)
  · exact allP_when fun _ => missZ (by omega) (by omega) (by omega)

omit [CommRing K] in
theorem lefZ_miss (hv : Valid g) (h : g.lef = 4 → g.ioZx ≤ ix ∨ iz < g.ioZz ∨ g.ieZz ≤ iz) :
    AllP (Quiet g .vz ix iz) (taperLef g k) := by
  obtain ⟨⟨g1, g2, g3, g4, g5⟩, ⟨p1, p2, p3, p4⟩, q1, q2, q3, q4⟩ := grid hv
  refine allP_when fun ht => ?_
  have := h ht
  have e : g.ioZz = 2 + g.pad g.top := rfl
  have e' : g.ieZz = g.nz + 2 + g.pad g.top := rfl
  exact allP_append (l1 := [_]) missZX (missZ (by omega) (by omega) (by omega))

omit [CommRing K] in
theorem rigZ_miss (hv : Valid g) (h : g.rig = 4 → ix < g.ieZx ∨ iz < g.ioZz ∨ g.ieZz ≤ iz) :
    AllP (Quiet g .vz ix iz) (taperRig g k) := by
  obtain ⟨⟨g1, g2, g3, g4, g5⟩, ⟨p1, p2, p3, p4⟩, q1, q2, q3, q4⟩ := grid hv
  refine allP_when fun ht => ?_
  have := h ht
  have e : g.ioZz = 2 + g.pad g.top := rfl
  have e' : g.ieZz = g.nz + 2 + g.pad g.top := rfl
  exact allP_append (l1 := [_]) missZX (missZ (by omega) (by omega) (by omega))

/-- The tapers update every point of the tapered zones once. -/
theorem tapers_hitZ (hv : Valid g) (hf : Framed g g.ioZx g.ieZx g.ioZz g.ieZz ix iz) (hi : ¬ InZ g ix iz) :
    Hits g .vz ix iz (tapEZ g k ix iz) (taperTop g k ++ taperBot g k ++ taperLef g k ++ taperRig g k) := by
  obtain ⟨⟨g1, g2, g3, g4, g5⟩, ⟨p1, p2, p3, p4⟩, q1, q2, q3, q4⟩ := grid hv
  have ex : g.ioZx = 1 + g.pad g.lef := rfl
  have ex' : g.ieZx = g.nx + 1 + g.pad g.lef := rfl
  have ez : g.ioZz = 2 + g.pad g.top := rfl
  have ez' : g.ieZz = g.nz + 2 + g.pad g.top := rfl
  obtain ⟨f1, f2, f3, f4⟩ := hf
  have F1 : g.ioZx ≤ ix ∨ (g.lef = 4 ∧ g.ioZx - g.npml ≤ ix) := by split_ifs at f1 <;> omega
  have F2 : ix < g.ieZx ∨ (g.rig = 4 ∧ ix < g.ieZx + g.npml) := by split_ifs at f2 <;> omega
  have F3 : g.ioZz ≤ iz ∨ (g.top = 4 ∧ g.ioZz - g.npml ≤ iz) := by split_ifs at f3 <;> omega
  have F4 : iz < g.ieZz ∨ (g.bot = 4 ∧ iz < g.ieZz + g.npml) := by split_ifs at f4 <;> omega
  have r1 := fun h => q1 (.inr h)
  have r2 := fun h => q2 (.inr h)
  have r3 := fun h => q3 (.inr h)
  have r4 := fun h => q4 (.inr h)
  clear f1 f2 f3 f4 q1 q2 q3 q4
  have hz1 : 0 ≤ iz := by omega
  have hz2 : iz < g.naz := by omega
  have L := tapEZ_local g k ix iz
  have tx : Arr.tapz ≠ .vz := by decide
  have txz : Arr.tapxz ≠ .vz := by decide
  have hi' : ix < g.ioZx ∨ g.ieZx ≤ ix ∨ iz < g.ioZz ∨ g.ieZz ≤ iz := by unfold InZ at hi; omega
  by_cases c1 : iz < g.ioZz
  · -- top
    have ht : g.top = 4 := by omega
    have := r1 ht
    refine hits_left hz1 hz2 (hits_left hz1 hz2 (hits_left hz1 hz2 ?_ (botZ_miss hv fun _ => by omega))
      (lefZ_miss hv fun _ => by omega)) (rigZ_miss hv fun _ => by omega)
    refine hits_when ht ?_
    by_cases c2 : ix < g.ioZx
    · have hl : g.lef = 4 := by omega
      refine hits_right hz1 hz2 L (allP_append (allP_append (allP_append (allP_append missZX (allP_when fun _ => missZX)) (allP_when fun _ => missZX)) ?_) (allP_when fun _ => ?_)) (hits_when hl ?_)
      · exact missZ (by omega) (by omega) (by omega)
      · exact missZ (by omega) (by omega) (by omega)
      · refine hitZ (by omega) (by omega) (by omega) (by omega) (by omega) (by omega) txz ?_
        rw [tapCell, if_neg (by omega), if_neg (by omega), beyond_lo c2, beyond_lo c1]
        rw [show g.npml + (g.ioZx - g.npml) - 1 - ix = g.ioZx - 1 - ix by omega,
          show g.npml + (g.ioZz - g.npml) - 1 - iz = g.ioZz - 1 - iz by omega]
    · by_cases c3 : ix < g.ieZx
      · refine hits_left hz1 hz2 (hits_left hz1 hz2 (hits_right hz1 hz2 L (allP_append (allP_append missZX (allP_when fun _ => missZX)) (allP_when fun _ => missZX)) ?_) (allP_when fun _ => ?_)) (allP_when fun _ => ?_)
        · refine hitZ (by omega) (by omega) (by omega) (by omega) (by omega) (by omega) tx ?_
          rw [tapCell, if_pos (by omega), beyond_lo c1]
          rw [show g.npml + (g.ioZz - g.npml) - 1 - iz = g.ioZz - 1 - iz by omega]
        · exact missZ (by omega) (by omega) (by omega)
        · exact missZ (by omega) (by omega) (by omega)
      · have hr : g.rig = 4 := by omega
        refine hits_left hz1 hz2 (hits_right hz1 hz2 L (allP_append (allP_append (allP_append missZX (allP_when fun _ => missZX)) (allP_when fun _ => missZX)) ?_) (hits_when hr ?_)) (allP_when fun _ => ?_)
        · exact missZ (by omega) (by omega) (by omega)
        · refine hitZ (by omega) (by omega) (by omega) (by omega) (by omega) (by omega) txz ?_
          rw [tapCell, if_neg (by omega), if_neg (by omega), beyond_hi (by omega), beyond_lo c1]
          rw [show g.npml + (g.ioZz - g.npml) - 1 - iz = g.ioZz - 1 - iz by omega]
        · exact missZ (by omega) (by omega) (by omega)
  by_cases c1' : g.ieZz ≤ iz
  · -- bottom
    have hb : g.bot = 4 := by omega
    have := r2 hb
    refine hits_left hz1 hz2 (hits_left hz1 hz2 (hits_right hz1 hz2 L (topZ_miss hv fun _ => by omega) ?_)
      (lefZ_miss hv fun _ => by omega)) (rigZ_miss hv fun _ => by omega)
    refine hits_when hb ?_
    by_cases c2 : ix < g.ioZx
    · have hl : g.lef = 4 := by omega
      refine hits_right hz1 hz2 L (allP_append (allP_append (allP_append (allP_append missZX (allP_when fun _ => missZX)) (allP_when fun _ => missZX)) ?_) (allP_when fun _ => ?_)) (hits_when hl ?_)
      · exact missZ (by omega) (by omega) (by omega)
      · exact missZ (by omega) (by omega) (by omega)
      · refine hitZ (by omega) (by omega) (by omega) (by omega) (by omega) (by omega) txz ?_
        rw [tapCell, if_neg (by omega), if_neg (by omega), beyond_lo c2, beyond_hi (by omega)]
        rw [show g.npml + (g.ioZx - g.npml) - 1 - ix = g.ioZx - 1 - ix by omega]
    · by_cases c3 : ix < g.ieZx
      · refine hits_left hz1 hz2 (hits_left hz1 hz2 (hits_right hz1 hz2 L (allP_append (allP_append missZX (allP_when fun _ => missZX)) (allP_when fun _ => missZX)) ?_) (allP_when fun _ => ?_)) (allP_when fun _ => ?_)
        · refine hitZ (by omega) (by omega) (by omega) (by omega) (by omega) (by omega) tx ?_
          rw [tapCell, if_pos (by omega), beyond_hi (by omega)]
          rw [show g.ieZz + g.npml - g.npml = g.ieZz by omega]
        · exact missZ (by omega) (by omega) (by omega)
        · exact missZ (by omega) (by omega) (by omega)
      · have hr : g.rig = 4 := by omega
        refine hits_left hz1 hz2 (hits_right hz1 hz2 L (allP_append (allP_append (allP_append missZX (allP_when fun _ => missZX)) (allP_when fun _ => missZX)) ?_) (hits_when hr ?_)) (allP_when fun _ => ?_)
        · exact missZ (by omega) (by omega) (by omega)
        · refine hitZ (by omega) (by omega) (by omega) (by omega) (by omega) (by omega) txz ?_
          rw [tapCell, if_neg (by omega), if_neg (by omega), beyond_hi (by omega), beyond_hi (by omega)]
        · exact missZ (by omega) (by omega) (by omega)
  have T : AllP (Quiet g .vz ix iz) (taperTop g k ++ taperBot g k) :=
    allP_append (topZ_miss hv fun _ => by omega) (botZ_miss hv fun _ => by omega)
  by_cases c2 : ix < g.ioZx
  · have hl : g.lef = 4 := by omega
    refine hits_left hz1 hz2 (hits_right hz1 hz2 L T (hits_when hl ?_)) (rigZ_miss hv fun _ => by omega)
    refine hits_right hz1 hz2 L (l1 := [_]) missZX ?_
    refine hitZ (by omega) (by omega) (by omega) (by omega) (by omega) (by omega) tx ?_
    rw [tapCell, if_neg (by omega), if_pos (by omega), beyond_lo c2]
    rw [show g.npml + (g.ioZx - g.npml) - 1 - ix = g.ioZx - 1 - ix by omega]
  · have hr : g.rig = 4 := by omega
    refine hits_right hz1 hz2 L (allP_append T (lefZ_miss hv fun _ => by omega)) (hits_when hr ?_)
    refine hits_right hz1 hz2 L (l1 := [_]) missZX ?_
    refine hitZ (by omega) (by omega) (by omega) (by omega) (by omega) (by omega) tx ?_
    rw [tapCell, if_neg (by omega), if_pos (by omega), beyond_hi (by omega)]
    rw [show g.ieZx + g.npml - g.npml = g.ieZx by omega]

omit [CommRing K] in
/-- Neither the rigid walls nor the PML touch the tapered zones, except where a bottom wall cuts through them. -/
theorem pre_missZ (hv : Valid g) (k : Coef K) (first : Bool) (hf : Framed g g.ioZx g.ieZx g.ioZz g.ieZz ix iz)
    (hw : g.bot = 3 → iz ≠ g.nz + 1 ∧ iz ≠ g.nz + 2) : AllP (Quiet g .vz ix iz) ([wallPhase g] ++ pmlP g k first) := by
  obtain ⟨⟨g1, g2, g3, g4, g5⟩, ⟨p1, p2, p3, p4⟩, q1, q2, q3, q4⟩ := grid hv
  have ex : g.ioZx = 1 + g.pad g.lef := rfl
  have ex' : g.ieZx = g.nx + 1 + g.pad g.lef := rfl
  have ez : g.ioZz = 2 + g.pad g.top := rfl
  have ez' : g.ieZz = g.nz + 2 + g.pad g.top := rfl
  obtain ⟨f1, f2, f3, f4⟩ := hf
  have hx : Arr.vx ∉ strs := by decide
  have hz : Arr.vz ∉ strs := by decide
  refine allP_append (allP_one (all_walls hv ?_ ?_)) ?_
  · intro jx jz _ h1 h2 h3 h4 _ _ h5
    refine ⟨av fun _ => ⟨by omega, by omega, .inr ?_⟩, hz, rfl⟩
    rintro rfl
    rcases h5 with ⟨h5, h6⟩ | ⟨h5, h6⟩
    · rw [if_neg (by omega)] at f3; omega
    · have := hw h5; omega
  · exact fun _ _ _ _ _ _ _ _ _ _ => ⟨avoids_arr (by decide), hx, rfl⟩
  · unfold pmlP
    have P : ∀ {psi : Arr} {e : Expr Cell K} {i : Int}, IsPsi psi → Quiet g .vz ix iz (⟨(psi, i), e⟩ : Stmt Cell K) := by
      intro psi e i h
      refine ⟨avoids_arr ?_, (isPsi_strs h).1, ?_⟩ <;> rcases h with rfl | rfl | rfl | rfl | rfl | rfl | rfl | rfl <;>
        first | rfl | decide
    refine allP_when fun _ => allP_append (allP_when fun _ => allP_one ?_) (allP_cons ?_ (allP_cons ?_ (allP_cons ?_ (allP_one ?_))))
    · rw [List.flatten_cons, List.flatten_nil, List.append_nil]
      refine all_append (all_append (all_append ?_ ?_) ?_) ?_ <;> exact all_clear fun i h1 h2 => P (by simp [IsPsi])
    · refine all_pmlLoop fun jx jz inx inz _ _ _ _ _ => ?_
      exact all_append (all_append (all_when fun _ => all_one (P (by simp [IsPsi]))) (all_when fun _ => all_one (P (by simp [IsPsi]))))
        (all_one ⟨avoids_arr (by decide), hx, rfl⟩)
    · refine pml_miss (ix := ix) (iz := iz) (inX_false ?_ ?_) (inZ_false ?_ ?_) fun jx jz inx inz h3 h4 h5 => ?_
      · intro h; rwa [if_neg (by omega)] at f1
      · intro h; rwa [if_neg (by omega)] at f2
      · intro h; rwa [if_neg (by omega)] at f3
      · intro h; rwa [if_neg (by omega)] at f4
      · have e1 : 0 ≤ jz := by
          split_ifs at h3
          · exact (le_of_max0 h3).1
          · omega
        have e2 : jz < g.naz := by
          split_ifs at h4
          · exact (lt_of_minTo h4).2
          · omega
        exact all_append (all_append (all_when fun _ => all_one (P (by simp [IsPsi]))) (all_when fun _ => all_one (P (by simp [IsPsi]))))
          (all_one ⟨av fun _ => ⟨e1, e2, h5⟩, hz, rfl⟩)
    · refine all_itef fun h => all_parfor fun jz h1 h2 => ?_
      have := q3 (.inl h)
      rw [if_neg (by omega)] at f1
      exact all_cons ⟨av fun _ => ⟨h1, h2, .inl (by omega)⟩, hx, rfl⟩ (all_cons ⟨av fun _ => ⟨h1, h2, .inl (by omega)⟩, hx, rfl⟩
        (all_cons ⟨av fun e => ⟨h1, h2, .inl (by omega)⟩, hz, rfl⟩ (all_one ⟨av fun e => ⟨h1, h2, .inl (by omega)⟩, hz, rfl⟩)))
    · refine all_itef fun h => all_parfor fun jx h1 h2 => ?_
      have := q1 (.inl h)
      rw [if_neg (by omega)] at f3
      exact all_cons ⟨av fun _ => ⟨by omega, by omega, .inr (by omega)⟩, hx, rfl⟩
        (all_cons ⟨av fun _ => ⟨by omega, by omega, .inr (by omega)⟩, hx, rfl⟩
        (all_cons ⟨av fun e => ⟨by omega, by omega, .inr (by omega)⟩, hz, rfl⟩
        (all_one ⟨av fun e => ⟨by omega, by omega, .inr (by omega)⟩, hz, rfl⟩)))
end

/-- C70: at every point of a tapered zone that is not in a row a bottom wall writes (see `wallPhase`) a time step advances
`vz` by the staggered differences of the stresses, with the coefficients of the boundary, and multiplies with the taper value
that belongs to the distance to the model. -/
theorem elastic_taper_vz (hv : Valid g) (k : Coef K) (med : Cell → K) (n : Nat) (u0 : Field K) (ix iz : Int)
    (hf : Framed g g.ioZx g.ieZx g.ioZz g.ieZz ix iz)
    (hi : ¬ (g.ioZx ≤ ix ∧ ix < g.ieZx ∧ g.ioZz ≤ iz ∧ iz < g.ieZz))
    (hw : g.bot = 3 → iz ≠ g.nz + 1 ∧ iz ≠ g.nz + 2) :
    let u := propagate g k med n u0
    let u' := propagate g k med (n + 1) u0
    at2 g u'.vz ix iz = (at2 g u.vz ix iz - med (.roz, ix * g.naz + iz) *
        ((stag k.d1 k.d2 fun j => at2 g u.tzz ix (iz + j)) + (stag k.d1 k.d2 fun j => at2 g u.txz (ix + 1 + j) iz))) *
      med (tapCell .tapz g.npml g.ioZx g.ieZx g.ioZz g.ieZz ix iz) := by
  intro u u'
  have hz1 : 0 ≤ iz ∧ iz < g.naz := by
    obtain ⟨⟨g1, g2, g3, g4, g5⟩, ⟨p1, p2, p3, p4⟩, q1, q2, q3, q4⟩ := grid hv
    have ez : g.ioZz = 2 + g.pad g.top := rfl
    have ez' : g.ieZz = g.nz + 2 + g.pad g.top := rfl
    have f3 := hf.2.2.1
    have f4 := hf.2.2.2
    constructor
    · split_ifs at f3 with h
      · have := q1 (.inr h); omega
      · omega
    · split_ifs at f4 with h
      · have := q2 (.inr h); omega
      · omega
  have V : All (Quiet g .vz ix iz) (velPhase g k).flatten := by
    refine all_vel (fun jx jz hj => ⟨avoids_arr (by decide), (by decide : Arr.vx ∉ strs), rfl⟩) (fun jx jz hj =>
      ⟨av fun _ => ?_, (by decide : Arr.vz ∉ strs), rfl⟩)
    have hj' := inZ_grid hv hj
    refine ⟨by omega, by omega, ?_⟩
    by_contra hn
    obtain ⟨rfl, rfl⟩ : jx = ix ∧ jz = iz := by omega
    exact hi hj
  have H := hits_right hz1.1 hz1.2 (tapEZ_local g k ix iz) (pre_missZ hv k (n = 0) hf hw) (tapers_hitZ (k := k) hv hf hi)
  have R := (quiet_run V hz1.1 hz1.2 (tapEZ_local g k ix iz) (steps g k n (mem med u0))).2
  show steps g k (n + 1) (mem med u0) (.vz, el g.naz ix iz) = _
  rw [steps, late_vel hv k _ (show Arr.vz ∈ vels by decide), run_append]
  unfold half
  rw [H, R]
  have ht : fld (tapCell .tapz g.npml g.ioZx g.ieZx g.ioZz g.ieZz ix iz) = false := by unfold tapCell; split_ifs <;> rfl
  unfold tapEZ
  simp only [vzS, eval_sub, rd, Expr.eval, stag, at2, u, propagate, fieldOf, el,
    elastic_medium g k med n u0 _ (show fld (.roz, ix * g.naz + iz) = false from rfl), elastic_medium g k med n u0 _ ht]
  rw [show iz + 0 = iz by omega, show iz + -1 = iz - 1 by omega, show iz + -2 = iz - 2 by omega,
    show ix + 1 + 0 = ix + 1 by omega, show ix + 1 + -1 = ix by omega, show ix + 1 + 1 = ix + 2 by omega,
    show ix + 1 + -2 = ix - 1 by omega]
  ring

end

/-! ### The hypotheses of the theorems are met -/

/-- Tapers at all sides: a point in the top left corner, one at the right, and one at the bottom. -/
example : let g : Cfg := ⟨6, 6, 5, 4, 4, 4, 4⟩
    Valid g ∧ Framed g g.ioXx g.ieXx g.ioXz g.ieXz 3 3 ∧ Framed g g.ioXx g.ieXx g.ioXz g.ieXz 15 8 ∧
    Framed g g.ioZx g.ieZx g.ioZz g.ieZz 8 14 ∧ ¬ InX g 3 3 ∧ ¬ InX g 15 8 ∧ ¬ InZ g 8 14 ∧
    tapCell .tapx 5 g.ioXx g.ieXx g.ioXz g.ieXz 3 3 = (.tapxz, 3 * 5 + 2) ∧
    tapCell .tapx 5 g.ioXx g.ieXx g.ioXz g.ieXz 15 8 = (.tapx, 2) ∧ tapCell .tapz 5 g.ioZx g.ieZx g.ioZz g.ieZz 8 14 = (.tapz, 1) := by
  refine ⟨⟨by decide, by decide, by decide, by decide, by decide, by decide, by decide⟩, ?_⟩
  simp only [Framed, InX, InZ]
  decide

/-- A free surface at the top, a rigid side at the right, PML at the bottom, a taper at the left. -/
example : let g : Cfg := ⟨6, 6, 5, 1, 2, 4, 3⟩
    Valid g ∧ Framed g g.ioXx g.ieXx g.ioXz g.ieXz 3 3 ∧ ¬ InX g 3 3 := by
  refine ⟨⟨by decide, by decide, by decide, by decide, by decide, by decide, by decide⟩, ?_⟩
  simp only [Framed, InX]
  decide

end Verif.Fd.Ela

import Verif.Fd.ElaTaper

/-! # C71: what the elastic time step does in the absorbing layers (PML) -/

namespace Verif.Fd.Ela

open Verif.Sten
open Verif.Par (store)
open Verif.Fd.Acou (Cfg Coef max0 minTo Valid grid le_of_max0 lt_of_minTo at2 stag)

/-! ## Specification -/

section
variable {K : Type} [CommRing K]

/-- The grid point lies in the layer at the left or the right, at the top or the bottom; `lo ≤ i < hi` is the model. -/
def PmlX (g : Cfg) (lo hi ix : Int) : Prop := (g.lef = 2 ∧ ix < lo) ∨ (g.rig = 2 ∧ hi ≤ ix)
def PmlZ (g : Cfg) (lo hi iz : Int) : Prop := (g.top = 2 ∧ iz < lo) ∨ (g.bot = 2 ∧ hi ≤ iz)

instance (g : Cfg) (lo hi ix : Int) : Decidable (PmlX g lo hi ix) := inferInstanceAs (Decidable (_ ∨ _))
instance (g : Cfg) (lo hi iz : Int) : Decidable (PmlZ g lo hi iz) := inferInstanceAs (Decidable (_ ∨ _))

/-- Staggered difference between `i-1` and `i` along a line of `n` samples; near its ends the difference of the neighbours. -/
def diffBack (d1 d2 : K) (n i : Int) (f : Int → K) : K :=
  if 2 ≤ i ∧ i ≤ n - 2 then stag d1 d2 fun j => f (i + j) else f (if i + 1 < n then i + 1 else i) - f (if 0 < i then i - 1 else i)
/-- The same between `i` and `i+1`. -/
def diffFwd (d1 d2 : K) (n i : Int) (f : Int → K) : K :=
  if 1 ≤ i ∧ i ≤ n - 3 then stag d1 d2 fun j => f (i + 1 + j) else f (if i + 1 < n then i + 1 else i) - f (if 0 < i then i - 1 else i)
/-- The same between `i-1` and `i`, near the ends the difference to the sample before. -/
def diffBack1 (d1 d2 : K) (n i : Int) (f : Int → K) : K :=
  if 2 ≤ i ∧ i ≤ n - 2 then stag d1 d2 fun j => f (i + j) else f i - f (if 0 < i then i - 1 else i)

/-- The memory variable of a convolutional PML: `ψ' = b ψ + c d` inside the layer. -/
def psiNew (on : Prop) [Decidable on] (b c psi d : K) : K := if on then b * psi + c * d else psi
/-- The stretched derivative: `d/κ + ψ'` inside the layer. -/
def stretched (on : Prop) [Decidable on] (ik d psi' : K) : K := if on then ik * d + psi' else d
end

/-! ## Lemmas -/

section
variable {K : Type} {g : Cfg}

theorem inX_eq (lo hi ix : Int) : inX g lo hi ix = decide (PmlX g lo hi ix) := by
  rw [Bool.eq_iff_iff, decide_eq_true_iff]; simp [inX, PmlX]
theorem inZ_eq (lo hi iz : Int) : inZ g lo hi iz = decide (PmlZ g lo hi iz) := by
  rw [Bool.eq_iff_iff, decide_eq_true_iff]; simp [inZ, PmlZ]

section
variable {κ : Cell → Int} {i : Int}

theorem pml_keys (k : Coef K) (inx inz : Bool) {ix iz : Int} (C : ∀ a : Arr, κ (a, el g.naz ix iz) = i) :
    All (InKey (In wX) κ i) (vxPml g k ix iz inx inz) ∧ All (InKey (In wZ) κ i) (vzPml g k ix iz inx inz) ∧
    All (InKey (In wN) κ i) (nrmPml g k ix iz inx inz) ∧ All (InKey (In wT) κ i) (shrPml g k ix iz inx inz) := by
  obtain ⟨x1, x2, -, -⟩ := off_diff' (g := g) k ix iz (l := wX) (by decide)
  obtain ⟨-, -, z1, z2⟩ := off_diff' (g := g) k ix iz (l := wZ) (by decide)
  obtain ⟨n1, n2, -, -⟩ := off_diff (g := g) k ix iz (l := wN) (by decide)
  obtain ⟨-, -, t1, t2⟩ := off_diff (g := g) k ix iz (l := wT) (by decide)
  have R : ∀ {l : List Arr} {a : Arr}, EKey (In l) κ i (rd g a ix iz : Expr Cell K) := fun {l a} => ekey_rd fun _ => C _
  refine ⟨?_, ?_, ?_, ?_⟩
  · exact all_append (all_append (mem_key (by decide) (C _) (by decide) (by decide) x1)
      (mem_key (by decide) (C _) (by decide) (by decide) x2))
      (all_one (key_stmt (show Arr.vx ∈ wX by decide) (C _) (ekey_sub R (ekey_mul R
        (ekey_add (str_key (C _) (by decide) x1) (str_key (C _) (by decide) x2))))))
  · exact all_append (all_append (mem_key (by decide) (C _) (by decide) (by decide) z1)
      (mem_key (by decide) (C _) (by decide) (by decide) z2))
      (all_one (key_stmt (show Arr.vz ∈ wZ by decide) (C _) (ekey_sub R (ekey_mul R
        (ekey_add (str_key (C _) (by decide) z1) (str_key (C _) (by decide) z2))))))
  · refine all_append (all_append (mem_key (by decide) (C _) (by decide) (by decide) n1)
      (mem_key (by decide) (C _) (by decide) (by decide) n2)) (all_cons ?_ (all_one ?_))
    · exact key_stmt (show Arr.txx ∈ wN by decide) (C _) (ekey_sub R (ekey_add (ekey_mul R (str_key (C _) (by decide) n1))
        (ekey_mul R (str_key (C _) (by decide) n2))))
    · exact key_stmt (show Arr.tzz ∈ wN by decide) (C _) (ekey_sub R (ekey_add (ekey_mul R (str_key (C _) (by decide) n2))
        (ekey_mul R (str_key (C _) (by decide) n1))))
  · exact all_append (all_append (mem_key (by decide) (C _) (by decide) (by decide) t1)
      (mem_key (by decide) (C _) (by decide) (by decide) t2))
      (all_one (key_stmt (show Arr.txz ∈ wT by decide) (C _) (ekey_sub R (ekey_mul R
        (ekey_add (str_key (C _) (by decide) t1) (str_key (C _) (by decide) t2))))))
end

variable [CommRing K]

/-- A loop over PML cells, at a PML cell. -/
theorem pml_hit {l : List Arr} {a b c d xlo xhi zlo zhi ix iz : Int} {body : Int → Int → Bool → Bool → List (Stmt Cell K)}
    (hb : ∀ (κ : Cell → Int) i jx jz inx inz, (∀ a : Arr, κ (a, el g.naz jx jz) = i) → All (InKey (In l) κ i) (body jx jz inx inz))
    (hc : 0 ≤ c) (hd : d ≤ g.naz) (h1 : a ≤ ix) (h2 : ix < b) (h3 : c ≤ iz) (h4 : iz < d)
    (hp : PmlX g xlo xhi ix ∨ PmlZ g zlo zhi iz) (x : Arr) (m : Cell → K) :
    run (pmlLoop g a b c d xlo xhi zlo zhi body).flatten m (x, el g.naz ix iz) =
      run (body ix iz (decide (PmlX g xlo xhi ix)) (decide (PmlZ g zlo zhi iz))) m (x, el g.naz ix iz) := by
  unfold pmlLoop
  rw [run_sweep_el (W := In l) (n := g.naz) _ h1 h2 h3 h4 (by omega) (by omega)]
  · rw [inX_eq, inZ_eq, if_neg]
    rcases hp with hp | hp <;> simp [hp]
  · intro jx e1 e2 jz e3 e4 s hs
    split at hs
    · cases hs
    · exact ⟨hb _ _ jx jz _ _ (fun a => colOf_el (by omega) (by omega)) s hs,
        hb _ _ jx jz _ _ (fun a => rowOf_el (by omega) (by omega)) s hs⟩

/-- The memory variables after their update. -/
theorem run_mem2 {on1 on2 : Prop} [Decidable on1] [Decidable on2] {p1 p2 b1 c1 b2 c2 : Arr} {j1 j2 ix iz : Int}
    {d1 d2 : Expr Cell K} (hp : p1 ≠ p2) (hb : b2 ≠ p1) (hc : c2 ≠ p1) (h2 : Off [p1] d2) (m M : Cell → K)
    (hM : M = run (mem' g (decide on1) p1 b1 c1 j1 ix iz d1 ++ mem' g (decide on2) p2 b2 c2 j2 ix iz d2) m) :
    M (p1, el g.naz ix iz) = psiNew on1 (m (b1, j1)) (m (c1, j1)) (m (p1, el g.naz ix iz)) (d1.eval m) ∧
    M (p2, el g.naz ix iz) = psiNew on2 (m (b2, j2)) (m (c2, j2)) (m (p2, el g.naz ix iz)) (d2.eval m) ∧
    ∀ c : Cell, c.1 ≠ p1 → c.1 ≠ p2 → M c = m c := by
  subst hM
  rw [run_append]
  have U : ∀ {on : Prop} [Decidable on] {p b c : Arr} {j : Int} {d : Expr Cell K} (m : Cell → K),
      run (mem' g (decide on) p b c j ix iz d) m (p, el g.naz ix iz) =
        psiNew on (m (b, j)) (m (c, j)) (m (p, el g.naz ix iz)) (d.eval m) ∧
      ∀ c' : Cell, c'.1 ≠ p → run (mem' g (decide on) p b c j ix iz d) m c' = m c' := by
    intro on _ p b c j d m
    unfold mem' psiNew
    by_cases h : on
    · simp only [h, decide_true, if_true]
      refine ⟨if_pos rfl, fun c' hc' => if_neg ?_⟩
      rintro rfl; exact hc' rfl
    · simp only [h, decide_false, if_false, Bool.false_eq_true]
      exact ⟨rfl, fun _ _ => rfl⟩
  refine ⟨?_, ?_, fun c e1 e2 => ?_⟩
  · rw [(U _).2 _ hp, (U _).1]
  · rw [(U _).1, (U _).2 (b2, j2) hb, (U _).2 (c2, j2) hc, (U _).2 (p2, _) hp.symm]
    congr 1
    refine Expr.eval_congr _ fun c hc => (U _).2 c fun e => h2 c hc ?_
    rw [e]; exact List.mem_singleton.mpr rfl
  · rw [(U _).2 c e2, (U _).2 c e1]

theorem eval_str {on : Prop} [Decidable on] {p ik : Arr} {j ix iz : Int} {d : Expr Cell K} (m : Cell → K) :
    (str g (decide on) p ik j ix iz d).eval m = stretched on (m (ik, j)) (d.eval m) (m (p, el g.naz ix iz)) := by
  unfold str stretched
  by_cases h : on
  · simp only [h, decide_true, if_true]; rfl
  · simp only [h, decide_false, if_false, Bool.false_eq_true]

/-- A cell whose value comes from one assignment after the memory variables. -/
theorem run_pml1 {on1 on2 : Prop} [Decidable on1] [Decidable on2] {v r p1 p2 b1 c1 b2 c2 k1 k2 : Arr} {j1 j2 ix iz : Int}
    {d1 d2 : Expr Cell K} (hp : p1 ≠ p2) (hb : b2 ≠ p1) (hc : c2 ≠ p1) (h1 : Off [p1, p2] d1) (h2 : Off [p1, p2] d2)
    (hv : v ≠ p1 ∧ v ≠ p2) (hr : r ≠ p1 ∧ r ≠ p2) (hk1 : k1 ≠ p1 ∧ k1 ≠ p2) (hk2 : k2 ≠ p1 ∧ k2 ≠ p2) (m M : Cell → K)
    (hM : M = run (mem' g (decide on1) p1 b1 c1 j1 ix iz d1 ++ mem' g (decide on2) p2 b2 c2 j2 ix iz d2 ++
      [⟨(v, el g.naz ix iz), rd g v ix iz - rd g r ix iz *
        (str g (decide on1) p1 k1 j1 ix iz d1 + str g (decide on2) p2 k2 j2 ix iz d2)⟩]) m) :
    M (p1, el g.naz ix iz) = psiNew on1 (m (b1, j1)) (m (c1, j1)) (m (p1, el g.naz ix iz)) (d1.eval m) ∧
    M (p2, el g.naz ix iz) = psiNew on2 (m (b2, j2)) (m (c2, j2)) (m (p2, el g.naz ix iz)) (d2.eval m) ∧
    M (v, el g.naz ix iz) = m (v, el g.naz ix iz) - m (r, el g.naz ix iz) *
      (stretched on1 (m (k1, j1)) (d1.eval m) (M (p1, el g.naz ix iz)) +
       stretched on2 (m (k2, j2)) (d2.eval m) (M (p2, el g.naz ix iz))) := by
  subst hM
  rw [run_append]
  obtain ⟨A, B, C⟩ := run_mem2 (g := g) (on1 := on1) (on2 := on2) (b1 := b1) (c1 := c1) (j1 := j1) (j2 := j2) (ix := ix) (iz := iz)
    (d1 := d1) hp hb hc (fun c hc e => h2 c hc (by rw [List.mem_singleton.mp e]; simp)) m _ rfl
  generalize run (mem' g (decide on1) p1 b1 c1 j1 ix iz d1 ++ mem' g (decide on2) p2 b2 c2 j2 ix iz d2) m = M' at A B C
  have P1 : run [(⟨(v, el g.naz ix iz), rd g v ix iz - rd g r ix iz *
        (str g (decide on1) p1 k1 j1 ix iz d1 + str g (decide on2) p2 k2 j2 ix iz d2)⟩ : Stmt Cell K)] M' (p1, el g.naz ix iz) =
      M' (p1, el g.naz ix iz) := if_neg fun e => hv.1 (congrArg Prod.fst e).symm
  have P2 : run [(⟨(v, el g.naz ix iz), rd g v ix iz - rd g r ix iz *
        (str g (decide on1) p1 k1 j1 ix iz d1 + str g (decide on2) p2 k2 j2 ix iz d2)⟩ : Stmt Cell K)] M' (p2, el g.naz ix iz) =
      M' (p2, el g.naz ix iz) := if_neg fun e => hv.2 (congrArg Prod.fst e).symm
  rw [P1, P2]
  refine ⟨A, B, ?_⟩
  have E : ∀ {d : Expr Cell K}, Off [p1, p2] d → d.eval M' = d.eval m := fun h => Expr.eval_congr _ fun c hc =>
    C c (fun e => h c hc (by simp [e])) (fun e => h c hc (by simp [e]))
  show store M' _ _ _ = _
  refine (if_pos rfl).trans ?_
  rw [eval_sub, eval_mul, eval_add, eval_str, eval_str, E h1, E h2]
  show M' (v, _) - M' (r, _) * _ = _
  rw [C (v, _) hv.1 hv.2, C (r, _) hr.1 hr.2, C (k1, j1) hk1.1 hk1.2, C (k2, j2) hk2.1 hk2.2]

/-! ### The differences -/

set_option linter.unusedSimpArgs false

theorem ev_dpxX (k : Coef K) (ix iz : Int) (m : Cell → K) :
    (dpxX g k ix iz).eval m = diffBack k.d1 k.d2 g.nax ix fun j => m (.txx, j * g.naz + iz) := by
  unfold dpxX diffBack
  split_ifs with h1 h2
  · simp only [stag, eval_add, eval_sub, eval_mul, rd, Expr.eval, el]
    rw [show ix + 0 = ix by omega, show ix + -1 = ix - 1 by omega, show ix + -2 = ix - 2 by omega]
  all_goals simp only [eval_sub, rd, Expr.eval, el, uppr, lowr, *]; simp [*]

theorem ev_dpzX (k : Coef K) (ix iz : Int) (m : Cell → K) :
    (dpzX g k ix iz).eval m = diffFwd k.d1 k.d2 g.naz iz fun j => m (.txz, ix * g.naz + j) := by
  unfold dpzX diffFwd
  split_ifs with h1 h2
  · simp only [stag, eval_add, eval_sub, eval_mul, rd, Expr.eval, el]
    rw [show iz + 1 + 0 = iz + 1 by omega, show iz + 1 + -1 = iz by omega, show iz + 1 + 1 = iz + 2 by omega,
      show iz + 1 + -2 = iz - 1 by omega]
  all_goals simp only [eval_sub, rd, Expr.eval, el, uppr, lowr, *]; simp [*]

theorem ev_dpzZ (k : Coef K) (ix iz : Int) (m : Cell → K) :
    (dpzZ g k ix iz).eval m = diffBack k.d1 k.d2 g.naz iz fun j => m (.tzz, ix * g.naz + j) := by
  unfold dpzZ diffBack
  split_ifs with h1 h2
  · simp only [stag, eval_add, eval_sub, eval_mul, rd, Expr.eval, el]
    rw [show iz + 0 = iz by omega, show iz + -1 = iz - 1 by omega, show iz + -2 = iz - 2 by omega]
  all_goals simp only [eval_sub, rd, Expr.eval, el, uppr, lowr, *]; simp [*]

theorem ev_dpxZ (k : Coef K) (ix iz : Int) (m : Cell → K) :
    (dpxZ g k ix iz).eval m = diffFwd k.d1 k.d2 g.nax ix fun j => m (.txz, j * g.naz + iz) := by
  unfold dpxZ diffFwd
  split_ifs with h1 h2
  · simp only [stag, eval_add, eval_sub, eval_mul, rd, Expr.eval, el]
    rw [show ix + 1 + 0 = ix + 1 by omega, show ix + 1 + -1 = ix by omega, show ix + 1 + 1 = ix + 2 by omega,
      show ix + 1 + -2 = ix - 1 by omega]
  all_goals simp only [eval_sub, rd, Expr.eval, el, uppr, lowr, *]; simp [*]

theorem ev_dvxN (k : Coef K) (ix iz : Int) (m : Cell → K) :
    (dvxN g k ix iz).eval m = diffFwd k.d1 k.d2 g.nax ix fun j => m (.vx, j * g.naz + iz) := by
  unfold dvxN diffFwd
  split_ifs with h1 h2
  · simp only [dvx, stag, eval_add, eval_sub, eval_mul, rd, Expr.eval, el]
    rw [show ix + 1 + 0 = ix + 1 by omega, show ix + 1 + -1 = ix by omega, show ix + 1 + 1 = ix + 2 by omega,
      show ix + 1 + -2 = ix - 1 by omega]
  all_goals simp only [eval_sub, rd, Expr.eval, el, uppr, lowr, *]; simp [*]

theorem ev_dvzN (k : Coef K) (ix iz : Int) (m : Cell → K) :
    (dvzN g k ix iz).eval m = diffFwd k.d1 k.d2 g.naz iz fun j => m (.vz, ix * g.naz + j) := by
  unfold dvzN diffFwd
  split_ifs with h1 h2
  · simp only [dvz, stag, eval_add, eval_sub, eval_mul, rd, Expr.eval, el]
    rw [show iz + 1 + 0 = iz + 1 by omega, show iz + 1 + -1 = iz by omega, show iz + 1 + 1 = iz + 2 by omega,
      show iz + 1 + -2 = iz - 1 by omega]
  all_goals simp only [eval_sub, rd, Expr.eval, el, uppr, lowr, *]; simp [*]

theorem ev_dvzT (k : Coef K) (ix iz : Int) (m : Cell → K) :
    (dvzT g k ix iz).eval m = diffBack1 k.d1 k.d2 g.nax ix fun j => m (.vz, j * g.naz + iz) := by
  unfold dvzT diffBack1
  split_ifs with h1 h2
  · simp only [stag, eval_add, eval_sub, eval_mul, rd, Expr.eval, el]
    rw [show ix + 0 = ix by omega, show ix + -1 = ix - 1 by omega, show ix + -2 = ix - 2 by omega]
  all_goals simp only [eval_sub, rd, Expr.eval, el, uppr, lowr, *]; simp [*]

theorem ev_dvxT (k : Coef K) (ix iz : Int) (m : Cell → K) :
    (dvxT g k ix iz).eval m = diffBack1 k.d1 k.d2 g.naz iz fun j => m (.vx, ix * g.naz + j) := by
  unfold dvxT diffBack1
  split_ifs with h1 h2
  · simp only [stag, eval_add, eval_sub, eval_mul, rd, Expr.eval, el]
    rw [show iz + 0 = iz by omega, show iz + -1 = iz - 1 by omega, show iz + -2 = iz - 2 by omega]
  all_goals simp only [eval_sub, rd, Expr.eval, el, uppr, lowr, *]; simp [*]


/-! ### Clearing and sparing -/

theorem pml_true {xlo xhi zlo zhi ix iz : Int} (h : PmlX g xlo xhi ix ∨ PmlZ g zlo zhi iz) : g.pml = true := by
  unfold PmlX PmlZ at h
  unfold Cfg.pml
  simp only [Bool.or_eq_true, decide_eq_true_eq]
  omega

theorem max0_le {a b : Int} (h1 : a ≤ b) (h2 : 0 ≤ b) : max0 a ≤ b := by unfold max0; split_ifs <;> omega
theorem lt_minTo {a b c : Int} (h1 : a < b) (h2 : a < c) : a < minTo b c := by unfold minTo; split_ifs <;> omega
theorem minTo_le {a b : Int} : minTo a b ≤ b := by unfold minTo; split_ifs <;> omega
theorem max0_ge {a : Int} : 0 ≤ max0 a := by unfold max0; split_ifs <;> omega

/-- Four memory variables cleared in the first step. -/
theorem clear4 {p1 p2 p3 p4 : Arr} {first : Bool} (m : Cell → K) (M : Cell → K)
    (hM : M = run (seqOf (if first then [[clear g p1 ++ clear g p2 ++ clear g p3 ++ clear g p4]] else [])) m) :
    (∀ a i, a ∈ [p1, p2, p3, p4] → 0 ≤ i → i < g.nax * g.naz → M (a, i) = if first then 0 else m (a, i)) ∧
    ∀ c : Cell, c.1 ∉ [p1, p2, p3, p4] → M c = m c := by
  subst hM
  cases first with
  | false => exact ⟨fun _ _ _ _ _ => rfl, fun _ _ => rfl⟩
  | true =>
    rw [if_pos rfl, seqOf_one, List.flatten_cons, List.flatten_nil, List.append_nil]
    have Z : ∀ s ∈ clear g p1 ++ clear g p2 ++ clear g p3 ++ (clear g p4 : List (Stmt Cell K)), s.e = .zero := by
      have : All (fun s : Stmt Cell K => s.e = .zero) (clear g p1 ++ clear g p2 ++ clear g p3 ++ clear g p4) :=
        all_append (all_append (all_append (all_clear fun _ _ _ => rfl) (all_clear fun _ _ _ => rfl)) (all_clear fun _ _ _ => rfl))
          (all_clear fun _ _ _ => rfl)
      exact this
    refine ⟨fun a i ha h1 h2 => ?_, fun c hc => ?_⟩
    · rw [if_pos rfl]
      refine (run_zero Z m (a, i)).1 ⟨⟨(a, i), .zero⟩, ?_, rfl⟩
      have C : (⟨(a, i), .zero⟩ : Stmt Cell K) ∈ clear g a := mem_loop.mpr ⟨i, h1, h2, List.mem_singleton.mpr rfl⟩
      simp only [List.mem_cons, List.not_mem_nil, or_false] at ha
      simp only [List.mem_append]
      rcases ha with rfl | rfl | rfl | rfl
      · exact .inl (.inl (.inl C))
      · exact .inl (.inl (.inr C))
      · exact .inl (.inr C)
      · exact .inr C
    · simp only [List.mem_cons, List.not_mem_nil, or_false, not_or] at hc
      refine run_untouched (p := clear g p1 ++ clear g p2 ++ clear g p3 ++ clear g p4) ?_ m
      exact all_append (all_append (all_append (all_clear fun _ _ _ e => hc.1 (by rw [← e])) (all_clear fun _ _ _ e => hc.2.1 (by rw [← e])))
        (all_clear fun _ _ _ e => hc.2.2.1 (by rw [← e]))) (all_clear fun _ _ _ e => hc.2.2.2 (by rw [← e]))

omit [CommRing K] in
/-- The stress half writes stresses and its own memory variables only. -/
theorem late_spares' {l : List Arr} (hN : ∀ a ∈ wN, a ∉ l) (hT : ∀ a ∈ wT, a ∉ l) (k : Coef K) (first : Bool) :
    All (Spares l) ((strPhase g k).flatten ++ (seqOf (pmlV g k first) ++ seqOf (free g k))) := by
  have hx : Arr.txx ∉ l := hN _ (by decide)
  have hz : Arr.tzz ∉ l := hN _ (by decide)
  have ht : Arr.txz ∉ l := hT _ (by decide)
  refine all_append (all_str (fun _ _ _ => all_cons hx (all_one hz)) (fun _ _ _ => ht)) (all_append ?_ ?_)
  · refine allP_when fun _ => allP_append (allP_when fun _ => allP_one ?_) (allP_cons ?_ (allP_one ?_))
    · rw [List.flatten_cons, List.flatten_nil, List.append_nil]
      exact all_append (all_append (all_append (all_clear fun _ _ _ => hN .psiPX (by decide)) (all_clear fun _ _ _ => hN .psiPZ (by decide)))
        (all_clear fun _ _ _ => hT .psiTX (by decide))) (all_clear fun _ _ _ => hT .psiTZ (by decide))
    · exact all_pmlLoop fun _ _ _ _ _ _ _ _ _ => nrmPml_spares hN k _ _ _ _
    · exact all_pmlLoop fun _ _ _ _ _ _ _ _ _ => shrPml_spares hT k _ _ _ _
  · exact all_free (fun _ _ => ⟨fun _ _ => ⟨hz, hx⟩, fun _ _ => ⟨ht, ht⟩⟩) (fun _ _ => ⟨fun _ _ => ⟨hx, hz⟩, fun _ _ => ⟨ht, ht⟩⟩)
      (fun _ _ => ⟨fun _ _ => ⟨hz, hx⟩, fun _ _ => ⟨ht, ht⟩⟩) (fun _ _ => ⟨fun _ _ => ⟨hx, hz⟩, fun _ _ => ⟨ht, ht⟩⟩)

/-- A step on the arrays the velocity half writes. -/
theorem late_vel' (k : Coef K) (first : Bool) {c : Cell} (hN : c.1 ∉ wN) (hT : c.1 ∉ wT) (m : Cell → K) :
    run (stepProg g k first) m c = run ((velPhase g k).flatten ++ seqOf (half g k first)) m c := by
  rw [stepProg_parts, ← List.append_assoc, run_append, run_spares (l := [c.1]) (late_spares' ?_ ?_ k first) (List.mem_singleton.mpr rfl)]
  · exact fun a ha e => hN (by rwa [List.mem_singleton.mp e] at ha)
  · exact fun a ha e => hT (by rwa [List.mem_singleton.mp e] at ha)

/-- The velocity half of a step in parts. -/
theorem half_parts (hp : g.pml = true) (k : Coef K) (first : Bool) (m : Cell → K) :
    run (seqOf (half g k first)) m = run (seqOf (taperTop g k ++ taperBot g k ++ taperLef g k ++ taperRig g k))
      (run (ghostTop g).flatten (run (ghostLef g).flatten (run (pmlVz g k).flatten (run (pmlVx g k).flatten
        (run (seqOf (if first then [[clear g .psiVxX ++ clear g .psiVzZ ++ clear g .psiVxZ ++ clear g .psiVzX]] else []))
          (run (wallPhase g).flatten m)))))) := by
  unfold half pmlP
  rw [if_pos hp]
  simp only [seqOf_append', run_append]
  unfold seqOf
  simp only [List.flatten_cons, List.flatten_nil, List.append_nil, List.flatten_append, run_append]

omit [CommRing K] in
theorem tapers_spare (hv : Valid g) (k : Coef K) {l : List Arr} (hx : Arr.vx ∉ l) (hz : Arr.vz ∉ l) :
    All (Spares l) (seqOf (taperTop g k ++ taperBot g k ++ taperLef g k ++ taperRig g k)) :=
  all_tapers hv (fun _ _ _ _ _ _ _ _ _ _ _ _ => ⟨hx, hx⟩) (fun _ _ _ _ _ _ _ _ _ _ _ _ => ⟨hz, hz⟩)

omit [CommRing K] in
theorem ghosts_spare {l : List Arr} (hx : Arr.vx ∉ l) (hz : Arr.vz ∉ l) :
    All (Spares (K := K) l) (ghostLef g).flatten ∧ All (Spares (K := K) l) (ghostTop g).flatten := by
  constructor <;> exact all_itef fun h => all_parfor fun iz h1 h2 => all_cons hx (all_cons hx (all_cons hz (all_one hz)))

omit [CommRing K] in
theorem walls_spare (hv : Valid g) {l : List Arr} (hx : Arr.vx ∉ l) (hz : Arr.vz ∉ l) :
    All (Spares (K := K) l) (wallPhase g).flatten :=
  all_walls hv (fun _ _ _ _ _ _ _ _ _ _ => hz) (fun _ _ _ _ _ _ _ _ _ _ => hx)

/-! ### The component `vx` -/

/-- The points of the absorbing layers where `vx` is updated, without those that copies or rigid walls write too. -/
structure LayerVx (g : Cfg) (ix iz : Int) : Prop where
  layer : PmlX g g.ioXx g.ieXx ix ∨ PmlZ g g.ioXz g.ieXz iz
  left : 0 ≤ ix ∧ g.ioXx - g.npml ≤ ix
  right : ix < g.nax ∧ ix < g.ieXx + g.npml
  top : (if g.top = 2 then g.ioXz - g.npml else g.ioXz) ≤ iz
  bot : iz < (if g.bot = 2 then g.ieXz + g.npml else g.ieXz)
  ghostTop : g.top = 2 → 2 ≤ iz
  wallLeft : g.lef = 3 → 2 ≤ ix
  wallRight : g.rig = 3 → ix ≠ g.nx + 1 ∧ ix ≠ g.nx + 2

omit [CommRing K] in
theorem LayerVx.rows (hv : Valid g) {ix iz : Int} (h : LayerVx g ix iz) : 1 ≤ iz ∧ iz + 2 < g.naz ∧ (g.lef = 2 → 2 ≤ ix) ∧
    ¬ InX g ix iz ∧ (g.top = 4 → g.ioXz ≤ iz) ∧ (g.bot = 4 → iz < g.ieXz) ∧
    (g.lef = 4 → g.ioXx ≤ ix ∨ iz < g.ioXz ∨ g.ieXz ≤ iz) ∧ (g.rig = 4 → ix < g.ieXx ∨ iz < g.ioXz ∨ g.ieXz ≤ iz) := by
  obtain ⟨⟨g1, g2, g3, g4, g5⟩, ⟨p1, p2, p3, p4⟩, q1, q2, q3, q4⟩ := grid hv
  obtain ⟨h1, h2, h3, h4, h5, h6, h7, h8⟩ := h
  have ex : g.ioXx = 2 + g.pad g.lef := rfl
  have ex' : g.ieXx = g.nx + 2 + g.pad g.lef := rfl
  have ez : g.ioXz = 1 + g.pad g.top := rfl
  have ez' : g.ieXz = g.nz + 1 + g.pad g.top := rfl
  have H4 : (g.top ≠ 2 → g.ioXz ≤ iz) ∧ (g.top = 2 → 1 ≤ iz) := by
    refine ⟨fun h => by rwa [if_neg h] at h4, fun h => ?_⟩
    have := q1 (.inl h); rw [if_pos h] at h4; omega
  have H5 : (g.bot ≠ 2 → iz < g.ieXz) ∧ (g.bot = 2 → iz + 2 < g.naz) := by
    refine ⟨fun h => by rwa [if_neg h] at h5, fun h => ?_⟩
    have := q2 (.inl h); rw [if_pos h] at h5; omega
  have q3' := fun h => q3 (.inl h)
  clear h4 h5 q1 q2 q3 q4
  unfold PmlX PmlZ at h1
  unfold InX
  refine ⟨by omega, by omega, by omega, ?_, by omega, by omega, ?_, ?_⟩ <;> clear H4 H5 q3' g1 g2
  · omega
  · omega
  · omega

theorem pmlVx_value (hv : Valid g) (k : Coef K) (first : Bool) {ix iz : Int} (h : LayerVx g ix iz) (m m0 M : Cell → K)
    (hm : m0 = run (velPhase g k).flatten m) (hM : M = run (seqOf (half g k first)) m0) :
    ∃ m' : Cell → K, (∀ a ∈ wX, M (a, el g.naz ix iz) = run (vxPml g k ix iz (decide (PmlX g g.ioXx g.ieXx ix))
      (decide (PmlZ g g.ioXz g.ieXz iz))) m' (a, el g.naz ix iz)) ∧
      m' (.vx, el g.naz ix iz) = m (.vx, el g.naz ix iz) ∧
      (∀ a, a = .psiVxX ∨ a = .psiVxZ → m' (a, el g.naz ix iz) = if first then 0 else m (a, el g.naz ix iz)) ∧
      (∀ c, c.1 ∈ strs ∨ fld c = false → m' c = m c) := by
  obtain ⟨r1, r2, r3, r4, r5, r6, r7, r8⟩ := h.rows hv
  obtain ⟨⟨g1, g2, g3, g4, g5⟩, ⟨p1, p2, p3, p4⟩, q1, q2, q3, q4⟩ := grid hv
  have hx : Arr.vx ∉ strs := by decide
  have V : All (Avoids g.naz .vx ix iz) ((velPhase g k).flatten ++ (wallPhase g).flatten) := by
    refine all_append (all_vel (fun jx jz hj => av fun _ => ?_) (fun jx jz hj => avoids_arr (by decide)))
      (all_walls hv (fun _ _ _ _ _ _ _ _ _ _ => avoids_arr (by decide)) fun jx jz _ e1 e2 e3 e4 _ _ e5 => av fun _ => ?_)
    · have hj' := inX_grid hv hj
      refine ⟨by omega, by omega, ?_⟩
      by_contra hn
      obtain ⟨rfl, rfl⟩ : jx = ix ∧ jz = iz := by omega
      exact r4 hj
    · have e6 := h.wallLeft
      have e7 := h.wallRight
      refine ⟨by omega, by omega, .inl ?_⟩
      omega
  have S : ∀ l : List Arr, Arr.vx ∉ l → Arr.vz ∉ l →
      All (Spares l) ((velPhase g k).flatten ++ (wallPhase g).flatten) := fun l e1 e2 =>
    all_append (all_vel (fun _ _ _ => e1) (fun _ _ _ => e2)) (walls_spare hv e1 e2)
  obtain ⟨C1, C2⟩ := clear4 (g := g) (p1 := .psiVxX) (p2 := .psiVzZ) (p3 := .psiVxZ) (p4 := .psiVzX) (first := first)
    (run (wallPhase g).flatten m0) _ rfl
  rw [hM, half_parts (pml_true h.layer)]
  generalize run (seqOf (if first then [[clear g .psiVxX ++ clear g .psiVzZ ++ clear g .psiVxZ ++ clear g .psiVzX]] else []))
    (run (wallPhase g).flatten m0) = m' at C1 C2
  rw [hm, ← run_append] at C1 C2
  refine ⟨m', fun a ha => ?_, ?_, fun a ha => ?_, fun c hc => ?_⟩
  · have T : run (seqOf (taperTop g k ++ taperBot g k ++ taperLef g k ++ taperRig g k))
        (run (ghostTop g).flatten (run (ghostLef g).flatten (run (pmlVz g k).flatten (run (pmlVx g k).flatten m'))))
        (a, el g.naz ix iz) = run (pmlVx g k).flatten m' (a, el g.naz ix iz) := by
      have Z : All (Avoids g.naz a ix iz) (pmlVz g k).flatten := by
        refine all_pmlLoop fun jx jz inx inz _ _ _ _ _ => ?_
        have n1 : Arr.psiVzZ ≠ a := by rintro rfl; revert ha; decide
        have n2 : Arr.psiVzX ≠ a := by rintro rfl; revert ha; decide
        have n3 : Arr.vz ≠ a := by rintro rfl; revert ha; decide
        exact all_append (all_append (all_when fun _ => all_one (avoids_arr n1)) (all_when fun _ => all_one (avoids_arr n2)))
          (all_one (avoids_arr n3))
      have n3 : Arr.vz ≠ a := by rintro rfl; revert ha; decide
      by_cases e : a = .vx
      · subst e
        rw [run_avoids (all_mono (fun _ hs => hs.1) (allP_append (allP_append (allP_append (topX_miss hv r5) (botX_miss hv r6))
          (lefX_miss hv r7)) (rigX_miss hv r8))) (by omega) (by omega), run_avoids _ (by omega) (by omega),
          run_avoids _ (by omega) (by omega), run_avoids Z (by omega) (by omega)]
        · refine all_itef fun h => all_parfor fun jz h1 h2 => ?_
          have := r3 h
          exact all_cons (av fun _ => ⟨h1, h2, .inl (by omega)⟩) (all_cons (av fun _ => ⟨h1, h2, .inl (by omega)⟩)
            (all_cons (avoids_arr n3) (all_one (avoids_arr n3))))
        · refine all_itef fun hh => all_parfor fun jx h1 h2 => ?_
          have := h.ghostTop hh
          exact all_cons (av fun _ => ⟨by omega, by omega, .inr (by omega)⟩) (all_cons (av fun _ => ⟨by omega, by omega, .inr (by omega)⟩)
            (all_cons (avoids_arr n3) (all_one (avoids_arr n3))))
      · have e1 : Arr.vx ∉ [a] := fun h => e (List.mem_singleton.mp h).symm
        have e2 : Arr.vz ∉ [a] := fun h => n3 (List.mem_singleton.mp h)
        rw [run_spares (tapers_spare hv k e1 e2) (List.mem_singleton.mpr rfl),
          run_spares (ghosts_spare e1 e2).2 (List.mem_singleton.mpr rfl), run_spares (ghosts_spare e1 e2).1 (List.mem_singleton.mpr rfl),
          run_avoids Z (by omega) (by omega)]
    rw [T]
    unfold pmlVx
    refine pml_hit (l := wX) (fun κ i jx jz inx inz hC => (pml_keys k inx inz hC).1) ?_ ?_ ?_ ?_ ?_ ?_ h.layer a m'
    · split_ifs
      · exact max0_ge
      · simp only [Cfg.ioXz]; omega
    · split_ifs
      · exact minTo_le
      · simp only [Cfg.ieXz]; omega
    · exact max0_le h.left.2 h.left.1
    · exact lt_minTo h.right.2 h.right.1
    · have := h.top
      split_ifs at this ⊢
      · exact max0_le this (by omega)
      · exact this
    · have := h.bot
      split_ifs at this ⊢
      · exact lt_minTo this (by omega)
      · exact this
  · rw [C2 _ (by show Arr.vx ∉ _; decide), run_avoids V (by omega) (by omega)]
  · obtain ⟨b1, b2⟩ := el_range (n := g.naz) h.left.1 h.right.1 (show 0 ≤ iz by omega) (by omega)
    rw [C1 a _ (by rcases ha with rfl | rfl <;> decide) b1 b2, run_spares (S [a] ?_ ?_) (List.mem_singleton.mpr rfl)] <;>
      rcases ha with rfl | rfl <;> decide
  · have nC : c.1 ∉ [Arr.psiVxX, .psiVzZ, .psiVxZ, .psiVzX] := by
      rcases hc with hc | hc
      · intro e; revert hc; simp only [List.mem_cons, List.not_mem_nil, or_false] at e
        rcases e with e | e | e | e <;> rw [e] <;> decide
      · intro e; revert hc; obtain ⟨a, i⟩ := c; simp only [List.mem_cons, List.not_mem_nil, or_false] at e
        rcases e with rfl | rfl | rfl | rfl <;> simp [fld]
    rw [C2 _ nC]
    refine run_spares (S [c.1] ?_ ?_) (List.mem_singleton.mpr rfl) m <;> intro e <;> rw [List.mem_singleton] at e <;>
      obtain ⟨a, i⟩ := c <;> dsimp only at e <;> subst e <;> revert hc <;> simp [fld, strs]

/-- C71, `vx`: in the absorbing layers a time step advances `vx` by the staggered differences of the stresses, each one replaced
by its stretched version in the layers across its direction; the memory variables follow the recursion of a convolutional PML,
starting from zero. -/
theorem elastic_pml_vx (hv : Valid g) (k : Coef K) (med : Cell → K) (n : Nat) (u0 : Field K) (ix iz : Int)
    (h : LayerVx g ix iz) :
    let u := propagate g k med n u0
    let u' := propagate g k med (n + 1) u0
    let i := ix * g.naz + iz
    let dx := diffBack k.d1 k.d2 g.nax ix fun j => at2 g u.txx j iz
    let dz := diffFwd k.d1 k.d2 g.naz iz fun j => at2 g u.txz ix j
    u'.psiVxX i = psiNew (PmlX g g.ioXx g.ieXx ix) (med (.bxf, ix)) (med (.cxf, ix)) (if n = 0 then 0 else u.psiVxX i) dx ∧
    u'.psiVxZ i = psiNew (PmlZ g g.ioXz g.ieXz iz) (med (.bzf, iz)) (med (.czf, iz)) (if n = 0 then 0 else u.psiVxZ i) dz ∧
    u'.vx i = u.vx i - med (.rox, i) * (stretched (PmlX g g.ioXx g.ieXx ix) (med (.ikxf, ix)) dx (u'.psiVxX i) +
      stretched (PmlZ g g.ioXz g.ieXz iz) (med (.ikzf, iz)) dz (u'.psiVxZ i)) := by
  intro u u' i dx dz
  obtain ⟨m', H, A, B, C⟩ := pmlVx_value hv k (n = 0) h (steps g k n (mem med u0)) _ _ rfl rfl
  have W : ∀ a ∈ wX, a ∉ wN ∧ a ∉ wT := by decide
  have L : ∀ a ∈ wX, steps g k (n + 1) (mem med u0) (a, el g.naz ix iz) = _ := fun a ha => by
    rw [steps, late_vel' k (n = 0) (c := (a, _)) (W a ha).1 (W a ha).2,
      run_append, H a ha]
  obtain ⟨x1, x2, -, -⟩ := off_diff' (g := g) k ix iz (l := [.psiVxX, .psiVxZ]) (by decide)
  obtain ⟨R1, R2, R3⟩ := run_pml1 (g := g) (on1 := PmlX g g.ioXx g.ieXx ix) (on2 := PmlZ g g.ioXz g.ieXz iz) (v := .vx) (r := .rox)
    (p1 := .psiVxX) (p2 := .psiVxZ) (b1 := .bxf) (c1 := .cxf) (b2 := .bzf) (c2 := .czf) (k1 := .ikxf) (k2 := .ikzf) (j1 := ix) (j2 := iz)
    (ix := ix) (iz := iz) (by decide) (by decide) (by decide) x1 x2 (by decide) (by decide) (by decide) (by decide) m' _ rfl
  have M : ∀ c, fld c = false → m' c = med c := fun c hc => by rw [C c (.inr hc), elastic_medium g k med n u0 c hc]
  have DX : (dpxX g k ix iz).eval m' = dx := by
    rw [ev_dpxX]; congr 1; funext j; exact C (.txx, _) (.inl (by show Arr.txx ∈ _; decide))
  have DZ : (dpzX g k ix iz).eval m' = dz := by
    rw [ev_dpzX]; congr 1; funext j; exact C (.txz, _) (.inl (by show Arr.txz ∈ _; decide))
  rw [DX, M (.bxf, ix) rfl, M (.cxf, ix) rfl, B _ (.inl rfl)] at R1
  rw [DZ, M (.bzf, iz) rfl, M (.czf, iz) rfl, B _ (.inr rfl)] at R2
  rw [DX, DZ, M (.ikxf, ix) rfl, M (.ikzf, iz) rfl, M (.rox, _) rfl, A] at R3
  have P1 := (L .psiVxX (by decide)).trans R1
  have P2 := (L .psiVxZ (by decide)).trans R2
  have P3 := (L .vx (by decide)).trans R3
  unfold vxPml at L
  rw [← L .psiVxX (by decide), ← L .psiVxZ (by decide)] at P3
  simp only [decide_eq_true_eq] at P1 P2
  exact ⟨P1, P2, P3⟩

/-! ### The component `vz` -/

/-- The points of the absorbing layers where `vz` is updated, without those that copies or rigid walls write too. -/
structure LayerVz (g : Cfg) (ix iz : Int) : Prop where
  layer : PmlX g g.ioZx g.ieZx ix ∨ PmlZ g g.ioZz g.ieZz iz
  left : 0 ≤ ix ∧ g.ioZx - g.npml ≤ ix
  right : ix < g.nax ∧ ix < g.ieZx + g.npml
  top : (if g.top = 2 then g.ioZz - g.npml else g.ioZz) ≤ iz
  bot : iz < (if g.bot = 2 then g.ieZz + g.npml else g.ieZz)
  ghostLeft : g.lef = 2 → 2 ≤ ix
  wallBot : g.bot = 3 → iz ≠ g.nz + 1 ∧ iz ≠ g.nz + 2

omit [CommRing K] in
theorem LayerVz.rows (hv : Valid g) {ix iz : Int} (h : LayerVz g ix iz) : 2 ≤ iz ∧ iz + 2 < g.naz ∧
    ¬ InZ g ix iz ∧ (g.top = 4 → g.ioZz ≤ iz) ∧ (g.bot = 4 → iz < g.ieZz) ∧
    (g.lef = 4 → g.ioZx ≤ ix ∨ iz < g.ioZz ∨ g.ieZz ≤ iz) ∧ (g.rig = 4 → ix < g.ieZx ∨ iz < g.ioZz ∨ g.ieZz ≤ iz) := by
  obtain ⟨⟨g1, g2, g3, g4, g5⟩, ⟨p1, p2, p3, p4⟩, q1, q2, q3, q4⟩ := grid hv
  obtain ⟨h1, h2, h3, h4, h5, h6, h7⟩ := h
  have ex : g.ioZx = 1 + g.pad g.lef := rfl
  have ex' : g.ieZx = g.nx + 1 + g.pad g.lef := rfl
  have ez : g.ioZz = 2 + g.pad g.top := rfl
  have ez' : g.ieZz = g.nz + 2 + g.pad g.top := rfl
  have H4 : (g.top ≠ 2 → g.ioZz ≤ iz) ∧ (g.top = 2 → 2 ≤ iz) := by
    refine ⟨fun h => by rwa [if_neg h] at h4, fun h => ?_⟩
    have := q1 (.inl h); rw [if_pos h] at h4; omega
  have H5 : (g.bot ≠ 2 → iz < g.ieZz) ∧ (g.bot = 2 → iz + 2 < g.naz) := by
    refine ⟨fun h => by rwa [if_neg h] at h5, fun h => ?_⟩
    have := q2 (.inl h); rw [if_pos h] at h5; omega
  clear h4 h5 q1 q2 q3 q4
  unfold PmlX PmlZ at h1
  unfold InZ
  refine ⟨by omega, by omega, ?_, by omega, by omega, ?_, ?_⟩ <;> clear H4 H5 g1 g2
  · omega
  · omega
  · omega

theorem pmlVz_value (hv : Valid g) (k : Coef K) (first : Bool) {ix iz : Int} (h : LayerVz g ix iz) (m m0 M : Cell → K)
    (hm : m0 = run (velPhase g k).flatten m) (hM : M = run (seqOf (half g k first)) m0) :
    ∃ m' : Cell → K, (∀ a ∈ wZ, M (a, el g.naz ix iz) = run (vzPml g k ix iz (decide (PmlX g g.ioZx g.ieZx ix))
      (decide (PmlZ g g.ioZz g.ieZz iz))) m' (a, el g.naz ix iz)) ∧
      m' (.vz, el g.naz ix iz) = m (.vz, el g.naz ix iz) ∧
      (∀ a, a = .psiVzZ ∨ a = .psiVzX → m' (a, el g.naz ix iz) = if first then 0 else m (a, el g.naz ix iz)) ∧
      (∀ c, c.1 ∈ strs ∨ fld c = false → m' c = m c) := by
  obtain ⟨r1, r2, r4, r5, r6, r7, r8⟩ := h.rows hv
  obtain ⟨⟨g1, g2, g3, g4, g5⟩, ⟨p1, p2, p3, p4⟩, q1, q2, q3, q4⟩ := grid hv
  have V : All (Avoids g.naz .vz ix iz) ((velPhase g k).flatten ++ (wallPhase g).flatten) := by
    refine all_append (all_vel (fun jx jz hj => avoids_arr (by decide)) (fun jx jz hj => av fun _ => ?_))
      (all_walls hv (fun jx jz _ e1 e2 e3 e4 _ _ e5 => av fun _ => ?_) fun _ _ _ _ _ _ _ _ _ _ => avoids_arr (by decide))
    · have hj' := inZ_grid hv hj
      refine ⟨by omega, by omega, ?_⟩
      by_contra hn
      obtain ⟨rfl, rfl⟩ : jx = ix ∧ jz = iz := by omega
      exact r4 hj
    · have e7 := h.wallBot
      refine ⟨by omega, by omega, .inr ?_⟩
      omega
  have S : ∀ l : List Arr, Arr.vx ∉ l → Arr.vz ∉ l →
      All (Spares l) ((velPhase g k).flatten ++ (wallPhase g).flatten) := fun l e1 e2 =>
    all_append (all_vel (fun _ _ _ => e1) (fun _ _ _ => e2)) (walls_spare hv e1 e2)
  have X : ∀ l : List Arr, (∀ a ∈ wX, a ∉ l) → All (Spares l) (pmlVx g k).flatten := fun l hl =>
    all_pmlLoop fun _ _ _ _ _ _ _ _ _ => vxPml_spares hl k _ _ _ _
  obtain ⟨C1, C2⟩ := clear4 (g := g) (p1 := .psiVxX) (p2 := .psiVzZ) (p3 := .psiVxZ) (p4 := .psiVzX) (first := first)
    (run (wallPhase g).flatten m0) _ rfl
  rw [hM, half_parts (pml_true h.layer)]
  generalize run (seqOf (if first then [[clear g .psiVxX ++ clear g .psiVzZ ++ clear g .psiVxZ ++ clear g .psiVzX]] else []))
    (run (wallPhase g).flatten m0) = mc at C1 C2
  rw [hm, ← run_append] at C1 C2
  refine ⟨run (pmlVx g k).flatten mc, fun a ha => ?_, ?_, fun a ha => ?_, fun c hc => ?_⟩
  · generalize run (pmlVx g k).flatten mc = m'
    have T : run (seqOf (taperTop g k ++ taperBot g k ++ taperLef g k ++ taperRig g k))
        (run (ghostTop g).flatten (run (ghostLef g).flatten (run (pmlVz g k).flatten m')))
        (a, el g.naz ix iz) = run (pmlVz g k).flatten m' (a, el g.naz ix iz) := by
      have n3 : Arr.vx ≠ a := by rintro rfl; revert ha; decide
      by_cases e : a = .vz
      · subst e
        rw [run_avoids (all_mono (fun _ hs => hs.1) (allP_append (allP_append (allP_append (topZ_miss hv r5) (botZ_miss hv r6))
          (lefZ_miss hv r7)) (rigZ_miss hv r8))) (by omega) (by omega), run_avoids _ (by omega) (by omega),
          run_avoids _ (by omega) (by omega)]
        · refine all_itef fun hh => all_parfor fun jz h1 h2 => ?_
          have := h.ghostLeft hh
          exact all_cons (avoids_arr n3) (all_cons (avoids_arr n3) (all_cons (av fun _ => ⟨h1, h2, .inl (by omega)⟩)
            (all_one (av fun _ => ⟨h1, h2, .inl (by omega)⟩))))
        · refine all_itef fun hh => all_parfor fun jx h1 h2 => ?_
          exact all_cons (avoids_arr n3) (all_cons (avoids_arr n3) (all_cons (av fun _ => ⟨by omega, by omega, .inr (by omega)⟩)
            (all_one (av fun _ => ⟨by omega, by omega, .inr (by omega)⟩))))
      · have e1 : Arr.vz ∉ [a] := fun h => e (List.mem_singleton.mp h).symm
        have e2 : Arr.vx ∉ [a] := fun h => n3 (List.mem_singleton.mp h)
        rw [run_spares (tapers_spare hv k e2 e1) (List.mem_singleton.mpr rfl),
          run_spares (ghosts_spare e2 e1).2 (List.mem_singleton.mpr rfl), run_spares (ghosts_spare e2 e1).1 (List.mem_singleton.mpr rfl)]
    rw [T]
    unfold pmlVz
    refine pml_hit (l := wZ) (fun κ i jx jz inx inz hC => (pml_keys k inx inz hC).2.1) ?_ ?_ ?_ ?_ ?_ ?_ h.layer a m'
    · split_ifs
      · exact max0_ge
      · simp only [Cfg.ioZz]; omega
    · split_ifs
      · exact minTo_le
      · simp only [Cfg.ieZz]; omega
    · exact max0_le h.left.2 h.left.1
    · exact lt_minTo h.right.2 h.right.1
    · have := h.top
      split_ifs at this ⊢
      · exact max0_le this (by omega)
      · exact this
    · have := h.bot
      split_ifs at this ⊢
      · exact lt_minTo this (by omega)
      · exact this
  · rw [run_spares (X [.vz] (by decide)) (List.mem_singleton.mpr rfl), C2 _ (by show Arr.vz ∉ _; decide),
      run_avoids V (by omega) (by omega)]
  · obtain ⟨b1, b2⟩ := el_range (n := g.naz) h.left.1 h.right.1 (show 0 ≤ iz by omega) (by omega)
    rw [run_spares (X [a] (by rcases ha with rfl | rfl <;> decide)) (List.mem_singleton.mpr rfl),
      C1 a _ (by rcases ha with rfl | rfl <;> decide) b1 b2, run_spares (S [a] ?_ ?_) (List.mem_singleton.mpr rfl)] <;>
      rcases ha with rfl | rfl <;> decide
  · have nC : c.1 ∉ [Arr.psiVxX, .psiVzZ, .psiVxZ, .psiVzX] := by
      rcases hc with hc | hc
      · intro e; revert hc; simp only [List.mem_cons, List.not_mem_nil, or_false] at e
        rcases e with e | e | e | e <;> rw [e] <;> decide
      · intro e; revert hc; obtain ⟨a, i⟩ := c; simp only [List.mem_cons, List.not_mem_nil, or_false] at e
        rcases e with rfl | rfl | rfl | rfl <;> simp [fld]
    rw [run_spares (X [c.1] ?_) (List.mem_singleton.mpr rfl), C2 _ nC]
    · refine run_spares (S [c.1] ?_ ?_) (List.mem_singleton.mpr rfl) m <;> intro e <;> rw [List.mem_singleton] at e <;>
        obtain ⟨a, i⟩ := c <;> dsimp only at e <;> subst e <;> revert hc <;> simp [fld, strs]
    · intro a ha e; rw [List.mem_singleton] at e
      obtain ⟨b, i⟩ := c; dsimp only at e; subst e; revert hc ha
      simp only [wX, List.mem_cons, List.not_mem_nil, or_false]
      rintro (rfl | rfl | rfl) hc <;> revert hc <;> simp [fld, strs]

/-- C71, `vz`. -/
theorem elastic_pml_vz (hv : Valid g) (k : Coef K) (med : Cell → K) (n : Nat) (u0 : Field K) (ix iz : Int)
    (h : LayerVz g ix iz) :
    let u := propagate g k med n u0
    let u' := propagate g k med (n + 1) u0
    let i := ix * g.naz + iz
    let dz := diffBack k.d1 k.d2 g.naz iz fun j => at2 g u.tzz ix j
    let dx := diffFwd k.d1 k.d2 g.nax ix fun j => at2 g u.txz j iz
    u'.psiVzZ i = psiNew (PmlZ g g.ioZz g.ieZz iz) (med (.bzf, iz)) (med (.czf, iz)) (if n = 0 then 0 else u.psiVzZ i) dz ∧
    u'.psiVzX i = psiNew (PmlX g g.ioZx g.ieZx ix) (med (.bxf, ix)) (med (.cxf, ix)) (if n = 0 then 0 else u.psiVzX i) dx ∧
    u'.vz i = u.vz i - med (.roz, i) * (stretched (PmlZ g g.ioZz g.ieZz iz) (med (.ikzf, iz)) dz (u'.psiVzZ i) +
      stretched (PmlX g g.ioZx g.ieZx ix) (med (.ikxf, ix)) dx (u'.psiVzX i)) := by
  intro u u' i dz dx
  obtain ⟨m', H, A, B, C⟩ := pmlVz_value hv k (n = 0) h (steps g k n (mem med u0)) _ _ rfl rfl
  have W : ∀ a ∈ wZ, a ∉ wN ∧ a ∉ wT := by decide
  have L : ∀ a ∈ wZ, steps g k (n + 1) (mem med u0) (a, el g.naz ix iz) = _ := fun a ha => by
    rw [steps, late_vel' k (n = 0) (c := (a, _)) (W a ha).1 (W a ha).2, run_append, H a ha]
  obtain ⟨-, -, x1, x2⟩ := off_diff' (g := g) k ix iz (l := [.psiVzZ, .psiVzX]) (by decide)
  obtain ⟨R1, R2, R3⟩ := run_pml1 (g := g) (on1 := PmlZ g g.ioZz g.ieZz iz) (on2 := PmlX g g.ioZx g.ieZx ix) (v := .vz) (r := .roz)
    (p1 := .psiVzZ) (p2 := .psiVzX) (b1 := .bzf) (c1 := .czf) (b2 := .bxf) (c2 := .cxf) (k1 := .ikzf) (k2 := .ikxf) (j1 := iz) (j2 := ix)
    (ix := ix) (iz := iz) (by decide) (by decide) (by decide) x1 x2 (by decide) (by decide) (by decide) (by decide) m' _ rfl
  have M : ∀ c, fld c = false → m' c = med c := fun c hc => by rw [C c (.inr hc), elastic_medium g k med n u0 c hc]
  have DZ : (dpzZ g k ix iz).eval m' = dz := by
    rw [ev_dpzZ]; congr 1; funext j; exact C (.tzz, _) (.inl (by show Arr.tzz ∈ _; decide))
  have DX : (dpxZ g k ix iz).eval m' = dx := by
    rw [ev_dpxZ]; congr 1; funext j; exact C (.txz, _) (.inl (by show Arr.txz ∈ _; decide))
  rw [DZ, M (.bzf, iz) rfl, M (.czf, iz) rfl, B _ (.inl rfl)] at R1
  rw [DX, M (.bxf, ix) rfl, M (.cxf, ix) rfl, B _ (.inr rfl)] at R2
  rw [DX, DZ, M (.ikxf, ix) rfl, M (.ikzf, iz) rfl, M (.roz, _) rfl, A] at R3
  have P1 := (L .psiVzZ (by decide)).trans R1
  have P2 := (L .psiVzX (by decide)).trans R2
  have P3 := (L .vz (by decide)).trans R3
  unfold vzPml at L
  rw [← L .psiVzZ (by decide), ← L .psiVzX (by decide)] at P3
  simp only [decide_eq_true_eq] at P1 P2
  exact ⟨P1, P2, P3⟩

/-! ### The stresses -/

omit [CommRing K] in
/-- The velocity half writes velocities and its own memory variables only. -/
theorem half_spares' (hv : Valid g) {l : List Arr} (hX : ∀ a ∈ wX, a ∉ l) (hZ : ∀ a ∈ wZ, a ∉ l) (k : Coef K) (first : Bool) :
    All (Spares l) ((velPhase g k).flatten ++ seqOf (half g k first)) := by
  have hx : Arr.vx ∉ l := hX _ (by decide)
  have hz : Arr.vz ∉ l := hZ _ (by decide)
  refine all_append (all_vel (fun _ _ _ => hx) (fun _ _ _ => hz)) ?_
  refine allP_append (allP_append (allP_one (walls_spare hv hx hz)) ?_) (tapers_spare hv k hx hz)
  refine allP_when fun _ => allP_append (allP_when fun _ => allP_one ?_) (allP_cons ?_ (allP_cons ?_ (allP_cons ?_ (allP_one ?_))))
  · rw [List.flatten_cons, List.flatten_nil, List.append_nil]
    exact all_append (all_append (all_append (all_clear fun _ _ _ => hX .psiVxX (by decide)) (all_clear fun _ _ _ => hZ .psiVzZ (by decide)))
      (all_clear fun _ _ _ => hX .psiVxZ (by decide))) (all_clear fun _ _ _ => hZ .psiVzX (by decide))
  · exact all_pmlLoop fun _ _ _ _ _ _ _ _ _ => vxPml_spares hX k _ _ _ _
  · exact all_pmlLoop fun _ _ _ _ _ _ _ _ _ => vzPml_spares hZ k _ _ _ _
  · exact (ghosts_spare hx hz).1
  · exact (ghosts_spare hx hz).2

/-- The memory between the two halves of a step, with the memory variables of the stresses. -/
theorem mid' (hv : Valid g) (k : Coef K) (med : Cell → K) (n : Nat) (u0 : Field K) : ∃ m1 : Cell → K,
    (∀ c, steps g k (n + 1) (mem med u0) c =
      run (seqOf (pmlV g k (n = 0)) ++ seqOf (free g k)) (run (strPhase g k).flatten m1) c) ∧
    (∀ i, m1 (.vx, i) = (propagate g k med (n + 1) u0).vx i) ∧ (∀ i, m1 (.vz, i) = (propagate g k med (n + 1) u0).vz i) ∧
    (∀ c : Cell, c.1 ∈ wN ∨ c.1 ∈ wT → m1 c = steps g k n (mem med u0) c) ∧ (∀ c, fld c = false → m1 c = med c) := by
  refine ⟨run ((velPhase g k).flatten ++ seqOf (half g k (n = 0))) (steps g k n (mem med u0)), ?_, ?_, ?_, ?_, ?_⟩
  · intro c; rw [steps, stepProg_parts]; simp only [run_append]
  · intro i; exact (late_vel hv k _ (c := (.vx, i)) (show Arr.vx ∈ vels by decide) _).symm
  · intro i; exact (late_vel hv k _ (c := (.vz, i)) (show Arr.vz ∈ vels by decide) _).symm
  · intro c hc
    refine run_spares (half_spares' hv (l := [c.1]) ?_ ?_ k _) (List.mem_singleton.mpr rfl) _ <;> intro a ha e <;>
      rw [List.mem_singleton] at e <;> subst e <;> revert hc ha
    · have : ∀ a ∈ wX, a ∉ wN ∧ a ∉ wT := by decide
      exact fun hc ha => hc.elim (this _ ha).1 (this _ ha).2
    · have : ∀ a ∈ wZ, a ∉ wN ∧ a ∉ wT := by decide
      exact fun hc ha => hc.elim (this _ ha).1 (this _ ha).2
  · intro c hc
    have hlin := step_lin g k (n = 0)
    rw [stepProg_parts] at hlin
    rw [run_nonfield (fld := fld) (fun s hs => (hlin s ?_).1) _ _ hc, elastic_medium g k med n u0 _ hc]
    rw [← List.append_assoc]
    exact List.mem_append_left _ hs

/-- The stress half of a step in parts. -/
theorem pmlV_parts (hp : g.pml = true) (k : Coef K) (first : Bool) (m : Cell → K) :
    run (seqOf (pmlV g k first)) m = run (pmlShr g k).flatten (run (pmlNrm g k).flatten
      (run (seqOf (if first then [[clear g .psiPX ++ clear g .psiPZ ++ clear g .psiTX ++ clear g .psiTZ]] else [])) m)) := by
  unfold pmlV
  rw [if_pos hp]
  simp only [seqOf_append', run_append]
  unfold seqOf
  simp only [List.flatten_cons, List.flatten_nil, List.append_nil, List.flatten_append, run_append]

/-- The points of the absorbing layers where the normal stresses are updated, without those on free surfaces. -/
structure LayerN (g : Cfg) (ix iz : Int) : Prop where
  layer : PmlX g g.ioXx g.ieXx ix ∨ PmlZ g g.ioXz g.ieXz iz
  left : g.ioPx ≤ ix
  right : ix < (if g.rig = 2 then g.ieXx + g.npml else g.iePx)
  top : (if g.top = 2 then g.ioPz else g.ioXz) ≤ iz
  bot : iz < (if g.bot = 2 then g.ieXz + g.npml else g.ieXz)
  free : ¬ FreedN g ix iz

/-- The points of the absorbing layers where the shear stress is updated, without those at free surfaces. -/
structure LayerT (g : Cfg) (ix iz : Int) : Prop where
  layer : PmlX g g.ioXx g.ieXx ix ∨ PmlZ g g.ioXz g.ieXz iz
  left : ioTx g ≤ ix
  right : ix < (if g.rig = 2 then g.ieXx + g.npml else ieTx g)
  top : (if g.top = 2 then ioTz g else g.ioXz) ≤ iz
  bot : iz < (if g.bot = 2 then g.ieXz + g.npml else g.ieXz)
  free : ¬ FreedT g ix iz

omit [CommRing K] in
theorem inPml_iff {ix iz : Int} (h : PmlX g g.ioXx g.ieXx ix ∨ PmlZ g g.ioXz g.ieXz iz) : ¬ InS g ix iz := by
  intro hs
  refine inS_notPml hs ?_
  unfold PmlX PmlZ at h
  unfold InPml
  omega

omit [CommRing K] in
theorem LayerN.rows (hv : Valid g) {ix iz : Int} (h : LayerN g ix iz) : 1 ≤ ix ∧ ix < g.nax ∧ 1 ≤ iz ∧ iz + 2 < g.naz := by
  obtain ⟨⟨g1, g2, g3, g4, g5⟩, ⟨p1, p2, p3, p4⟩, q1, q2, q3, q4⟩ := grid hv
  obtain ⟨h1, h2, h3, h4, h5, h6⟩ := h
  simp only [Cfg.ioPx, Cfg.iePx, Cfg.ieXx, Cfg.ioPz, Cfg.ioXz, Cfg.ieXz] at h2 h3 h4 h5
  refine ⟨h2, ?_, ?_, ?_⟩
  · split_ifs at h3 with h
    · have := q4 (.inl h); omega
    · omega
  · split_ifs at h4 with h <;> omega
  · split_ifs at h5 with h
    · have := q2 (.inl h); omega
    · omega

omit [CommRing K] in
theorem LayerT.rows (hv : Valid g) {ix iz : Int} (h : LayerT g ix iz) : 1 ≤ ix ∧ ix < g.nax ∧ 1 ≤ iz ∧ iz + 2 < g.naz := by
  obtain ⟨⟨g1, g2, g3, g4, g5⟩, ⟨p1, p2, p3, p4⟩, q1, q2, q3, q4⟩ := grid hv
  obtain ⟨h1, h2, h3, h4, h5, h6⟩ := h
  simp only [ioTx, ieTx, Cfg.ieXx, ioTz, Cfg.ioXz, Cfg.ieXz] at h2 h3 h4 h5
  refine ⟨by omega, ?_, ?_, ?_⟩
  · split_ifs at h3 with h
    · have := q4 (.inl h); omega
    · omega
  · split_ifs at h4 with h <;> omega
  · split_ifs at h5 with h
    · have := q2 (.inl h); omega
    · omega

/-- What the clearing and the interior loops leave of a stress and its memory variables in the layer. -/
theorem pmlS_pre (hv : Valid g) (k : Coef K) (med : Cell → K) (n : Nat) (u0 : Field K) {ix iz : Int} (h0 : 0 ≤ ix ∧ ix < g.nax)
    (h1 : 0 ≤ iz ∧ iz < g.naz) (hs : ¬ InS g ix iz) (hp : g.pml = true) : ∃ m' : Cell → K,
    (∀ c, steps g k (n + 1) (mem med u0) c = run (seqOf (free g k)) (run (pmlShr g k).flatten (run (pmlNrm g k).flatten m')) c) ∧
    (∀ i, m' (.vx, i) = (propagate g k med (n + 1) u0).vx i) ∧ (∀ i, m' (.vz, i) = (propagate g k med (n + 1) u0).vz i) ∧
    (∀ a ∈ strs, m' (a, el g.naz ix iz) = steps g k n (mem med u0) (a, el g.naz ix iz)) ∧
    (∀ a ∈ [Arr.psiPX, .psiPZ, .psiTX, .psiTZ], m' (a, el g.naz ix iz) =
      if n = 0 then 0 else steps g k n (mem med u0) (a, el g.naz ix iz)) ∧
    (∀ c, fld c = false → m' c = med c) := by
  obtain ⟨m1, hm, hvx, hvz, hw, hmed⟩ := mid' hv k med n u0
  obtain ⟨C1, C2⟩ := clear4 (g := g) (p1 := .psiPX) (p2 := .psiPZ) (p3 := .psiTX) (p4 := .psiTZ) (first := decide (n = 0))
    (run (strPhase g k).flatten m1) _ rfl
  have Sp : ∀ l : List Arr, Arr.txx ∉ l → Arr.tzz ∉ l → Arr.txz ∉ l → All (Spares l) (strPhase g k).flatten :=
    fun l e1 e2 e3 => all_str (fun _ _ _ => all_cons e1 (all_one e2)) (fun _ _ _ => e3)
  have Av : ∀ a, All (Avoids g.naz a ix iz) (strPhase g k).flatten := by
    intro a
    have ne : ∀ jx jz, InS g jx jz → 0 ≤ jz ∧ jz < g.naz ∧ (jx ≠ ix ∨ jz ≠ iz) := by
      intro jx jz hj
      have := inS_grid hv hj
      refine ⟨by omega, by omega, ?_⟩
      by_contra hn
      obtain ⟨rfl, rfl⟩ : jx = ix ∧ jz = iz := by omega
      exact hs hj
    exact all_str (fun jx jz hj => all_cons (av fun _ => ne jx jz hj) (all_one (av fun _ => ne jx jz hj)))
      (fun jx jz hj => av fun _ => ne jx jz hj)
  refine ⟨run (seqOf (if decide (n = 0) then [[clear g .psiPX ++ clear g .psiPZ ++ clear g .psiTX ++ clear g .psiTZ]] else []))
    (run (strPhase g k).flatten m1), ?_, ?_, ?_, ?_, ?_, ?_⟩
  · intro c; rw [hm, run_append, pmlV_parts hp]
  · intro i
    rw [C2 _ (by show Arr.vx ∉ _; decide), run_spares (Sp [.vx] (by decide) (by decide) (by decide)) (List.mem_singleton.mpr rfl), hvx]
  · intro i
    rw [C2 _ (by show Arr.vz ∉ _; decide), run_spares (Sp [.vz] (by decide) (by decide) (by decide)) (List.mem_singleton.mpr rfl), hvz]
  · intro a ha
    have W : ∀ a ∈ strs, a ∉ [Arr.psiPX, .psiPZ, .psiTX, .psiTZ] ∧ (a ∈ wN ∨ a ∈ wT) := by decide
    rw [C2 _ (W a ha).1, run_avoids (Av a) h1.1 h1.2, hw _ (W a ha).2]
  · intro a ha
    have W : ∀ a ∈ [Arr.psiPX, .psiPZ, .psiTX, .psiTZ], Arr.txx ∉ [a] ∧ Arr.tzz ∉ [a] ∧ Arr.txz ∉ [a] ∧ (a ∈ wN ∨ a ∈ wT) := by decide
    obtain ⟨b1, b2⟩ := el_range (n := g.naz) h0.1 h0.2 h1.1 h1.2
    obtain ⟨w1, w2, w3, w4⟩ := W a ha
    rw [C1 a _ ha b1 b2, run_spares (Sp [a] w1 w2 w3) (List.mem_singleton.mpr rfl), hw _ w4]
    simp only [decide_eq_true_eq]
  · intro c hc
    have nC : c.1 ∉ [Arr.psiPX, .psiPZ, .psiTX, .psiTZ] := by
      intro e; revert hc; obtain ⟨a, i⟩ := c; simp only [List.mem_cons, List.not_mem_nil, or_false] at e
      rcases e with rfl | rfl | rfl | rfl <;> simp [fld]
    rw [C2 _ nC, run_spares (Sp [c.1] ?_ ?_ ?_) (List.mem_singleton.mpr rfl), hmed c hc] <;> intro e <;> rw [List.mem_singleton] at e <;>
      obtain ⟨a, i⟩ := c <;> dsimp only at e <;> subst e <;> revert hc <;> simp [fld]

/-- C71, normal stresses: in the absorbing layers they are advanced by the stretched differences of the velocities after their
update. -/
theorem elastic_pml_normal (hv : Valid g) (k : Coef K) (med : Cell → K) (n : Nat) (u0 : Field K) (ix iz : Int)
    (h : LayerN g ix iz) :
    let u := propagate g k med n u0
    let u' := propagate g k med (n + 1) u0
    let i := ix * g.naz + iz
    let dx := diffFwd k.d1 k.d2 g.nax ix fun j => at2 g u'.vx j iz
    let dz := diffFwd k.d1 k.d2 g.naz iz fun j => at2 g u'.vz ix j
    let ex := stretched (PmlX g g.ioXx g.ieXx ix) (med (.ikxc, ix)) dx (u'.psiPX i)
    let ez := stretched (PmlZ g g.ioXz g.ieXz iz) (med (.ikzc, iz)) dz (u'.psiPZ i)
    u'.psiPX i = psiNew (PmlX g g.ioXx g.ieXx ix) (med (.bxc, ix)) (med (.cxc, ix)) (if n = 0 then 0 else u.psiPX i) dx ∧
    u'.psiPZ i = psiNew (PmlZ g g.ioXz g.ieXz iz) (med (.bzc, iz)) (med (.czc, iz)) (if n = 0 then 0 else u.psiPZ i) dz ∧
    u'.txx i = u.txx i - (med (.l2m, i) * ex + med (.lam, i) * ez) ∧
    u'.tzz i = u.tzz i - (med (.l2m, i) * ez + med (.lam, i) * ex) := by
  intro u u' i dx dz ex ez
  obtain ⟨r1, r2, r3, r4⟩ := h.rows hv
  obtain ⟨⟨g1, g2, g3, g4, g5⟩, ⟨p1, p2, p3, p4⟩, q1, q2, q3, q4⟩ := grid hv
  obtain ⟨m', hm, hvx, hvz, hs, hpsi, hmed⟩ := pmlS_pre hv k med n u0 (ix := ix) (iz := iz) (by omega) (by omega) (inPml_iff h.layer)
    (pml_true h.layer)
  have L : ∀ a ∈ wN, steps g k (n + 1) (mem med u0) (a, el g.naz ix iz) =
      run (nrmPml g k ix iz (decide (PmlX g g.ioXx g.ieXx ix)) (decide (PmlZ g g.ioXz g.ieXz iz))) m' (a, el g.naz ix iz) := by
    intro a ha
    have F : All (Avoids g.naz a ix iz) (seqOf (free g k)) := free_avoids hv k (fun _ => h.free) (by rintro rfl; exact absurd ha (by decide))
    have W : ∀ b ∈ wT, b ∉ [a] := by
      have : ∀ a ∈ wN, ∀ b ∈ wT, b ∉ [a] := by decide
      exact this a ha
    rw [hm, run_avoids F (by omega) (by omega), run_spares (l := [a]) (p := (pmlShr g k).flatten) (c := (a, el g.naz ix iz))
      (all_pmlLoop fun _ _ _ _ _ _ _ _ _ => shrPml_spares W k _ _ _ _) (List.mem_singleton.mpr rfl)]
    unfold pmlNrm
    refine pml_hit (l := wN) (fun κ i jx jz inx inz hC => (pml_keys k inx inz hC).2.2.1) ?_ ?_ h.left ?_ h.top ?_ h.layer a m'
    · simp only [Cfg.ioPz, Cfg.ioXz]; split_ifs <;> omega
    · split_ifs
      · exact minTo_le
      · simp only [Cfg.ieXz]; omega
    · have := h.right
      split_ifs at this ⊢
      · exact lt_minTo this (by omega)
      · exact this
    · have := h.bot
      split_ifs at this ⊢
      · exact lt_minTo this (by omega)
      · exact this
  obtain ⟨o1, o2, -, -⟩ := off_diff (g := g) k ix iz (l := [.psiPX, .psiPZ, .txx, .tzz]) (by decide)
  have hL := L
  unfold nrmPml at hL
  simp only [run_append (p := _ ++ _)] at hL
  obtain ⟨A, B, C⟩ := run_mem2 (g := g) (on1 := PmlX g g.ioXx g.ieXx ix) (on2 := PmlZ g g.ioXz g.ieXz iz) (p1 := .psiPX) (p2 := .psiPZ)
    (b1 := .bxc) (c1 := .cxc) (b2 := .bzc) (c2 := .czc) (j1 := ix) (j2 := iz) (ix := ix) (iz := iz) (d1 := dvxN g k ix iz)
    (d2 := dvzN g k ix iz) (by decide) (by decide) (by decide)
    (fun c hc e => o2 c hc (by rw [List.mem_singleton.mp e]; decide)) m' _ rfl
  generalize run (mem' g (decide (PmlX g g.ioXx g.ieXx ix)) .psiPX .bxc .cxc ix ix iz (dvxN g k ix iz) ++
    mem' g (decide (PmlZ g g.ioXz g.ieXz iz)) .psiPZ .bzc .czc iz ix iz (dvzN g k ix iz)) m' = M at A B C hL
  have DX' : (dvxN g k ix iz).eval m' = dx := by
    rw [ev_dvxN]; congr 1; funext j; exact hvx _
  have DZ' : (dvzN g k ix iz).eval m' = dz := by
    rw [ev_dvzN]; congr 1; funext j; exact hvz _
  have E : ∀ {d : Expr Cell K}, Off [.psiPX, .psiPZ, .txx, .tzz] d → d.eval M = d.eval m' := fun h => Expr.eval_congr _ fun c hc =>
    C c (fun e => h c hc (by simp [e])) (fun e => h c hc (by simp [e]))
  rw [DX', hmed (.bxc, ix) rfl, hmed (.cxc, ix) rfl, hpsi _ (by decide)] at A
  rw [DZ', hmed (.bzc, iz) rfl, hmed (.czc, iz) rfl, hpsi _ (by decide)] at B
  have T1 := (run_two (s1 := (⟨(.txx, el g.naz ix iz), rd g .txx ix iz -
      (rd g .l2m ix iz * str g (decide (PmlX g g.ioXx g.ieXx ix)) .psiPX .ikxc ix ix iz (dvxN g k ix iz) +
       rd g .lam ix iz * str g (decide (PmlZ g g.ioXz g.ieXz iz)) .psiPZ .ikzc iz ix iz (dvzN g k ix iz))⟩ : Stmt Cell K))
    (s2 := ⟨(.tzz, el g.naz ix iz), rd g .tzz ix iz -
      (rd g .l2m ix iz * str g (decide (PmlZ g g.ioXz g.ieXz iz)) .psiPZ .ikzc iz ix iz (dvzN g k ix iz) +
       rd g .lam ix iz * str g (decide (PmlX g g.ioXx g.ieXx ix)) .psiPX .ikxc ix ix iz (dvxN g k ix iz))⟩) M (by simp))
  have P1 := (hL .psiPX (by decide)).trans ((run_untouched (all_cons (by simp) (all_one (by simp))) M).trans A)
  have P2 := (hL .psiPZ (by decide)).trans ((run_untouched (all_cons (by simp) (all_one (by simp))) M).trans B)
  have Q1 : M (.psiPX, el g.naz ix iz) = u'.psiPX i := A.trans P1.symm
  have Q2 : M (.psiPZ, el g.naz ix iz) = u'.psiPZ i := B.trans P2.symm
  have X : ∀ c : Cell, c.1 ≠ .psiPX → c.1 ≠ .psiPZ → fld c = false → M c = med c := fun c e1 e2 e3 => by rw [C c e1 e2, hmed c e3]
  have EX : (str g (decide (PmlX g g.ioXx g.ieXx ix)) .psiPX .ikxc ix ix iz (dvxN g k ix iz)).eval M = ex := by
    rw [eval_str, E o1, DX', Q1, X (.ikxc, ix) (by show Arr.ikxc ≠ _; decide) (by show Arr.ikxc ≠ _; decide) rfl]
  have EZ : (str g (decide (PmlZ g g.ioXz g.ieXz iz)) .psiPZ .ikzc iz ix iz (dvzN g k ix iz)).eval M = ez := by
    rw [eval_str, E o2, DZ', Q2, X (.ikzc, iz) (by show Arr.ikzc ≠ _; decide) (by show Arr.ikzc ≠ _; decide) rfl]
  have off : (Arr.txx, el g.naz ix iz) ∉ (rd g .tzz ix iz -
      (rd g .l2m ix iz * str g (decide (PmlZ g g.ioXz g.ieXz iz)) .psiPZ .ikzc iz ix iz (dvzN g k ix iz) +
       rd g .lam ix iz * str g (decide (PmlX g g.ioXx g.ieXx ix)) .psiPX .ikxc ix ix iz (dvxN g k ix iz)) : Expr Cell K).reads := by
    have S : ∀ {on : Bool} {p ik : Arr} {j : Int} {d : Expr Cell K}, p ≠ .txx → ik ≠ .txx → Off [.psiPX, .psiPZ, .txx, .tzz] d →
        (Arr.txx, el g.naz ix iz) ∉ (str g on p ik j ix iz d).reads := by
      intro on p ik j d e1 e2 hd hh
      unfold str at hh
      split at hh
      · rw [rds_add, rds_mul] at hh
        simp only [rd1, rd, rds_rd, List.mem_append, List.mem_singleton, Prod.mk.injEq] at hh
        rcases hh with (hh | hh) | hh
        · exact e2 hh.1.symm
        · exact hd _ hh (by simp)
        · exact e1 hh.1.symm
      · exact hd _ hh (by simp)
    simp only [rds_sub, rds_add, rds_mul, rd, rds_rd, List.mem_append, List.mem_singleton, not_or]
    exact ⟨by simp, ⟨by simp, S (by decide) (by decide) o2⟩, by simp, S (by decide) (by decide) o1⟩
  refine ⟨P1, P2, ?_, ?_⟩
  · refine ((hL .txx (by decide)).trans T1.1).trans ?_
    rw [eval_sub, eval_add, eval_mul, eval_mul, EX, EZ]
    show M _ - (M _ * _ + M _ * _) = _
    rw [X (.l2m, _) (by show Arr.l2m ≠ _; decide) (by show Arr.l2m ≠ _; decide) rfl,
      X (.lam, _) (by show Arr.lam ≠ _; decide) (by show Arr.lam ≠ _; decide) rfl,
      C (.txx, _) (by show Arr.txx ≠ _; decide) (by show Arr.txx ≠ _; decide), hs .txx (by decide)]
    rfl
  · refine ((hL .tzz (by decide)).trans (T1.2 off)).trans ?_
    rw [eval_sub, eval_add, eval_mul, eval_mul, EX, EZ]
    show M _ - (M _ * _ + M _ * _) = _
    rw [X (.l2m, _) (by show Arr.l2m ≠ _; decide) (by show Arr.l2m ≠ _; decide) rfl,
      X (.lam, _) (by show Arr.lam ≠ _; decide) (by show Arr.lam ≠ _; decide) rfl,
      C (.tzz, _) (by show Arr.tzz ≠ _; decide) (by show Arr.tzz ≠ _; decide), hs .tzz (by decide)]
    rfl

/-- C71, shear stress. -/
theorem elastic_pml_shear (hv : Valid g) (k : Coef K) (med : Cell → K) (n : Nat) (u0 : Field K) (ix iz : Int)
    (h : LayerT g ix iz) :
    let u := propagate g k med n u0
    let u' := propagate g k med (n + 1) u0
    let i := ix * g.naz + iz
    let dx := diffBack1 k.d1 k.d2 g.nax ix fun j => at2 g u'.vz j iz
    let dz := diffBack1 k.d1 k.d2 g.naz iz fun j => at2 g u'.vx ix j
    u'.psiTX i = psiNew (PmlX g g.ioXx g.ieXx ix) (med (.bxg, ix)) (med (.cxg, ix)) (if n = 0 then 0 else u.psiTX i) dx ∧
    u'.psiTZ i = psiNew (PmlZ g g.ioXz g.ieXz iz) (med (.bzg, iz)) (med (.czg, iz)) (if n = 0 then 0 else u.psiTZ i) dz ∧
    u'.txz i = u.txz i - med (.mul, i) * (stretched (PmlX g g.ioXx g.ieXx ix) (med (.ikxg, ix)) dx (u'.psiTX i) +
      stretched (PmlZ g g.ioXz g.ieXz iz) (med (.ikzg, iz)) dz (u'.psiTZ i)) := by
  intro u u' i dx dz
  obtain ⟨r1, r2, r3, r4⟩ := h.rows hv
  obtain ⟨⟨g1, g2, g3, g4, g5⟩, ⟨p1, p2, p3, p4⟩, q1, q2, q3, q4⟩ := grid hv
  obtain ⟨m0, hm, hvx, hvz, hs, hpsi, hmed⟩ := pmlS_pre hv k med n u0 (ix := ix) (iz := iz) (by omega) (by omega) (inPml_iff h.layer)
    (pml_true h.layer)
  have N : ∀ c : Cell, c.1 ∉ wN → run (pmlNrm g k).flatten m0 c = m0 c := fun c hc =>
    run_spares (l := [c.1]) (all_pmlLoop fun _ _ _ _ _ _ _ _ _ => nrmPml_spares (fun a ha e => hc (by rwa [List.mem_singleton.mp e] at ha))
      k _ _ _ _) (List.mem_singleton.mpr rfl) m0
  generalize run (pmlNrm g k).flatten m0 = m' at hm N
  have L : ∀ a ∈ wT, steps g k (n + 1) (mem med u0) (a, el g.naz ix iz) =
      run (shrPml g k ix iz (decide (PmlX g g.ioXx g.ieXx ix)) (decide (PmlZ g g.ioXz g.ieXz iz))) m' (a, el g.naz ix iz) := by
    intro a ha
    have F : All (Avoids g.naz a ix iz) (seqOf (free g k)) := free_avoids hv k
      (by rintro (rfl | rfl) <;> exact absurd ha (by decide)) (fun _ => h.free)
    rw [hm, run_avoids F (by omega) (by omega)]
    unfold pmlShr
    refine pml_hit (l := wT) (fun κ i jx jz inx inz hC => (pml_keys k inx inz hC).2.2.2) ?_ ?_ h.left ?_ h.top ?_ h.layer a m'
    · simp only [ioTz, Cfg.ioXz]; split_ifs <;> omega
    · split_ifs
      · exact minTo_le
      · simp only [Cfg.ieXz]; omega
    · have := h.right
      split_ifs at this ⊢
      · exact lt_minTo this (by omega)
      · exact this
    · have := h.bot
      split_ifs at this ⊢
      · exact lt_minTo this (by omega)
      · exact this
  obtain ⟨-, -, x1, x2⟩ := off_diff (g := g) k ix iz (l := [.psiTX, .psiTZ]) (by decide)
  obtain ⟨R1, R2, R3⟩ := run_pml1 (g := g) (on1 := PmlX g g.ioXx g.ieXx ix) (on2 := PmlZ g g.ioXz g.ieXz iz) (v := .txz) (r := .mul)
    (p1 := .psiTX) (p2 := .psiTZ) (b1 := .bxg) (c1 := .cxg) (b2 := .bzg) (c2 := .czg) (k1 := .ikxg) (k2 := .ikzg) (j1 := ix) (j2 := iz)
    (ix := ix) (iz := iz) (by decide) (by decide) (by decide) x1 x2 (by decide) (by decide) (by decide) (by decide) m' _ rfl
  have M : ∀ c : Cell, c.1 ∉ wN → fld c = false → m' c = med c := fun c h1 hc => by rw [N c h1, hmed c hc]
  have DX : (dvzT g k ix iz).eval m' = dx := by
    rw [ev_dvzT]; congr 1; funext j; exact (N (.vz, _) (by show Arr.vz ∉ _; decide)).trans (hvz _)
  have DZ : (dvxT g k ix iz).eval m' = dz := by
    rw [ev_dvxT]; congr 1; funext j; exact (N (.vx, _) (by show Arr.vx ∉ _; decide)).trans (hvx _)
  rw [DX, M (.bxg, ix) (by show Arr.bxg ∉ _; decide) rfl, M (.cxg, ix) (by show Arr.cxg ∉ _; decide) rfl, N (.psiTX, _) (by show Arr.psiTX ∉ _; decide),
    hpsi _ (by decide)] at R1
  rw [DZ, M (.bzg, iz) (by show Arr.bzg ∉ _; decide) rfl, M (.czg, iz) (by show Arr.czg ∉ _; decide) rfl, N (.psiTZ, _) (by show Arr.psiTZ ∉ _; decide),
    hpsi _ (by decide)] at R2
  rw [DX, DZ, M (.ikxg, ix) (by show Arr.ikxg ∉ _; decide) rfl, M (.ikzg, iz) (by show Arr.ikzg ∉ _; decide) rfl, M (.mul, _) (by show Arr.mul ∉ _; decide) rfl,
    N (.txz, _) (by show Arr.txz ∉ _; decide), hs .txz (by decide)] at R3
  have P1 := (L .psiTX (by decide)).trans R1
  have P2 := (L .psiTZ (by decide)).trans R2
  have P3 := (L .txz (by decide)).trans R3
  unfold shrPml at L
  rw [← L .psiTX (by decide), ← L .psiTZ (by decide)] at P3
  exact ⟨P1, P2, P3⟩

end

/-! ### The hypotheses of the theorems are met -/

/-- A free surface at the top, PML at the other sides: points at the left, in the bottom right corner, and below. -/
example : let g : Cfg := ⟨6, 6, 5, 1, 2, 2, 2⟩
    Valid g ∧ (LayerVx g 3 4 ∧ LayerVx g 15 9 ∧ LayerVx g 9 10) ∧ (LayerVz g 3 4 ∧ LayerVz g 15 10 ∧ LayerVz g 9 10) ∧
    (LayerN g 3 4 ∧ LayerN g 15 9 ∧ LayerN g 9 10) ∧ (LayerT g 3 4 ∧ LayerT g 15 9 ∧ LayerT g 9 10) := by
  refine ⟨⟨by decide, by decide, by decide, by decide, by decide, by decide, by decide⟩, ⟨?_, ?_, ?_⟩, ⟨?_, ?_, ?_⟩, ⟨?_, ?_, ?_⟩,
    ?_, ?_, ?_⟩ <;> constructor <;> first | decide | (simp only [FreedN]; decide) | (simp only [FreedT]; decide)

end Verif.Fd.Ela

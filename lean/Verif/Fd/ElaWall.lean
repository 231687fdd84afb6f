import Verif.Fd.ElaPml

/-! # C72: what the elastic time step does at rigid walls -/

namespace Verif.Fd.Ela

open Verif.Sten
open Verif.Par (store)
open Verif.Fd.Acou (Cfg Coef max0 minTo Valid grid le_of_max0 lt_of_minTo at2 stag)

section
variable {K : Type} {g : Cfg}

section
variable {ix iz : Int}
/-- The absorbing layers and the tapers leave `vx` alone at points that are in none of them. -/
theorem rest_missX (hv : Valid g) (k : Coef K) (first : Bool) {ix iz : Int}
    (f1 : g.lef = 2 ∨ g.lef = 4 → g.ioXx ≤ ix) (f2 : g.rig = 2 ∨ g.rig = 4 → ix < g.ieXx)
    (f3 : g.top = 2 ∨ g.top = 4 → g.ioXz ≤ iz) (f4 : g.bot = 2 ∨ g.bot = 4 → iz < g.ieXz) :
    All (Avoids g.naz .vx ix iz) (seqOf (pmlP g k first ++ taperTop g k ++ taperBot g k ++ taperLef g k ++ taperRig g k)) := by
  have Q : AllP (Quiet g .vx ix iz) (pmlP g k first ++ taperTop g k ++ taperBot g k ++ taperLef g k ++ taperRig g k) := by
    refine allP_append (allP_append (allP_append (allP_append ?_ (topX_miss hv fun h => f3 (.inr h))) (botX_miss hv fun h => f4 (.inr h)))
      (lefX_miss hv fun h => .inl (f1 (.inr h)))) (rigX_miss hv fun h => .inl (f2 (.inr h)))
    obtain ⟨⟨g1, g2, g3, g4, g5⟩, ⟨p1, p2, p3, p4⟩, q1, q2, q3, q4⟩ := grid hv
    have ex : g.ioXx = 2 + g.pad g.lef := rfl
    have ez : g.ioXz = 1 + g.pad g.top := rfl
    have ez' : g.ieXz = g.nz + 1 + g.pad g.top := rfl
    have hx : Arr.vx ∉ strs := by decide
    have hz : Arr.vz ∉ strs := by decide
    unfold pmlP
    have P : ∀ {psi : Arr} {e : Expr Cell K} {i : Int}, IsPsi psi → Quiet g .vx ix iz (⟨(psi, i), e⟩ : Stmt Cell K) := by
      intro psi e i h
      refine ⟨avoids_arr ?_, (isPsi_strs h).1, ?_⟩ <;> rcases h with rfl | rfl | rfl | rfl | rfl | rfl | rfl | rfl <;>
        first | rfl | decide
    refine allP_when fun _ => allP_append (allP_when fun _ => allP_one ?_) (allP_cons ?_ (allP_cons ?_ (allP_cons ?_ (allP_one ?_))))
    · rw [List.flatten_cons, List.flatten_nil, List.append_nil]
      refine all_append (all_append (all_append ?_ ?_) ?_) ?_ <;> exact all_clear fun i h1 h2 => P (by simp [IsPsi])
    · refine pml_miss (ix := ix) (iz := iz) (inX_false ?_ ?_) (inZ_false ?_ ?_) fun jx jz inx inz h3 h4 h5 => ?_
      · intro h; exact f1 (.inl h)
      · intro h; exact f2 (.inl h)
      · intro h; exact f3 (.inl h)
      · intro h; exact f4 (.inl h)
      · have e1 : 0 ≤ jz := by
          split_ifs at h3
          · exact (le_of_max0 h3).1
          · omega
        have e2 : jz < g.naz := by
          split_ifs at h4
          · exact (lt_of_minTo h4).2
          · omega
        exact all_append (all_append (all_when fun _ => all_one (P (by simp [IsPsi]))) (all_when fun _ => all_one (P (by simp [IsPsi]))))
          (all_one ⟨av fun _ => ⟨e1, e2, h5⟩, hx, rfl⟩)
    · refine all_pmlLoop fun jx jz inx inz _ _ _ _ _ => ?_
      exact all_append (all_append (all_when fun _ => all_one (P (by simp [IsPsi]))) (all_when fun _ => all_one (P (by simp [IsPsi]))))
        (all_one ⟨avoids_arr (by decide), hz, rfl⟩)
    · refine all_itef fun h => all_parfor fun jz h1 h2 => ?_
      have := q3 (.inl h)
      have f1 := f1 (.inl h)
      exact all_cons ⟨av fun _ => ⟨h1, h2, .inl (by omega)⟩, hx, rfl⟩ (all_cons ⟨av fun _ => ⟨h1, h2, .inl (by omega)⟩, hx, rfl⟩
        (all_cons ⟨av fun e => ⟨h1, h2, .inl (by omega)⟩, hz, rfl⟩ (all_one ⟨av fun e => ⟨h1, h2, .inl (by omega)⟩, hz, rfl⟩)))
    · refine all_itef fun h => all_parfor fun jx h1 h2 => ?_
      have := q1 (.inl h)
      have f3 := f3 (.inl h)
      exact all_cons ⟨av fun _ => ⟨by omega, by omega, .inr (by omega)⟩, hx, rfl⟩
        (all_cons ⟨av fun _ => ⟨by omega, by omega, .inr (by omega)⟩, hx, rfl⟩
        (all_cons ⟨av fun e => ⟨by omega, by omega, .inr (by omega)⟩, hz, rfl⟩
        (all_one ⟨av fun e => ⟨by omega, by omega, .inr (by omega)⟩, hz, rfl⟩)))
  exact fun s hs => (Q s hs).1

/-- The absorbing layers and the tapers leave `vz` alone at points that are in none of them. -/
theorem rest_missZ (hv : Valid g) (k : Coef K) (first : Bool) {ix iz : Int}
    (f1 : g.lef = 2 ∨ g.lef = 4 → g.ioZx ≤ ix) (f2 : g.rig = 2 ∨ g.rig = 4 → ix < g.ieZx)
    (f3 : g.top = 2 ∨ g.top = 4 → g.ioZz ≤ iz) (f4 : g.bot = 2 ∨ g.bot = 4 → iz < g.ieZz) :
    All (Avoids g.naz .vz ix iz) (seqOf (pmlP g k first ++ taperTop g k ++ taperBot g k ++ taperLef g k ++ taperRig g k)) := by
  have Q : AllP (Quiet g .vz ix iz) (pmlP g k first ++ taperTop g k ++ taperBot g k ++ taperLef g k ++ taperRig g k) := by
    refine allP_append (allP_append (allP_append (allP_append ?_ (topZ_miss hv fun h => f3 (.inr h))) (botZ_miss hv fun h => f4 (.inr h)))
      (lefZ_miss hv fun h => .inl (f1 (.inr h)))) (rigZ_miss hv fun h => .inl (f2 (.inr h)))
    obtain ⟨⟨g1, g2, g3, g4, g5⟩, ⟨p1, p2, p3, p4⟩, q1, q2, q3, q4⟩ := grid hv
    have ex : g.ioZx = 1 + g.pad g.lef := rfl
    have ez : g.ioZz = 2 + g.pad g.top := rfl
    have ez' : g.ieZz = g.nz + 2 + g.pad g.top := rfl
    have hx : Arr.vx ∉ strs := by decide
    have hz : Arr.vz ∉ strs := by decide
    unfold pmlP
    have P : ∀ {psi : Arr} {e : Expr Cell K} {i : Int}, IsPsi psi → Quiet g .vz ix iz (⟨(psi, i), e⟩ : Stmt Cell K) := by
      intro psi e i h
      refine ⟨avoids_arr ?_, (isPsi_strs h).1, ?_⟩ <;> rcases h with rfl | rfl | rfl | rfl | rfl | rfl | rfl | rfl <;>
        first | rfl | decide
    refine allP_when fun _ => allP_append (allP_when fun _ => allP_one ?_) (allP_cons ?_ (allP_cons ?_ (allP_cons ?_ (allP_one ?_))))
    · rw [List.flatten_cons, List.flatten_nil, List.append_nil]
      refine all_append (all_append (all_append ?_ ?_) ?_) ?_ <;> exact all_clear fun i h1 h2 => P (by simp [IsPsi])
    · refine all_pmlLoop fun jx jz inx inz _ _ _ _ _ => ?_
      exact all_append (all_append (all_when fun _ => all_one (P (by simp [IsPsi]))) (all_when fun _ => all_one (P (by simp [IsPsi]))))
        (all_one ⟨avoids_arr (by decide), hx, rfl⟩)
    · refine pml_miss (ix := ix) (iz := iz) (inX_false ?_ ?_) (inZ_false ?_ ?_) fun jx jz inx inz h3 h4 h5 => ?_
      · intro h; exact f1 (.inl h)
      · intro h; exact f2 (.inl h)
      · intro h; exact f3 (.inl h)
      · intro h; exact f4 (.inl h)
      · have e1 : 0 ≤ jz := by
          split_ifs at h3
          · exact (le_of_max0 h3).1
          · omega
        have e2 : jz < g.naz := by
          split_ifs at h4
          · exact (lt_of_minTo h4).2
          · omega
        exact all_append (all_append (all_when fun _ => all_one (P (by simp [IsPsi]))) (all_when fun _ => all_one (P (by simp [IsPsi]))))
          (all_one ⟨av fun _ => ⟨e1, e2, h5⟩, hz, rfl⟩)
    · refine all_itef fun h => all_parfor fun jz h1 h2 => ?_
      have := q3 (.inl h)
      have f1 := f1 (.inl h)
      exact all_cons ⟨av fun _ => ⟨h1, h2, .inl (by omega)⟩, hx, rfl⟩ (all_cons ⟨av fun _ => ⟨h1, h2, .inl (by omega)⟩, hx, rfl⟩
        (all_cons ⟨av fun e => ⟨h1, h2, .inl (by omega)⟩, hz, rfl⟩ (all_one ⟨av fun e => ⟨h1, h2, .inl (by omega)⟩, hz, rfl⟩)))
    · refine all_itef fun h => all_parfor fun jx h1 h2 => ?_
      have := q1 (.inl h)
      have f3 := f3 (.inl h)
      exact all_cons ⟨av fun _ => ⟨by omega, by omega, .inr (by omega)⟩, hx, rfl⟩
        (all_cons ⟨av fun _ => ⟨by omega, by omega, .inr (by omega)⟩, hx, rfl⟩
        (all_cons ⟨av fun e => ⟨by omega, by omega, .inr (by omega)⟩, hz, rfl⟩
        (all_one ⟨av fun e => ⟨by omega, by omega, .inr (by omega)⟩, hz, rfl⟩)))
  exact fun s hs => (Q s hs).1

end

/-- Two rows of mirrored values. -/
theorem mirror_line [CommRing K] {a : Arr} {κ : Cell → Int} {lo hi i : Int} {p q r s : Int → Int} (h1 : lo ≤ i) (h2 : i < hi)
    (hk : ∀ j, lo ≤ j → j < hi → κ (a, p j) = j ∧ κ (a, q j) = j ∧ κ (a, r j) = j ∧ κ (a, s j) = j)
    (hd : p i ≠ q i ∧ p i ≠ r i ∧ p i ≠ s i ∧ r i ≠ q i ∧ r i ≠ s i) (m m' : Cell → K)
    (hm : m' = run (parfor lo hi fun j => [(⟨(a, p j), .zero - .rd (a, q j)⟩ : Stmt Cell K),
      ⟨(a, r j), .zero - .rd (a, s j)⟩]).flatten m) :
    m' (a, p i) = - m' (a, q i) ∧ m' (a, r i) = - m' (a, s i) := by
  subst hm
  have hkey : ∀ j : Int, lo ≤ j → j < hi → ∀ t ∈ [(⟨(a, p j), .zero - .rd (a, q j)⟩ : Stmt Cell K),
      ⟨(a, r j), .zero - .rd (a, s j)⟩], InKey (In [a]) κ j t := by
    intro j e1 e2
    obtain ⟨k1, k2, k3, k4⟩ := hk j e1 e2
    exact all_cons (key_stmt (List.mem_singleton.mpr rfl) k1 (ekey_sub ekey_zero (ekey_rd fun _ => k2)))
      (all_one (key_stmt (List.mem_singleton.mpr rfl) k3 (ekey_sub ekey_zero (ekey_rd fun _ => k4))))
  obtain ⟨k1, k2, k3, k4⟩ := hk i h1 h2
  obtain ⟨d1, d2, d3, d4, d5⟩ := hd
  rw [parfor_flatten, run_loop_at (W := In [a]) (κ := κ) hkey h1 h2 k1, run_loop_at (W := In [a]) (κ := κ) hkey h1 h2 k2,
    run_loop_at (W := In [a]) (κ := κ) hkey h1 h2 k3, run_loop_at (W := In [a]) (κ := κ) hkey h1 h2 k4]
  have e1 := (run_two (s1 := (⟨(a, p i), .zero - .rd (a, q i)⟩ : Stmt Cell K))
    (s2 := ⟨(a, r i), .zero - .rd (a, s i)⟩) m (by simpa using d2))
  have hs : (a, p i) ∉ ((.zero - .rd (a, s i)) : Expr Cell K).reads := by
    rw [rds_sub, rds_zero, rds_rd]; simpa using d3
  constructor
  · rw [show run _ m (a, p i) = _ from e1.1, run_untouched]
    · show (0 : K) - _ = _
      rw [zero_sub]; rfl
    · exact all_cons (by simpa using d1) (all_one (by simpa using d4))
  · rw [show run _ m (a, r i) = _ from e1.2 hs, run_untouched]
    · show (0 : K) - _ = _
      rw [zero_sub]; rfl
    · exact all_cons (by simpa using d3) (all_one (by simpa using d5))

/-- A loop with a single iteration. -/
theorem loop_single (body : Int → List (Stmt Cell K)) : loop 1 (g.ibnd + 1) body = body 1 := by
  simp [loop, Cfg.ibnd]

section
variable [CommRing K]
omit [CommRing K] in
theorem rigX_spare : All (Spares [.vz]) (rigidRig g : List (List (Stmt Cell K))).flatten ∧
    All (Spares [.vz]) (rigidLef g : List (List (Stmt Cell K))).flatten := by
  unfold rigidRig rigidLef
  have e : Arr.vx ∉ [Arr.vz] := by decide
  exact ⟨all_itef fun _ => all_parfor fun _ _ _ => all_cons e (all_loop fun _ _ _ => all_one e),
    all_itef fun _ => all_parfor fun _ _ _ => all_cons e (all_loop fun _ _ _ => all_one e)⟩
omit [CommRing K] in
theorem rigZ_spare : All (Spares [.vx]) (rigidTop g : List (List (Stmt Cell K))).flatten ∧
    All (Spares [.vx]) (rigidBot g : List (List (Stmt Cell K))).flatten := by
  unfold rigidTop rigidBot
  have e : Arr.vz ∉ [Arr.vx] := by decide
  exact ⟨all_itef fun _ => all_parfor fun _ _ _ => all_cons e (all_loop fun _ _ _ => all_one e),
    all_itef fun _ => all_parfor fun _ _ _ => all_cons e (all_loop fun _ _ _ => all_one e)⟩
omit [CommRing K] in
theorem bot_miss (hv : Valid g) {ix iz : Int} (h : g.bot = 3 → iz ≤ g.nz ∨ g.nx < ix) :
    All (Avoids g.naz .vz ix iz) (rigidBot g : List (List (Stmt Cell K))).flatten := by
  obtain ⟨⟨g1, g2, g3, g4, g5⟩, ⟨p1, p2, p3, p4⟩, q1, q2, q3, q4⟩ := grid hv
  unfold rigidBot
  refine all_itef fun hc => all_parfor fun j e1 e2 => all_cons (av fun _ => ?_) (all_loop fun ib e3 e4 => all_one (av fun _ => ?_)) <;>
    simp only [Cfg.ibnd] at * <;> have := h hc <;> exact ⟨by omega, by omega, by omega⟩
omit [CommRing K] in
theorem lef_miss (hv : Valid g) {ix iz : Int} (h : g.lef = 3 → 2 ≤ ix) :
    All (Avoids g.naz .vx ix iz) (rigidLef g : List (List (Stmt Cell K))).flatten := by
  obtain ⟨⟨g1, g2, g3, g4, g5⟩, ⟨p1, p2, p3, p4⟩, q1, q2, q3, q4⟩ := grid hv
  unfold rigidLef
  refine all_itef fun hc => all_parfor fun j e1 e2 => all_cons (av fun _ => ?_) (all_loop fun ib e3 e4 => all_one (av fun _ => ?_)) <;>
    simp only [Cfg.ibnd] at * <;> have := h hc <;> exact ⟨by omega, by omega, .inl (by omega)⟩

/-- C72: after a time step the vertical velocity is antisymmetric about a rigid top, in every column of the model up to number
`nx` of the padded grid. -/
theorem elastic_wall_top (hv : Valid g) (k : Coef K) (med : Cell → K) (n : Nat) (u0 : Field K) (hr : g.top = 3)
    (ix : Int) (h1 : 1 + g.pad g.lef ≤ ix) (h2 : ix ≤ g.nx) (h3 : g.bot ≠ 1 → 3 ≤ g.nz) :
    let u' := propagate g k med (n + 1) u0
    at2 g u'.vz ix (1) = - at2 g u'.vz ix (2) ∧ at2 g u'.vz ix (0) = - at2 g u'.vz ix (3) := by
  intro u'
  obtain ⟨⟨g1, g2, g3, g4, g5⟩, ⟨p1, p2, p3, p4⟩, q1, q2, q3, q4⟩ := grid hv
  have pz : g.pad g.top = 0 := pad_of (by omega)
  have io : g.ioZx = 1 + g.pad g.lef := rfl
  have ie : g.ieZx = g.nx + 1 + g.pad g.lef := rfl
  have jo : g.ioZz = 2 + g.pad g.top := rfl
  have je : g.ieZz = g.nz + 2 + g.pad g.top := rfl
  obtain ⟨m0, h0⟩ : ∃ m0, m0 = run (velPhase g k).flatten (steps g k n (mem med u0)) := ⟨_, rfl⟩
  obtain ⟨m1, hm1⟩ : ∃ m1, m1 = run (([] : List (Stmt Cell K))) m0 := ⟨_, rfl⟩
  have W := mirror_line (a := .vz) (κ := colOf g.naz) (lo := 1) (hi := g.nx + 1) (i := ix) (p := fun j => el g.naz j (1)) (q := fun j => el g.naz j (2))
    (r := fun j => el g.naz j (0)) (s := fun j => el g.naz j (3)) (by omega) (by omega)
    (fun j e1 e2 => ⟨colOf_el (by omega) (by omega), colOf_el (by omega) (by omega), colOf_el (by omega) (by omega), colOf_el (by omega) (by omega)⟩)
    ⟨el_ne (by omega) (by omega) (by omega) (by omega) (.inr (by omega)), el_ne (by omega) (by omega) (by omega) (by omega) (.inr (by omega)),
     el_ne (by omega) (by omega) (by omega) (by omega) (.inr (by omega)), el_ne (by omega) (by omega) (by omega) (by omega) (.inr (by omega)),
     el_ne (by omega) (by omega) (by omega) (by omega) (.inr (by omega))⟩ m1 _ rfl
  have hb : (parfor 1 (g.nx + 1) fun j => [(⟨(.vz, el g.naz j (1)), .zero - .rd (.vz, el g.naz j (2))⟩ : Stmt Cell K),
      ⟨(.vz, el g.naz j (0)), .zero - .rd (.vz, el g.naz j (3))⟩]) = rigidTop g := by
    unfold rigidTop
    rw [if_pos hr]
    refine congrArg (parfor 1 (g.nx + 1)) (funext fun j => ?_)
    rw [loop_single]
    simp only [Cfg.ibnd, ng, rd]
    ring_nf
  rw [hb] at W
  have late : ∀ t, 0 ≤ t → t < g.naz → (t = 1 ∨ t = 2 ∨ t = 0 ∨ t = 3) →
      at2 g u'.vz ix (t) = run (rigidTop g).flatten m1 (.vz, el g.naz ix (t)) := by
    intro t t1 t2 t3
    show steps g k (n + 1) (mem med u0) (.vz, el g.naz ix (t)) = _
    rw [steps, late_vel hv k _ (show Arr.vz ∈ vels by decide), run_append, ← h0]
    unfold half
    simp only [List.append_assoc]
    rw [seqOf_append', seqOf_one, run_append]
    rw [run_avoids (by
      simp only [← List.append_assoc]
      exact rest_missZ hv k _ (fun _ => by omega) (fun _ => by omega) (fun _ => by omega) (fun _ => by omega)) (by omega) (by omega)]
    unfold wallPhase
    simp only [List.flatten_append, run_append]
    rw [run_spares (l := [.vz]) rigX_spare.2 (List.mem_singleton.mpr rfl), run_avoids (bot_miss hv fun _ => .inl (by omega)) (by omega) (by omega),
      run_spares (l := [.vz]) rigX_spare.1 (List.mem_singleton.mpr rfl), hm1]
    rfl
  exact ⟨by rw [late _ (by omega) (by omega) (by omega), late _ (by omega) (by omega) (by omega)]; exact W.1,
    by rw [late _ (by omega) (by omega) (by omega), late _ (by omega) (by omega) (by omega)]; exact W.2⟩

/-- C72: rigid bottom; the values of rows `nz+1` and `nz+2` of the padded grid mirror those of rows `nz` and `nz-1`. -/
theorem elastic_wall_bottom (hv : Valid g) (k : Coef K) (med : Cell → K) (n : Nat) (u0 : Field K) (hr : g.bot = 3)
    (ix : Int) (h1 : 1 + g.pad g.lef ≤ ix) (h2 : ix ≤ g.nx) (h3 : g.top = 2 ∨ g.top = 4 → g.npml + 3 ≤ g.nz) :
    let u' := propagate g k med (n + 1) u0
    at2 g u'.vz ix (g.nz + 1) = - at2 g u'.vz ix (g.nz) ∧ at2 g u'.vz ix (g.nz + 2) = - at2 g u'.vz ix (g.nz - 1) := by
  intro u'
  obtain ⟨⟨g1, g2, g3, g4, g5⟩, ⟨p1, p2, p3, p4⟩, q1, q2, q3, q4⟩ := grid hv
  have pz : g.pad g.bot = 0 := pad_of (by omega)
  have io : g.ioZx = 1 + g.pad g.lef := rfl
  have ie : g.ieZx = g.nx + 1 + g.pad g.lef := rfl
  have jo : g.ioZz = 2 + g.pad g.top := rfl
  have je : g.ieZz = g.nz + 2 + g.pad g.top := rfl
  obtain ⟨m0, h0⟩ : ∃ m0, m0 = run (velPhase g k).flatten (steps g k n (mem med u0)) := ⟨_, rfl⟩
  obtain ⟨m1, hm1⟩ : ∃ m1, m1 = run ((rigidTop g).flatten ++ (rigidRig g).flatten) m0 := ⟨_, rfl⟩
  have W := mirror_line (a := .vz) (κ := colOf g.naz) (lo := 1) (hi := g.nx + 1) (i := ix) (p := fun j => el g.naz j (g.nz + 1)) (q := fun j => el g.naz j (g.nz))
    (r := fun j => el g.naz j (g.nz + 2)) (s := fun j => el g.naz j (g.nz - 1)) (by omega) (by omega)
    (fun j e1 e2 => ⟨colOf_el (by omega) (by omega), colOf_el (by omega) (by omega), colOf_el (by omega) (by omega), colOf_el (by omega) (by omega)⟩)
    ⟨el_ne (by omega) (by omega) (by omega) (by omega) (.inr (by omega)), el_ne (by omega) (by omega) (by omega) (by omega) (.inr (by omega)),
     el_ne (by omega) (by omega) (by omega) (by omega) (.inr (by omega)), el_ne (by omega) (by omega) (by omega) (by omega) (.inr (by omega)),
     el_ne (by omega) (by omega) (by omega) (by omega) (.inr (by omega))⟩ m1 _ rfl
  have hb : (parfor 1 (g.nx + 1) fun j => [(⟨(.vz, el g.naz j (g.nz + 1)), .zero - .rd (.vz, el g.naz j (g.nz))⟩ : Stmt Cell K),
      ⟨(.vz, el g.naz j (g.nz + 2)), .zero - .rd (.vz, el g.naz j (g.nz - 1))⟩]) = rigidBot g := by
    unfold rigidBot
    rw [if_pos hr]
    refine congrArg (parfor 1 (g.nx + 1)) (funext fun j => ?_)
    rw [loop_single]
    simp only [Cfg.ibnd, ng, rd]
    ring_nf
  rw [hb] at W
  have late : ∀ t, 0 ≤ t → t < g.naz → (t = g.nz + 1 ∨ t = g.nz ∨ t = g.nz + 2 ∨ t = g.nz - 1) →
      at2 g u'.vz ix (t) = run (rigidBot g).flatten m1 (.vz, el g.naz ix (t)) := by
    intro t t1 t2 t3
    show steps g k (n + 1) (mem med u0) (.vz, el g.naz ix (t)) = _
    rw [steps, late_vel hv k _ (show Arr.vz ∈ vels by decide), run_append, ← h0]
    unfold half
    simp only [List.append_assoc]
    rw [seqOf_append', seqOf_one, run_append]
    rw [run_avoids (by
      simp only [← List.append_assoc]
      exact rest_missZ hv k _ (fun _ => by omega) (fun _ => by omega) (fun _ => by omega) (fun _ => by omega)) (by omega) (by omega)]
    unfold wallPhase
    simp only [List.flatten_append, run_append]
    rw [run_spares (l := [.vz]) rigX_spare.2 (List.mem_singleton.mpr rfl), hm1, run_append]
  exact ⟨by rw [late _ (by omega) (by omega) (by omega), late _ (by omega) (by omega) (by omega)]; exact W.1,
    by rw [late _ (by omega) (by omega) (by omega), late _ (by omega) (by omega) (by omega)]; exact W.2⟩

/-- C72: rigid right side. -/
theorem elastic_wall_right (hv : Valid g) (k : Coef K) (med : Cell → K) (n : Nat) (u0 : Field K) (hr : g.rig = 3)
    (iz : Int) (h1 : 1 + g.pad g.top ≤ iz) (h2 : iz ≤ g.nz) (h3 : g.lef ≠ 1 → g.pad g.lef + 3 ≤ g.nx) :
    let u' := propagate g k med (n + 1) u0
    at2 g u'.vx (g.nx + 1) iz = - at2 g u'.vx (g.nx) iz ∧ at2 g u'.vx (g.nx + 2) iz = - at2 g u'.vx (g.nx - 1) iz := by
  intro u'
  obtain ⟨⟨g1, g2, g3, g4, g5⟩, ⟨p1, p2, p3, p4⟩, q1, q2, q3, q4⟩ := grid hv
  have pz : g.pad g.rig = 0 := pad_of (by omega)
  have io : g.ioXx = 2 + g.pad g.lef := rfl
  have ie : g.ieXx = g.nx + 2 + g.pad g.lef := rfl
  have jo : g.ioXz = 1 + g.pad g.top := rfl
  have je : g.ieXz = g.nz + 1 + g.pad g.top := rfl
  obtain ⟨m0, h0⟩ : ∃ m0, m0 = run (velPhase g k).flatten (steps g k n (mem med u0)) := ⟨_, rfl⟩
  obtain ⟨m1, hm1⟩ : ∃ m1, m1 = run ((rigidTop g).flatten) m0 := ⟨_, rfl⟩
  have W := mirror_line (a := .vx) (κ := rowOf g.naz) (lo := 1) (hi := g.nz + 1) (i := iz) (p := fun j => el g.naz (g.nx + 1) j) (q := fun j => el g.naz (g.nx) j)
    (r := fun j => el g.naz (g.nx + 2) j) (s := fun j => el g.naz (g.nx - 1) j) (by omega) (by omega)
    (fun j e1 e2 => ⟨rowOf_el (by omega) (by omega), rowOf_el (by omega) (by omega), rowOf_el (by omega) (by omega), rowOf_el (by omega) (by omega)⟩)
    ⟨el_ne (by omega) (by omega) (by omega) (by omega) (.inl (by omega)), el_ne (by omega) (by omega) (by omega) (by omega) (.inl (by omega)),
     el_ne (by omega) (by omega) (by omega) (by omega) (.inl (by omega)), el_ne (by omega) (by omega) (by omega) (by omega) (.inl (by omega)),
     el_ne (by omega) (by omega) (by omega) (by omega) (.inl (by omega))⟩ m1 _ rfl
  have hb : (parfor 1 (g.nz + 1) fun j => [(⟨(.vx, el g.naz (g.nx + 1) j), .zero - .rd (.vx, el g.naz (g.nx) j)⟩ : Stmt Cell K),
      ⟨(.vx, el g.naz (g.nx + 2) j), .zero - .rd (.vx, el g.naz (g.nx - 1) j)⟩]) = rigidRig g := by
    unfold rigidRig
    rw [if_pos hr]
    refine congrArg (parfor 1 (g.nz + 1)) (funext fun j => ?_)
    rw [loop_single]
    simp only [Cfg.ibnd, ng, rd]
    ring_nf
  rw [hb] at W
  have late : ∀ t, 0 ≤ t → t < g.nax → (t = g.nx + 1 ∨ t = g.nx ∨ t = g.nx + 2 ∨ t = g.nx - 1) →
      at2 g u'.vx (t) iz = run (rigidRig g).flatten m1 (.vx, el g.naz (t) iz) := by
    intro t t1 t2 t3
    show steps g k (n + 1) (mem med u0) (.vx, el g.naz (t) iz) = _
    rw [steps, late_vel hv k _ (show Arr.vx ∈ vels by decide), run_append, ← h0]
    unfold half
    simp only [List.append_assoc]
    rw [seqOf_append', seqOf_one, run_append]
    rw [run_avoids (by
      simp only [← List.append_assoc]
      exact rest_missX hv k _ (fun _ => by omega) (fun _ => by omega) (fun _ => by omega) (fun _ => by omega)) (by omega) (by omega)]
    unfold wallPhase
    simp only [List.flatten_append, run_append]
    rw [run_avoids (lef_miss hv fun _ => by omega) (by omega) (by omega),
      run_spares (l := [.vx]) rigZ_spare.2 (List.mem_singleton.mpr rfl), hm1]
  exact ⟨by rw [late _ (by omega) (by omega) (by omega), late _ (by omega) (by omega) (by omega)]; exact W.1,
    by rw [late _ (by omega) (by omega) (by omega), late _ (by omega) (by omega) (by omega)]; exact W.2⟩

/-- C72: rigid left side. -/
theorem elastic_wall_left (hv : Valid g) (k : Coef K) (med : Cell → K) (n : Nat) (u0 : Field K) (hr : g.lef = 3)
    (iz : Int) (h1 : 1 + g.pad g.top ≤ iz) (h2 : iz ≤ g.nz) (h3 : g.rig ≠ 1 → 3 ≤ g.nx) :
    let u' := propagate g k med (n + 1) u0
    at2 g u'.vx (1) iz = - at2 g u'.vx (2) iz ∧ at2 g u'.vx (0) iz = - at2 g u'.vx (3) iz := by
  intro u'
  obtain ⟨⟨g1, g2, g3, g4, g5⟩, ⟨p1, p2, p3, p4⟩, q1, q2, q3, q4⟩ := grid hv
  have pz : g.pad g.lef = 0 := pad_of (by omega)
  have io : g.ioXx = 2 + g.pad g.lef := rfl
  have ie : g.ieXx = g.nx + 2 + g.pad g.lef := rfl
  have jo : g.ioXz = 1 + g.pad g.top := rfl
  have je : g.ieXz = g.nz + 1 + g.pad g.top := rfl
  obtain ⟨m0, h0⟩ : ∃ m0, m0 = run (velPhase g k).flatten (steps g k n (mem med u0)) := ⟨_, rfl⟩
  obtain ⟨m1, hm1⟩ : ∃ m1, m1 = run ((rigidTop g).flatten ++ (rigidRig g).flatten ++ (rigidBot g).flatten) m0 := ⟨_, rfl⟩
  have W := mirror_line (a := .vx) (κ := rowOf g.naz) (lo := 1) (hi := g.nz + 1) (i := iz) (p := fun j => el g.naz (1) j) (q := fun j => el g.naz (2) j)
    (r := fun j => el g.naz (0) j) (s := fun j => el g.naz (3) j) (by omega) (by omega)
    (fun j e1 e2 => ⟨rowOf_el (by omega) (by omega), rowOf_el (by omega) (by omega), rowOf_el (by omega) (by omega), rowOf_el (by omega) (by omega)⟩)
    ⟨el_ne (by omega) (by omega) (by omega) (by omega) (.inl (by omega)), el_ne (by omega) (by omega) (by omega) (by omega) (.inl (by omega)),
     el_ne (by omega) (by omega) (by omega) (by omega) (.inl (by omega)), el_ne (by omega) (by omega) (by omega) (by omega) (.inl (by omega)),
     el_ne (by omega) (by omega) (by omega) (by omega) (.inl (by omega))⟩ m1 _ rfl
  have hb : (parfor 1 (g.nz + 1) fun j => [(⟨(.vx, el g.naz (1) j), .zero - .rd (.vx, el g.naz (2) j)⟩ : Stmt Cell K),
      ⟨(.vx, el g.naz (0) j), .zero - .rd (.vx, el g.naz (3) j)⟩]) = rigidLef g := by
    unfold rigidLef
    rw [if_pos hr]
    refine congrArg (parfor 1 (g.nz + 1)) (funext fun j => ?_)
    rw [loop_single]
    simp only [Cfg.ibnd, ng, rd]
    ring_nf
  rw [hb] at W
  have late : ∀ t, 0 ≤ t → t < g.nax → (t = 1 ∨ t = 2 ∨ t = 0 ∨ t = 3) →
      at2 g u'.vx (t) iz = run (rigidLef g).flatten m1 (.vx, el g.naz (t) iz) := by
    intro t t1 t2 t3
    show steps g k (n + 1) (mem med u0) (.vx, el g.naz (t) iz) = _
    rw [steps, late_vel hv k _ (show Arr.vx ∈ vels by decide), run_append, ← h0]
    unfold half
    simp only [List.append_assoc]
    rw [seqOf_append', seqOf_one, run_append]
    rw [run_avoids (by
      simp only [← List.append_assoc]
      exact rest_missX hv k _ (fun _ => by omega) (fun _ => by omega) (fun _ => by omega) (fun _ => by omega)) (by omega) (by omega)]
    unfold wallPhase
    simp only [List.flatten_append, run_append]
    rw [hm1, run_append, run_append]
  exact ⟨by rw [late _ (by omega) (by omega) (by omega), late _ (by omega) (by omega) (by omega)]; exact W.1,
    by rw [late _ (by omega) (by omega) (by omega), late _ (by omega) (by omega) (by omega)]; exact W.2⟩


/-- Defect: with a taper or PML at the top the bottom wall is not at the bottom.  The last row of the model is
`nz+1+npml`, the mirrored row is `nz+1`, a row inside the model, so that waves are reflected there. -/
theorem elastic_bottom_wall_cuts (hv : Valid g) (k : Coef K) (med : Cell → K) (n : Nat) (u0 : Field K) (hr : g.bot = 3)
    (ht : g.top = 2 ∨ g.top = 4) (hn : g.npml + 3 ≤ g.nz) (ix : Int) (h1 : g.ioZx ≤ ix) (h2 : ix ≤ g.nx) :
    (g.ioZz ≤ g.nz ∧ g.nz + 1 + g.npml = g.ieZz - 1) ∧
    at2 g (propagate g k med (n + 1) u0).vz ix (g.nz + 1) = - at2 g (propagate g k med (n + 1) u0).vz ix g.nz := by
  obtain ⟨-, -, q1, -, -, -⟩ := grid hv
  have := q1 ht
  refine ⟨⟨?_, ?_⟩, (elastic_wall_bottom hv k med n u0 hr ix h1 h2 fun _ => hn).1⟩ <;> simp only [Cfg.ioZz, Cfg.ieZz] <;> omega

/-- The same for the right wall with a taper or PML at the left. -/
theorem elastic_right_wall_cuts (hv : Valid g) (k : Coef K) (med : Cell → K) (n : Nat) (u0 : Field K) (hr : g.rig = 3)
    (hl : g.lef = 2 ∨ g.lef = 4) (hn : g.npml + 3 ≤ g.nx) (iz : Int) (h1 : g.ioXz ≤ iz) (h2 : iz ≤ g.nz) :
    (g.ioXx ≤ g.nx ∧ g.nx + 1 + g.npml = g.ieXx - 1) ∧
    at2 g (propagate g k med (n + 1) u0).vx (g.nx + 1) iz = - at2 g (propagate g k med (n + 1) u0).vx g.nx iz := by
  obtain ⟨-, -, -, -, q3, -⟩ := grid hv
  have := q3 hl
  refine ⟨⟨?_, ?_⟩, (elastic_wall_right hv k med n u0 hr iz h1 h2 fun _ => by omega).1⟩ <;> simp only [Cfg.ioXx, Cfg.ieXx] <;> omega

/-- Defect: with a taper or PML at the left a rigid bottom ends before the last columns of the model; the points there move
freely. -/
theorem elastic_bottom_wall_short [Nontrivial K] (hv : Valid g) (k : Coef K) (med : Cell → K) (hr : g.bot = 3)
    (ht : g.top = 1 ∨ g.top = 3) (hn : 2 ≤ g.nz) (ix : Int) (h1 : g.nx < ix) (h2 : g.ioZx ≤ ix) (h3 : ix < g.ieZx) :
    ∃ u0 : Field K, at2 g (propagate g k med 1 u0).vz ix (g.ieZz - 1) ≠ - at2 g (propagate g k med 1 u0).vz ix (g.ieZz - 2) := by
  obtain ⟨⟨g1, g2, g3, g4, g5⟩, ⟨p1, p2, p3, p4⟩, q1, q2, q3, q4⟩ := grid hv
  have pt : g.pad g.top = 0 := pad_of (by omega)
  have io : g.ioZx = 1 + g.pad g.lef := rfl
  have ie : g.ieZx = g.nx + 1 + g.pad g.lef := rfl
  have jo : g.ioZz = 2 + g.pad g.top := rfl
  have je : g.ieZz = g.nz + 2 + g.pad g.top := rfl
  rw [show g.ieZz - 1 = g.nz + 1 by omega, show g.ieZz - 2 = g.nz by omega]
  let u0 : Field K := { Field.rest with vz := fun i => if i = ix * g.naz + (g.nz + 1) then 1 else 0 }
  refine ⟨u0, ?_⟩
  have T : ∀ iz, All (Avoids g.naz .vz ix iz) (wallPhase g : List (List (Stmt Cell K))).flatten := by
    intro iz
    unfold wallPhase
    simp only [List.flatten_append]
    have S : ∀ {p : List (Stmt Cell K)}, All (Spares [.vz]) p → All (Avoids g.naz .vz ix iz) p := by
      intro p h s hs
      obtain ⟨d, e⟩ := s
      exact avoids_arr fun e' => h _ hs (List.mem_singleton.mpr e')
    refine all_append (all_append (all_append ?_ (S rigX_spare.1)) (bot_miss hv fun _ => .inr h1)) (S rigX_spare.2)
    unfold rigidTop
    refine all_itef fun hc => all_parfor fun j e1 e2 => all_cons (av fun _ => ?_) (all_loop fun ib e3 e4 => all_one (av fun _ => ?_)) <;>
      simp only [Cfg.ibnd] at * <;> exact ⟨by omega, by omega, .inl (by omega)⟩
  have V : ∀ iz, 2 ≤ iz → iz ≤ g.nz + 1 →
      at2 g (propagate g k med 1 u0).vz ix iz = at2 g u0.vz ix iz := by
    intro iz e1 e2
    show steps g k 1 (mem med u0) (.vz, el g.naz ix iz) = _
    rw [steps, late_vel hv k _ (show Arr.vz ∈ vels by decide), run_append]
    unfold half
    simp only [List.append_assoc]
    rw [seqOf_append', seqOf_one, run_append]
    rw [run_avoids (by
      simp only [← List.append_assoc]
      exact rest_missZ hv k _ (fun _ => by omega) (fun _ => by omega) (fun _ => by omega) (fun _ => by omega)) (by omega) (by omega),
      run_avoids (T iz) (by omega) (by omega), vel_vz hv k ⟨by omega, by omega, by omega, by omega⟩]
    simp only [vzS, eval_sub, rd, Expr.eval, steps, at2, el]
    show _ - _ * (_ * (0 - 0 + 0 - 0) + _ * (0 - 0 + 0 - 0)) = _
    simp only [sub_zero, add_zero, mul_zero]
    rfl
  rw [V _ (by omega) (by omega), V _ (by omega) (by omega), show at2 g u0.vz ix (g.nz + 1) = 1 from if_pos rfl,
    show at2 g u0.vz ix g.nz = 0 from if_neg (by omega), neg_zero]
  exact one_ne_zero

/-! ### The hypotheses of the theorems are met -/

/-- All sides rigid. -/
def box : Cfg := { nx := 20, nz := 10, npml := 5, top := 3, bot := 3, lef := 3, rig := 3 }
/-- Tapers at the top and the left. -/
def boxT : Cfg := { nx := 20, nz := 10, npml := 5, top := 4, bot := 3, lef := 4, rig := 1 }
end
end

example : Valid box ∧ 3 ≤ box.nz ∧ 3 ≤ box.nx ∧ 1 + box.pad box.lef ≤ 7 := by
  refine ⟨⟨by decide, by decide, by decide, by decide, by decide, by decide, by decide⟩, by decide, by decide, by decide⟩
example : Valid boxT ∧ boxT.npml + 3 ≤ boxT.nz ∧ boxT.ioZx ≤ 20 ∧ 20 ≤ boxT.nx := by
  refine ⟨⟨by decide, by decide, by decide, by decide, by decide, by decide, by decide⟩, by decide, by decide, by decide⟩
example : let g : Cfg := { boxT with top := 1 }
    Valid g ∧ g.nx < 22 ∧ g.ioZx ≤ 22 ∧ 22 < g.ieZx ∧ 2 ≤ g.nz := by
  refine ⟨⟨by decide, by decide, by decide, by decide, by decide, by decide, by decide⟩, by decide, by decide, by decide, by decide⟩
/-- A wave that reaches a wall (the velocity is 27 at a row and -27 at its mirror image). -/
example : let u0 : Field Int := { Field.rest with tzz := fun i => if i = 2 * 7 + 2 then 1 else 0 }
    let u : Field Int := propagate ⟨3, 3, 5, 3, 1, 1, 1⟩ ⟨27, -1, 27, -1⟩ (fun _ => 1) 1 u0
    u.vz (2 * 7 + 2) = -27 ∧ u.vz (2 * 7 + 1) = 27 ∧ u.vz (2 * 7 + 3) = 27 ∧ u.vz (2 * 7 + 0) = -27 := by
  decide +kernel

end Verif.Fd.Ela

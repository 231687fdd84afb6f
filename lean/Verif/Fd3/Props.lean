import Verif.Fd3.Acoustic3D
import Mathlib.Tactic.NormNum

/-! # C174-C177: the acoustic time step of fdelmodc3D -/

namespace Verif.Fd3

open Verif.Sten

/-! ## Specification -/

section Spec
variable {K : Type} [CommRing K]

/-- Velocity `a` after a velocity update: advanced with the pressure difference along its own axis at the points of its
grid, kept elsewhere. -/
def velNew (g : Cfg) (c1 c2 : K) (m : Cell → K) (a : Fld) (iy ix iz : Int) [Decidable (In g a iy ix iz)] : K :=
  if In g a iy ix iz then
    match a with
    | .vx => at3 g m .vx iy ix iz - m (.m .rox iy ix iz) * stag c1 c2 fun j => at3 g m .p iy (ix + j) iz
    | .vy => at3 g m .vy iy ix iz - m (.m .roy iy ix iz) * stag c1 c2 fun j => at3 g m .p (iy + j) ix iz
    | .vz => at3 g m .vz iy ix iz - m (.m .roz iy ix iz) * stag c1 c2 fun j => at3 g m .p iy ix (iz + j)
    | .p => at3 g m .p iy ix iz
  else at3 g m a iy ix iz

/-- The pressure update: the divergence of the velocities in `m`. -/
def pNew (g : Cfg) (c1 c2 : K) (m : Cell → K) (iy ix iz : Int) : K :=
  at3 g m .p iy ix iz - m (.m .l2m iy ix iz) *
    ((stag c1 c2 fun j => at3 g m .vx iy (ix + 1 + j) iz) + (stag c1 c2 fun j => at3 g m .vy (iy + 1 + j) ix iz) +
     (stag c1 c2 fun j => at3 g m .vz iy ix (iz + 1 + j)))

end Spec

/-! ## Lemmas -/

section
variable {g : Cfg} {K : Type} {c1 c2 : K}

theorem plain_pads (hp : Plain g) : g.pad g.top = 0 ∧ g.pad g.bot = 0 ∧ g.pad g.lef = 0 ∧ g.pad g.rig = 0 ∧
    g.pad g.fro = 0 ∧ g.pad g.bac = 0 := by
  obtain ⟨hv, h1, h2, h3, h4, h5, h6⟩ := hp
  unfold Cfg.pad
  refine ⟨?_, ?_, ?_, ?_, ?_, ?_⟩ <;> rw [if_neg (by omega)]

/-- Sizes of a model without extra points. -/
theorem plain_sizes (hp : Plain g) : g.nax = g.nx + 4 ∧ g.nay = g.ny + 4 ∧ g.naz = g.nz + 4 ∧ g.iePx = g.nx + 1 ∧
    g.iePy = g.ny + 1 ∧ g.iePz = g.nz + 1 ∧ 1 ≤ g.nx ∧ 1 ≤ g.ny ∧ 1 ≤ g.nz := by
  obtain ⟨h1, h2, h3, h4, h5, h6⟩ := plain_pads hp
  simp only [Cfg.nax, Cfg.nay, Cfg.naz, Cfg.iePx, Cfg.iePy, Cfg.iePz, h1, h2, h3, h4, h5, h6]
  have := hp.nx; have := hp.ny; have := hp.nz
  omega

theorem freed_pt (hp : Plain g) {iy ix iz : Int} (h : Freed g iy ix iz) : Pt g iy ix iz := by
  obtain ⟨h1, h2, h3, h4, h5, h6, h7, h8, h9⟩ := plain_sizes hp
  unfold Freed at h
  unfold Pt
  rw [h4, h5, h6] at h
  rw [h1, h2, h3]
  omega

theorem mirror_all {Q : Stmt Cell K → Prop} (h : g.top = 1 → ∀ iy ix, 1 ≤ iy → iy < g.iePy → 1 ≤ ix → ix < g.iePx →
    Q (cpz g iy ix 1 2) ∧ Q (cpz g iy ix 0 3)) : All Q (mirror g : List (List (Stmt Cell K))).flatten := by
  unfold mirror
  exact all_itef fun ht => all_parfor fun iy h1 h2 => all_loop fun ix h3 h4 =>
    all_cons (h ht iy ix h1 h2 h3 h4).1 (all_one (h ht iy ix h1 h2 h3 h4).2)

theorem free_all {Q : Stmt Cell K → Prop} (h : ∀ iy ix iz, Freed g iy ix iz → Q (zrp g iy ix iz)) :
    All Q (freePhase g : List (List (Stmt Cell K))).flatten := by
  unfold freePhase
  simp only [List.flatten_append]
  refine all_append (all_append (all_append (all_append (all_append ?_ ?_) ?_) ?_) ?_) ?_ <;>
    refine all_itef fun ht => all_parfor fun i h1 h2 => all_loop fun j h3 h4 => all_one (h _ _ _ ?_) <;> unfold Freed <;> omega

theorem free_mem {iy ix iz : Int} (h : Freed g iy ix iz) :
    zrp g iy ix iz ∈ (freePhase g : List (List (Stmt Cell K))).flatten := by
  have mem : ∀ {c : Prop} [Decidable c] {a b d e : Int} {body : Int → Int → List (Stmt Cell K)} {s : Stmt Cell K} (i j : Int),
      c → a ≤ i → i < b → d ≤ j → j < e → s ∈ body i j →
      s ∈ (if c then parfor a b fun i => loop d e fun j => body i j else []).flatten := by
    intro c _ a b d e body s i j hc h1 h2 h3 h4 hs
    rw [if_pos hc]
    exact List.mem_flatten.mpr ⟨_, mem_parfor.mpr ⟨i, h1, h2, rfl⟩, mem_loop.mpr ⟨j, h3, h4, hs⟩⟩
  unfold freePhase
  simp only [List.flatten_append, List.mem_append]
  rcases h with ⟨ht, rfl, h1, h2, h3, h4⟩ | ⟨ht, rfl, h1, h2, h3, h4⟩ | ⟨ht, rfl, h1, h2, h3, h4⟩ |
    ⟨ht, rfl, h1, h2, h3, h4⟩ | ⟨ht, rfl, h1, h2, h3, h4⟩ | ⟨ht, rfl, h1, h2, h3, h4⟩
  · exact .inl (.inl (.inl (.inl (.inl (mem (body := fun ix iy => [zrp g iy ix 1]) ix iy ht h1 h2 h3 h4 (by simp))))))
  · exact .inl (.inl (.inl (.inl (.inr
      (mem (body := fun iz iy => [zrp g iy (g.iePx - 1) iz]) iz iy ht h1 h2 h3 h4 (by simp))))))
  · exact .inl (.inl (.inl (.inr (mem (body := fun iz ix => [zrp g 0 ix iz]) iz ix ht h1 h2 h3 h4 (by simp)))))
  · exact .inl (.inl (.inr (mem (body := fun ix iy => [zrp g iy ix (g.iePz - 1)]) ix iy ht h1 h2 h3 h4 (by simp))))
  · exact .inl (.inr (mem (body := fun iz iy => [zrp g iy 0 iz]) iz iy ht h1 h2 h3 h4 (by simp)))
  · exact .inr (mem (body := fun iz ix => [zrp g (g.iePy - 1) ix iz]) iz ix ht h1 h2 h3 h4 (by simp))

theorem free_zero : ZeroPhase (freePhase g : List (List (Stmt Cell K))) := by
  have : All (fun s => s.e = .zero) (freePhase g : List (List (Stmt Cell K))).flatten := free_all fun _ _ _ _ => rfl
  exact fun t ht s hs => this s (List.mem_flatten.mpr ⟨t, ht, hs⟩)

theorem cpz_cells {iy ix iz jz : Int} {c : Cell} (hc : c ∈ (cpz g iy ix iz jz : Stmt Cell K).cells) :
    c = .w .vz (g.idx iy ix iz) ∨ c = .w .vz (g.idx iy ix jz) := by
  simp only [cpz, Stmt.cells, rd, rds_rd, List.mem_cons, List.not_mem_nil, or_false] at hc
  exact hc

theorem mirror_pt (hp : Plain g) {iy ix iz : Int} (h1 : 1 ≤ iy) (h2 : iy < g.iePy) (h3 : 1 ≤ ix) (h4 : ix < g.iePx)
    (h5 : 0 ≤ iz) (h6 : iz ≤ 3) : Pt g iy ix iz := by
  obtain ⟨e1, e2, e3, e4, e5, e6, e7, e8, e9⟩ := plain_sizes hp
  unfold Pt; omega

theorem cpz_key (hp : Plain g) {iy ix iz jz : Int} (h1 : 1 ≤ iy) (h2 : iy < g.iePy) (h3 : 1 ≤ ix) (h4 : ix < g.iePx)
    (h5 : 0 ≤ iz) (h6 : iz ≤ 3) (h7 : 0 ≤ jz) (h8 : jz ≤ 3) :
    InKey (Of .vz) (ky g) iy (cpz g iy ix iz jz : Stmt Cell K) ∧ InKey (Of .vz) (kx g) ix (cpz g iy ix iz jz : Stmt Cell K) := by
  refine ⟨⟨⟨_, rfl⟩, fun c hc _ => ?_⟩, ⟨⟨_, rfl⟩, fun c hc _ => ?_⟩⟩
  · rcases cpz_cells hc with rfl | rfl
    · exact ky_idx (mirror_pt hp h1 h2 h3 h4 h5 h6)
    · exact ky_idx (mirror_pt hp h1 h2 h3 h4 h7 h8)
  · rcases cpz_cells hc with rfl | rfl
    · exact kx_idx (mirror_pt hp h1 h2 h3 h4 h5 h6)
    · exact kx_idx (mirror_pt hp h1 h2 h3 h4 h7 h8)

theorem mirror_apart (hp : Plain g) : (mirror g : List (List (Stmt Cell K))).Pairwise Apart := by
  unfold mirror
  refine when_apart fun _ => parfor_apart (Of .vz) (ky g) fun iy h1 h2 => all_loop fun ix h3 h4 => all_cons ?_ (all_one ?_)
  · exact (cpz_key hp h1 h2 h3 h4 (by omega) (by omega) (by omega) (by omega)).1
  · exact (cpz_key hp h1 h2 h3 h4 (by omega) (by omega) (by omega) (by omega)).1

section Run
variable [CommRing K]

theorem mirror_other {c : Cell} (h : ¬ Of .vz c) (m : Cell → K) : run (mirror g).flatten m c = m c :=
  run_untouched (mirror_all (Q := fun s => s.dst ≠ c) fun _ _ _ _ _ _ _ =>
    ⟨fun e => h ⟨_, e.symm⟩, fun e => h ⟨_, e.symm⟩⟩) m

theorem mirror_out (hp : Plain g) {iy ix iz : Int} (hpt : Pt g iy ix iz) (h : ¬ Mirrored g iy ix iz) (m : Cell → K) :
    run (mirror g).flatten m (.w .vz (g.idx iy ix iz)) = m (.w .vz (g.idx iy ix iz)) := by
  refine run_untouched (mirror_all (Q := fun s => s.dst ≠ .w .vz (g.idx iy ix iz)) fun ht jy jx h1 h2 h3 h4 => ⟨fun e => ?_, fun e => ?_⟩) m
  · obtain ⟨rfl, rfl, rfl⟩ := idx_inj (mirror_pt hp h1 h2 h3 h4 (by omega) (by omega)) hpt (Cell.w.inj e).2
    exact h ⟨ht, h1, h2, h3, h4, .inr rfl⟩
  · obtain ⟨rfl, rfl, rfl⟩ := idx_inj (mirror_pt hp h1 h2 h3 h4 (by omega) (by omega)) hpt (Cell.w.inj e).2
    exact h ⟨ht, h1, h2, h3, h4, .inl rfl⟩

theorem mirror_in (hp : Plain g) {iy ix iz : Int} (h : Mirrored g iy ix iz) (m : Cell → K) :
    run (mirror g).flatten m (.w .vz (g.idx iy ix iz)) = m (.w .vz (g.idx iy ix (3 - iz))) := by
  obtain ⟨ht, h1, h2, h3, h4, hz⟩ := h
  have p := fun jz a b => mirror_pt hp h1 h2 h3 h4 (iz := jz) a b
  have e1 := ky_idx (a := .vz) (p iz (by omega) (by omega))
  have e2 := kx_idx (a := .vz) (p iz (by omega) (by omega))
  unfold mirror
  rw [if_pos ht, parfor_flatten, run_loop_at (W := Of .vz) (κ := ky g) (i := iy) (fun i a1 a2 => all_loop fun j a3 a4 =>
      all_cons (cpz_key hp a1 a2 a3 a4 (by omega) (by omega) (by omega) (by omega)).1
        (all_one (cpz_key hp a1 a2 a3 a4 (by omega) (by omega) (by omega) (by omega)).1)) h1 h2 e1,
    run_loop_at (W := Of .vz) (κ := kx g) (i := ix) (fun j a3 a4 =>
      all_cons (cpz_key hp h1 h2 a3 a4 (by omega) (by omega) (by omega) (by omega)).2
        (all_one (cpz_key hp h1 h2 a3 a4 (by omega) (by omega) (by omega) (by omega)).2)) h3 h4 e2]
  show Verif.Par.store (Verif.Par.store m (.w .vz (g.idx iy ix 1)) (m (.w .vz (g.idx iy ix 2)))) (.w .vz (g.idx iy ix 0))
    (Verif.Par.store m (.w .vz (g.idx iy ix 1)) (m (.w .vz (g.idx iy ix 2))) (.w .vz (g.idx iy ix 3))) _ = _
  have ne : ∀ {a b : Int}, 0 ≤ a → a ≤ 3 → 0 ≤ b → b ≤ 3 → a ≠ b →
      (Cell.w .vz (g.idx iy ix a) : Cell) ≠ .w .vz (g.idx iy ix b) := fun a1 a2 b1 b2 hne e =>
    hne (idx_inj (p _ a1 a2) (p _ b1 b2) (Cell.w.inj e).2).2.2
  unfold Verif.Par.store
  rcases hz with rfl | rfl
  · rw [if_pos rfl, if_neg (ne (by omega) (by omega) (by omega) (by omega) (by omega))]
    rfl
  · rw [if_neg (ne (by omega) (by omega) (by omega) (by omega) (by omega)), if_pos rfl]
    rfl

theorem free_at (hp : Plain g) {iy ix iz : Int} (hpt : Pt g iy ix iz) (m : Cell → K) [Decidable (Freed g iy ix iz)] :
    run (freePhase g).flatten m (.w .p (g.idx iy ix iz)) = if Freed g iy ix iz then 0 else m (.w .p (g.idx iy ix iz)) := by
  split
  · next h => exact (run_zero (free_all fun _ _ _ _ => rfl) m _).1 ⟨_, free_mem h, rfl⟩
  · next h =>
    refine run_untouched (free_all (Q := fun s => s.dst ≠ .w .p (g.idx iy ix iz)) fun jy jx jz hf e => ?_) m
    obtain ⟨rfl, rfl, rfl⟩ := idx_inj (freed_pt hp hf) hpt (Cell.w.inj e).2
    exact h hf

theorem free_other {c : Cell} (h : ¬ Of .p c) (m : Cell → K) : run (freePhase g).flatten m c = m c :=
  run_untouched (free_all (Q := fun s => s.dst ≠ c) fun _ _ _ _ e => h ⟨_, e.symm⟩) m

theorem step_eq (m : Cell → K) : step g c1 c2 m =
    run (freePhase g).flatten (run (pPhase g c1 c2).flatten (run (mirror g).flatten (run (velPhase g c1 c2).flatten m))) := by
  unfold step phases seqOf
  simp only [List.flatten_cons, List.flatten_nil, List.flatten_append, List.append_nil, run_append]

theorem vel_med (b : Med) (iy ix iz : Int) (m : Cell → K) :
    run (velPhase g c1 c2).flatten m (.m b iy ix iz) = m (.m b iy ix iz) := by
  rw [velPhase_eq, List.flatten_append, List.flatten_append, run_append, run_append, sweep_med, sweep_med, sweep_med]

theorem vel_p (i : Int) (m : Cell → K) : run (velPhase g c1 c2).flatten m (.w .p i) = m (.w .p i) := by
  rw [velPhase_eq, List.flatten_append, List.flatten_append, run_append, run_append, sweep_other (by simp),
    sweep_other (by simp), sweep_other (by simp)]

end Run

end

/-! ## Property theorems -/

section
variable {g : Cfg} {K : Type} [CommRing K] {c1 c2 : K}

/-- C174: the sweeps of the time step touch only elements of the arrays, for all sizes, widths of the boundaries and types
of the sides. -/
theorem sweeps_in_bounds (hv : Valid g) (m : Cell → K) :
    runChecked g.ok (seqOf [velPhase g c1 c2, pPhase g c1 c2]) m = some (run (seqOf [velPhase g c1 c2, pPhase g c1 c2]) m) := by
  rw [runChecked_eq, if_pos]
  have h : ∀ a, All (fun s => ∀ c ∈ s.cells, g.ok c = true) (sweepOf g c1 c2 a).flatten := fun a =>
    sweepOf_all fun iy ix iz h => updS_ok hv h
  refine allP_cons ?_ (allP_one (h .p))
  rw [velPhase_eq, List.flatten_append, List.flatten_append]
  exact all_append (all_append (h _) (h _)) (h _)

/-- C174: a whole time step of a model with free surfaces only touches only elements of the arrays. -/
theorem step_in_bounds (hp : Plain g) (m : Cell → K) :
    runChecked g.ok (seqOf (phases g c1 c2)) m = some (step g c1 c2 m) := by
  rw [runChecked_eq, if_pos]
  · rfl
  have hv := hp.toValid
  have h : ∀ a, All (fun s => ∀ c ∈ s.cells, g.ok c = true) (sweepOf g c1 c2 a).flatten := fun a =>
    sweepOf_all fun iy ix iz h => updS_ok hv h
  refine allP_cons ?_ (allP_cons ?_ (allP_one ?_))
  · rw [velPhase_eq, List.flatten_append, List.flatten_append]
    exact all_append (all_append (h _) (h _)) (h _)
  · rw [List.flatten_append]
    refine all_append (mirror_all fun ht iy ix h1 h2 h3 h4 => ⟨fun c hc => ?_, fun c hc => ?_⟩) (h .p)
    · rcases cpz_cells hc with rfl | rfl <;> exact ok_w (mirror_pt hp h1 h2 h3 h4 (by omega) (by omega))
    · rcases cpz_cells hc with rfl | rfl <;> exact ok_w (mirror_pt hp h1 h2 h3 h4 (by omega) (by omega))
  · refine free_all fun iy ix iz hf c hc => ?_
    simp only [zrp, Stmt.cells, rds_zero, List.mem_cons, List.not_mem_nil, or_false] at hc
    rw [hc]; exact ok_w (freed_pt hp hf)

open Classical in
/-- C175, first half: the velocity sweeps advance every velocity at every point of its grid with the difference of the
pressure along its axis, and change nothing else. -/
theorem velocity_update (hv : Valid g) (m : Cell → K) (a : Fld) (iy ix iz : Int) (hpt : Pt g iy ix iz) :
    at3 g (run (velPhase g c1 c2).flatten m) a iy ix iz = velNew g c1 c2 m a iy ix iz ∧
    ∀ b, run (velPhase g c1 c2).flatten m (.m b iy ix iz) = m (.m b iy ix iz) := by
  refine ⟨?_, fun b => vel_med b iy ix iz m⟩
  unfold at3 velNew
  cases a with
  | p => rw [vel_p]; simp [at3]
  | vx =>
    rw [vel_at (by simp)]
    split
    · next h => rw [sweep_in hv h]; simp only [updS, vxS, rd, eval_sub, Expr.eval, stag, at3, add_zero,
        ← sub_eq_add_neg]
    · next h => rw [sweep_out hv hpt h]; rfl
  | vy =>
    rw [vel_at (by simp)]
    split
    · next h => rw [sweep_in hv h]; simp only [updS, vyS, rd, eval_sub, Expr.eval, stag, at3, add_zero,
        ← sub_eq_add_neg]
    · next h => rw [sweep_out hv hpt h]; rfl
  | vz =>
    rw [vel_at (by simp)]
    split
    · next h => rw [sweep_in hv h]; simp only [updS, vzS, rd, eval_sub, Expr.eval, stag, at3, add_zero,
        ← sub_eq_add_neg]
    · next h => rw [sweep_out hv hpt h]; rfl

open Classical in
/-- C175, second half: the pressure sweep advances the pressure at every point of its range with the divergence of the
velocities, and changes nothing else. -/
theorem pressure_update (hv : Valid g) (m : Cell → K) (iy ix iz : Int) (hpt : Pt g iy ix iz) :
    at3 g (run (pPhase g c1 c2).flatten m) .p iy ix iz =
      (if In g .p iy ix iz then pNew g c1 c2 m iy ix iz else at3 g m .p iy ix iz) ∧
    (∀ a, a ≠ .p → at3 g (run (pPhase g c1 c2).flatten m) a iy ix iz = at3 g m a iy ix iz) ∧
    ∀ b, run (pPhase g c1 c2).flatten m (.m b iy ix iz) = m (.m b iy ix iz) := by
  refine ⟨?_, fun a ha => sweep_other (a := .p) ha _ m, fun b => sweep_med .p b iy ix iz m⟩
  split
  · next h =>
    have := sweep_in (c1 := c1) (c2 := c2) hv h m
    unfold at3
    refine this.trans ?_
    simp only [updS, pS, rd, eval_sub, Expr.eval, pNew, stag, at3]
    have e : ∀ i : Int, i + 1 + 0 = i + 1 ∧ i + 1 + -1 = i ∧ i + 1 + 1 = i + 2 ∧ i + 1 + -2 = i - 1 := by intro i; omega
    rw [(e ix).1, (e ix).2.1, (e ix).2.2.1, (e ix).2.2.2, (e iy).1, (e iy).2.1, (e iy).2.2.1, (e iy).2.2.2,
      (e iz).1, (e iz).2.1, (e iz).2.2.1, (e iz).2.2.2]
    ring
  · next h => exact sweep_out (a := .p) hv hpt h m

open Classical in
/-- C175: one time step of a model whose sides are free surfaces (or untreated): leapfrog in the interior, `vz` mirrored at the top, zero
pressure on the free surfaces, everything else kept. -/
theorem step_spec (hp : Plain g) (m : Cell → K) (iy ix iz : Int) (hpt : Pt g iy ix iz) :
    at3 g (step g c1 c2 m) .vx iy ix iz = velNew g c1 c2 m .vx iy ix iz ∧
    at3 g (step g c1 c2 m) .vy iy ix iz = velNew g c1 c2 m .vy iy ix iz ∧
    at3 g (step g c1 c2 m) .vz iy ix iz =
      (if Mirrored g iy ix iz then velNew g c1 c2 m .vz iy ix (3 - iz) else velNew g c1 c2 m .vz iy ix iz) ∧
    (∀ b, step g c1 c2 m (.m b iy ix iz) = m (.m b iy ix iz)) ∧
    at3 g (step g c1 c2 m) .p iy ix iz =
      (if Freed g iy ix iz then 0
       else if In g .p iy ix iz then
         at3 g m .p iy ix iz - m (.m .l2m iy ix iz) *
          ((stag c1 c2 fun j => at3 g (step g c1 c2 m) .vx iy (ix + 1 + j) iz) +
           (stag c1 c2 fun j => at3 g (step g c1 c2 m) .vy (iy + 1 + j) ix iz) +
           (stag c1 c2 fun j => at3 g (step g c1 c2 m) .vz iy ix (iz + 1 + j)))
       else at3 g m .p iy ix iz) := by
  have hv := hp.toValid
  have nvz : ∀ {a : Fld} (i : Int), a ≠ .vz → ¬ Of .vz (.w a i) := by rintro a i ha ⟨j, h⟩; exact ha (Cell.w.inj h).1
  have npp : ∀ {a : Fld} (i : Int), a ≠ .p → ¬ Of .p (.w a i) := by rintro a i ha ⟨j, h⟩; exact ha (Cell.w.inj h).1
  obtain ⟨m1, hm1⟩ : ∃ m1, m1 = run (velPhase g c1 c2).flatten m := ⟨_, rfl⟩
  obtain ⟨m2, hm2⟩ : ∃ m2, m2 = run (mirror g).flatten m1 := ⟨_, rfl⟩
  have hs : step g c1 c2 m = run (freePhase g).flatten (run (pPhase g c1 c2).flatten m2) := by rw [step_eq, hm2, hm1]
  have hvel : ∀ a, a ≠ .p → ∀ jy jx jz, at3 g (step g c1 c2 m) a jy jx jz = at3 g m2 a jy jx jz := by
    intro a ha jy jx jz
    unfold at3
    rw [hs, free_other (npp _ ha)]
    exact sweep_other (a := .p) ha _ m2
  have h1 := fun a => (velocity_update (c1 := c1) (c2 := c2) hv m a iy ix iz hpt).1
  rw [← hm1] at h1
  refine ⟨?_, ?_, ?_, fun b => ?_, ?_⟩
  · rw [hvel _ (by simp), ← h1 .vx, hm2]
    exact mirror_other (nvz _ (by simp)) m1
  · rw [hvel _ (by simp), ← h1 .vy, hm2]
    exact mirror_other (nvz _ (by simp)) m1
  · rw [hvel _ (by simp)]
    split
    · next h =>
      have hpt' : Pt g iy ix (3 - iz) := by
        obtain ⟨-, a1, a2, a3, a4, a5⟩ := h
        exact mirror_pt hp a1 a2 a3 a4 (by omega) (by omega)
      rw [← (velocity_update (c1 := c1) (c2 := c2) hv m .vz iy ix (3 - iz) hpt').1, ← hm1, hm2]
      exact mirror_in hp h m1
    · next h =>
      rw [← h1 .vz, hm2]
      exact mirror_out hp hpt h m1
  · rw [hs, free_other (by rintro ⟨j, h⟩; cases h)]
    refine (sweep_med .p b iy ix iz m2).trans ?_
    rw [hm2, mirror_other (by rintro ⟨j, h⟩; cases h), hm1]
    exact vel_med b iy ix iz m
  · have hpm : at3 g m2 .p iy ix iz = at3 g m .p iy ix iz := by
      unfold at3
      rw [hm2, mirror_other (nvz _ (by simp)), hm1, vel_p]
    have hl : m2 (.m .l2m iy ix iz) = m (.m .l2m iy ix iz) := by
      rw [hm2, mirror_other (by rintro ⟨j, h⟩; cases h), hm1, vel_med]
    have h2 := (pressure_update (c1 := c1) (c2 := c2) hv m2 iy ix iz hpt).1
    have : at3 g (step g c1 c2 m) .p iy ix iz = if Freed g iy ix iz then 0 else at3 g (run (pPhase g c1 c2).flatten m2) .p iy ix iz := by
      unfold at3
      rw [hs, free_at hp hpt]
    rw [this, h2]
    simp only [pNew, hpm, hl, hvel .vx (by simp), hvel .vy (by simp), hvel .vz (by simp)]

/-- C176: every schedule of the threads gives the same fields after the velocity sweeps, and after the pressure sweep, for
all sizes and types of the sides. -/
theorem sweeps_schedule (hv : Valid g) (m m' : Cell → K) :
    (PhaseResult (velPhase g c1 c2) m m' → m' = run (velPhase g c1 c2).flatten m) ∧
    (PhaseResult (pPhase g c1 c2) m m' → m' = run (pPhase g c1 c2).flatten m) :=
  ⟨phase_result_unique (velPhase_free hv), phase_result_unique (phaseFree_of_pairwise (sweepOf_apart hv .p))⟩

/-- C176, partial: every schedule gives the same fields after a time step when the top is not a free surface (it does not
hold with one, `free_surface_race`). -/
theorem step_schedule_partial (hp : Plain g) (ht : g.top ≠ 1) (m m' : Cell → K) (h : ParResult (phases g c1 c2) m m') :
    m' = step g c1 c2 m := by
  refine parResult_unique' ?_ h
  have hv := hp.toValid
  intro ph hph
  simp only [phases, List.mem_cons, List.not_mem_nil, or_false] at hph
  rcases hph with rfl | rfl | rfl
  · exact .inl (velPhase_free hv)
  · left
    rw [mirror, if_neg ht]
    exact phaseFree_of_pairwise (sweepOf_apart hv .p)
  · exact .inr free_zero

/-- The phases with a barrier after the loop of boundaries3D.c:89-97. -/
def phasesB (g : Cfg) (c1 c2 : K) : List (List (List (Stmt Cell K))) :=
  [velPhase g c1 c2, mirror g, pPhase g c1 c2, freePhase g]

/-- C176: with a barrier after the mirroring at the free surface every schedule gives the result of one thread. -/
theorem step_schedule_barrier (hp : Plain g) (m m' : Cell → K) (h : ParResult (phasesB g c1 c2) m m') :
    m' = step g c1 c2 m := by
  have hv := hp.toValid
  have := parResult_unique' (phs := phasesB g c1 c2) ?_ h
  · rw [this, step_eq]
    unfold phasesB seqOf
    simp only [List.flatten_cons, List.flatten_nil, List.flatten_append, List.append_nil, run_append]
  · intro ph hph
    simp only [phasesB, List.mem_cons, List.not_mem_nil, or_false] at hph
    rcases hph with rfl | rfl | rfl | rfl
    · exact .inl (velPhase_free hv)
    · exact .inl (phaseFree_of_pairwise (mirror_apart hp))
    · exact .inl (phaseFree_of_pairwise (sweepOf_apart hv .p))
    · exact .inr free_zero

/-- The threads of the second loop of a phase may all run before those of the first one. -/
theorem phase_swap (A B : List (List (Stmt Cell K))) (m : Cell → K) :
    PhaseResult (A ++ B) m (run (B.flatten ++ A.flatten) m) := by
  have h := phase_order (A ++ B) m ((List.range B.length).map (A.length + ·) ++ List.range A.length) (by
    rw [List.length_append, List.range_add]
    exact List.perm_append_comm)
  have e : (((List.range B.length).map (A.length + ·) ++ List.range A.length).flatMap fun t => (A ++ B).getD t []) =
      B.flatten ++ A.flatten := by
    rw [List.flatMap_append, List.flatMap_map]
    congr 1
    · rw [List.flatMap_def]
      congr 1
      refine List.ext_getElem (by simp) fun i h1 h2 => ?_
      simp only [List.getElem_map, List.getElem_range, List.getD_eq_getElem?_getD]
      rw [List.getElem?_append_right (by omega)]
      simp [h2]
    · rw [List.flatMap_def]
      congr 1
      refine List.ext_getElem (by simp) fun i h1 h2 => ?_
      simp only [List.getElem_map, List.getElem_range, List.getD_eq_getElem?_getD]
      rw [List.getElem?_append_left (by omega)]
      simp [h2]
  rw [e] at h
  exact h

/-- C177: the time step is linear in the wave fields. -/
theorem step_linear (s t : K) (m1 m2 : Cell → K) (hm : ∀ a, fld a = false → m1 a = m2 a) :
    step g c1 c2 (comb fld s t m1 m2) = comb fld s t (step g c1 c2 m1) (step g c1 c2 m2) := by
  refine run_comb ?_ s t m1 m2 hm
  have h : ∀ a, All (fun s => fld s.dst = true ∧ s.e.lin fld = true) (sweepOf g c1 c2 a).flatten := fun a =>
    sweepOf_all fun iy ix iz h => by cases a <;> exact ⟨rfl, rfl⟩
  refine allP_cons ?_ (allP_cons ?_ (allP_one ?_))
  · rw [velPhase_eq, List.flatten_append, List.flatten_append]
    exact all_append (all_append (h _) (h _)) (h _)
  · rw [List.flatten_append]
    exact all_append (mirror_all fun _ iy ix _ _ _ _ => ⟨⟨rfl, rfl⟩, ⟨rfl, rfl⟩⟩) (h .p)
  · exact free_all fun _ _ _ _ => ⟨rfl, rfl⟩

end

/-! ## The race at the free surface -/

/-- Five points in each direction, all sides free. -/
def box : Cfg := ⟨5, 5, 5, 0, 1, 1, 1, 1, 1, 1⟩

theorem box_plain : Plain box := ⟨⟨by decide, by decide, by decide, by decide⟩, by decide, by decide, by decide, by decide,
  by decide, by decide⟩

/-- Unit media, `vz = 1` at one point below the surface, everything else at rest. -/
def pulse : Cell → ℚ
  | .w .vz i => if i = box.idx 2 2 2 then 1 else 0
  | .w _ _ => 0
  | .m _ _ _ _ => 1

open Classical in
theorem pulse_vel (a : Fld) (iy ix iz : Int) : velNew box (9/8) (-1/24) pulse a iy ix iz = at3 box pulse a iy ix iz := by
  have hp : ∀ jy jx jz, at3 box pulse .p jy jx jz = 0 := fun _ _ _ => rfl
  unfold velNew
  split
  · cases a <;> simp [hp, stag]
  · rfl

theorem pulse_at (a : Fld) (iy ix iz : Int) (h : Pt box iy ix iz) :
    at3 box (run (velPhase box (9/8) (-1/24)).flatten pulse) a iy ix iz = at3 box pulse a iy ix iz := by
  rw [(velocity_update box_plain.toValid pulse a iy ix iz h).1, pulse_vel]

/-- C176 fails at a free surface: the loop that mirrors `vz` (boundaries3D.c:89-97) is `nowait`, and the pressure sweep reads
the mirrored values without a barrier.  Two schedules of the same time step give different pressures inside the model. -/
theorem free_surface_race : ∃ m1 m2 : Cell → ℚ,
    ParResult (phases box (9/8) (-1/24)) pulse m1 ∧ ParResult (phases box (9/8) (-1/24)) pulse m2 ∧
    at3 box m1 .p 2 2 2 = 13/12 ∧ at3 box m2 .p 2 2 2 = 9/8 := by
  have box_sizes : box.nay = 9 ∧ box.nax = 9 ∧ box.naz = 9 := by decide
  have pt : ∀ {iy ix iz : Int}, 0 ≤ iy → iy < 9 → 0 ≤ ix → ix < 9 → 0 ≤ iz → iz < 9 → Pt box iy ix iz := by
    intro iy ix iz h1 h2 h3 h4 h5 h6
    unfold Pt
    rw [box_sizes.1, box_sizes.2.1, box_sizes.2.2]
    exact ⟨h1, h2, h3, h4, h5, h6⟩
  have p0 : Pt box 2 2 2 := pt (by decide) (by decide) (by decide) (by decide) (by decide) (by decide)
  have hin : In box .p 2 2 2 := by simp only [In]; decide
  have hnf : ¬ Freed box 2 2 2 := by simp only [Freed]; decide
  have hv := box_plain.toValid
  have seq : ∀ (ph : List (List (Stmt Cell ℚ))) m, PhaseResult ph m (run ph.flatten m) := fun ph m => by
    have := phase_swap [] ph m
    simpa using this
  refine ⟨step box (9/8) (-1/24) pulse,
    run (freePhase box).flatten (run ((pPhase box (9/8) (-1/24)).flatten ++ (mirror box).flatten)
      (run (velPhase box (9/8) (-1/24)).flatten pulse)), ?_, ?_, ?_, ?_⟩
  · rw [step_eq]
    refine .cons (seq _ _) (.cons (m1 := run (pPhase box (9/8) (-1/24)).flatten (run (mirror box).flatten
      (run (velPhase box (9/8) (-1/24)).flatten pulse))) ?_ (.cons (seq _ _) (.nil _)))
    have := seq (mirror box ++ pPhase box (9/8) (-1/24)) (run (velPhase box (9/8) (-1/24)).flatten pulse)
    rwa [List.flatten_append, run_append] at this
  · exact .cons (seq _ _) (.cons (phase_swap _ _ _) (.cons (seq _ _) (.nil _)))
  · have h := fun iy ix iz hpt => step_spec (c1 := (9/8 : ℚ)) (c2 := -1/24) box_plain pulse iy ix iz hpt
    rw [(h 2 2 2 p0).2.2.2.2, if_neg hnf, if_pos hin]
    have ex : ∀ j : Int, -2 ≤ j → j ≤ 1 → at3 box (step box (9/8) (-1/24) pulse) .vx 2 (2 + 1 + j) 2 = 0 := fun j a b => by
      rw [(h 2 (2 + 1 + j) 2 (pt (by omega) (by omega) (by omega) (by omega) (by omega) (by omega))).1, pulse_vel]; rfl
    have ey : ∀ j : Int, -2 ≤ j → j ≤ 1 → at3 box (step box (9/8) (-1/24) pulse) .vy (2 + 1 + j) 2 2 = 0 := fun j a b => by
      rw [(h (2 + 1 + j) 2 2 (pt (by omega) (by omega) (by omega) (by omega) (by omega) (by omega))).2.1, pulse_vel]; rfl
    have ez : ∀ j : Int, 2 ≤ j → j ≤ 4 → at3 box (step box (9/8) (-1/24) pulse) .vz 2 2 j = at3 box pulse .vz 2 2 j :=
      fun j a b => by
        rw [(h 2 2 j (pt (by omega) (by omega) (by omega) (by omega) (by omega) (by omega))).2.2.1, if_neg, pulse_vel]
        rintro ⟨-, -, -, -, -, h⟩; omega
    have e1 : at3 box (step box (9/8) (-1/24) pulse) .vz 2 2 1 = at3 box pulse .vz 2 2 2 := by
      rw [(h 2 2 1 (pt (by omega) (by omega) (by omega) (by omega) (by omega) (by omega))).2.2.1, if_pos, pulse_vel]
      · rfl
      · simp only [Mirrored]; decide
    simp only [stag]
    rw [ex 0 (by decide) (by decide), ex (-1) (by decide) (by decide), ex 1 (by decide) (by decide), ex (-2) (by decide) (by decide),
      ey 0 (by decide) (by decide), ey (-1) (by decide) (by decide), ey 1 (by decide) (by decide), ey (-2) (by decide) (by decide),
      show (2 + 1 + 0 : Int) = 3 by decide, show (2 + 1 + -1 : Int) = 2 by decide, show (2 + 1 + 1 : Int) = 4 by decide,
      show (2 + 1 + -2 : Int) = 1 by decide, ez 3 (by decide) (by decide), ez 2 (by decide) (by decide),
      ez 4 (by decide) (by decide), e1]
    decide +kernel
  · have n1 : ¬ Of .vz (.w .p (box.idx 2 2 2)) := by rintro ⟨i, h⟩; cases h
    unfold at3
    classical
    rw [free_at box_plain p0, if_neg hnf, run_append, mirror_other n1]
    have := (pressure_update (c1 := (9/8 : ℚ)) (c2 := -1/24) hv (run (velPhase box (9/8) (-1/24)).flatten pulse) 2 2 2 p0).1
    rw [if_pos hin] at this
    refine this.trans ?_
    have e : ∀ {iy ix iz : Int} (a : Fld), 0 ≤ iy ∧ iy < 9 → 0 ≤ ix ∧ ix < 9 → 0 ≤ iz ∧ iz < 9 →
        at3 box (run (velPhase box (9/8) (-1/24)).flatten pulse) a iy ix iz = at3 box pulse a iy ix iz :=
      fun a h1 h2 h3 => pulse_at a _ _ _ (pt h1.1 h1.2 h2.1 h2.2 h3.1 h3.2)
    simp only [pNew, stag]
    rw [vel_med]
    simp (discharger := decide) only [e]
    decide +kernel

/-- The settings of the theorems: a model with all kinds of sides, and the box. -/
example : Valid ⟨6, 5, 7, 5, 1, 2, 4, 3, 4, 2⟩ := ⟨by decide, by decide, by decide, by decide⟩

example : Pt box 2 2 2 ∧ In box .p 2 2 2 ∧ In box .vx 2 2 2 ∧ ¬ Freed box 2 2 2 ∧ Freed box 2 2 1 ∧ Mirrored box 2 2 1 := by
  refine ⟨?_, ?_, ?_, ?_, ?_, ?_⟩ <;> simp only [Pt, In, Freed, Mirrored] <;> decide

end Verif.Fd3

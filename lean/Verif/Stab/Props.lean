import Verif.Stab.Kernel
import Verif.Stab.Bound

/-!
# Which runs of the acoustic kernels stay bounded

`Stays`: the amplitudes of a run with no source are bounded for ever.  `BlowsUp`: no constant bounds the pressure.
-/

noncomputable section

namespace Verif.Stab

open Verif.Med

variable {p : Par} {q : Inp ℝ} {fac : ℝ} {rox roz l2m : X → ℝ} {s : St}

/-! ## Bounds on the differences -/

/-- Buoyancies at most `R`, moduli at most `M`. -/
theorem bound_simple {cs : List ℝ} {rx rz L : X → ℝ} {R M k : ℝ} (m : Medium rx rz L) (h1 : ∀ a, rx a ≤ R) (h2 : ∀ a, rz a ≤ R)
    (h3 : ∀ a, L a ≤ M) (hk : 8 * R * M * absSum cs ^ 2 ≤ k ^ 2) : Bound cs rx rz L k := by
  intro f hf
  have ff : Fin' f := m.fL.mono hf
  have hR : 0 ≤ R := le_trans (m.prx 0) (h1 0)
  have one : ∀ (d : Dir) (r : X → ℝ), (∀ a, 0 ≤ r a) → (∀ a, r a ≤ R) →
      S (fun a => r a * gradF d 0 cs f a ^ 2) ≤ R * ((2 * absSum cs) ^ 2 * S (fun a => f a ^ 2)) := by
    intro d r _ hr
    refine le_trans ?_ (mul_le_mul_of_nonneg_left (S_gradF d cs ff) hR)
    rw [← S_mul]
    refine S_le ((ff.gradF d 0 cs).sq.mul_left _) ((ff.gradF d 0 cs).sq.mul_left _) fun a => ?_
    exact mul_le_mul_of_nonneg_right (hr a) (sq_nonneg _)
  have e : S (fun a => f a ^ 2) ≤ M * S (fun a => f a ^ 2 / L a) := by
    rw [← S_mul]
    refine S_le ff.sq (ff.sqdiv.mul_left _) fun a => ?_
    by_cases hz : L a = 0
    · simp [hz, hf a hz]
    · have hp : 0 < L a := lt_of_le_of_ne (m.pL a) (Ne.symm hz)
      rw [mul_div_assoc', le_div_iff₀ hp]
      nlinarith [h3 a, sq_nonneg (f a)]
  have hS : 0 ≤ S (fun a => f a ^ 2 / L a) := S_nonneg fun a => by have := m.pL a; positivity
  calc _ ≤ R * ((2 * absSum cs) ^ 2 * S (fun a => f a ^ 2)) + R * ((2 * absSum cs) ^ 2 * S (fun a => f a ^ 2)) :=
        add_le_add (one .x rx m.prx h1) (one .z rz m.prz h2)
    _ ≤ R * ((2 * absSum cs) ^ 2 * (M * S (fun a => f a ^ 2 / L a))) + R * ((2 * absSum cs) ^ 2 * (M * S (fun a => f a ^ 2 / L a))) := by
        gcongr
    _ = 8 * R * M * absSum cs ^ 2 * S (fun a => f a ^ 2 / L a) := by ring
    _ ≤ _ := by gcongr

/-- Second order: the buoyancy of a face is at most two over the sum of the densities of its two cells, the modulus of a cell at
most density times velocity squared. -/
theorem bound_order2 {rx rz L ro : X → ℝ} {fac c k : ℝ} (m : Medium rx rz L) (hfac : 0 < fac) (hro : ∀ a, 0 < ro a)
    (h1 : ∀ a, rx a * (ro a + ro (mv .x (-1) a)) ≤ 2 * fac ∨ (rx a * ro (mv .x (-1) a) ≤ 2 * fac ∧ L a = 0))
    (h2 : ∀ a, rz a * (ro a + ro (mv .z (-1) a)) ≤ 2 * fac ∨ (rz a * ro (mv .z (-1) a) ≤ 2 * fac ∧ L a = 0))
    (h3 : ∀ a, L a ≤ fac * (c ^ 2 * ro a)) (hk : 8 * (fac * c) ^ 2 ≤ k ^ 2) : Bound [1] rx rz L k := by
  intro f hf
  have ff : Fin' f := m.fL.mono hf
  have fg : Fin' fun a => f a ^ 2 / ro a := ff.sqdiv
  have one : ∀ (d : Dir) (r : X → ℝ), (∀ a, 0 ≤ r a) →
      (∀ a, r a * (ro a + ro (mv d (-1) a)) ≤ 2 * fac ∨ (r a * ro (mv d (-1) a) ≤ 2 * fac ∧ L a = 0)) →
      S (fun a => r a * gradF d 0 [1] f a ^ 2) ≤ 4 * fac * S (fun a => f a ^ 2 / ro a) := by
    intro d r hr0 hr
    have e : 4 * fac * S (fun a => f a ^ 2 / ro a) =
        S (fun a => 2 * fac * (f a ^ 2 / ro a) + 2 * fac * (f (mv d (-1) a) ^ 2 / ro (mv d (-1) a))) := by
      have f1 : Fin' fun a => 2 * fac * (f a ^ 2 / ro a) := fg.mul_left _
      have f2 : Fin' fun a => 2 * fac * (f (mv d (-1) a) ^ 2 / ro (mv d (-1) a)) := (fg.shift d (-1)).mul_left fun _ => 2 * fac
      rw [S_add f1 f2, S_mul, S_mul, S_shift (f := fun a => f a ^ 2 / ro a)]; ring
    rw [e]
    refine S_le ((ff.gradF d 0 [1]).sq.mul_left _) ((fg.mul_left _).add ((fg.shift d (-1)).mul_left fun _ => 2 * fac)) fun a => ?_
    have hg : gradF d 0 [1] f a = f a - f (mv d (-1) a) := by simp [gradF, mv_zero]
    rw [hg]
    set x := f a with hx
    set y := f (mv d (-1) a) with hy
    set A := ro a with hA
    set B := ro (mv d (-1) a) with hB
    have hA0 : 0 < A := hro a
    have hB0 : 0 < B := hro _
    have hr' := hr0 a
    rcases hr a with h | ⟨h, hz⟩
    · -- (x-y)² ≤ (A+B)(x²/A+y²/B)
      have hcs : (x - y) ^ 2 ≤ (A + B) * (x ^ 2 / A + y ^ 2 / B) := by
        have : (A + B) * (x ^ 2 / A + y ^ 2 / B) - (x - y) ^ 2 = (B * x + A * y) ^ 2 / (A * B) := by field_simp; ring
        have : 0 ≤ (B * x + A * y) ^ 2 / (A * B) := by positivity
        linarith
      have hq : 0 ≤ x ^ 2 / A + y ^ 2 / B := by positivity
      calc r a * (x - y) ^ 2 ≤ r a * ((A + B) * (x ^ 2 / A + y ^ 2 / B)) := by gcongr
        _ = r a * (A + B) * (x ^ 2 / A + y ^ 2 / B) := by ring
        _ ≤ 2 * fac * (x ^ 2 / A + y ^ 2 / B) := by gcongr
        _ = _ := by ring
    · have hx0 : x = 0 := hf a hz
      rw [hx0]
      have hq : 0 ≤ y ^ 2 / B := by positivity
      calc r a * (0 - y) ^ 2 = r a * B * (y ^ 2 / B) := by field_simp; ring
        _ ≤ 2 * fac * (y ^ 2 / B) := by gcongr
        _ = _ := by simp
  have e : S (fun a => f a ^ 2 / ro a) ≤ fac * c ^ 2 * S (fun a => f a ^ 2 / L a) := by
    rw [← S_mul]
    refine S_le fg (ff.sqdiv.mul_left _) fun a => ?_
    by_cases hz : L a = 0
    · simp [hz, hf a hz]
    · have hp : 0 < L a := lt_of_le_of_ne (m.pL a) (Ne.symm hz)
      have := hro a
      rw [mul_div_assoc', div_le_div_iff₀ this hp]
      have := mul_le_mul_of_nonneg_left (h3 a) (sq_nonneg (f a))
      linarith
  have hS : 0 ≤ S (fun a => f a ^ 2 / L a) := S_nonneg fun a => by have := m.pL a; positivity
  calc _ ≤ 4 * fac * S (fun a => f a ^ 2 / ro a) + 4 * fac * S (fun a => f a ^ 2 / ro a) :=
        add_le_add (one .x rx m.prx h1) (one .z rz m.prz h2)
    _ ≤ 4 * fac * (fac * c ^ 2 * S (fun a => f a ^ 2 / L a)) + 4 * fac * (fac * c ^ 2 * S (fun a => f a ^ 2 / L a)) := by
        gcongr
    _ = 8 * (fac * c) ^ 2 * S (fun a => f a ^ 2 / L a) := by ring
    _ ≤ _ := by gcongr

/-! ## The medium parameters -/

theorem Made.pos (hm : Made p q fac rox roz l2m) (hfac : 0 < fac) (hro : ∀ i j, 0 < q.ro i j) :
    (∀ a, 0 ≤ rox a) ∧ (∀ a, 0 ≤ roz a) ∧ ∀ a, 0 ≤ l2m a := by
  refine ⟨fun a => ?_, fun a => ?_, fun a => ?_⟩
  · rw [hm.rox]; split
    · unfold medium; dsimp only; split
      · exact le_refl _
      · have h1 := hro (a.1 - ox p .rox) (a.2 - oz p .rox)
        have h2 := hro (rightOf p (a.1 - ox p .rox)) (a.2 - oz p .rox)
        positivity
    · exact le_refl _
  · rw [hm.roz]; split
    · unfold medium; dsimp only; split
      · exact le_refl _
      · have h1 := hro (a.1 - ox p .roz) (a.2 - oz p .roz)
        have h2 := hro (a.1 - ox p .roz) (below p (a.2 - oz p .roz))
        positivity
    · exact le_refl _
  · rw [hm.l2m]; split
    · unfold medium Inp.l2m; dsimp only
      have h1 := hro (a.1 - ox p .l2m) (a.2 - oz p .l2m)
      positivity
    · exact le_refl _

private theorem stays_of {k : ℝ} (hk : 0 < k) (hk2 : k < 2) (hp : (∀ a, 0 ≤ rox a) ∧ (∀ a, 0 ≤ roz a) ∧ ∀ a, 0 ≤ l2m a)
    (hb : Bound (kcoef p.iorder) (cutX p rox) (cutZ p roz) (cutP p l2m) k) (h : Inside p rox roz l2m s) :
    Stays fun n => ksteps p rox roz l2m n s := by
  have := stays hk hk2 (cut_medium hp.1 hp.2.1 hp.2.2) hb h.live
  obtain ⟨B, hB⟩ := this
  refine ⟨B, fun n a => ?_⟩
  dsimp only
  rw [ksteps_eq h.live]
  exact hB n a

/-- **Stability with bounded density contrast**, every order, every velocity model (air included): densities between `ρ1` and `ρ2`.  The
field stays bounded if twice the square of the Courant number times the sum of the absolute values of the coefficients, times
`ρ2/ρ1`, is below one. -/
theorem stable_contrast {ρ1 ρ2 c : ℝ} (hm : Made p q fac rox roz l2m) (hfac : 0 < fac) (hρ : 0 < ρ1)
    (hro : ∀ i j, ρ1 ≤ q.ro i j ∧ q.ro i j ≤ ρ2) (hc : ∀ i j, |q.cp i j| ≤ c)
    (hC : 2 * (c * fac * absSum (kcoef p.iorder)) ^ 2 * (ρ2 / ρ1) < 1) (h : Inside p rox roz l2m s) :
    Stays fun n => ksteps p rox roz l2m n s := by
  have hpos := hm.pos hfac fun i j => lt_of_lt_of_le hρ (hro i j).1
  have hc0 : 0 ≤ c := le_trans (abs_nonneg _) (hc 0 0)
  have hρ2 : 0 < ρ2 := lt_of_lt_of_le hρ (le_trans (hro 0 0).1 (hro 0 0).2)
  have r0 : ∀ i j i' j', fac / ((q.ro i j + q.ro i' j') / 2) ≤ fac / ρ1 := by
    intro i j i' j'
    have h1 := (hro i j).1
    have h2 := (hro i' j').1
    gcongr
    linarith
  have r1 : ∀ a, rox a ≤ fac / ρ1 := by
    intro a; rw [hm.rox]; split
    · unfold medium; dsimp only; split
      · positivity
      · exact r0 _ _ _ _
    · positivity
  have r2 : ∀ a, roz a ≤ fac / ρ1 := by
    intro a; rw [hm.roz]; split
    · unfold medium; dsimp only; split
      · positivity
      · exact r0 _ _ _ _
    · positivity
  have r3 : ∀ a, l2m a ≤ fac * (c ^ 2 * ρ2) := by
    intro a; rw [hm.l2m]; split
    · unfold medium Inp.l2m; dsimp only
      have := hc (a.1 - ox p .l2m) (a.2 - oz p .l2m)
      have h2 : q.cp (a.1 - ox p .l2m) (a.2 - oz p .l2m) ^ 2 ≤ c ^ 2 := by rw [← sq_abs]; gcongr
      have h3 := (hro (a.1 - ox p .l2m) (a.2 - oz p .l2m)).2
      have h4 := lt_of_lt_of_le hρ (hro (a.1 - ox p .l2m) (a.2 - oz p .l2m)).1
      gcongr
    · positivity
  have cm := cut_medium (p := p) hpos.1 hpos.2.1 hpos.2.2
  set A := absSum (kcoef p.iorder) with hA
  -- a number between
  set e := (c * fac * A) ^ 2 * (ρ2 / ρ1) with he
  have he0 : 0 ≤ e := by positivity
  have hC' : 2 * e < 1 := by rw [he]; linarith
  set k := Real.sqrt (2 + 4 * e) with hk
  have hk0 : 0 < k := Real.sqrt_pos.2 (by positivity)
  have hksq : k ^ 2 = 2 + 4 * e := Real.sq_sqrt (by positivity)
  have hk2 : k < 2 := by nlinarith
  refine stays_of hk0 hk2 hpos (bound_simple (R := fac / ρ1) (M := fac * (c ^ 2 * ρ2)) cm ?_ ?_ ?_ ?_) h
  · intro a; unfold cutX; split
    · exact r1 a
    · positivity
  · intro a; unfold cutZ; split
    · exact r2 a
    · positivity
  · intro a; unfold cutP; split
    · exact r3 a
    · positivity
  · rw [hksq, ← hA]
    have e' : 8 * (fac / ρ1) * (fac * (c ^ 2 * ρ2)) * A ^ 2 = 8 * e := by rw [he]; field_simp
    rw [e']; linarith

/-- **Stability with constant density**, every order, every velocity model (air included): the field stays bounded if the Courant
number times the square root of two times the sum of the absolute values of the coefficients is below one. -/
theorem stable_constant_density {ρ c : ℝ} (hm : Made p q fac rox roz l2m) (hfac : 0 < fac) (hρ : 0 < ρ) (hro : ∀ i j, q.ro i j = ρ)
    (hc : ∀ i j, |q.cp i j| ≤ c) (hC : 2 * (c * fac * absSum (kcoef p.iorder)) ^ 2 < 1) (h : Inside p rox roz l2m s) :
    Stays fun n => ksteps p rox roz l2m n s :=
  stable_contrast (ρ1 := ρ) (ρ2 := ρ) hm hfac hρ (fun i j => by rw [hro]; exact ⟨le_refl _, le_refl _⟩) hc
    (by rw [div_self hρ.ne', mul_one]; exact hC) h

/-- **Stability of the second-order scheme**, for every velocity and density model: the field stays bounded if the Courant number
is below one over the square root of two everywhere. -/
theorem stable_order2 {c : ℝ} (hv : Valid p) (hp : Plain p) (ho : p.iorder = 2) (hm : Made p q fac rox roz l2m) (hfac : 0 < fac)
    (hro : ∀ i j, 0 < q.ro i j) (hc : ∀ i j, |q.cp i j| ≤ c) (hC : 2 * (c * fac) ^ 2 < 1) (h : Inside p rox roz l2m s) :
    Stays fun n => ksteps p rox roz l2m n s := by
  have hpos := hm.pos hfac hro
  have hc0 : 0 ≤ c := le_trans (abs_nonneg _) (hc 0 0)
  have cm := cut_medium (p := p) hpos.1 hpos.2.1 hpos.2.2
  have pl : p.pad p.lef = 0 := by unfold Par.pad; rcases hp.lef with h | h <;> rw [h] <;> simp
  have pr : p.pad p.rig = 0 := by unfold Par.pad; rcases hp.rig with h | h <;> rw [h] <;> simp
  have pb : p.pad p.bot = 0 := by unfold Par.pad; rcases hp.bot with h | h <;> rw [h] <;> simp
  have pt : p.pad p.top = 0 := by unfold Par.pad; rw [hp.top]; simp
  have pa : p.add = 0 := by unfold Par.add; rw [hp.top]; simp
  have hnx := hv.nx
  have hnz := hv.nz
  set ro : X → ℝ := fun a => q.ro a.1 a.2 with hrod
  have kb : Real.sqrt (2 + 4 * (c * fac) ^ 2) ^ 2 = 2 + 4 * (c * fac) ^ 2 := Real.sq_sqrt (by positivity)
  have kp : 0 < Real.sqrt (2 + 4 * (c * fac) ^ 2) := Real.sqrt_pos.2 (by positivity)
  refine stays_of (k := Real.sqrt (2 + 4 * (c * fac) ^ 2)) kp (by nlinarith) hpos ?_ h
  have ek : kcoef p.iorder = [1] := by rw [ho]; simp [kcoef]
  rw [ek]
  -- outside the model the modulus is zero
  have hout : ∀ a : X, ¬ inP p a → cutP p l2m a = 0 := fun a ha => by simp [cutP, ha]
  refine bound_order2 (ro := ro) (fac := fac) (c := c) cm hfac (fun a => hro _ _) ?_ ?_ ?_ (by rw [kb, mul_comm fac c]; linarith)
  · intro a
    have hr : ro (mv .x (-1) a) = q.ro (a.1 - 1) a.2 := rfl
    rw [hr]
    by_cases hi : inX p a ∧ inBox p .rox a.1 a.2
    · obtain ⟨hi, hb⟩ := hi
      have e : cutX p rox a = if q.cp (a.1 - 1) a.2 = 0 then 0 else fac / ((q.ro (a.1 - 1) a.2 + q.ro (rightOf p (a.1 - 1)) a.2) / 2) := by
        have e1 : a.1 - ox p .rox = a.1 - 1 := by simp only [ox, ho, pl]; norm_num
        have e2 : a.2 - oz p .rox = a.2 := by simp only [oz, ho, pt, pa]; norm_num
        simp only [cutX, if_pos hi, hm.rox, if_pos hb, medium, e1, e2]
      have d1 := hro (a.1 - 1) a.2
      by_cases hlast : a.1 < p.nx
      · left
        have er : rightOf p (a.1 - 1) = a.1 := by unfold rightOf; omega
        have d2 := hro a.1 a.2
        rw [e, er]
        split
        · simp; positivity
        · apply le_of_eq; show _ * (q.ro a.1 a.2 + _) = _; field_simp; ring
      · right
        have er : rightOf p (a.1 - 1) = p.nx - 1 := by unfold rightOf; omega
        have h1 : a.1 = p.nx := by
          have := hi.1.2
          simp only [Par.ieXx, ho, pl] at this; omega
        rw [e, er]
        constructor
        · split
          · simp; positivity
          · rw [h1]
            have d3 := hro (p.nx - 1) a.2
            rw [show (q.ro (p.nx - 1) a.2 + q.ro (p.nx - 1) a.2) / 2 = q.ro (p.nx - 1) a.2 by ring, div_mul_cancel₀ _ d3.ne']
            linarith
        · apply hout
          intro hc
          have := hc.1.2
          simp only [Par.iePx, ho, pl, pr] at this; omega
    · left
      have : cutX p rox a = 0 := by
        unfold cutX; split
        · rename_i h1
          rw [hm.rox, if_neg fun hb => hi ⟨h1, hb⟩]
        · rfl
      rw [this]; simp; positivity
  · intro a
    have hr : ro (mv .z (-1) a) = q.ro a.1 (a.2 - 1) := rfl
    rw [hr]
    by_cases hi : inZ p a ∧ inBox p .roz a.1 a.2
    · obtain ⟨hi, hb⟩ := hi
      have e : cutZ p roz a = if q.cp a.1 (a.2 - 1) = 0 then 0 else fac / ((q.ro a.1 (a.2 - 1) + q.ro a.1 (below p (a.2 - 1))) / 2) := by
        have e1 : a.1 - ox p .roz = a.1 := by simp only [ox, ho, pl]; norm_num
        have e2 : a.2 - oz p .roz = a.2 - 1 := by simp only [oz, ho, pt, pa]; norm_num
        simp only [cutZ, if_pos hi, hm.roz, if_pos hb, medium, e1, e2]
      have d1 := hro a.1 (a.2 - 1)
      by_cases hlast : a.2 < p.nz
      · left
        have er : below p (a.2 - 1) = a.2 := by unfold below; omega
        have d2 := hro a.1 a.2
        rw [e, er]
        split
        · simp; positivity
        · apply le_of_eq; show _ * (q.ro a.1 a.2 + _) = _; field_simp; ring
      · right
        have er : below p (a.2 - 1) = p.nz - 1 := by unfold below; omega
        have h1 : a.2 = p.nz := by
          have := hi.2.2
          simp only [Par.ieZz, ho, pt, pa] at this; omega
        rw [e, er]
        constructor
        · split
          · simp; positivity
          · rw [h1]
            have d3 := hro a.1 (p.nz - 1)
            rw [show (q.ro a.1 (p.nz - 1) + q.ro a.1 (p.nz - 1)) / 2 = q.ro a.1 (p.nz - 1) by ring, div_mul_cancel₀ _ d3.ne']
            linarith
        · apply hout
          intro hc
          have := hc.2.2
          simp only [Par.iePz, ho, pt, pb, pa] at this; omega
    · left
      have : cutZ p roz a = 0 := by
        unfold cutZ; split
        · rename_i h1
          rw [hm.roz, if_neg fun hb => hi ⟨h1, hb⟩]
        · rfl
      rw [this]; simp; positivity
  · intro a
    have d := hro a.1 a.2
    unfold cutP; split
    · rw [hm.l2m]; split
      · have e1 : a.1 - ox p .l2m = a.1 := by simp only [ox, ho, pl]; norm_num
        have e2 : a.2 - oz p .l2m = a.2 := by simp only [oz, ho, pt, pa]; norm_num
        simp only [medium, Inp.l2m, e1, e2]
        have h2 : q.cp a.1 a.2 ^ 2 ≤ c ^ 2 := by rw [← sq_abs]; have := hc a.1 a.2; gcongr
        show _ ≤ fac * (c ^ 2 * q.ro a.1 a.2)
        gcongr
      · show 0 ≤ fac * (c ^ 2 * q.ro a.1 a.2); positivity
    · show 0 ≤ fac * (c ^ 2 * q.ro a.1 a.2); positivity

end Verif.Stab

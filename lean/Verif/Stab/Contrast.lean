import Verif.Stab.Check

/-!
# Density contrasts

The buoyancy of a face is one over the mean density of its two neighbours, but from order 4 on the difference at a face also takes
cells further away.  If such a cell is much heavier than the face, the scheme is unstable, for every time step; the check of
getParameters.c looks at the velocity only.
-/

noncomputable section

namespace Verif.Stab

open Verif.Med

variable {p : Par} {q : Inp ℝ} {fac : ℝ} {rox roz l2m : X → ℝ} {s : St}

/-- One cell. -/
def one (x : X) : X → ℝ := fun a => if a = x then 1 else 0

private theorem gradF_zero (d : Dir) (cs : List ℝ) (f : X → ℝ) (a : X) (k : ℕ)
    (h : ∀ j : ℤ, (k : ℤ) ≤ j → f (mv d j a) = 0 ∧ f (mv d (-1 - j) a) = 0) : gradF d k cs f a = 0 := by
  induction cs generalizing k with
  | nil => rfl
  | cons c cs ih =>
    simp only [gradF]
    have h1 := h k (le_refl _)
    rw [ih (k + 1) (fun j hj => h j (by push_cast at hj; omega)), h1.1, h1.2]
    ring

/-- The difference two faces further on, and two faces back. -/
private theorem gradF_far (d : Dir) (c1 c2 : ℝ) (cs : List ℝ) (x : X) :
    gradF d 0 (c1 :: c2 :: cs) (one x) (mv d 2 x) = -c2 ∧ gradF d 0 (c1 :: c2 :: cs) (one x) (mv d (-1) x) = c2 := by
  have z : ∀ j : ℤ, j ≠ 0 → one x (mv d j x) = 0 := by
    intro j hj
    unfold one
    rw [if_neg]
    intro he
    cases d <;> simp [mv] at he
    · have := congrArg Prod.fst he; simp at this; exact hj this
    · have := congrArg Prod.snd he; simp at this; exact hj this
  have o : one x (mv d 0 x) = 1 := by rw [mv_zero]; simp [one]
  constructor
  · have hz : gradF d 2 cs (one x) (mv d 2 x) = 0 := gradF_zero d cs _ _ 2 (by
      intro j hj
      rw [mv_mv, mv_mv]
      push_cast at hj
      exact ⟨z _ (by omega), z _ (by omega)⟩)
    simp only [gradF, mv_mv]
    push_cast
    rw [hz, z 2 (by norm_num), z 1 (by norm_num), z 3 (by norm_num), o]
    ring
  · have hz : gradF d 2 cs (one x) (mv d (-1) x) = 0 := gradF_zero d cs _ _ 2 (by
      intro j hj
      rw [mv_mv, mv_mv]
      push_cast at hj
      exact ⟨z _ (by omega), z _ (by omega)⟩)
    simp only [gradF, mv_mv]
    push_cast
    rw [hz, z (-1) (by norm_num), z (-2) (by norm_num), z (-3) (by norm_num), o]
    ring

private theorem two_le {f : X → ℝ} (hf : Fin' f) (h0 : ∀ a, 0 ≤ f a) {a b : X} (hab : a ≠ b) : f a + f b ≤ S f := by
  have h1 : ∑ x ∈ ({a, b} : Finset X), f x ≤ S f := hf.summable.sum_le_tsum _ fun a _ => h0 a
  rwa [Finset.sum_pair hab] at h1

/-- **A heavy grain makes the scheme unstable**, for every order above 2 and every Courant number: constant velocity, one cell of
density `ρh` in a medium of density `ρl`.  If `ρl < (Courant number · second coefficient)² ρh`, then there is, however small, an
initial field that grows beyond every bound. -/
theorem unstable_grain {ρl ρh c c1 c2 : ℝ} {cs : List ℝ} {i0 j0 : ℤ} (hp : Plain p) (hv : Valid p) (ho : p.iorder ≠ 2)
    (hk : kcoef p.iorder = c1 :: c2 :: cs) (hm : Made p q fac rox roz l2m) (hfac : 0 < fac) (hl : 0 < ρl) (hh : 0 < ρh)
    (hro : ∀ i j, q.ro i j = if i = i0 ∧ j = j0 then ρh else ρl) (hc0 : 0 < c) (hc : ∀ i j, q.cp i j = c)
    (hi : 2 ≤ i0 ∧ i0 + 1 < p.nx) (hj : 2 ≤ j0 ∧ j0 + 1 < p.nz) (hbig : ρl < (c * fac * c2) ^ 2 * ρh) {ε : ℝ} (hε : 0 < ε) :
    ∃ s, Inside p rox roz l2m s ∧ (∀ a, |s.vx a| ≤ ε ∧ |s.vz a| ≤ ε ∧ |s.p a| ≤ ε) ∧ BlowsUp fun n => ksteps p rox roz l2m n s := by
  have hpos := hm.pos hfac fun i j => by rw [hro]; split <;> assumption
  have cm := cut_medium (p := p) hpos.1 hpos.2.1 hpos.2.2
  have pl : p.pad p.lef = 0 := by unfold Par.pad; rcases hp.lef with h | h <;> rw [h] <;> simp
  have pr : p.pad p.rig = 0 := by unfold Par.pad; rcases hp.rig with h | h <;> rw [h] <;> simp
  have pb : p.pad p.bot = 0 := by unfold Par.pad; rcases hp.bot with h | h <;> rw [h] <;> simp
  have pt : p.pad p.top = 0 := by unfold Par.pad; rw [hp.top]; simp
  have pa : p.add = 0 := by unfold Par.add; rw [hp.top]; simp
  have hio := hv.iorder
  obtain ⟨K, hK⟩ : ∃ K, p.iorder / 2 = K := ⟨_, rfl⟩
  have hK1 : 1 ≤ K := by omega
  set x0 : X := (i0 + (K - 1), j0 + (K - 1)) with hx0
  have hin : inP p x0 ∧ ¬ freeCell p x0 := by
    unfold inP freeCell
    simp only [hx0, Par.ioPx, Par.ioPz, Par.iePx, Par.iePz, pl, pr, pt, pb, pa, hK]
    omega
  set M := fac * (c ^ 2 * ρh) with hM
  have hM0 : 0 < M := by positivity
  have eL : cutP p l2m x0 = M := by
    have hb : inBox p .l2m x0.1 x0.2 := by simp only [hx0, inBox, ox, oz, pl, pr, pt, pb, pa, hK]; omega
    have e1 : x0.1 - ox p .l2m = i0 := by simp only [hx0, ox, pl, hK]; omega
    have e2 : x0.2 - oz p .l2m = j0 := by simp only [hx0, oz, pt, pa, hK]; omega
    simp only [cutP, if_pos hin, hm.l2m, if_pos hb, medium, Inp.l2m, hc, hro, e1, e2]
    simp [hM]
  have eX : ∀ a : X, a = mv .x 2 x0 ∨ a = mv .x (-1) x0 → cutX p rox a = fac / ρl := by
    intro a ha
    have hX : inX p a := by
      unfold inX
      rcases ha with rfl | rfl <;>
      · simp only [mv, hx0, Par.ioXx, Par.ieXx, Par.ioXz, Par.ieXz, pl, pt, pa, hK]; omega
    have hb : inBox p .rox a.1 a.2 := by
      rcases ha with rfl | rfl <;>
      · simp only [mv, hx0, inBox, ox, oz, pl, pr, pt, pb, pa, hK]; omega
    have e1 : a.1 - ox p .rox = i0 + 1 ∨ a.1 - ox p .rox = i0 - 2 := by
      rcases ha with rfl | rfl
      · left; simp only [mv, hx0, ox, pl, hK]; omega
      · right; simp only [mv, hx0, ox, pl, hK]; omega
    have r1 : ¬ (a.1 - ox p .rox = i0 ∧ a.2 - oz p .rox = j0) := by omega
    have r2 : ¬ (rightOf p (a.1 - ox p .rox) = i0 ∧ a.2 - oz p .rox = j0) := by unfold rightOf; omega
    simp only [cutX, if_pos hX, hm.rox, if_pos hb, medium, hc, hro, if_neg hc0.ne', if_neg r1, if_neg r2]
    congr 1; ring
  have eZ : ∀ a : X, a = mv .z 2 x0 ∨ a = mv .z (-1) x0 → cutZ p roz a = fac / ρl := by
    intro a ha
    have hX : inZ p a := by
      unfold inZ
      rcases ha with rfl | rfl <;>
      · simp only [mv, hx0, zx0, zx1, if_neg ho, Par.ioZx, Par.ieZx, Par.ioZz, Par.ieZz, pl, pt, pa, hK]; omega
    have hb : inBox p .roz a.1 a.2 := by
      rcases ha with rfl | rfl <;>
      · simp only [mv, hx0, inBox, ox, oz, pl, pr, pt, pb, pa, hK]; omega
    have e1 : a.2 - oz p .roz = j0 + 1 ∨ a.2 - oz p .roz = j0 - 2 := by
      rcases ha with rfl | rfl
      · left; simp only [mv, hx0, oz, pt, pa, hK]; omega
      · right; simp only [mv, hx0, oz, pt, pa, hK]; omega
    have r1 : ¬ (a.1 - ox p .roz = i0 ∧ a.2 - oz p .roz = j0) := by omega
    have r2 : ¬ (a.1 - ox p .roz = i0 ∧ below p (a.2 - oz p .roz) = j0) := by unfold below; omega
    simp only [cutZ, if_pos hX, hm.roz, if_pos hb, medium, hc, hro, if_neg hc0.ne', if_neg r1, if_neg r2]
    congr 1; ring
  have hw : ∀ a, cutP p l2m a = 0 → one x0 a = 0 := by
    intro a ha
    unfold one
    split
    · rename_i h; rw [h, eL] at ha; exact absurd ha hM0.ne'
    · rfl
  have fw : Fin' (one x0) := cm.fL.mono hw
  have energy : S (fun a => one x0 a ^ 2 / cutP p l2m a) = 1 / M := by
    unfold S
    rw [tsum_eq_single x0]
    · simp [one, eL]
    · intro a ha; simp [one, ha]
  have neX : mv .x 2 x0 ≠ mv .x (-1) x0 := by intro h; have := congrArg Prod.fst h; simp [mv] at this
  have neZ : mv .z 2 x0 ≠ mv .z (-1) x0 := by intro h; have := congrArg Prod.snd h; simp [mv] at this
  have gx := two_le (f := fun a => cutX p rox a * gradF .x 0 (kcoef p.iorder) (one x0) a ^ 2)
    ((fw.gradF .x 0 _).sq.mul_left _) (fun a => mul_nonneg (cm.prx a) (sq_nonneg _)) neX
  have gz := two_le (f := fun a => cutZ p roz a * gradF .z 0 (kcoef p.iorder) (one x0) a ^ 2)
    ((fw.gradF .z 0 _).sq.mul_left _) (fun a => mul_nonneg (cm.prz a) (sq_nonneg _)) neZ
  rw [eX _ (Or.inl rfl), eX _ (Or.inr rfl)] at gx
  rw [eZ _ (Or.inl rfl), eZ _ (Or.inr rfl)] at gz
  rw [hk] at gx gz
  rw [(gradF_far .x c1 c2 cs x0).1, (gradF_far .x c1 c2 cs x0).2] at gx
  rw [(gradF_far .z c1 c2 cs x0).1, (gradF_far .z c1 c2 cs x0).2] at gz
  have big : 4 * S (fun a => one x0 a ^ 2 / cutP p l2m a) <
      S (fun a => cutX p rox a * gradF .x 0 (kcoef p.iorder) (one x0) a ^ 2) +
        S (fun a => cutZ p roz a * gradF .z 0 (kcoef p.iorder) (one x0) a ^ 2) := by
    rw [energy, hk]
    refine lt_of_lt_of_le ?_ (add_le_add gx gz)
    have e : 1 / M < fac / ρl * c2 ^ 2 := by
      rw [div_mul_eq_mul_div, div_lt_div_iff₀ hM0 hl, hM]
      linarith [show fac * c2 ^ 2 * (fac * (c ^ 2 * ρh)) = (c * fac * c2) ^ 2 * ρh by ring]
    nlinarith
  obtain ⟨s, hl', hs, hb⟩ := blows_up cm hw big hε
  refine ⟨s, ⟨fun a ha => hl'.vx a ?_, fun a ha => hl'.vz a ?_, fun a ha => hl'.p a ?_⟩, hs, ?_⟩
  · unfold cutX; split
    · rename_i h; exact ha.resolve_left (not_not.2 h)
    · rfl
  · unfold cutZ; split
    · rename_i h; exact ha.resolve_left (not_not.2 h)
    · rfl
  · unfold cutP; split
    · rename_i h; exact (ha.resolve_left (not_not.2 h.1)).resolve_left h.2
    · rfl
  · intro B
    obtain ⟨n, a, h⟩ := hb B
    refine ⟨n, a, ?_⟩
    dsimp only at h ⊢
    rw [ksteps_eq hl']; exact h

/-- One grain in the middle of ten by ten points. -/
def grain (c ρ : ℝ) : Inp ℝ := { cp := fun _ _ => c, cs := fun _ _ => 0, ro := fun i j => if i = 5 ∧ j = 5 then ρ else 1 }

private theorem second {iorder : ℤ} (ho : iorder = 4 ∨ iorder = 6 ∨ iorder = 16) :
    ∃ c1 c2 cs, kcoef iorder = c1 :: c2 :: cs ∧ c2 ≠ 0 := by
  rcases ho with rfl | rfl | rfl
  · exact ⟨_, _, _, by simp only [kcoef]; norm_num; exact ⟨rfl, rfl, rfl⟩, by norm_num⟩
  · exact ⟨_, _, _, by simp only [kcoef]; norm_num; exact ⟨rfl, rfl, rfl⟩, by norm_num⟩
  · exact ⟨_, _, _, by simp only [kcoef]; norm_num; exact ⟨rfl, rfl, rfl⟩, by norm_num⟩

/-- **No time step is small enough for every density model** (order 4, 6 and 16): whatever the velocity, time step and grid
distance, there is a density model with two values on which fields as small as one likes grow beyond every bound. -/
theorem no_time_step {iorder : ℤ} (ho : iorder = 4 ∨ iorder = 6 ∨ iorder = 16) {c dt dx : ℝ} (hc : 0 < c) (hdt : 0 < dt)
    (hdx : 0 < dx) : ∃ ρ > 0, ∀ ε > 0, ∃ s,
      Inside (box iorder 10) (arr (box iorder 10) (grain c ρ) (dt / dx) .rox) (arr (box iorder 10) (grain c ρ) (dt / dx) .roz)
        (arr (box iorder 10) (grain c ρ) (dt / dx) .l2m) s ∧
      (∀ a, |s.vx a| ≤ ε ∧ |s.vz a| ≤ ε ∧ |s.p a| ≤ ε) ∧
      BlowsUp fun n => ksteps (box iorder 10) (arr (box iorder 10) (grain c ρ) (dt / dx) .rox)
        (arr (box iorder 10) (grain c ρ) (dt / dx) .roz) (arr (box iorder 10) (grain c ρ) (dt / dx) .l2m) n s := by
  obtain ⟨c1, c2, cs, hk, h2⟩ := second ho
  have hfac : 0 < dt / dx := div_pos hdt hdx
  have hq : 0 < (c * (dt / dx) * c2) ^ 2 := by
    have : c * (dt / dx) * c2 ≠ 0 := mul_ne_zero (by positivity) h2
    positivity
  refine ⟨2 / (c * (dt / dx) * c2) ^ 2, by positivity, fun ε hε => ?_⟩
  refine unstable_grain (i0 := 5) (j0 := 5) (ρl := 1) (c := c) ⟨Or.inr rfl, Or.inr rfl, Or.inr rfl, rfl⟩
    ⟨by norm_num [box], by norm_num [box], ?_, ?_, le_refl _, le_refl _⟩ ?_ hk (arr_made _ _ _) hfac one_pos
    (ρh := 2 / (c * (dt / dx) * c2) ^ 2) (by positivity) (fun i j => rfl) hc (fun _ _ => rfl) (by norm_num [box]) (by norm_num [box]) ?_ hε
  · simp only [box]; omega
  · simp only [box]; omega
  · simp only [box]; omega
  · rw [mul_div_cancel₀ _ hq.ne']; norm_num

/-- A run of order 16 with Courant number 0.44. -/
def smooth : Info.Run := { iorder := 16, ischeme := 1, cp := [[2000]], cs := [], dx := 10, dt := 22 / 10000, fmax := 30 }

/-- **The check lets unstable runs of order 16 through as well** when the density varies: a grain of density 1000 in a medium of
density 1, constant velocity, Courant number 0.44. -/
theorem accepted_unstable_density : ∃ p q rox roz l2m, smooth.accepted = some true ∧ Of smooth p q rox roz l2m ∧
    (∀ i j, q.ro i j = 1 ∨ q.ro i j = 1000) ∧ ∀ ε > 0, ∃ s, Inside p rox roz l2m s ∧
      (∀ a, |s.vx a| ≤ ε ∧ |s.vz a| ≤ ε ∧ |s.p a| ≤ ε) ∧ BlowsUp fun n => ksteps p rox roz l2m n s := by
  have hval : Valid (box 16 10) := ⟨by norm_num [box], by norm_num [box], by norm_num [box], by norm_num [box], le_refl _, le_refl _⟩
  have hpl : Plain (box 16 10) := ⟨Or.inr rfl, Or.inr rfl, Or.inr rfl, rfl⟩
  refine ⟨box 16 10, grain 2000 1000, _, _, _, ?_, ⟨hval, hpl, rfl, ?_, ?_, by norm_num [smooth], by norm_num [smooth], ?_, arr_made _ _ _⟩,
    ?_, fun ε hε => ?_⟩
  · norm_num [Info.Run.accepted, smooth, Info.dispfactor, Info.stabfactor, Info.modelInfo, Info.Run.csMin, Info.Run.elastic, Info.skipZero,
      Info.sample, Info.MAX, Info.MIN, Info.cminOf]
  · intro i j; simp [smooth, grain]
  · intro c hc; simp [smooth] at hc; rw [hc]; norm_num
  · intro i j; simp only [grain]; split <;> norm_num
  · intro i j; simp only [grain]; split
    · exact Or.inr rfl
    · exact Or.inl rfl
  · refine unstable_grain (i0 := 5) (j0 := 5) (ρl := 1) (ρh := 1000) (c := 2000) (c2 := -(1280347 / 10000000)) hpl hval (by norm_num [box])
      (by simp only [kcoef, box]; norm_num; exact ⟨rfl, rfl⟩)
      (arr_made _ _ _) (by norm_num [smooth]) one_pos (by norm_num) (fun i j => rfl) (by norm_num) (fun _ _ => rfl) (by norm_num [box])
      (by norm_num [box]) (by norm_num [smooth]) hε

end Verif.Stab

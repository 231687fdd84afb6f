import Verif.Stab.Limit

/-! # Accepted runs: which are stable, and which are not -/

noncomputable section

namespace Verif.Stab

open Verif.Med

variable {p : Par} {q : Inp ℝ} {rox roz l2m : X → ℝ} {s : St}

/-- The grid of a run: order and scheme are those of the run, the velocities come from its file, and the factor is `dt/dx`. -/
structure Of (r : Info.Run) (p : Par) (q : Inp ℝ) (rox roz l2m : X → ℝ) : Prop where
  valid : Valid p
  plain : Plain p
  order : p.iorder = r.iorder
  cp : ∀ i j, q.cp i j ∈ r.cp.flatten
  pos : ∀ c ∈ r.cp.flatten, 0 ≤ c
  dx : 0 < r.dx
  dt : 0 < r.dt
  ro : ∀ i j, 0 < q.ro i j
  made : Made p q (r.dt / r.dx) rox roz l2m

theorem absSum16 : absSum (kcoef 16) < 145 / 100 := by
  norm_num [absSum, kcoef, abs_of_pos, abs_of_neg]

theorem absSum4 : absSum (kcoef 4) = 117205612 / 100000000 := by norm_num [absSum, kcoef, abs_of_pos]

theorem absSum6 : absSum (kcoef 6) = 149 / 120 := by norm_num [absSum, kcoef, abs_of_pos]

theorem altSum4 : altSum 0 (kcoef 4) = 117205612 / 100000000 := by norm_num [altSum, kcoef, sg, Int.even_iff]

theorem altSum6 : altSum 0 (kcoef 6) = 149 / 120 := by norm_num [altSum, kcoef, sg, Int.even_iff]

private theorem courant {r : Info.Run} (h : Of r p q rox roz l2m) (ha : r.accepted = some true) :
    ∃ stab, Info.Allowed r.iorder stab ∧ ∀ i j, |q.cp i j| ≤ stab * r.dx / r.dt := by
  obtain ⟨stab, hs, hc⟩ := Info.courant_everywhere ha h.dt
  refine ⟨stab, hs, fun i j => ?_⟩
  have h1 := hc _ (h.cp i j)
  rw [abs_of_nonneg (h.pos _ (h.cp i j)), le_div_iff₀ h.dt]
  exact h1

/-- **Order 16: every accepted run with constant density is stable.** -/
theorem accepted_stable16 {r : Info.Run} (h : Of r p q rox roz l2m) (ha : r.accepted = some true) (ho : r.iorder = 16) {ρ : ℝ}
    (hro : ∀ i j, q.ro i j = ρ) (hs : Inside p rox roz l2m s) : Stays fun n => ksteps p rox roz l2m n s := by
  obtain ⟨stab, hst, hc⟩ := courant h ha
  have e : stab = 45 / 100 := by
    rw [ho] at hst
    rcases hst with h | h | h
    · omega
    · omega
    · exact h.2
  subst e
  have hdx := h.dx
  have hdt := h.dt
  refine stable_constant_density h.made (div_pos hdt hdx) (by rw [← hro 0 0]; exact h.ro 0 0) hro hc ?_ hs
  have e : 45 / 100 * r.dx / r.dt * (r.dt / r.dx) = 45 / 100 := by field_simp
  rw [e, h.order, ho]
  have h1 := absSum16
  have h2 := absSum_nonneg (kcoef 16)
  nlinarith

/-- **Order 2: every accepted run is stable**, for every velocity and density model, if the Courant number stays below the limit
itself (the check also admits equality). -/
theorem accepted_stable2_partial {r : Info.Run} (h : Of r p q rox roz l2m) (ho : r.iorder = 2)
    (hlt : ∀ c ∈ r.cp.flatten, c * r.dt < 1 / Real.sqrt 2 * r.dx) (hs : Inside p rox roz l2m s) :
    Stays fun n => ksteps p rox roz l2m n s := by
  have hdx := h.dx
  have hdt := h.dt
  -- the largest velocity
  have hne : r.cp.flatten ≠ [] := List.ne_nil_of_mem (h.cp 0 0)
  obtain ⟨c, hcm, hcmax⟩ : ∃ c ∈ r.cp.flatten, ∀ x ∈ r.cp.flatten, x ≤ c := by
    refine ⟨r.cp.flatten.foldl max (r.cp.flatten.head hne), ?_, ?_⟩
    · obtain ⟨x, xs, hx⟩ := List.exists_cons_of_ne_nil hne
      simp only [hx, List.head_cons]
      have : ∀ (l : List ℝ) (x : ℝ), l.foldl max x = x ∨ l.foldl max x ∈ l := by
        intro l
        induction l with
        | nil => intro x; exact Or.inl rfl
        | cons y l ih =>
          intro x
          rw [List.foldl_cons]
          rcases ih (max x y) with h | h
          · rw [h]
            rcases max_choice x y with h | h
            · exact Or.inl h
            · right; rw [h]; simp
          · right; simp [h]
      rcases this (x :: xs) x with h | h
      · rw [h]; simp
      · exact h
    · intro x hx
      have : ∀ (l : List ℝ) (y : ℝ), y ≤ l.foldl max y ∧ ∀ x ∈ l, x ≤ l.foldl max y := by
        intro l
        induction l with
        | nil => intro y; simp
        | cons z l ih =>
          intro y
          rw [List.foldl_cons]
          obtain ⟨i1, i2⟩ := ih (max y z)
          refine ⟨le_trans (le_max_left _ _) i1, fun x hx => ?_⟩
          rcases List.mem_cons.1 hx with rfl | hx
          · exact le_trans (le_max_right _ _) i1
          · exact i2 x hx
      exact (this _ _).2 x hx
  have hc0 := h.pos c hcm
  refine stable_order2 h.valid h.plain (by rw [h.order, ho]) h.made (div_pos hdt hdx) h.ro (c := c) (fun i j => ?_) ?_ hs
  · rw [abs_of_nonneg (h.pos _ (h.cp i j))]; exact hcmax _ (h.cp i j)
  · have h1 := hlt c hcm
    have h2 : c * (r.dt / r.dx) < 1 / Real.sqrt 2 := by
      rw [mul_div_assoc', div_lt_iff₀ hdx]; exact h1
    have h3 : (1 / Real.sqrt 2) ^ 2 = 1 / 2 := by rw [div_pow, Real.sq_sqrt (by norm_num)]; norm_num
    have h4 : 0 ≤ c * (r.dt / r.dx) := by positivity
    have h5 : (c * (r.dt / r.dx)) ^ 2 < (1 / Real.sqrt 2) ^ 2 := by gcongr
    rw [h3] at h5
    linarith

/-- **Orders 4 and 6: with constant density a run is stable if the Courant number is below `1/(√2 Σ|c|)`**: 0.6033 for order 4,
0.5694 for order 6 — smaller than the 0.606 of the check. -/
theorem stable4_partial {r : Info.Run} (h : Of r p q rox roz l2m) (ho : r.iorder = 4) {ρ : ℝ} (hro : ∀ i j, q.ro i j = ρ)
    (hc : ∀ c ∈ r.cp.flatten, c * r.dt ≤ 6033 / 10000 * r.dx) (hs : Inside p rox roz l2m s) :
    Stays fun n => ksteps p rox roz l2m n s := by
  have hdx := h.dx
  have hdt := h.dt
  refine stable_constant_density (c := 6033 / 10000 * r.dx / r.dt) h.made (div_pos hdt hdx) (by rw [← hro 0 0]; exact h.ro 0 0) hro
    (fun i j => ?_) ?_ hs
  · rw [abs_of_nonneg (h.pos _ (h.cp i j)), le_div_iff₀ hdt]; exact hc _ (h.cp i j)
  · have e : 6033 / 10000 * r.dx / r.dt * (r.dt / r.dx) = 6033 / 10000 := by field_simp
    rw [e, h.order, ho, absSum4]; norm_num

theorem stable6_partial {r : Info.Run} (h : Of r p q rox roz l2m) (ho : r.iorder = 6) {ρ : ℝ} (hro : ∀ i j, q.ro i j = ρ)
    (hc : ∀ c ∈ r.cp.flatten, c * r.dt ≤ 5694 / 10000 * r.dx) (hs : Inside p rox roz l2m s) :
    Stays fun n => ksteps p rox roz l2m n s := by
  have hdx := h.dx
  have hdt := h.dt
  refine stable_constant_density (c := 5694 / 10000 * r.dx / r.dt) h.made (div_pos hdt hdx) (by rw [← hro 0 0]; exact h.ro 0 0) hro
    (fun i j => ?_) ?_ hs
  · rw [abs_of_nonneg (h.pos _ (h.cp i j)), le_div_iff₀ hdt]; exact hc _ (h.cp i j)
  · have e : 5694 / 10000 * r.dx / r.dt * (r.dt / r.dx) = 5694 / 10000 := by field_simp
    rw [e, h.order, ho, absSum6]; norm_num

/-- **Order 4 beyond the limit**: every homogeneous run with a Courant number of 0.604 or more blows up on every grid of at least
1400 by 1400 points, from initial fields as small as one likes. -/
theorem unstable4 {r : Info.Run} (h : Of r p q rox roz l2m) (ho : r.iorder = 4) {ρ c : ℝ} (hro : ∀ i j, q.ro i j = ρ)
    (hcp : ∀ i j, q.cp i j = c) (hC : 604 / 1000 * r.dx ≤ c * r.dt) (hx : 1400 ≤ p.nx) (hz : 1400 ≤ p.nz) {ε : ℝ} (hε : 0 < ε) :
    ∃ s, Inside p rox roz l2m s ∧ (∀ a, |s.vx a| ≤ ε ∧ |s.vz a| ≤ ε ∧ |s.p a| ≤ ε) ∧ BlowsUp fun n => ksteps p rox roz l2m n s := by
  have hdx := h.dx
  have hdt := h.dt
  have hc0 : 0 < c := by
    by_contra hn
    push Not at hn
    nlinarith
  have e4 : p.iorder = 4 := by rw [h.order, ho]
  refine unstable_homogeneous (K := 2) h.valid h.plain (by omega) (by rw [e4]; simp [kcoef]) (by rw [e4]; rfl) h.made
    (div_pos hdt hdx) (by rw [← hro 0 0]; exact h.ro 0 0) hro hc0 hcp (by push_cast; omega) (by push_cast; omega) ?_ hε
  rw [e4, altSum4]
  have h1 : 604 / 1000 ≤ c * (r.dt / r.dx) := by rw [mul_div_assoc', le_div_iff₀ hdx]; exact hC
  have h2 : (5011 / 10000 : ℝ) ≤ (c * (r.dt / r.dx) * (117205612 / 100000000)) ^ 2 := by
    have : (604 / 1000 * (117205612 / 100000000) : ℝ) ≤ c * (r.dt / r.dx) * (117205612 / 100000000) := by gcongr
    calc (5011 / 10000 : ℝ) ≤ (604 / 1000 * (117205612 / 100000000)) ^ 2 := by norm_num
      _ ≤ _ := by gcongr
  have x1 : (1400 : ℝ) ≤ p.nx := by exact_mod_cast hx
  have z1 : (1400 : ℝ) ≤ p.nz := by exact_mod_cast hz
  have hpos : 0 ≤ ((p.nx : ℝ) - 2 * (2 : ℕ)) * (p.nz - 1) + (p.nz - 2 * (2 : ℕ)) * (p.nx - 1) := by
    push_cast; nlinarith
  refine lt_of_lt_of_le ?_ (mul_le_mul_of_nonneg_right h2 hpos)
  push_cast
  nlinarith

/-- **Order 6 beyond the limit**: a Courant number of 0.58 or more, on every grid of at least 200 by 200 points. -/
theorem unstable6 {r : Info.Run} (h : Of r p q rox roz l2m) (ho : r.iorder = 6) {ρ c : ℝ} (hro : ∀ i j, q.ro i j = ρ)
    (hcp : ∀ i j, q.cp i j = c) (hC : 58 / 100 * r.dx ≤ c * r.dt) (hx : 200 ≤ p.nx) (hz : 200 ≤ p.nz) {ε : ℝ} (hε : 0 < ε) :
    ∃ s, Inside p rox roz l2m s ∧ (∀ a, |s.vx a| ≤ ε ∧ |s.vz a| ≤ ε ∧ |s.p a| ≤ ε) ∧ BlowsUp fun n => ksteps p rox roz l2m n s := by
  have hdx := h.dx
  have hdt := h.dt
  have hc0 : 0 < c := by
    by_contra hn
    push Not at hn
    nlinarith
  have e6 : p.iorder = 6 := by rw [h.order, ho]
  refine unstable_homogeneous (K := 3) h.valid h.plain (by omega) (by rw [e6]; simp [kcoef]) (by rw [e6]; rfl) h.made
    (div_pos hdt hdx) (by rw [← hro 0 0]; exact h.ro 0 0) hro hc0 hcp (by push_cast; omega) (by push_cast; omega) ?_ hε
  rw [e6, altSum6]
  have h1 : 58 / 100 ≤ c * (r.dt / r.dx) := by rw [mul_div_assoc', le_div_iff₀ hdx]; exact hC
  have h2 : (518 / 1000 : ℝ) ≤ (c * (r.dt / r.dx) * (149 / 120)) ^ 2 := by
    have : (58 / 100 * (149 / 120) : ℝ) ≤ c * (r.dt / r.dx) * (149 / 120) := by gcongr
    calc (518 / 1000 : ℝ) ≤ (58 / 100 * (149 / 120)) ^ 2 := by norm_num
      _ ≤ _ := by gcongr
  have x1 : (200 : ℝ) ≤ p.nx := by exact_mod_cast hx
  have z1 : (200 : ℝ) ≤ p.nz := by exact_mod_cast hz
  have hpos : 0 ≤ ((p.nx : ℝ) - 2 * (3 : ℕ)) * (p.nz - 1) + (p.nz - 2 * (3 : ℕ)) * (p.nx - 1) := by
    push_cast; nlinarith
  refine lt_of_lt_of_le ?_ (mul_le_mul_of_nonneg_right h2 hpos)
  push_cast
  nlinarith

/-! ## Concrete runs -/

/-- A homogeneous run with Courant number 0.605. -/
def risky (iorder : Int) : Info.Run :=
  { iorder := iorder, ischeme := 1, cp := [[2000]], cs := [], dx := 10, dt := 121 / 40000, fmax := 30 }

def box (iorder n : Int) : Par :=
  { nx := n, nz := n, iorder := iorder, npml := 0, topadd := 0, ischeme := 1, lef := 1, rig := 1, top := 0, bot := 1 }

def water : Inp ℝ := { cp := fun _ _ => 2000, cs := fun _ _ => 0, ro := fun _ _ => 1000 }

/-- The arrays of a run. -/
def arr (p : Par) (q : Inp ℝ) (fac : ℝ) (a : Arr) : X → ℝ := fun x =>
  if inBox p a x.1 x.2 then medium p q fac a (x.1 - ox p a) (x.2 - oz p a) else 0

theorem arr_made (p : Par) (q : Inp ℝ) (fac : ℝ) : Made p q fac (arr p q fac .rox) (arr p q fac .roz) (arr p q fac .l2m) :=
  ⟨fun _ => rfl, fun _ => rfl, fun _ => rfl⟩

theorem risky_of {iorder n : Int} (h2 : 2 ≤ iorder) (he : iorder % 2 = 0) (hn : 1 ≤ n) :
    Of (risky iorder) (box iorder n) water (arr (box iorder n) water ((121 / 40000) / 10) .rox)
      (arr (box iorder n) water ((121 / 40000) / 10) .roz) (arr (box iorder n) water ((121 / 40000) / 10) .l2m) where
  valid := ⟨hn, hn, h2, he, le_refl _, le_refl _⟩
  plain := ⟨Or.inr rfl, Or.inr rfl, Or.inr rfl, rfl⟩
  order := rfl
  cp := fun i j => by simp [risky, water]
  pos := fun c hc => by simp [risky] at hc; rw [hc]; norm_num
  dx := by norm_num [risky]
  dt := by norm_num [risky]
  ro := fun i j => by norm_num [water]
  made := arr_made _ _ _

theorem risky_accepted {iorder : Int} (h : iorder = 4 ∨ iorder = 6) : (risky iorder).accepted = some true := by
  rcases h with rfl | rfl <;>
  norm_num [Info.Run.accepted, risky, Info.dispfactor, Info.stabfactor, Info.modelInfo, Info.Run.csMin, Info.Run.elastic, Info.skipZero,
    Info.sample, Info.MAX, Info.MIN, Info.cminOf]

/-- **The check lets unstable runs through**: for order 4 (the default order) and order 6 there is an accepted run on whose grid fields as
small as one likes grow beyond every bound. -/
theorem accepted_unstable {iorder : Int} (ho : iorder = 4 ∨ iorder = 6) : ∃ r : Info.Run, ∃ p q rox roz l2m,
    r.iorder = iorder ∧ r.accepted = some true ∧ Of r p q rox roz l2m ∧ ∀ ε > 0, ∃ s, Inside p rox roz l2m s ∧
      (∀ a, |s.vx a| ≤ ε ∧ |s.vz a| ≤ ε ∧ |s.p a| ≤ ε) ∧ BlowsUp fun n => ksteps p rox roz l2m n s := by
  refine ⟨risky iorder, box iorder 1400, water, _, _, _, rfl, risky_accepted ho,
    risky_of (by omega) (by omega) (by norm_num), fun ε hε => ?_⟩
  rcases ho with rfl | rfl
  · exact unstable4 (risky_of (by omega) (by omega) (by norm_num)) rfl (ρ := 1000) (c := 2000) (fun _ _ => rfl) (fun _ _ => rfl)
      (by norm_num [risky]) (le_refl _) (le_refl _) hε
  · exact unstable6 (risky_of (by omega) (by omega) (by norm_num)) rfl (ρ := 1000) (c := 2000) (fun _ _ => rfl) (fun _ _ => rfl)
      (by norm_num [risky]) (by norm_num [box]) (by norm_num [box]) hε

/-- A run of order 16 that is accepted, with a field that is not zero. -/
def safe : Info.Run := { iorder := 16, ischeme := 1, cp := [[2000, 1500]], cs := [], dx := 10, dt := 2 / 1000, fmax := 30 }

example : safe.accepted = some true := by
  norm_num [Info.Run.accepted, safe, Info.dispfactor, Info.stabfactor, Info.modelInfo, Info.Run.csMin, Info.Run.elastic, Info.skipZero,
    Info.sample, Info.MAX, Info.MIN, Info.cminOf]

/-- One pressure in the middle of the grid. -/
def spike (x : X) : St := ⟨fun _ => 0, fun _ => 0, fun a => if a = x then 1 else 0⟩

example : Inside (box 16 50) (arr (box 16 50) water (2 / 10000) .rox) (arr (box 16 50) water (2 / 10000) .roz)
    (arr (box 16 50) water (2 / 10000) .l2m) (spike (30, 30)) where
  vx _ _ := rfl
  vz _ _ := rfl
  p a ha := by
    by_cases h : a = (30, 30)
    · subst h
      exfalso
      have h1 : inP (box 16 50) (30, 30) := by norm_num [inP, box, Par.ioPx, Par.ioPz, Par.iePx, Par.iePz, Par.pad, Par.add]
      have h2 : ¬ freeCell (box 16 50) (30, 30) := by
        norm_num [freeCell, box, Par.ioPx, Par.ioPz, Par.iePx, Par.iePz, Par.pad, Par.add]
      have h3 : inBox (box 16 50) .l2m 30 30 := by norm_num [inBox, box, ox, oz, Par.pad, Par.add]
      rcases ha with h | h | h
      · exact h h1
      · exact h2 h
      · simp only [arr, if_pos h3, medium, Inp.l2m, water] at h
        norm_num at h
    · simp [spike, h]

end Verif.Stab

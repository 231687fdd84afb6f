import Verif.Stab.Props

/-!
# The stability check of getParameters.c against the kernels it is meant for

A field that alternates from point to point is the most unstable one.  On every homogeneous grid that is large enough it grows
beyond every bound once the Courant number exceeds the limit of the coefficients; the limits in the program are above that for
order 4 and 6.
-/

noncomputable section

namespace Verif.Stab

open Verif.Med

variable {p : Par} {q : Inp ℝ} {fac : ℝ} {rox roz l2m : X → ℝ} {s : St}

/-! ## The alternating field -/

/-- Plus or minus one by parity. -/
def sg (n : ℤ) : ℝ := if Even n then 1 else -1

theorem sg_sq (n : ℤ) : sg n ^ 2 = 1 := by unfold sg; split <;> norm_num
theorem sg_add (m n : ℤ) : sg (m + n) = sg m * sg n := by
  unfold sg
  by_cases h1 : Even m <;> by_cases h2 : Even n <;> simp [Int.even_add, h1, h2]
theorem sg_neg (n : ℤ) : sg (-n) = sg n := by unfold sg; simp
theorem sg_one : sg 1 = -1 := by unfold sg; simp

/-- The sum of the coefficients with alternating signs. -/
def altSum : ℕ → List ℝ → ℝ
  | _, [] => 0
  | k, c :: cs => sg k * c + altSum (k + 1) cs

/-- The difference of a field that alternates wherever the stencil reads. -/
theorem gradF_alt (d : Dir) (cs : List ℝ) (f : X → ℝ) (a : X) (t : ℝ) (k : ℕ)
    (h : ∀ j : ℤ, -(k + cs.length) ≤ j → j < k + cs.length → f (mv d j a) = sg j * t) :
    gradF d k cs f a = 2 * altSum k cs * t := by
  induction cs generalizing k with
  | nil => simp [gradF, altSum]
  | cons c cs ih =>
    simp only [List.length_cons] at h
    push_cast at h
    have hi := ih (k + 1) (fun j h1 h2 => h j (by push_cast at h1; linarith) (by push_cast at h2; linarith))
    have h1 := h k (by linarith) (by linarith)
    have h2 := h (-1 - k) (by linarith) (by linarith)
    have e : sg (-1 - (k : ℤ)) = - sg k := by
      rw [show (-1 - (k : ℤ)) = -(1 + k) by ring, sg_neg, sg_add, sg_one]; ring
    simp only [gradF, altSum]
    rw [hi, h1, h2, e]; ring

/-- The cells of the pressure loop without the last column and row. -/
def core (p : Par) (a : X) : Prop := (p.ioPx ≤ a.1 ∧ a.1 < p.ioPx + (p.nx - 1)) ∧ (p.ioPz ≤ a.2 ∧ a.2 < p.ioPz + (p.nz - 1))

instance (p : Par) (a : X) : Decidable (core p a) := by unfold core; infer_instance

/-- The alternating field. -/
def alt (p : Par) : X → ℝ := fun a => if core p a then sg (a.1 + a.2) else 0

/-- A sum over a rectangle is a lower bound. -/
private theorem rect_le {f : X → ℝ} (hf : Fin' f) (h0 : ∀ a, 0 ≤ f a) {l r t b : ℤ} {v : ℝ} (hlr : l ≤ r) (htb : t ≤ b)
    (h : ∀ a : X, l ≤ a.1 → a.1 < r → t ≤ a.2 → a.2 < b → v ≤ f a) : (r - l) * (b - t) * v ≤ S f := by
  have h1 : ∑ a ∈ Finset.Ico l r ×ˢ Finset.Ico t b, f a ≤ S f := hf.summable.sum_le_tsum _ fun a _ => h0 a
  have h2 : ∑ _a ∈ Finset.Ico l r ×ˢ Finset.Ico t b, v ≤ ∑ a ∈ Finset.Ico l r ×ˢ Finset.Ico t b, f a := by
    apply Finset.sum_le_sum
    intro a ha
    simp only [Finset.mem_product, Finset.mem_Ico] at ha
    exact h a ha.1.1 ha.1.2 ha.2.1 ha.2.2
  rw [Finset.sum_const, Finset.card_product, Int.card_Ico, Int.card_Ico, nsmul_eq_mul] at h2
  have e1 : (((r - l).toNat * (b - t).toNat : ℕ) : ℝ) = (r - l) * (b - t) := by
    have a1 : ((r - l).toNat : ℤ) = r - l := Int.toNat_of_nonneg (by omega)
    have a2 : ((b - t).toNat : ℤ) = b - t := Int.toNat_of_nonneg (by omega)
    have a3 : (((r - l).toNat : ℤ) : ℝ) = (r : ℝ) - l := by rw [a1]; push_cast; ring
    have a4 : (((b - t).toNat : ℤ) : ℝ) = (b : ℝ) - t := by rw [a2]; push_cast; ring
    push_cast at a3 a4 ⊢
    rw [a3, a4]
  rw [e1] at h2
  linarith

/-- A sum over a rectangle outside of which the field is zero. -/
private theorem rect_eq {f : X → ℝ} {l r t b : ℤ} {v : ℝ} (hlr : l ≤ r) (htb : t ≤ b)
    (h : ∀ a : X, f a = if (l ≤ a.1 ∧ a.1 < r) ∧ (t ≤ a.2 ∧ a.2 < b) then v else 0) : S f = (r - l) * (b - t) * v := by
  unfold S
  rw [tsum_eq_sum (s := Finset.Ico l r ×ˢ Finset.Ico t b)]
  · rw [Finset.sum_congr rfl (g := fun _ => v)]
    · rw [Finset.sum_const, Finset.card_product, Int.card_Ico, Int.card_Ico, nsmul_eq_mul]
      have a1 : ((r - l).toNat : ℤ) = r - l := Int.toNat_of_nonneg (by omega)
      have a2 : ((b - t).toNat : ℤ) = b - t := Int.toNat_of_nonneg (by omega)
      have a3 : (((r - l).toNat : ℤ) : ℝ) = (r : ℝ) - l := by rw [a1]; push_cast; ring
      have a4 : (((b - t).toNat : ℤ) : ℝ) = (b : ℝ) - t := by rw [a2]; push_cast; ring
      push_cast at a3 a4 ⊢
      rw [a3, a4]
    · intro a ha
      simp only [Finset.mem_product, Finset.mem_Ico] at ha
      rw [h a, if_pos ha]
  · intro a ha
    simp only [Finset.mem_product, Finset.mem_Ico] at ha
    rw [h a, if_neg ha]

/-- **Instability**: constant velocity and density, order 4, 6 or 16 (half length `K`).  If the Courant number times the
alternating sum of the coefficients is large enough for the grid, then there is, however small, an initial field that grows
beyond every bound. -/
theorem unstable_homogeneous {ρ c : ℝ} {K : ℕ} (hv : Valid p) (hp : Plain p) (ho : p.iorder ≠ 2) (hK : (kcoef p.iorder).length = K)
    (hKo : p.iorder = 2 * K) (hm : Made p q fac rox roz l2m) (hfac : 0 < fac) (hρ : 0 < ρ) (hro : ∀ i j, q.ro i j = ρ)
    (hc0 : 0 < c) (hc : ∀ i j, q.cp i j = c) (hx : 2 * (K : ℤ) ≤ p.nx) (hz : 2 * (K : ℤ) ≤ p.nz)
    (hbig : ((p.nx - 1 : ℝ) * (p.nz - 1)) < (c * fac * altSum 0 (kcoef p.iorder)) ^ 2 *
      ((p.nx - 2 * K) * (p.nz - 1) + (p.nz - 2 * K) * (p.nx - 1))) {ε : ℝ} (hε : 0 < ε) :
    ∃ s, Inside p rox roz l2m s ∧ (∀ a, |s.vx a| ≤ ε ∧ |s.vz a| ≤ ε ∧ |s.p a| ≤ ε) ∧ BlowsUp fun n => ksteps p rox roz l2m n s := by
  have hpos := hm.pos hfac fun i j => by rw [hro]; exact hρ
  have cm := cut_medium (p := p) hpos.1 hpos.2.1 hpos.2.2
  have pl : p.pad p.lef = 0 := by unfold Par.pad; rcases hp.lef with h | h <;> rw [h] <;> simp
  have pr : p.pad p.rig = 0 := by unfold Par.pad; rcases hp.rig with h | h <;> rw [h] <;> simp
  have pb : p.pad p.bot = 0 := by unfold Par.pad; rcases hp.bot with h | h <;> rw [h] <;> simp
  have pt : p.pad p.top = 0 := by unfold Par.pad; rw [hp.top]; simp
  have pa : p.add = 0 := by unfold Par.add; rw [hp.top]; simp
  have hh : p.iorder / 2 = K := by omega
  have hnx := hv.nx
  have hnz := hv.nz
  have hK1 : 1 ≤ (K : ℤ) := by have := hv.iorder; omega
  set cs := kcoef p.iorder with hcs
  set T := altSum 0 cs with hT
  set R := fac / ρ with hR
  set M := fac * (c ^ 2 * ρ) with hM
  have hR0 : 0 < R := by positivity
  have hM0 : 0 < M := by positivity
  have eX : ∀ a, inX p a → cutX p rox a = R := by
    intro a ha
    have hb : inBox p .rox a.1 a.2 := by
      obtain ⟨⟨h1, h2⟩, h3, h4⟩ := ha
      simp only [Par.ioXx, Par.ieXx, Par.ioXz, Par.ieXz, pl, pt, pa] at h1 h2 h3 h4
      simp only [inBox, ox, oz, pl, pr, pt, pb, pa]; omega
    simp only [cutX, if_pos ha, hm.rox, if_pos hb, medium, hc, hro, if_neg hc0.ne']
    rw [hR]; congr 1; ring
  have eZ : ∀ a, inZ p a → cutZ p roz a = R := by
    intro a ha
    have hb : inBox p .roz a.1 a.2 := by
      obtain ⟨⟨h1, h2⟩, h3, h4⟩ := ha
      simp only [zx0, zx1, if_neg ho, Par.ioZx, Par.ieZx, Par.ioZz, Par.ieZz, pl, pt, pa] at h1 h2 h3 h4
      simp only [inBox, ox, oz, pl, pr, pt, pb, pa]; omega
    simp only [cutZ, if_pos ha, hm.roz, if_pos hb, medium, hc, hro, if_neg hc0.ne']
    rw [hR]; congr 1; ring
  have inside : ∀ a, core p a → inP p a ∧ ¬ freeCell p a := by
    intro a ha
    obtain ⟨⟨h1, h2⟩, h3, h4⟩ := ha
    simp only [Par.ioPx, Par.ioPz] at h1 h2 h3 h4
    unfold inP freeCell
    simp only [Par.ioPx, Par.ioPz, Par.iePx, Par.iePz, pl, pr, pt, pb, pa]
    omega
  have eL : ∀ a, core p a → cutP p l2m a = M := by
    intro a ha
    have hb : inBox p .l2m a.1 a.2 := by
      obtain ⟨⟨h1, h2⟩, h3, h4⟩ := ha
      simp only [Par.ioPx, Par.ioPz] at h1 h2 h3 h4
      simp only [inBox, ox, oz, pl, pr, pt, pb, pa]; omega
    simp only [cutP, if_pos (inside a ha), hm.l2m, if_pos hb, medium, Inp.l2m, hc, hro]
    rfl
  have hw : ∀ a, cutP p l2m a = 0 → alt p a = 0 := by
    intro a ha
    unfold alt
    split
    · rename_i hcore; rw [eL a hcore] at ha; exact absurd ha hM0.ne'
    · rfl
  -- the energy of the field
  have energy : S (fun a => alt p a ^ 2 / cutP p l2m a) = (p.nx - 1) * (p.nz - 1) * (1 / M) := by
    rw [rect_eq (l := p.ioPx) (r := p.ioPx + (p.nx - 1)) (t := p.ioPz) (b := p.ioPz + (p.nz - 1)) (v := 1 / M) (by omega) (by omega)]
    · push_cast; ring
    · intro a
      by_cases hcore : core p a
      · rw [if_pos (show (p.ioPx ≤ a.1 ∧ a.1 < p.ioPx + (p.nx - 1)) ∧ (p.ioPz ≤ a.2 ∧ a.2 < p.ioPz + (p.nz - 1)) from hcore),
          eL a hcore, alt, if_pos hcore, sg_sq]
      · rw [if_neg (show ¬ ((p.ioPx ≤ a.1 ∧ a.1 < p.ioPx + (p.nx - 1)) ∧ (p.ioPz ≤ a.2 ∧ a.2 < p.ioPz + (p.nz - 1))) from hcore),
          alt, if_neg hcore]; simp
  -- its differences
  have fw : Fin' (alt p) := cm.fL.mono hw
  have ebox : p.ioPx = (K : ℤ) - 1 ∧ p.ioPz = (K : ℤ) - 1 := by simp only [Par.ioPx, Par.ioPz, hh, and_self]
  have gx : (p.nx - 2 * K) * (p.nz - 1) * (R * (4 * T ^ 2)) ≤ S (fun a => cutX p rox a * gradF .x 0 cs (alt p) a ^ 2) := by
    have := rect_le (f := fun a => cutX p rox a * gradF .x 0 cs (alt p) a ^ 2) ((fw.gradF .x 0 cs).sq.mul_left _)
      (fun a => mul_nonneg (cm.prx a) (sq_nonneg _))
      (l := p.ioPx + K) (r := p.ioPx + (p.nx - 1) - K + 1) (t := p.ioPz) (b := p.ioPz + (p.nz - 1)) (v := R * (4 * T ^ 2))
      (by omega) (by omega) ?_
    · refine le_trans (le_of_eq ?_) this
      push_cast; ring
    · intro a h1 h2 h3 h4
      have hX : inX p a := by
        unfold inX
        simp only [Par.ioXx, Par.ieXx, Par.ioXz, Par.ieXz, pl, pt, pa]
        omega
      rw [eX a hX, gradF_alt .x cs (alt p) a (sg (a.1 + a.2)) 0]
      · rw [← hT, mul_pow, sg_sq]; exact le_of_eq (by ring)
      · intro j j1 j2
        rw [hK] at j1 j2
        have hcore : core p (mv .x j a) := by
          unfold core mv; dsimp only; push_cast at j1 j2; omega
        rw [alt, if_pos hcore, ← sg_add]
        unfold mv; dsimp only; congr 1; ring
  have gz : (p.nz - 2 * K) * (p.nx - 1) * (R * (4 * T ^ 2)) ≤ S (fun a => cutZ p roz a * gradF .z 0 cs (alt p) a ^ 2) := by
    have := rect_le (f := fun a => cutZ p roz a * gradF .z 0 cs (alt p) a ^ 2) ((fw.gradF .z 0 cs).sq.mul_left _)
      (fun a => mul_nonneg (cm.prz a) (sq_nonneg _))
      (l := p.ioPx) (r := p.ioPx + (p.nx - 1)) (t := p.ioPz + K) (b := p.ioPz + (p.nz - 1) - K + 1) (v := R * (4 * T ^ 2))
      (by omega) (by omega) ?_
    · refine le_trans (le_of_eq ?_) this
      push_cast; ring
    · intro a h1 h2 h3 h4
      have hX : inZ p a := by
        unfold inZ
        simp only [zx0, zx1, if_neg ho, Par.ioZx, Par.ieZx, Par.ioZz, Par.ieZz, pl, pt, pa]
        omega
      rw [eZ a hX, gradF_alt .z cs (alt p) a (sg (a.1 + a.2)) 0]
      · rw [← hT, mul_pow, sg_sq]; exact le_of_eq (by ring)
      · intro j j1 j2
        rw [hK] at j1 j2
        have hcore : core p (mv .z j a) := by
          unfold core mv; dsimp only; push_cast at j1 j2; omega
        rw [alt, if_pos hcore, ← sg_add]
        unfold mv; dsimp only; congr 1; ring
  have big : 4 * S (fun a => alt p a ^ 2 / cutP p l2m a) <
      S (fun a => cutX p rox a * gradF .x 0 cs (alt p) a ^ 2) + S (fun a => cutZ p roz a * gradF .z 0 cs (alt p) a ^ 2) := by
    rw [energy]
    refine lt_of_lt_of_le ?_ (add_le_add gx gz)
    have e : R * M = (c * fac) ^ 2 := by rw [hR, hM]; field_simp
    have e2 : ((p.nx - 1 : ℝ) * (p.nz - 1)) * (1 / M) <
        (c * fac * T) ^ 2 * ((p.nx - 2 * K) * (p.nz - 1) + (p.nz - 2 * K) * (p.nx - 1)) * (1 / M) :=
      mul_lt_mul_of_pos_right hbig (by positivity)
    have e3 : (c * fac * T) ^ 2 * ((p.nx - 2 * K) * (p.nz - 1) + (p.nz - 2 * K) * (p.nx - 1)) * (1 / M) =
        R * T ^ 2 * ((p.nx - 2 * K) * (p.nz - 1) + (p.nz - 2 * K) * (p.nx - 1)) := by
      rw [show (c * fac * T) ^ 2 = (c * fac) ^ 2 * T ^ 2 by ring, ← e]; field_simp
    rw [e3] at e2
    linarith
  obtain ⟨s, hl, hs, hb⟩ := blows_up cm hw big hε
  refine ⟨s, ⟨fun a ha => hl.vx a ?_, fun a ha => hl.vz a ?_, fun a ha => hl.p a ?_⟩, hs, ?_⟩
  · unfold cutX; split
    · rename_i h; exact ha.resolve_left (not_not.2 h)
    · rfl
  · unfold cutZ; split
    · rename_i h; exact ha.resolve_left (not_not.2 h)
    · rfl
  · unfold cutP; split
    · rename_i h; exact (ha.resolve_left (not_not.2 h.1)).resolve_left h.2
    · rfl
  · intro B
    obtain ⟨n, a, h⟩ := hb B
    refine ⟨n, a, ?_⟩
    dsimp only at h ⊢
    rw [ksteps_eq hl]; exact h

end Verif.Stab

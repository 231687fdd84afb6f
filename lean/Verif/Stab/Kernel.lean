import Verif.Stab.Energy
import Verif.Med.Props
import Verif.Med.Info

/-!
# Model of the acoustic kernels of order 2, 4, 6 and 16 without source (acoustic2.c, acoustic4.c, acoustic6.c, acoustic16.c)

Exact arithmetic.  Sides are free (type 1; left, right and bottom) or have no boundary treatment; the top has no boundary
treatment, tapers, PML and rigid walls are left out.  Each loop changes one array and reads others, or its own element, so it is
written as one assignment of the whole array (that the order and the threads do not matter for acoustic4 is C17).  Arrays are
addressed by column and row.
-/

noncomputable section

namespace Verif.Stab

open Verif.Med

/-- Coefficients (acoustic2.c:93 without factor, acoustic4.c:77-78, acoustic6.c:71-73, acoustic16.c:73-80). -/
def kcoef (iorder : Int) : List ℝ :=
  if iorder = 2 then [1]
  else if iorder = 4 then [1129042 / 1000000, -(4301412 / 100000000)]
  else if iorder = 6 then [75 / 64, -(25 / 384), 3 / 640]
  else if iorder = 16 then [1259312 / 1000000, -(1280347 / 10000000), 3841945 / 100000000, -(1473229 / 100000000),
    5924913 / 1000000000, -(2248618 / 1000000000), 7179226 / 10000000000, -(1400855 / 10000000000)]
  else []

/-- The loop over `vx` (acoustic2.c:91-92, acoustic4.c:91-93, acoustic6.c:88-90, acoustic16.c:94-96). -/
def inX (p : Par) (a : X) : Prop := (p.ioXx ≤ a.1 ∧ a.1 < p.ieXx) ∧ (p.ioXz ≤ a.2 ∧ a.2 < p.ieXz)

/-- Columns of the loop over `vz`; acoustic2.c:80,82 sets `ioZx=mod.ioZz` and `ieZx=mod.ieZz`. -/
def zx0 (p : Par) : Int := if p.iorder = 2 then p.ioZz else p.ioZx
def zx1 (p : Par) : Int := if p.iorder = 2 then p.ieZz else p.ieZx

/-- The loop over `vz` (acoustic2.c:98-99, acoustic4.c:102-104, acoustic6.c:100-102, acoustic16.c). -/
def inZ (p : Par) (a : X) : Prop := (zx0 p ≤ a.1 ∧ a.1 < zx1 p) ∧ (p.ioZz ≤ a.2 ∧ a.2 < p.ieZz)

/-- The loop over `p` (acoustic2.c:113-114, acoustic4.c:129-131, acoustic6.c:120-122, acoustic16.c). -/
def inP (p : Par) (a : X) : Prop := (p.ioPx ≤ a.1 ∧ a.1 < p.iePx) ∧ (p.ioPz ≤ a.2 ∧ a.2 < p.iePz)

/-- Pressure cleared at free sides: right, bottom, left (boundaries.c:1620-1637). -/
def freeCell (p : Par) (a : X) : Prop :=
  (p.rig = 1 ∧ a.1 = p.iePx - 1 ∧ p.ioPz ≤ a.2 ∧ a.2 < p.iePz) ∨
  (p.bot = 1 ∧ a.2 = p.iePz - 1 ∧ p.ioPx ≤ a.1 ∧ a.1 < p.iePx) ∨
  (p.lef = 1 ∧ a.1 = p.ioPx - 1 ∧ p.ioPz ≤ a.2 ∧ a.2 < p.iePz)

instance (p : Par) (a : X) : Decidable (inX p a) := by unfold inX; infer_instance
instance (p : Par) (a : X) : Decidable (inZ p a) := by unfold inZ; infer_instance
instance (p : Par) (a : X) : Decidable (inP p a) := by unfold inP; infer_instance
instance (p : Par) (ar : Arr) (i j : Int) : Decidable (inBox p ar i j) := by unfold inBox; infer_instance
instance (p : Par) (a : X) : Decidable (freeCell p a) := by unfold freeCell; infer_instance

/-- One time step. -/
def kstep (p : Par) (rox roz l2m : X → ℝ) (s : St) : St :=
  let c := kcoef p.iorder
  let vx := fun a => if inX p a then s.vx a - rox a * gradF .x 0 c s.p a else s.vx a
  let vz := fun a => if inZ p a then s.vz a - roz a * gradF .z 0 c s.p a else s.vz a
  let pr := fun a => if inP p a then s.p a - l2m a * (divF .x 0 c vx a + divF .z 0 c vz a) else s.p a
  ⟨vx, vz, fun a => if freeCell p a then 0 else pr a⟩

/-- `n` time steps. -/
def ksteps (p : Par) (rox roz l2m : X → ℝ) : ℕ → St → St
  | 0, s => s
  | n + 1, s => kstep p rox roz l2m (ksteps p rox roz l2m n s)

/-- The sides of this model. -/
structure Plain (p : Par) : Prop where
  lef : p.lef = 0 ∨ p.lef = 1
  rig : p.rig = 0 ∨ p.rig = 1
  bot : p.bot = 0 ∨ p.bot = 1
  top : p.top = 0

/-! ## Specification -/

/-- The arrays are those of the medium (as `medium_acoustic` shows of readModel.c), and zero outside (calloc). -/
structure Made (p : Par) (q : Inp ℝ) (fac : ℝ) (rox roz l2m : X → ℝ) : Prop where
  rox : ∀ a : X, rox a = if inBox p .rox a.1 a.2 then medium p q fac .rox (a.1 - ox p .rox) (a.2 - oz p .rox) else 0
  roz : ∀ a : X, roz a = if inBox p .roz a.1 a.2 then medium p q fac .roz (a.1 - ox p .roz) (a.2 - oz p .roz) else 0
  l2m : ∀ a : X, l2m a = if inBox p .l2m a.1 a.2 then medium p q fac .l2m (a.1 - ox p .l2m) (a.2 - oz p .l2m) else 0

/-- The field is zero outside the model, at free sides, and in the air (where the medium parameter is zero). -/
structure Inside (p : Par) (rox roz l2m : X → ℝ) (s : St) : Prop where
  vx : ∀ a, ¬ inX p a ∨ rox a = 0 → s.vx a = 0
  vz : ∀ a, ¬ inZ p a ∨ roz a = 0 → s.vz a = 0
  p : ∀ a, ¬ inP p a ∨ freeCell p a ∨ l2m a = 0 → s.p a = 0

/-! ## The kernel is the scheme on the medium cut off at the edges -/

/-- The parameters, zero where no loop comes. -/
def cutX (p : Par) (r : X → ℝ) : X → ℝ := fun a => if inX p a then r a else 0
def cutZ (p : Par) (r : X → ℝ) : X → ℝ := fun a => if inZ p a then r a else 0
def cutP (p : Par) (r : X → ℝ) : X → ℝ := fun a => if inP p a ∧ ¬ freeCell p a then r a else 0

theorem Inside.live {p : Par} {rox roz l2m : X → ℝ} {s : St} (h : Inside p rox roz l2m s) :
    Live (cutX p rox) (cutZ p roz) (cutP p l2m) s where
  vx a ha := by
    apply h.vx
    by_cases hc : inX p a
    · right; simpa [cutX, hc] using ha
    · exact Or.inl hc
  vz a ha := by
    apply h.vz
    by_cases hc : inZ p a
    · right; simpa [cutZ, hc] using ha
    · exact Or.inl hc
  p a ha := by
    apply h.p
    by_cases hc : inP p a
    · by_cases hf : freeCell p a
      · exact Or.inr (Or.inl hf)
      · right; right; simpa [cutP, hc, hf] using ha
    · exact Or.inl hc

theorem kstep_eq {p : Par} {rox roz l2m : X → ℝ} {s : St} (h : Live (cutX p rox) (cutZ p roz) (cutP p l2m) s) :
    kstep p rox roz l2m s = leap (kcoef p.iorder) (cutX p rox) (cutZ p roz) (cutP p l2m) s := by
  have ex : (fun a => if inX p a then s.vx a - rox a * gradF .x 0 (kcoef p.iorder) s.p a else s.vx a) =
      fun a => s.vx a - cutX p rox a * gradF .x 0 (kcoef p.iorder) s.p a := by
    funext a; by_cases hc : inX p a <;> simp [cutX, hc]
  have ez : (fun a => if inZ p a then s.vz a - roz a * gradF .z 0 (kcoef p.iorder) s.p a else s.vz a) =
      fun a => s.vz a - cutZ p roz a * gradF .z 0 (kcoef p.iorder) s.p a := by
    funext a; by_cases hc : inZ p a <;> simp [cutZ, hc]
  unfold kstep leap
  dsimp only
  rw [ex, ez]
  congr 1
  funext a
  by_cases hf : freeCell p a
  · have hz : cutP p l2m a = 0 := by simp [cutP, hf]
    rw [if_pos hf, hz, h.p a hz]; simp
  · by_cases hc : inP p a <;> simp [cutP, hc, hf]

theorem ksteps_eq {p : Par} {rox roz l2m : X → ℝ} {s : St} (h : Live (cutX p rox) (cutZ p roz) (cutP p l2m) s) (n : ℕ) :
    ksteps p rox roz l2m n s = leaps (kcoef p.iorder) (cutX p rox) (cutZ p roz) (cutP p l2m) n s := by
  induction n with
  | zero => rfl
  | succ n ih =>
    show kstep p rox roz l2m (ksteps p rox roz l2m n s) = _
    rw [ih, kstep_eq (leaps_live h n)]
    rfl

private theorem fin_box {P : X → Prop} [DecidablePred P] {l r t b : Int} (h : ∀ a, P a → (l ≤ a.1 ∧ a.1 < r) ∧ (t ≤ a.2 ∧ a.2 < b))
    (f : X → ℝ) : Fin' fun a => if P a then f a else 0 := by
  have hfin : (Set.Ico l r ×ˢ Set.Ico t b : Set X).Finite := (Set.finite_Ico l r).prod (Set.finite_Ico t b)
  refine Set.Finite.subset hfin fun a ha => ?_
  have : P a := by
    by_contra hc
    exact ha (by simp [hc])
  obtain ⟨h1, h2⟩ := h a this
  exact ⟨h1, h2⟩

theorem cut_medium {p : Par} {rox roz l2m : X → ℝ} (h1 : ∀ a, 0 ≤ rox a) (h2 : ∀ a, 0 ≤ roz a) (h3 : ∀ a, 0 ≤ l2m a) :
    Medium (cutX p rox) (cutZ p roz) (cutP p l2m) where
  prx a := by unfold cutX; split <;> simp [h1]
  prz a := by unfold cutZ; split <;> simp [h2]
  pL a := by unfold cutP; split <;> simp [h3]
  frx := fin_box (fun a h => h) _
  frz := fin_box (fun a h => h) _
  fL := fin_box (fun a h => h.1) _

end Verif.Stab

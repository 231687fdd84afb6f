import Verif.Stab.Energy

/-! # A field that grows without bound if the differences are not bounded by twice the energy of the pressure -/

namespace Verif.Stab

variable {cs : List ℝ} {rx rz L : X → ℝ}

/-- Product of two pressure fields, weighted with one over the modulus. -/
noncomputable def I (L f g : X → ℝ) : ℝ := S fun a => f a * g a / L a

private theorem fI {f : X → ℝ} (hf : Fin' f) (g L : X → ℝ) : Fin' fun a => f a * g a / L a := hf.mono fun a h => by simp [h]

theorem I_comm (f g : X → ℝ) : I L f g = I L g f := S_congr fun a => by ring

private theorem I_add {f g h : X → ℝ} (hf : Fin' f) (hg : Fin' g) : I L (fun a => f a + g a) h = I L f h + I L g h := by
  unfold I
  rw [← S_add (fI hf h L) (fI hg h L)]
  exact S_congr fun a => by ring

private theorem I_smul (c : ℝ) (f h : X → ℝ) : I L (fun a => c * f a) h = c * I L f h := by
  unfold I
  rw [← S_mul]
  exact S_congr fun a => by ring

theorem I_self_nonneg (hL : ∀ a, 0 ≤ L a) (f : X → ℝ) : 0 ≤ I L f f := by
  apply S_nonneg; intro a
  have := hL a
  have h2 := mul_self_nonneg (f a)
  positivity

/-- A combination of three fields, and its square. -/
private theorem I_comb {f g h : X → ℝ} (hf : Fin' f) (hg : Fin' g) (hh : Fin' h) (x y z : ℝ) (k : X → ℝ) :
    I L (fun a => x * f a + y * g a + z * h a) k = x * I L f k + y * I L g k + z * I L h k := by
  rw [I_add ((hf.mul_left (fun _ => x)).add (hg.mul_left fun _ => y)) (hh.mul_left fun _ => z),
    I_add (hf.mul_left fun _ => x) (hg.mul_left fun _ => y), I_smul, I_smul, I_smul]

private theorem I_comb2 {f g h : X → ℝ} (hf : Fin' f) (hg : Fin' g) (hh : Fin' h) (x y z : ℝ) :
    I L (fun a => x * f a + y * g a + z * h a) (fun a => x * f a + y * g a + z * h a) =
      x ^ 2 * I L f f + y ^ 2 * I L g g + z ^ 2 * I L h h + 2 * x * y * I L f g + 2 * x * z * I L f h + 2 * y * z * I L g h := by
  rw [I_comb hf hg hh, I_comm f, I_comm g, I_comm h, I_comb hf hg hh, I_comb hf hg hh, I_comb hf hg hh,
    I_comm g f, I_comm h f, I_comm h g]
  ring

/-- **Growth**: a three-term recursion with a symmetric operator whose quadratic form is positive somewhere. -/
theorem recursion_grows (hL : ∀ a, 0 ≤ L a) (U B : ℕ → X → ℝ) (fU : ∀ n, Fin' (U n)) (fB : ∀ n, Fin' (B n))
    (sym : ∀ m n, I L (U m) (B n) = I L (U n) (B m)) (hrec : ∀ n a, U (n + 2) a = 2 * U (n + 1) a - U n a + B (n + 1) a)
    (start : ∀ a, U 1 a = U 0 a + 1 / 2 * B 0 a) (n : ℕ) :
    I L (U 0) (U 0) + n ^ 2 * I L (U 0) (B 0) ≤ I L (U n) (U n) := by
  let E : ℕ → ℝ := fun n => I L (U (n + 1)) (U (n + 1)) - 2 * I L (U (n + 1)) (U n) + I L (U n) (U n) - I L (U (n + 1)) (B n)
  have er : ∀ n, U (n + 2) = fun a => 2 * U (n + 1) a + (-1) * U n a + 1 * B (n + 1) a := by
    intro n; funext a; rw [hrec n a]; ring
  have cons : ∀ n, E (n + 1) = E n := by
    intro n
    show I L (U (n + 2)) (U (n + 2)) - 2 * I L (U (n + 2)) (U (n + 1)) + I L (U (n + 1)) (U (n + 1)) - I L (U (n + 2)) (B (n + 1)) = _
    rw [er n, I_comb2 (fU _) (fU _) (fB _), I_comb (fU _) (fU _) (fB _), I_comb (fU _) (fU _) (fB _)]
    have h1 := sym n (n + 1)
    have h2 := I_comm (L := L) (U n) (U (n + 1))
    have h3 := I_comm (L := L) (B (n + 1)) (U (n + 1))
    show _ = I L (U (n + 1)) (U (n + 1)) - 2 * I L (U (n + 1)) (U n) + I L (U n) (U n) - I L (U (n + 1)) (B n)
    linarith
  have allE : ∀ n, E n = E 0 := by
    intro n; induction n with
    | zero => rfl
    | succ n ih => rw [cons, ih]
  have e1 : U 1 = fun a => 1 * U 0 a + 1 / 2 * B 0 a + 0 * U 0 a := by funext a; rw [start a]; ring
  have hB := I_self_nonneg hL (B 0)
  have hE0 : E 0 = - I L (U 0) (B 0) - 1 / 4 * I L (B 0) (B 0) := by
    show I L (U 1) (U 1) - 2 * I L (U 1) (U 0) + I L (U 0) (U 0) - I L (U 1) (B 0) = _
    rw [e1, I_comb2 (fU _) (fB _) (fU _), I_comb (fU _) (fB _) (fU _), I_comb (fU _) (fB _) (fU _)]
    have h3 := I_comm (L := L) (B 0) (U 0)
    linarith
  have h1 : I L (U 1) (U 1) - I L (U 0) (U 0) = - E 0 := by
    rw [hE0, e1, I_comb2 (fU _) (fB _) (fU _)]
    have h3 := I_comm (L := L) (B 0) (U 0)
    linarith
  have second : ∀ n, I L (U (n + 2)) (U (n + 2)) - 2 * I L (U (n + 1)) (U (n + 1)) + I L (U n) (U n) ≥ -2 * E 0 := by
    intro n
    rw [← allE n]
    have hs := I_self_nonneg hL (fun a => 2 * U (n + 1) a + (-2) * U n a + 1 * B (n + 1) a)
    rw [I_comb2 (fU _) (fU _) (fB _)] at hs
    rw [er n, I_comb2 (fU _) (fU _) (fB _)]
    have h1 := sym n (n + 1)
    have h2 := I_comm (L := L) (U n) (U (n + 1))
    show _ ≥ -2 * (I L (U (n + 1)) (U (n + 1)) - 2 * I L (U (n + 1)) (U n) + I L (U n) (U n) - I L (U (n + 1)) (B n))
    linarith
  have step : ∀ n : ℕ, I L (U (n + 1)) (U (n + 1)) - I L (U n) (U n) ≥ (2 * n + 1) * (- E 0) := by
    intro n; induction n with
    | zero => rw [h1]; simp
    | succ n ih => have := second n; push_cast; linarith
  have main : I L (U n) (U n) ≥ I L (U 0) (U 0) + n ^ 2 * (- E 0) := by
    induction n with
    | zero => simp
    | succ n ih => have := step n; push_cast; nlinarith
  have hle : I L (U 0) (B 0) ≤ - E 0 := by rw [hE0]; linarith
  have : (n : ℝ) ^ 2 * I L (U 0) (B 0) ≤ n ^ 2 * (- E 0) := by gcongr
  linarith

/-! ## Of the scheme -/

theorem divF_add (d : Dir) (k : ℕ) (cs : List ℝ) (p q : X → ℝ) (a : X) :
    divF d k cs (fun a => p a + q a) a = divF d k cs p a + divF d k cs q a := by
  induction cs generalizing k with
  | nil => simp [divF]
  | cons c cs ih => simp only [divF]; rw [ih]; ring

theorem divF_smul (d : Dir) (k : ℕ) (cs : List ℝ) (c : ℝ) (p : X → ℝ) (a : X) :
    divF d k cs (fun a => c * p a) a = c * divF d k cs p a := by
  induction cs generalizing k with
  | nil => simp [divF]
  | cons e cs ih => simp only [divF]; rw [ih]; ring

theorem gradF_smul (d : Dir) (k : ℕ) (cs : List ℝ) (c : ℝ) (p : X → ℝ) (a : X) :
    gradF d k cs (fun a => c * p a) a = c * gradF d k cs p a := by
  induction cs generalizing k with
  | nil => simp [gradF]
  | cons e cs ih => simp only [gradF]; rw [ih]; ring

/-- The second-order operator: minus the modulus times the divergence of buoyancy times gradient. -/
noncomputable def opA (cs : List ℝ) (rx rz L p : X → ℝ) : X → ℝ := fun a =>
  - (L a * (divF .x 0 cs (fun b => rx b * gradF .x 0 cs p b) a + divF .z 0 cs (fun b => rz b * gradF .z 0 cs p b) a))

theorem opA_smul (c : ℝ) (p : X → ℝ) (a : X) : opA cs rx rz L (fun b => c * p b) a = c * opA cs rx rz L p a := by
  unfold opA
  have e : ∀ (d : Dir) (r : X → ℝ), (fun b => r b * gradF d 0 cs (fun b => c * p b) b) = fun b => c * (r b * gradF d 0 cs p b) := by
    intro d r; funext b; rw [gradF_smul]; ring
  rw [e, e, divF_smul, divF_smul]; ring

theorem Medium.fA (m : Medium rx rz L) (p : X → ℝ) : Fin' (opA cs rx rz L p) := m.fL.mono fun a h => by simp [opA, h]

/-- The operator is symmetric: its form is that of the differences. -/
theorem opA_form (m : Medium rx rz L) {f g : X → ℝ} (hf : ∀ a, L a = 0 → f a = 0) :
    I L f (opA cs rx rz L g) = S (fun a => rx a * gradF .x 0 cs g a * gradF .x 0 cs f a) +
      S (fun a => rz a * gradF .z 0 cs g a * gradF .z 0 cs f a) := by
  have ff : Fin' f := m.fL.mono hf
  have f1 : Fin' fun a => rx a * gradF .x 0 cs g a := m.frx.mul_right _
  have f2 : Fin' fun a => rz a * gradF .z 0 cs g a := m.frz.mul_right _
  rw [parts .x 0 cs f1 ff, parts .z 0 cs f2 ff, ← S_neg, ← S_neg, ← S_add (ff.mul_right _).neg (ff.mul_right _).neg]
  apply S_congr
  intro a
  unfold opA
  by_cases h : L a = 0
  · simp [hf a h]
  · field_simp; ring

private theorem sgn (n : ℕ) : (-1 : ℝ) ^ n * (-1) ^ n = 1 := by rw [← mul_pow]; simp

/-- The initial field: a pressure `w`, and velocities that make the motion symmetric in time. -/
noncomputable def kick (cs : List ℝ) (rx rz w : X → ℝ) : St :=
  ⟨fun a => 1 / 2 * (rx a * gradF .x 0 cs w a), fun a => 1 / 2 * (rz a * gradF .z 0 cs w a), w⟩

theorem kick_live {w : X → ℝ} (h : ∀ a, L a = 0 → w a = 0) : Live rx rz L (kick cs rx rz w) where
  vx a ha := by simp [kick, ha]
  vz a ha := by simp [kick, ha]
  p := h

/-- **Instability**: a pressure whose differences exceed four times its energy grows without bound. -/
theorem grows (m : Medium rx rz L) {w : X → ℝ} (hw : ∀ a, L a = 0 → w a = 0) (n : ℕ) :
    S (fun a => w a ^ 2 / L a) + n ^ 2 * (S (fun a => rx a * gradF .x 0 cs w a ^ 2) + S (fun a => rz a * gradF .z 0 cs w a ^ 2) -
        4 * S (fun a => w a ^ 2 / L a)) ≤
      S (fun a => (leaps cs rx rz L n (kick cs rx rz w)).p a ^ 2 / L a) := by
  set s : ℕ → St := fun n => leaps cs rx rz L n (kick cs rx rz w) with hs
  have live : ∀ n, Live rx rz L (s n) := fun n => leaps_live (kick_live hw) n
  let U : ℕ → X → ℝ := fun n a => (-1) ^ n * (s n).p a
  let B : ℕ → X → ℝ := fun n a => opA cs rx rz L (U n) a - 4 * U n a
  have lU : ∀ n a, L a = 0 → U n a = 0 := fun n a h => by simp [U, (live n).p a h]
  have fU : ∀ n, Fin' (U n) := fun n => m.fL.mono (lU n)
  have fB : ∀ n, Fin' (B n) := fun n => (m.fA _).sub ((fU n).mul_left _)
  have IB : ∀ k n, I L (U k) (B n) = I L (U k) (opA cs rx rz L (U n)) - 4 * I L (U k) (U n) := by
    intro k n
    have e : B n = fun a => 1 * opA cs rx rz L (U n) a + (-4) * U n a + 0 * U n a := by funext a; simp only [B]; ring
    rw [I_comm, e, I_comb (m.fA _) (fU n) (fU n), I_comm (U k), I_comm (U k)]; ring
  have sym : ∀ k n, I L (U k) (B n) = I L (U n) (B k) := by
    intro k n
    rw [IB, IB, opA_form m (lU k), opA_form m (lU n), I_comm (U n)]
    congr 2
    · exact S_congr fun a => by ring
    · exact S_congr fun a => by ring
  -- the velocity after a step
  have vstep : ∀ n a, divF .x 0 cs (s (n + 1)).vx a + divF .z 0 cs (s (n + 1)).vz a =
      divF .x 0 cs (s n).vx a + divF .z 0 cs (s n).vz a -
        (divF .x 0 cs (fun b => rx b * gradF .x 0 cs (s n).p b) a + divF .z 0 cs (fun b => rz b * gradF .z 0 cs (s n).p b) a) := by
    intro n a
    have ex : (s (n + 1)).vx = fun b => (s n).vx b + (-1) * (rx b * gradF .x 0 cs (s n).p b) := by
      funext b; show (s n).vx b - rx b * gradF .x 0 cs (s n).p b = _; ring
    have ez : (s (n + 1)).vz = fun b => (s n).vz b + (-1) * (rz b * gradF .z 0 cs (s n).p b) := by
      funext b; show (s n).vz b - rz b * gradF .z 0 cs (s n).p b = _; ring
    rw [ex, ez, divF_add, divF_add, divF_smul, divF_smul]; ring
  have pstep : ∀ n a, (s (n + 1)).p a = (s n).p a - L a * (divF .x 0 cs (s (n + 1)).vx a + divF .z 0 cs (s (n + 1)).vz a) :=
    fun n a => rfl
  have UA : ∀ n a, opA cs rx rz L (U n) a = (-1) ^ n * opA cs rx rz L (s n).p a := fun n a => opA_smul _ _ a
  have hrec : ∀ n a, U (n + 2) a = 2 * U (n + 1) a - U n a + B (n + 1) a := by
    intro n a
    have h1 := pstep (n + 1) a
    have h2 := pstep n a
    rw [vstep (n + 1)] at h1
    simp only [B, UA, U]
    have h3 : (s (n + 2)).p a = 2 * (s (n + 1)).p a - (s n).p a - opA cs rx rz L (s (n + 1)).p a := by
      unfold opA
      show (s (n + 1 + 1)).p a = _
      linarith
    rw [h3, pow_succ, pow_succ]; ring
  have start : ∀ a, U 1 a = U 0 a + 1 / 2 * B 0 a := by
    intro a
    have h2 := pstep 0 a
    rw [vstep 0] at h2
    have e0 : divF .x 0 cs (s 0).vx a + divF .z 0 cs (s 0).vz a =
        1 / 2 * (divF .x 0 cs (fun b => rx b * gradF .x 0 cs (s 0).p b) a + divF .z 0 cs (fun b => rz b * gradF .z 0 cs (s 0).p b) a) := by
      have ex : (s 0).vx = fun b => 1 / 2 * (rx b * gradF .x 0 cs (s 0).p b) := rfl
      have ez : (s 0).vz = fun b => 1 / 2 * (rz b * gradF .z 0 cs (s 0).p b) := rfl
      rw [ex, ez, divF_smul, divF_smul]; ring
    rw [e0] at h2
    simp only [B, UA, U]
    rw [show (0 : ℕ) + 1 = 1 from rfl] at h2
    rw [h2]; unfold opA; ring
  have key := recursion_grows m.pL U B fU fB sym hrec start n
  have e0 : U 0 = w := by funext a; simp [U, hs, leaps, kick]
  have sq : ∀ f : X → ℝ, I L f f = S fun a => f a ^ 2 / L a := fun f => S_congr fun a => by ring
  rw [IB, sq, opA_form m (lU 0), sq, e0] at key
  have en : (S fun a => U n a ^ 2 / L a) = S fun a => (s n).p a ^ 2 / L a := by
    apply S_congr; intro a
    have : U n a ^ 2 = (s n).p a ^ 2 := by simp only [U]; rw [mul_pow, ← pow_mul, mul_comm n 2, pow_mul]; simp
    rw [this]
  rw [en] at key
  have s1 : ∀ (d : Dir) (r : X → ℝ), S (fun a => r a * gradF d 0 cs w a * gradF d 0 cs w a) = S (fun a => r a * gradF d 0 cs w a ^ 2) :=
    fun d r => S_congr fun a => by ring
  rw [s1, s1] at key
  exact key

end Verif.Stab

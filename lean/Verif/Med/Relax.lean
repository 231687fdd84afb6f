import Verif.Med.Ext
import Mathlib.Tactic.FieldSimp
import Mathlib.Tactic.LinearCombination
import Mathlib.Tactic.Linarith
import Mathlib.Tactic.Ring
import Mathlib.Algebra.Order.Field.Rat

/-!
# Attenuation in time: memory variables of viscoacoustic4.c and viscoelastic4.c, and the storage of the relaxation times

The update of the stresses at one grid point, with the spatial differences of the particle velocity given.  Exact arithmetic.
-/

namespace Verif.Med.Relax

variable {K : Type}

/-! ## Model: viscoacoustic4.c -/

/-- One relaxation mechanism at a grid point: `tss`, `tep` and `mod.weight` (getParameters.c:208, 217 set it to 1). -/
structure Mech (K : Type) where
  s : K
  e : K
  w : K

section
variable [Field K]

/-- One pass of the loop over the mechanisms (viscoacoustic4.c:166-187). `M` is `l2m`, `d` the divergence. -/
def mechStep (M dt d : K) (k : Mech K) (p q : K) : K × K :=
  let Tpp := k.s * k.e
  let p := p - (M * Tpp * d + k.w * q)
  let Tlm := (1 - Tpp) * k.s * M
  let nom := 1 / (1 + 1 / 2 * k.s * dt)
  let q := nom * (q * (1 - 1 / 2 * k.s * dt) + 1 / 2 * Tlm * d * dt)
  (p - k.w * q, q)

/-- The loop over the mechanisms at a grid point (viscoacoustic4.c:166-187); `q` is the list of memory variables. -/
def cellStep (M dt d : K) : List (Mech K) → K → List K → K × List K
  | [], p, _ => (p, [])
  | k :: ks, p, q =>
    let r := mechStep M dt d k p (q.headD 0)
    let t := cellStep M dt d ks r.1 q.tail
    (t.1, r.2 :: t.2)

/-- `n` time steps with a constant divergence. -/
def cellRun (M dt d : K) (ks : List (Mech K)) : Nat → K × List K → K × List K
  | 0, s => s
  | n + 1, s => let t := cellRun M dt d ks n s; cellStep M dt d ks t.1 t.2

/-! ## Model: viscoelastic4.c -/

/-- Medium parameters at a point: `l2m`, `mul`, `tss`, `tep`, `tes`. -/
structure Med5 (K : Type) where
  l2m : K
  mul : K
  s : K
  ep : K
  es : K

/-- Stresses and memory variables at a point: `txx`, `tzz`, `txz` and `q`, `p`, `r`. -/
structure St (K : Type) where
  txx : K
  tzz : K
  txz : K
  q : K
  p : K
  r : K

/-- One time step at a point; `a = dxvx`, `b = dzvz`, `c = dzvx+dxvz` (viscoelastic4.c:161-211). -/
def veStep (g : Med5 K) (dt a b c : K) (t : St K) : St K :=
  let ddt := 1 / dt
  let Tpp := g.ep * g.s
  let Tss := g.es * g.s
  let Tmu := (1 - Tss) * g.s * g.mul
  let Tlm := (1 - Tpp) * g.s * g.l2m * (1 / 2)
  let Tlp := g.l2m * Tpp
  let Tus := g.mul * Tss
  let Tt1 := 1 / (ddt + 1 / 2 * g.s)
  let Tt2 := ddt - 1 / 2 * g.s
  let txx := t.txx - (Tlp * a + (Tlp - 2 * Tus) * b + t.q)
  let tzz := t.tzz - (Tlp * b + (Tlp - 2 * Tus) * a + t.p)
  let q := (Tt2 * t.q - Tmu * b + Tlm * (a + b)) * Tt1
  let txx := txx - q
  let p := (Tt2 * t.p - Tmu * a + Tlm * (a + b)) * Tt1
  let tzz := tzz - p
  let txz := t.txz - (Tus * c + t.r)
  let r := (Tt2 * t.r + 1 / 2 * Tmu * c) * Tt1
  let txz := txz - r
  ⟨txx, tzz, txz, q, p, r⟩

/-- `n` time steps with constant strain rates. -/
def veRun (g : Med5 K) (dt a b c : K) : Nat → St K → St K
  | 0, t => t
  | n + 1, t => veStep g dt a b c (veRun g dt a b c n t)

/-- The elastic update with modulus `lam` (elastic4.c: `txx -= l2m*dvvx + lam*dvvz`, `txz -= mul*(..)`). -/
def elStep (l2m lam mul a b c : K) (txx tzz txz : K) : K × K × K :=
  (txx - (l2m * a + lam * b), tzz - (l2m * b + lam * a), txz - mul * c)

end

/-! ## Specification: relaxation at a constant strain rate

A standard linear solid, strained at the constant rate `d` from rest, has stress
`M d t + M (τε/τσ - 1) d τσ (1 - exp(-t/τσ))`.  In discrete time `exp(-t/τσ)` is replaced by the `n`-th power of its
Crank–Nicolson value. -/

section
variable [Field K]

/-- Crank–Nicolson approximation of `exp(-dt s)`. -/
def decay (s dt : K) : K := (1 - s * dt / 2) / (1 + s * dt / 2)

/-- Stress after `n` steps at constant strain increment `d`: relaxed modulus `M`, `1/τσ = s`, `τε = e`. -/
def solid (M s e dt d : K) (n : Nat) : K := M * d * n + M * d * (s * e - 1) / (s * dt) * (1 - decay s dt ^ n)

end

section
variable [Field K] [LinearOrder K] [IsStrictOrderedRing K]

/-- One memory variable `x` that relaxes to `y`, and a stress that loses `E` and the old and the new value at every step. -/
theorem memory {s dt : K} (hs : 0 < s) (hdt : 0 < dt) (y E : K) (t x : Nat → K) (h0 : x 0 = 0)
    (hx : ∀ n, x (n + 1) = decay s dt * x n + (1 - decay s dt) * y)
    (ht : ∀ n, t (n + 1) = t n - E - x n - x (n + 1)) (n : Nat) :
    x n = y * (1 - decay s dt ^ n) ∧
      t n = t 0 - (n : K) * (E + 2 * y) + 2 * y / (s * dt) * (1 - decay s dt ^ n) := by
  have hx' : ∀ n, x n = y * (1 - decay s dt ^ n) := by
    intro n
    induction n with
    | zero => simp [h0]
    | succ n ih => rw [hx, ih, pow_succ]; ring
  refine ⟨hx' n, ?_⟩
  induction n with
  | zero => simp
  | succ n ih =>
    rw [ht, ih, hx', hx', pow_succ]
    push_cast
    have hsd : s * dt ≠ 0 := (mul_pos hs hdt).ne'
    have hp : (1 + s * dt / 2) ≠ 0 := by have := mul_pos hs hdt; positivity
    have hp2 : (2 + s * dt) ≠ 0 := by have := mul_pos hs hdt; positivity
    have hd : (1 + decay s dt) * (s * dt) = 2 * (1 - decay s dt) := by
      unfold decay; field_simp; ring
    have e : 2 * y / (s * dt) * (1 - decay s dt ^ n * decay s dt) =
        2 * y / (s * dt) * (1 - decay s dt ^ n) + y * decay s dt ^ n * (1 + decay s dt) := by
      field_simp
      linear_combination (-(y * decay s dt ^ n)) * hd
    rw [e]; ring

/-- Memory variable of one mechanism after `n` steps from rest. -/
private def qn (M dt d : K) (k : Mech K) : Nat → K
  | 0 => 0
  | n + 1 => (mechStep M dt d k 0 (qn M dt d k n)).2

/-- What one mechanism has added to the stress after `n` steps from rest. -/
private def tn (M dt d : K) (k : Mech K) : Nat → K
  | 0 => 0
  | n + 1 => (mechStep M dt d k (tn M dt d k n) (qn M dt d k n)).1

private theorem mechStep_shift (M dt d : K) (k : Mech K) (p t q : K) :
    mechStep M dt d k (p + t) q = (p + (mechStep M dt d k t q).1, (mechStep M dt d k 0 q).2) := by
  unfold mechStep
  refine Prod.ext ?_ rfl
  dsimp only
  ring

private theorem cellStep_eq (M dt d : K) (n : Nat) (ks : List (Mech K)) (p : K) :
    cellStep M dt d ks (p + (ks.map fun k => tn M dt d k n).sum) (ks.map fun k => qn M dt d k n) =
      (p + (ks.map fun k => tn M dt d k (n + 1)).sum, ks.map fun k => qn M dt d k (n + 1)) := by
  induction ks generalizing p with
  | nil => simp [cellStep]
  | cons k ks ih =>
    simp only [List.map_cons, List.sum_cons, cellStep, List.headD_cons, List.tail_cons]
    have e : p + (tn M dt d k n + (ks.map fun k => tn M dt d k n).sum) =
        (p + (ks.map fun k => tn M dt d k n).sum) + tn M dt d k n := by ring
    rw [e, mechStep_shift]
    dsimp only
    have e2 : p + (ks.map fun k => tn M dt d k n).sum + (mechStep M dt d k (tn M dt d k n) (qn M dt d k n)).1 =
        (p + tn M dt d k (n + 1)) + (ks.map fun k => tn M dt d k n).sum := by
      show _ = (p + (mechStep M dt d k (tn M dt d k n) (qn M dt d k n)).1) + _
      ring
    rw [e2, ih]
    refine Prod.ext ?_ rfl
    dsimp only
    ring

private theorem tn_eq {M dt d : K} {k : Mech K} (hs : 0 < k.s) (hdt : 0 < dt) (hw : k.w = 1) (n : Nat) :
    tn M dt d k n = - solid M k.s k.e dt d n := by
  have hsd := mul_pos hs hdt
  have hp : (1 + k.s * dt / 2) ≠ 0 := by positivity
  have hp1 : (1 + 1 / 2 * k.s * dt) ≠ 0 := by positivity
  have hp2 : (2 + k.s * dt) ≠ 0 := by positivity
  have h := (memory hs hdt ((1 - k.s * k.e) * M * d / 2) (M * (k.s * k.e) * d) (tn M dt d k) (qn M dt d k) rfl
    (by
      intro n
      show (mechStep M dt d k 0 (qn M dt d k n)).2 = _
      unfold mechStep decay
      dsimp only
      field_simp
      ring)
    (by
      intro n
      show (mechStep M dt d k (tn M dt d k n) (qn M dt d k n)).1 = tn M dt d k n - _ - _ - (mechStep M dt d k 0 (qn M dt d k n)).2
      unfold mechStep
      dsimp only
      rw [hw]
      ring) n).2
  rw [h]
  unfold solid
  show (0 : K) - _ + _ = _
  have hs' := hs.ne'
  have hd' := hdt.ne'
  field_simp
  ring

/-- Any number of mechanisms: every one of them adds the stress of a complete standard linear solid. -/
theorem va_many {M dt d : K} {ks : List (Mech K)} (hdt : 0 < dt) (hk : ∀ k ∈ ks, 0 < k.s ∧ k.w = 1) (p0 : K) (n : Nat) :
    (cellRun M dt d ks n (p0, ks.map fun _ => 0)).1 = p0 - (ks.map fun k => solid M k.s k.e dt d n).sum := by
  have key : cellRun M dt d ks n (p0, ks.map fun _ => 0) =
      (p0 + (ks.map fun k => tn M dt d k n).sum, ks.map fun k => qn M dt d k n) := by
    induction n with
    | zero =>
      have : (ks.map fun k => tn M dt d k 0).sum = 0 := by
        have : (ks.map fun k => tn M dt d k 0) = ks.map fun _ => 0 := rfl
        rw [this]; simp
      rw [this, add_zero]; rfl
    | succ n ih =>
      show cellStep M dt d ks (cellRun M dt d ks n _).1 (cellRun M dt d ks n _).2 = _
      rw [ih]
      exact cellStep_eq M dt d n ks p0
  rw [key]
  have : (ks.map fun k => tn M dt d k n) = (ks.map fun k => - solid M k.s k.e dt d n) :=
    List.map_congr_left fun k hk' => tn_eq (hk k hk').1 hdt (hk k hk').2 n
  rw [this]
  dsimp only
  have neg : ∀ l : List (Mech K), (l.map fun k => - solid M k.s k.e dt d n).sum = - (l.map fun k => solid M k.s k.e dt d n).sum := by
    intro l
    induction l with
    | nil => simp
    | cons k l ih => simp only [List.map_cons, List.sum_cons]; rw [ih]; ring
  rw [neg]; ring

/-- **One mechanism: the pressure is that of a standard linear solid** with relaxed modulus `l2m` and the relaxation times of
the model, for every number of time steps at a constant strain rate. -/
theorem va_relaxation_partial {M s e dt d : K} (hs : 0 < s) (hdt : 0 < dt) (p0 : K) (n : Nat) :
    (cellRun M dt d [⟨s, e, 1⟩] n (p0, [0])).1 = p0 - solid M s e dt d n := by
  have := va_many (M := M) (d := d) (ks := [⟨s, e, 1⟩]) hdt (by simp [hs]) p0 n
  simpa using this

/-- **Several mechanisms multiply the modulus.**  In a medium without attenuation (`τε = τσ`), given by `L` mechanisms, the
pressure change at every step is `L` times that of the acoustic medium. -/
theorem modulus_multiplied {M dt d : K} {ks : List (Mech K)} (hdt : 0 < dt) (hk : ∀ k ∈ ks, 0 < k.s ∧ k.w = 1)
    (hl : ∀ k ∈ ks, k.s * k.e = 1) (p0 : K) (n : Nat) :
    (cellRun M dt d ks n (p0, ks.map fun _ => 0)).1 = p0 - (ks.length : K) * (M * d * n) := by
  rw [va_many hdt hk]
  congr 1
  have : (ks.map fun k => solid M k.s k.e dt d n) = ks.map fun _ => M * d * n :=
    List.map_congr_left fun k h => by unfold solid; rw [hl k h]; simp
  rw [this]; simp

/-- **The visco-elastic stresses relax to those of an elastic medium** with moduli `l2m`, `l2m-2 mul`, `mul`: closed form of
all three stresses after any number of steps at constant strain rates. -/
theorem ve_relaxation {g : Med5 K} {dt a b c : K} (hs : 0 < g.s) (hdt : 0 < dt) (t0 : St K) (hq : t0.q = 0) (hp : t0.p = 0)
    (hr : t0.r = 0) (n : Nat) :
    (veRun g dt a b c n t0).txx = t0.txx - (solid g.l2m g.s g.ep dt (a + b) n - 2 * solid g.mul g.s g.es dt b n) ∧
    (veRun g dt a b c n t0).tzz = t0.tzz - (solid g.l2m g.s g.ep dt (a + b) n - 2 * solid g.mul g.s g.es dt a n) ∧
    (veRun g dt a b c n t0).txz = t0.txz - solid g.mul g.s g.es dt c n := by
  have hsd := mul_pos hs hdt
  have hs' := hs.ne'
  have hd' := hdt.ne'
  have hp1 : (1 + g.s * dt / 2) ≠ 0 := by positivity
  have hp2 : (1 / dt + 1 / 2 * g.s) ≠ 0 := by positivity
  have hp3 : (2 + g.s * dt) ≠ 0 := by positivity
  have hp4 : (2 + dt * g.s) ≠ 0 := by rw [mul_comm dt]; exact hp3
  refine ⟨?_, ?_, ?_⟩
  · have h := (memory hs hdt ((-(2 * (1 - g.es * g.s) * g.mul * b) + (1 - g.ep * g.s) * g.l2m * (a + b)) / 2)
      (g.l2m * (g.ep * g.s) * a + (g.l2m * (g.ep * g.s) - 2 * (g.mul * (g.es * g.s))) * b)
      (fun n => (veRun g dt a b c n t0).txx) (fun n => (veRun g dt a b c n t0).q) hq
      (by
        intro n
        show (veStep g dt a b c (veRun g dt a b c n t0)).q = _
        unfold veStep decay
        dsimp only
        field_simp
        ring)
      (by
        intro n
        show (veStep g dt a b c (veRun g dt a b c n t0)).txx = _ - _ - _ - (veStep g dt a b c (veRun g dt a b c n t0)).q
        unfold veStep
        dsimp only
        ring) n).2
    refine h.trans ?_
    unfold solid
    show t0.txx - _ + _ = _
    field_simp
    ring
  · have h := (memory hs hdt ((-(2 * (1 - g.es * g.s) * g.mul * a) + (1 - g.ep * g.s) * g.l2m * (a + b)) / 2)
      (g.l2m * (g.ep * g.s) * b + (g.l2m * (g.ep * g.s) - 2 * (g.mul * (g.es * g.s))) * a)
      (fun n => (veRun g dt a b c n t0).tzz) (fun n => (veRun g dt a b c n t0).p) hp
      (by
        intro n
        show (veStep g dt a b c (veRun g dt a b c n t0)).p = _
        unfold veStep decay
        dsimp only
        field_simp
        ring)
      (by
        intro n
        show (veStep g dt a b c (veRun g dt a b c n t0)).tzz = _ - _ - _ - (veStep g dt a b c (veRun g dt a b c n t0)).p
        unfold veStep
        dsimp only
        ring) n).2
    refine h.trans ?_
    unfold solid
    show t0.tzz - _ + _ = _
    field_simp
    ring
  · have h := (memory hs hdt ((1 - g.es * g.s) * g.mul * c / 2) (g.mul * (g.es * g.s) * c)
      (fun n => (veRun g dt a b c n t0).txz) (fun n => (veRun g dt a b c n t0).r) hr
      (by
        intro n
        show (veStep g dt a b c (veRun g dt a b c n t0)).r = _
        unfold veStep decay
        dsimp only
        field_simp
        ring)
      (by
        intro n
        show (veStep g dt a b c (veRun g dt a b c n t0)).txz = _ - _ - _ - (veStep g dt a b c (veRun g dt a b c n t0)).r
        unfold veStep
        dsimp only
        ring) n).2
    refine h.trans ?_
    unfold solid
    show t0.txz - _ + _ = _
    field_simp
    ring

omit [LinearOrder K] [IsStrictOrderedRing K] in
/-- **Without attenuation the visco-elastic step is the elastic step** and the memory variables stay zero, at a point where
`lam = l2m - 2 mul`. -/
theorem ve_lossless_partial {g : Med5 K} {dt a b c lam : K} (hep : g.ep * g.s = 1) (hes : g.es * g.s = 1)
    (hl : lam = g.l2m - 2 * g.mul) (t : St K) (hq : t.q = 0) (hp : t.p = 0) (hr : t.r = 0) :
    veStep g dt a b c t =
      let u := elStep g.l2m lam g.mul a b c t.txx t.tzz t.txz
      ⟨u.1, u.2.1, u.2.2, 0, 0, 0⟩ := by
  unfold veStep elStep
  dsimp only
  rw [hep, hes, hq, hp, hr, hl]
  simp

end

/-! ### Concrete cases -/

example : (cellRun (4 : Rat) (1 / 10) (1 / 3) [⟨5, 1 / 4, 1⟩] 7 (0, [0])).1 = 0 - solid 4 5 (1 / 4) (1 / 10) (1 / 3) 7 :=
  va_relaxation_partial (by norm_num) (by norm_num) 0 7

/-- Two reference frequencies, no attenuation: twice the stress. -/
theorem two_frequencies : (cellStep (4 : Rat) (1 / 10) (1 / 3) [⟨5, 1 / 5, 1⟩, ⟨7, 1 / 7, 1⟩] 0 [0, 0]).1 = - (8 / 3) := by
  norm_num [cellStep, mechStep]

example : (veRun (⟨4, 1, 5, 1 / 4, 1 / 3⟩ : Med5 Rat) (1 / 10) 1 2 3 5 ⟨0, 0, 0, 0, 0, 0⟩).txz = 0 - solid 1 5 (1 / 3) (1 / 10) 3 5 :=
  (ve_relaxation (by norm_num) (by norm_num) ⟨0, 0, 0, 0, 0, 0⟩ rfl rfl rfl 5).2.2

/-! ## Storage of the relaxation times -/

/-- The loops of readModel.c:149-173 over all traces: the stores into `tss` and `tep`, arrays of `alloc` elements. -/
def relaxFill (p : Par) (nfw alloc : Int) (f : Int → Int → Int → K) (m : Int → K) : Option (Int → K) :=
  forIM 0 p.nx (fun i => forIM 0 p.nz (fun iz => forIM 0 nfw (fun imech m =>
    let j := (i + p.rPx) * p.naz * nfw + (iz + p.rPz) * nfw + imech
    if 0 ≤ j ∧ j < alloc then some (fun k => if k = j then f i iz imech else m k) else none))) m

private theorem forNM_none {σ : Type} {n k : Nat} {body : Nat → σ → Option σ} (hk : k < n) (h : ∀ s, body k s = none) (s : σ) :
    forNM n body s = none := by
  induction n with
  | zero => omega
  | succ n ih =>
    rw [forNM_succ]
    by_cases hc : k < n
    · rw [ih hc]; rfl
    · have : k = n := by omega
      subst this
      cases forNM k body s with
      | none => rfl
      | some t => exact h t

private theorem forIM_none {σ : Type} {lo hi k : Int} {body : Int → σ → Option σ} (h1 : lo ≤ k) (h2 : k < hi)
    (h : ∀ s, body k s = none) (s : σ) : forIM lo hi body s = none := by
  unfold forIM
  apply forNM_none (k := (k - lo).toNat) (by omega)
  intro s
  have : lo + ((k - lo).toNat : Int) = k := by omega
  show body (lo + ((k - lo).toNat : Int)) s = none
  rw [this]; exact h s

/-- **The visco-elastic scheme with several reference frequencies writes outside its arrays**: they have `nax*naz` elements
(fdelmodc.c:368-370), for every number of frequencies from two on and every model of at least four columns with equal absorbing
sides. -/
theorem relax_overflow {p : Par} (hv : Valid p) (hx : 4 + p.pad p.rig ≤ p.nx + p.pad p.lef) {nfw : Int} (hn : 2 ≤ nfw)
    (f : Int → Int → Int → K) (m : Int → K) : relaxFill p nfw (p.nax * p.naz) f m = none := by
  have h1 := hv.nx; have h2 := hv.nz; have h3 := hv.iorder; have h4 := hv.even
  have g1 := pad_nonneg hv p.lef; have g2 := pad_nonneg hv p.rig; have g3 := pad_nonneg hv p.top; have g4 := pad_nonneg hv p.bot
  have g5 := add_nonneg' hv
  unfold relaxFill
  refine forIM_none (k := p.nx - 1) (by omega) (by omega) (fun s => ?_) m
  refine forIM_none (k := p.nz - 1) (by omega) (by omega) (fun s => ?_) s
  refine forIM_none (k := nfw - 1) (by omega) (by omega) (fun s => ?_) s
  refine if_neg ?_
  rintro ⟨_, hlt⟩
  have hN : 0 ≤ p.naz := by unfold Par.naz; omega
  have hA : p.nax ≤ 2 * (p.nx - 1 + p.rPx) := by unfold Par.nax Par.rPx Par.ioPx; omega
  have hA0 : 0 ≤ p.nx - 1 + p.rPx := by unfold Par.rPx Par.ioPx; omega
  have hB0 : 0 ≤ p.nz - 1 + p.rPz := by unfold Par.rPz Par.ioPz; omega
  have e1 : p.nax * p.naz ≤ 2 * (p.nx - 1 + p.rPx) * p.naz := by gcongr
  have e2 : 0 ≤ (p.nx - 1 + p.rPx) * p.naz := by positivity
  have e3 : (p.nx - 1 + p.rPx) * p.naz * 2 ≤ (p.nx - 1 + p.rPx) * p.naz * nfw := by gcongr
  have e4 : 0 ≤ (p.nz - 1 + p.rPz) * nfw := by positivity
  nlinarith

/-- `x` is `m` or the right value: what every loop below preserves. -/
private def Good (p : Par) (nfw : Int) (f : Int → Int → Int → K) (m m' : Int → K) : Prop :=
  ∀ i iz k, 0 ≤ i → i < p.nx → 0 ≤ iz → iz < p.nz → 0 ≤ k → k < nfw →
    m (((i + p.rPx) * p.naz + (iz + p.rPz)) * nfw + k) = f i iz k →
    m' (((i + p.rPx) * p.naz + (iz + p.rPz)) * nfw + k) = f i iz k

private theorem digits {a b n x y : Int} (hx : 0 ≤ x) (hx' : x < n) (hy : 0 ≤ y) (hy' : y < n) (h : a * n + x = b * n + y) :
    a = b ∧ x = y := by
  have : a = b := by
    by_contra hne
    rcases lt_or_gt_of_ne hne with h1 | h1
    · have : (a + 1) * n ≤ b * n := by apply mul_le_mul_of_nonneg_right <;> omega
      nlinarith
    · have : (b + 1) * n ≤ a * n := by apply mul_le_mul_of_nonneg_right <;> omega
      nlinarith
  subst this
  exact ⟨rfl, by omega⟩

/-- With one reference frequency, or with the arrays of the visco-acoustic scheme (`nfw*nax*naz` elements, fdelmodc.c:359-360),
every store is in range, and each mechanism of each point of the model has its own element. -/
theorem relax_stored {p : Par} (hv : Valid p) {nfw : Int} (hn : 1 ≤ nfw) (f : Int → Int → Int → K) (m : Int → K) :
    ∃ m', relaxFill p nfw (nfw * (p.nax * p.naz)) f m = some m' ∧
      ∀ i iz k, 0 ≤ i → i < p.nx → 0 ≤ iz → iz < p.nz → 0 ≤ k → k < nfw →
        m' (((i + p.rPx) * p.naz + (iz + p.rPz)) * nfw + k) = f i iz k := by
  have h1 := hv.nx; have h2 := hv.nz; have h3 := hv.iorder; have h4 := hv.even
  have g1 := pad_nonneg hv p.lef; have g2 := pad_nonneg hv p.rig; have g3 := pad_nonneg hv p.top; have g4 := pad_nonneg hv p.bot
  have g5 := add_nonneg' hv
  have hA : ∀ i, 0 ≤ i → i < p.nx → 0 ≤ i + p.rPx ∧ i + p.rPx < p.nax := by
    intro i a b; unfold Par.nax Par.rPx Par.ioPx; omega
  have hB : ∀ i, 0 ≤ i → i < p.nz → 0 ≤ i + p.rPz ∧ i + p.rPz < p.naz := by
    intro i a b; unfold Par.naz Par.rPz Par.ioPz; omega
  have hN : 0 ≤ p.naz := by unfold Par.naz; omega
  -- one store
  have st : ∀ i iz k, 0 ≤ i → i < p.nx → 0 ≤ iz → iz < p.nz → 0 ≤ k → k < nfw → ∀ s : Int → K, ∃ s',
      (let j := (i + p.rPx) * p.naz * nfw + (iz + p.rPz) * nfw + k
       if 0 ≤ j ∧ j < nfw * (p.nax * p.naz) then some (fun l => if l = j then f i iz k else s l) else none) = some s' ∧
      Good p nfw f s s' ∧ s' (((i + p.rPx) * p.naz + (iz + p.rPz)) * nfw + k) = f i iz k := by
    intro i iz k a1 a2 a3 a4 a5 a6 s
    have hj : (i + p.rPx) * p.naz * nfw + (iz + p.rPz) * nfw + k = ((i + p.rPx) * p.naz + (iz + p.rPz)) * nfw + k := by ring
    obtain ⟨b1, b2⟩ := hA i a1 a2
    obtain ⟨b3, b4⟩ := hB iz a3 a4
    have hc : 0 ≤ (i + p.rPx) * p.naz * nfw + (iz + p.rPz) * nfw + k ∧
        (i + p.rPx) * p.naz * nfw + (iz + p.rPz) * nfw + k < nfw * (p.nax * p.naz) := by
      rw [hj]
      refine ⟨by positivity, ?_⟩
      have c1 : (i + p.rPx + 1) * p.naz ≤ p.nax * p.naz := by apply mul_le_mul_of_nonneg_right <;> omega
      have c2 : (i + p.rPx) * p.naz + (iz + p.rPz) + 1 ≤ p.nax * p.naz := by nlinarith
      have c3 : ((i + p.rPx) * p.naz + (iz + p.rPz) + 1) * nfw ≤ p.nax * p.naz * nfw := by
        apply mul_le_mul_of_nonneg_right <;> omega
      nlinarith
    refine ⟨_, if_pos hc, ?_, ?_⟩
    · intro i' iz' k' d1 d2 d3 d4 d5 d6 hm
      dsimp only
      split
      · rename_i he
        rw [hj] at he
        obtain ⟨e1, rfl⟩ := digits d5 d6 a5 a6 he
        obtain ⟨d7, d8⟩ := hB iz' d3 d4
        obtain ⟨e2, e3⟩ := digits d7 d8 b3 b4 e1
        have : i' = i := by omega
        have : iz' = iz := by omega
        subst_vars; rfl
      · exact hm
    · exact if_pos hj.symm
  have gr : ∀ s : Int → K, Good p nfw f s s := fun s _ _ _ _ _ _ _ _ _ h => h
  have gt : ∀ s t u : Int → K, Good p nfw f s t → Good p nfw f t u → Good p nfw f s u :=
    fun s t u h h' i iz k a b c d e g hm => h' i iz k a b c d e g (h i iz k a b c d e g hm)
  have l1 : ∀ i iz, 0 ≤ i → i < p.nx → 0 ≤ iz → iz < p.nz → ∀ s : Int → K, ∃ s',
      forIM 0 nfw (fun imech m =>
        let j := (i + p.rPx) * p.naz * nfw + (iz + p.rPz) * nfw + imech
        if 0 ≤ j ∧ j < nfw * (p.nax * p.naz) then some (fun k => if k = j then f i iz imech else m k) else none) s = some s' ∧
      Good p nfw f s s' ∧ ∀ k, 0 ≤ k → k < nfw → s' (((i + p.rPx) * p.naz + (iz + p.rPz)) * nfw + k) = f i iz k := by
    intro i iz a1 a2 a3 a4 s
    obtain ⟨s', e, c⟩ := forNM_inv (n := (nfw - 0).toNat) (s := s) (body := fun k => (fun imech m =>
        let j := (i + p.rPx) * p.naz * nfw + (iz + p.rPz) * nfw + imech
        if 0 ≤ j ∧ j < nfw * (p.nax * p.naz) then some (fun k => if k = j then f i iz imech else m k) else none) (0 + (k : Int)))
      (fun n t => Good p nfw f s t ∧ ∀ k, 0 ≤ k → k < (n : Int) → t (((i + p.rPx) * p.naz + (iz + p.rPz)) * nfw + k) = f i iz k)
      ⟨gr s, fun k a b => by omega⟩
      (by
        intro n hn' t ht
        obtain ⟨t', e1, e2, e3⟩ := st i iz (0 + (n : Int)) a1 a2 a3 a4 (by omega) (by omega) t
        refine ⟨t', e1, gt _ _ _ ht.1 e2, fun k b1 b2 => ?_⟩
        by_cases hk : k = (n : Int)
        · subst hk; simpa using e3
        · exact e2 i iz k a1 a2 a3 a4 b1 (by omega) (ht.2 k b1 (by omega)))
    exact ⟨s', e, c.1, fun k b1 b2 => c.2 k b1 (by omega)⟩
  have l2 : ∀ i, 0 ≤ i → i < p.nx → ∀ s : Int → K, ∃ s',
      forIM 0 p.nz (fun iz => forIM 0 nfw (fun imech m =>
        let j := (i + p.rPx) * p.naz * nfw + (iz + p.rPz) * nfw + imech
        if 0 ≤ j ∧ j < nfw * (p.nax * p.naz) then some (fun k => if k = j then f i iz imech else m k) else none)) s = some s' ∧
      Good p nfw f s s' ∧ ∀ iz k, 0 ≤ iz → iz < p.nz → 0 ≤ k → k < nfw →
        s' (((i + p.rPx) * p.naz + (iz + p.rPz)) * nfw + k) = f i iz k := by
    intro i a1 a2 s
    obtain ⟨s', e, c⟩ := forNM_inv (n := (p.nz - 0).toNat) (s := s) (body := fun k => (fun iz => forIM 0 nfw (fun imech m =>
        let j := (i + p.rPx) * p.naz * nfw + (iz + p.rPz) * nfw + imech
        if 0 ≤ j ∧ j < nfw * (p.nax * p.naz) then some (fun k => if k = j then f i iz imech else m k) else none)) (0 + (k : Int)))
      (fun n t => Good p nfw f s t ∧ ∀ iz k, 0 ≤ iz → iz < (n : Int) → 0 ≤ k → k < nfw →
        t (((i + p.rPx) * p.naz + (iz + p.rPz)) * nfw + k) = f i iz k)
      ⟨gr s, fun iz k a b => by omega⟩
      (by
        intro n hn' t ht
        obtain ⟨t', e1, e2, e3⟩ := l1 i (0 + (n : Int)) a1 a2 (by omega) (by omega) t
        refine ⟨t', e1, gt _ _ _ ht.1 e2, fun iz k b1 b2 b3 b4 => ?_⟩
        by_cases hk : iz = (n : Int)
        · subst hk; simpa using e3 k b3 b4
        · exact e2 i iz k a1 a2 b1 (by omega) b3 b4 (ht.2 iz k b1 (by omega) b3 b4))
    exact ⟨s', e, c.1, fun iz k b1 b2 b3 b4 => c.2 iz k b1 (by omega) b3 b4⟩
  obtain ⟨s', e, c⟩ := forNM_inv (n := (p.nx - 0).toNat) (s := m) (body := fun k => (fun i => forIM 0 p.nz (fun iz => forIM 0 nfw (fun imech m =>
        let j := (i + p.rPx) * p.naz * nfw + (iz + p.rPz) * nfw + imech
        if 0 ≤ j ∧ j < nfw * (p.nax * p.naz) then some (fun k => if k = j then f i iz imech else m k) else none))) (0 + (k : Int)))
      (fun n t => ∀ i iz k, 0 ≤ i → i < (n : Int) → 0 ≤ iz → iz < p.nz → 0 ≤ k → k < nfw →
        t (((i + p.rPx) * p.naz + (iz + p.rPz)) * nfw + k) = f i iz k)
      (fun i iz k a b => by omega)
      (by
        intro n hn' t ht
        obtain ⟨t', e1, e2, e3⟩ := l2 (0 + (n : Int)) (by omega) (by omega) t
        refine ⟨t', e1, fun i iz k b1 b2 b3 b4 b5 b6 => ?_⟩
        by_cases hk : i = (n : Int)
        · subst hk; simpa using e3 iz k b3 b4 b5 b6
        · exact e2 i iz k b1 (by omega) b3 b4 b5 b6 (ht i iz k b1 (by omega) b3 b4 b5 b6))
  exact ⟨s', e, fun i iz k b1 b2 => c i iz k b1 (by omega)⟩

/-! ## Uninitialised help variables of viscoelastic4.c -/

/-- The help variables `Tus`, `Tmu`, `Tt1`, `Tt2` of one column: malloc'ed (viscoelastic4.c:94-99), so `none` until written. -/
structure Help (K : Type) where
  Tus : Int → Option K
  Tmu : Int → Option K
  Tt1 : Int → Option K
  Tt2 : Int → Option K

/-- The loops that fill them (viscoelastic4.c:163-175); `u`, `v`, `t1`, `t2` stand for the four right-hand sides. -/
def helpLoop (p : Par) (u v t1 t2 : Int → K) (h : Help K) : Help K :=
  forI p.ioPz p.iePz (fun iz h =>
    ⟨fun j => if j = iz then some (u iz) else h.Tus j, fun j => if j = iz then some (v iz) else h.Tmu j,
      fun j => if j = iz then some (t1 iz) else h.Tt1 j, fun j => if j = iz then some (t2 iz) else h.Tt2 j⟩) h

/-- The loop over `txz` and `r` of one column (viscoelastic4.c:207-211); `c` is `dzvx+dxvz`.  `none`: a value that nothing has
written is used. -/
def shearLoop [Field K] (p : Par) (c : Int → K) (h : Help K) (s : (Int → K) × (Int → K)) : Option ((Int → K) × (Int → K)) :=
  forIM p.ioTz p.ieTz (fun iz s => do
    let tus ← h.Tus iz
    let tmu ← h.Tmu iz
    let tt1 ← h.Tt1 iz
    let tt2 ← h.Tt2 iz
    let txz := s.1 iz - (tus * c iz + s.2 iz)
    let r := (tt2 * s.2 iz + 1 / 2 * tmu * c iz) * tt1
    some (fun j => if j = iz then txz - r else s.1 j, fun j => if j = iz then r else s.2 j)) s

/-- Nothing written: memory from `malloc`. -/
def fresh : Help K := ⟨fun _ => none, fun _ => none, fun _ => none, fun _ => none⟩

private theorem helpLoop_out (p : Par) (u v t1 t2 : Int → K) (h : Help K) {j : Int} (hj : p.iePz ≤ j) :
    (helpLoop p u v t1 t2 h).Tus j = h.Tus j := by
  unfold helpLoop forI
  refine forN_inv (P := fun _ (g : Help K) => g.Tus j = h.Tus j) rfl ?_
  intro k hk g hg
  dsimp only
  rw [if_neg (by omega), hg]

/-- **The visco-elastic scheme uses a value that was never set**, in the last row of the shear stress of every column, for
every model: the help variables are filled up to the last row of the pressure grid, the shear stress has one row more. -/
theorem shear_uninitialised [Field K] {p : Par} (hv : Valid p) (u v t1 t2 c : Int → K) (s : (Int → K) × (Int → K)) :
    shearLoop p c (helpLoop p u v t1 t2 fresh) s = none := by
  have h1 := hv.nz; have h3 := hv.iorder; have h4 := hv.even
  have g3 := pad_nonneg hv p.top; have g4 := pad_nonneg hv p.bot; have g5 := add_nonneg' hv
  unfold shearLoop
  refine forIM_none (k := p.iePz) ?_ ?_ (fun s => ?_) s
  · unfold Par.ioTz Par.iePz; omega
  · unfold Par.ieTz Par.iePz; omega
  · rw [helpLoop_out p u v t1 t2 fresh (le_refl _)]; rfl

/-- The columns in which the shear stress is updated (viscoelastic4.c:150, 195). -/
def shearColumns (p : Par) : List Int := forI p.ioPx p.iePx (fun ix l => if ix ≥ p.ioTx then ix :: l else l) []

/-- **The last column of the shear stress is never updated**: the columns that are updated are those of the shear grid but the
last. -/
theorem shear_last_column {p : Par} (hv : Valid p) (ix : Int) :
    ix ∈ shearColumns p ↔ p.ioTx ≤ ix ∧ ix < p.ieTx - 1 := by
  have h1 := hv.nx; have h3 := hv.iorder; have h4 := hv.even
  have g3 := pad_nonneg hv p.lef; have g4 := pad_nonneg hv p.rig
  have key : ∀ n : Nat, ix ∈ forN n (fun k l => if p.ioPx + (k : Int) ≥ p.ioTx then (p.ioPx + (k : Int)) :: l else l) [] ↔
      p.ioTx ≤ ix ∧ p.ioPx ≤ ix ∧ ix < p.ioPx + n := by
    intro n
    induction n with
    | zero => simp
    | succ n ih =>
      rw [forN_succ]
      split
      · rw [List.mem_cons, ih]; push_cast; omega
      · rw [ih]; push_cast; omega
  unfold shearColumns forI
  rw [key]
  have : p.ieTx = p.iePx + 1 := by unfold Par.ieTx Par.iePx; omega
  have : p.ioTx = p.ioPx + 1 := by unfold Par.ioTx Par.ioPx; omega
  have : p.ioPx ≤ p.iePx := by unfold Par.ioPx Par.iePx; omega
  omega

example : (relaxFill ⟨6, 5, 4, 3, 0, 4, 4, 4, 1, 4⟩ 2 (16 * 12) (fun _ _ _ => (0 : Rat)) fun _ => 0) = none :=
  relax_overflow (p := ⟨6, 5, 4, 3, 0, 4, 4, 4, 1, 4⟩) ⟨by decide, by decide, by decide, by decide, by decide, by decide⟩ (by decide)
    (by decide) _ _

end Verif.Med.Relax

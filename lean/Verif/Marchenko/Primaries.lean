import Verif.Base.Loop
import Verif.Base.Writes
import Mathlib.Data.Real.Basic
import Mathlib.Tactic.Ring
import Mathlib.Tactic.Linarith
import Mathlib.Logic.Function.Iterate
import Mathlib.Analysis.SpecialFunctions.Trigonometric.Basic

/-!
# Primaries without internal multiples

The loop over time samples of `marchenko_primaries` for one focal point (`Nfoc=1`, a shot record as input, no plane waves): `nts = ntfft`, and the
delays `twplane` are zero.  The correlation or convolution with the reflection response (`synthesisp`) is an operator on the traces.
-/

namespace Verif.Prim

variable {K : Type*} [CommRing K]

/-- Traces: `f i j` is sample `j` of trace `i`.  Only `i < npos`, `j < nts` are in the arrays. -/
abbrev Traces (K : Type*) := ℕ → ℕ → K

/-! ### Model -/

/-- The parameters after marchenko_primaries.c:183-276: `niter` is even if `1 < niterskip`, `0 < niterskip`, `smooth ≤ shift`,
`1 ≤ istart ≤ iend` and `iend + shift + 1 ≤ nts`.  `trans` is `T>0`, `ct` is `costaper`, `DD` the time-reversed data of the shot at the
positions, `R` gives `RMi` at the positions for a given `Mi`. -/
structure Par (K : Type*) where
  npos : ℕ
  nxs : ℕ
  nts : ℕ
  niter : ℕ
  niterec : ℕ
  niterskip : ℕ
  shift : ℕ
  smooth : ℕ
  istart : ℕ
  iend : ℕ
  trans : Bool
  ct : ℕ → K
  DD : Traces K
  R : Traces K → Traces K

/-- marchenko_primaries.c:196-205, 211; `smooth` is that after the minimum with `shift`. -/
def Par.isms (p : Par K) : ℤ := if p.trans then -(p.shift : ℤ) else p.shift - p.smooth
def Par.isme (p : Par K) : ℤ := if p.trans then -((p.shift : ℤ) - p.smooth) else p.shift

/-- `for (j = a, k = 0; j < b; j++, k++) f[j] *= g(k)`. -/
def mulR (a b : ℕ) (g : ℕ → K) (f : ℕ → K) : ℕ → K := forN (b - a) (fun k f => aset f (a + k) (f (a + k) * g k)) f

/-- `for (j = a; j < b; j++) f[j] = 0.0`. -/
def zeroR (a b : ℕ) (f : ℕ → K) : ℕ → K := forN (b - a) (fun k f => aset f (a + k) 0) f

/-- marchenko_primaries.c:726-731, 758-763 and 911-916 for one trace: the acausal window. -/
def Par.late (p : Par K) (ii : ℕ) (f : ℕ → K) : ℕ → K :=
  let lo := ((p.nts : ℤ) - ii + p.isms).toNat
  let hi := ((p.nts : ℤ) - ii + p.isme).toNat
  mulR lo (min p.nts hi) (fun k => p.ct (p.smooth - (k + 1))) (zeroR 0 (min p.nts lo) f)

/-- marchenko_primaries.c:842-857 for one trace: the causal window and the one around zero. -/
def Par.early (p : Par K) (ii : ℕ) (f : ℕ → K) : ℕ → K :=
  let a := ((ii : ℤ) - p.isme).toNat
  let b := ((ii : ℤ) - p.isms).toNat
  let f := mulR a b p.ct (zeroR a p.nts f)
  mulR (p.shift - p.smooth) p.shift (fun k => p.ct (p.smooth - (k + 1))) (zeroR 0 (p.shift - p.smooth) f)

/-- `j` for zero, else `nts-j`: the time reversal of marchenko_primaries.c:736-740, 819-828. -/
def rev (nts j : ℕ) : ℕ := if j = 0 then 0 else nts - j

def Par.rev (p : Par K) (f : Traces K) : Traces K := fun i j => f i (Prim.rev p.nts j)

/-- `Mi`, `k1min` and `Mup`. -/
structure St (K : Type*) where
  Mi : Traces K
  k : Traces K
  up : Traces K

/-- One iteration, marchenko_primaries.c:779-931 without `k1plus` and `v1plus`; `mode` and with it the operator are the same in all. -/
def Par.step (p : Par K) (ii : ℕ) (recur : Bool) (iter : ℕ) (s : St K) : St K :=
  let Mi := p.rev (p.R s.Mi)
  if iter % 2 = 0 then ⟨fun i => p.early ii (Mi i), s.k, s.up⟩
  else if recur then
    let Mi : Traces K := fun i j => Mi i j + -p.DD i j
    let k : Traces K := fun i j => -p.rev Mi i j
    ⟨fun i => p.late ii (Mi i), k, fun i j => s.up i j + (p.rev p.DD i j - k i j)⟩
  else ⟨fun i => p.late ii (Mi i), fun i j => s.k i j - p.rev Mi i j, fun i j => s.up i j + p.rev Mi i j⟩

/-- `M0` and `k1min` at the start of a pass that does not use the previous one, marchenko_primaries.c:713-740. -/
def Par.fresh (p : Par K) (ii : ℕ) : St K := ⟨fun i => p.late ii fun j => -p.DD i j, p.rev p.DD, fun _ _ => 0⟩

/-- The value that `j` has at marchenko_primaries.c:752 for the second and later traces: that of the end of the loop in line 761. -/
def Par.leftover (p : Par K) (ii : ℕ) : ℕ :=
  max ((p.nts : ℤ) - ii + p.isms).toNat (min p.nts ((p.nts : ℤ) - ii + p.isme).toNat)

/-- `M0` from `k1min` of the previous pass, marchenko_primaries.c:745-766.  `j` is not set before line 752: sample `leftover` of the trace is
written to, which is assigned again (in the next trace when it is beyond this one) or, when it is sample 0 of the next trace, muted; for the last trace it may be outside of `M0` (`none`).
Sample 0 stays zero from line 706, and is muted anyway. -/
def Par.again (p : Par K) (ii : ℕ) (k1min : Traces K) : Option (St K) :=
  if 1 < p.npos ∧ p.npos = p.nxs ∧ p.nts ≤ p.leftover ii then none
  else some ⟨fun i => p.late ii fun j => if j = 0 then 0 else p.DD i (p.nts - j) - k1min i (p.nts - j), k1min, fun _ _ => 0⟩

/-- `k1min`, `RR` and `Msp`. -/
structure Out (K : Type*) where
  k : Traces K
  rr : Traces K
  upd : Traces K

/-- The iterations of one pass of the loop over `ii`, marchenko_primaries.c:700-931. -/
def Par.iters (p : Par K) (ii : ℕ) (k1min : Traces K) : Option (St K) :=
  if (ii - p.istart) % p.niterskip = 0 ∨ ii = p.istart then some (forN p.niter (p.step ii false) (p.fresh ii))
  else (p.again ii k1min).map (forN p.niterec (p.step ii true))

/-- One pass, with marchenko_primaries.c:933-942 (`iw = ii`). -/
def Par.pass (p : Par K) (ii : ℕ) (s : Out K) : Option (Out K) :=
  (p.iters ii s.k).map fun m =>
    ⟨m.k, fun i j => if j = ii then m.k i j else s.rr i j, fun i j => if j = ii then m.up i j else s.upd i j⟩

/-- All passes, marchenko_primaries.c:700: `RR` and `Msp` are what is written to `file_rr` and `file_update`. -/
def Par.run (p : Par K) (k0 : Traces K) : Option (Out K) :=
  forNM (p.iend - p.istart) (fun d => p.pass (p.istart + d)) ⟨k0, fun _ _ => 0, fun _ _ => 0⟩

/-! ### Specification -/

/-- The weights of the acausal window: samples at times before `-(ii - isme)` are removed. -/
def Par.wlate (p : Par K) (ii j : ℕ) : K :=
  if (j : ℤ) < p.nts - ii + p.isms then 0
  else if (j : ℤ) < p.nts - ii + p.isme then p.ct (p.smooth - 1 - (j - ((p.nts : ℤ) - ii + p.isms).toNat)) else 1

/-- The weights of the causal window: samples from `ii - isme` on are removed, and those before `shift`. -/
def Par.wearly (p : Par K) (ii j : ℕ) : K :=
  if (ii : ℤ) - p.isme ≤ j then 0
  else if j < p.shift - p.smooth then 0
  else if j < p.shift then p.ct (p.smooth - 1 - (j - (p.shift - p.smooth))) else 1

/-- Twice through the medium, with the windows: `R` on the windowed acausal traces, then on the windowed causal ones. -/
def Par.twice (p : Par K) (ii : ℕ) (f : Traces K) : Traces K :=
  p.rev (p.R fun i j => p.wearly ii j * p.rev (p.R fun i j => p.wlate ii j * f i j) i j)

/-- The data, forward in time. -/
def Par.data (p : Par K) : Traces K := p.rev p.DD

/-- The map whose fixed point is the wanted `k1min` at sample `ii`. -/
def Par.Phi (p : Par K) (ii : ℕ) (k : Traces K) : Traces K := fun i j => p.data i j - p.rev (p.twice ii fun i j => -p.rev k i j) i j

/-- `k1min` after the pass of sample `istart + d`: fresh passes start from the data, others from the previous one. -/
def Par.sol (p : Par K) : ℕ → Traces K
  | 0 => (p.Phi p.istart)^[p.niter / 2] p.data
  | d + 1 => if (d + 1) % p.niterskip = 0 then (p.Phi (p.istart + (d + 1)))^[p.niter / 2] p.data
      else (p.Phi (p.istart + (d + 1)))^[p.niterec / 2] (p.sol d)

/-- The settings of marchenko_primaries.c:193-205, 211 and 275-276, and an operator that is linear and uses the arrays only. -/
structure Par.Ok (p : Par K) : Prop where
  skip : 0 < p.niterskip
  smooth : p.smooth ≤ p.shift
  start : 1 ≤ p.istart
  stop : p.iend + p.shift + 1 ≤ p.nts
  add : ∀ f g, p.R (fun i j => f i j + g i j) = fun i j => p.R f i j + p.R g i j
  loc : ∀ f g, (∀ i j, j < p.nts → f i j = g i j) → p.R f = p.R g

/-! ### Windows -/

theorem zeroR_val (a b : ℕ) (f : ℕ → K) (m : ℕ) : zeroR a b f m = if a ≤ m ∧ m < b then 0 else f m := by
  unfold zeroR
  have key : ∀ n, forN n (fun k f => aset f (a + k) 0) f m = if a ≤ m ∧ m < a + n then 0 else f m := by
    intro n
    induction n with
    | zero =>
      have : ¬ (a ≤ m ∧ m < a + 0) := by omega
      rw [forN_zero, if_neg this]
    | succ n ih =>
      rw [forN_succ]
      generalize forN n (fun k f => aset f (a + k) 0) f = q at ih
      unfold aset
      by_cases h : m = a + n
      · have h2 : a ≤ m ∧ m < a + (n + 1) := by omega
        rw [if_pos h, if_pos h2]
      · rw [if_neg h, ih]
        exact if_congr (by omega) rfl rfl
  rw [key]
  exact if_congr (by omega) rfl rfl

theorem mulR_val (a b : ℕ) (g f : ℕ → K) (m : ℕ) : mulR a b g f m = if a ≤ m ∧ m < b then f m * g (m - a) else f m := by
  unfold mulR
  have key : ∀ n, ∀ m, forN n (fun k f => aset f (a + k) (f (a + k) * g k)) f m = if a ≤ m ∧ m < a + n then f m * g (m - a) else f m := by
    intro n
    induction n with
    | zero =>
      intro m
      have : ¬ (a ≤ m ∧ m < a + 0) := by omega
      rw [forN_zero, if_neg this]
    | succ n ih =>
      intro m
      rw [forN_succ]
      generalize forN n (fun k f => aset f (a + k) (f (a + k) * g k)) f = q at ih
      unfold aset
      by_cases h : m = a + n
      · have h2 : a ≤ m ∧ m < a + (n + 1) := by omega
        have h3 : ¬ (a ≤ a + n ∧ a + n < a + n) := by omega
        rw [if_pos h, if_pos h2, ih, if_neg h3, h, Nat.add_sub_cancel_left]
      · rw [if_neg h, ih]
        exact if_congr (by omega) rfl rfl
  rw [key]
  exact if_congr (by omega) rfl rfl

omit [CommRing K] in
theorem width (p : Par K) : p.isme - p.isms = p.smooth := by
  unfold Par.isme Par.isms
  split <;> omega

theorem late_val (p : Par K) (ii : ℕ) (hlo : 0 ≤ (p.nts : ℤ) - ii + p.isms) (f : ℕ → K) (j : ℕ) (hj : j < p.nts) :
    p.late ii f j = p.wlate ii j * f j := by
  have hw := width p
  unfold Par.late Par.wlate
  rw [mulR_val, zeroR_val]
  generalize p.isms = a at *
  generalize p.isme = b at *
  by_cases h1 : (j : ℤ) < p.nts - ii + a
  · have e1 : ¬ (((p.nts : ℤ) - ii + a).toNat ≤ j ∧ j < min p.nts ((p.nts : ℤ) - ii + b).toNat) := by omega
    have e2 : 0 ≤ j ∧ j < min p.nts ((p.nts : ℤ) - ii + a).toNat := by omega
    rw [if_neg e1, if_pos e2, if_pos h1, zero_mul]
  · have e2 : ¬ (0 ≤ j ∧ j < min p.nts ((p.nts : ℤ) - ii + a).toNat) := by omega
    rw [if_neg e2, if_neg h1]
    by_cases h2 : (j : ℤ) < p.nts - ii + b
    · have e1 : ((p.nts : ℤ) - ii + a).toNat ≤ j ∧ j < min p.nts ((p.nts : ℤ) - ii + b).toNat := by omega
      rw [if_pos e1, if_pos h2, mul_comm]
      congr 2
      omega
    · have e1 : ¬ (((p.nts : ℤ) - ii + a).toNat ≤ j ∧ j < min p.nts ((p.nts : ℤ) - ii + b).toNat) := by omega
      rw [if_neg e1, if_neg h2, one_mul]

theorem early_val (p : Par K) (ii : ℕ) (f : ℕ → K) (j : ℕ) (hj : j < p.nts) :
    p.early ii f j = p.wearly ii j * f j := by
  unfold Par.early Par.wearly
  rw [mulR_val, zeroR_val, mulR_val, zeroR_val]
  have hsm : ∀ k, p.smooth - (k + 1) = p.smooth - 1 - k := fun k => by omega
  generalize p.isms = a
  generalize p.isme = b
  have hz : (ii : ℤ) - b ≤ j → (if ((ii : ℤ) - b).toNat ≤ j ∧ j < p.nts then 0 else f j) = (0 : K) := fun h => if_pos (by omega)
  have hn : ¬ (ii : ℤ) - b ≤ j → ¬ (((ii : ℤ) - b).toNat ≤ j ∧ j < p.nts) := fun h => by omega
  have hn' : ¬ (ii : ℤ) - b ≤ j → ¬ (((ii : ℤ) - b).toNat ≤ j ∧ j < ((ii : ℤ) - a).toNat) := fun h => by omega
  by_cases h0 : (ii : ℤ) - b ≤ j
  · rw [if_pos h0, hz h0, zero_mul]
    simp only [zero_mul, ite_self]
  · rw [if_neg h0, if_neg (hn h0), if_neg (hn' h0)]
    by_cases h1 : j < p.shift - p.smooth
    · have e1 : ¬ (p.shift - p.smooth ≤ j ∧ j < p.shift) := by omega
      rw [if_neg e1, if_pos ⟨Nat.zero_le _, h1⟩, if_pos h1, zero_mul]
    · have e2 : ¬ (0 ≤ j ∧ j < p.shift - p.smooth) := by omega
      rw [if_neg e2, if_neg h1]
      by_cases h2 : j < p.shift
      · rw [if_pos ⟨by omega, h2⟩, if_pos h2, mul_comm, hsm]
      · have e1 : ¬ (p.shift - p.smooth ≤ j ∧ j < p.shift) := by omega
        rw [if_neg e1, if_neg h2, one_mul]

/-! ### One pass -/

theorem rev_lt {n j : ℕ} (h : j < n) : rev n j < n := by unfold rev; split <;> omega
theorem rev_rev {n j : ℕ} (h : j < n) : rev n (rev n j) = j := by
  unfold rev
  split
  · rename_i h0; rw [if_pos rfl, h0]
  · rename_i h0
    have : ¬ n - j = 0 := by omega
    rw [if_neg this]; omega

/-- Equal where the arrays are. -/
def Par.Eq (p : Par K) (f g : Traces K) : Prop := ∀ i j, j < p.nts → f i j = g i j

theorem twice_congr (p : Par K) (h : p.Ok) (ii : ℕ) {f g : Traces K} (e : p.Eq f g) : p.twice ii f = p.twice ii g := by
  unfold Par.twice
  have : (p.R fun i j => p.wlate ii j * f i j) = p.R fun i j => p.wlate ii j * g i j := h.loc _ _ fun i j hj => by rw [e i j hj]
  rw [this]

theorem twice_add (p : Par K) (h : p.Ok) (ii : ℕ) (f g : Traces K) :
    p.twice ii (fun i j => f i j + g i j) = fun i j => p.twice ii f i j + p.twice ii g i j := by
  unfold Par.twice Par.rev
  have e1 : (p.R fun i j => p.wlate ii j * (f i j + g i j)) = fun i j => (p.R fun i j => p.wlate ii j * f i j) i j + (p.R fun i j => p.wlate ii j * g i j) i j := by
    rw [← h.add]; congr 1; funext i j; ring
  rw [e1]
  have e2 : (p.R fun i j => p.wearly ii j * ((p.R fun i j => p.wlate ii j * f i j) i (Prim.rev p.nts j) + (p.R fun i j => p.wlate ii j * g i j) i (Prim.rev p.nts j))) =
      fun i j => (p.R fun i j => p.wearly ii j * (p.R fun i j => p.wlate ii j * f i j) i (Prim.rev p.nts j)) i j +
        (p.R fun i j => p.wearly ii j * (p.R fun i j => p.wlate ii j * g i j) i (Prim.rev p.nts j)) i j := by
    rw [← h.add]; congr 1; funext i j; ring
  rw [e2]

theorem Phi_congr (p : Par K) (h : p.Ok) (ii : ℕ) {f g : Traces K} (e : p.Eq f g) : p.Phi ii f = p.Phi ii g := by
  unfold Par.Phi
  rw [twice_congr p h ii (f := fun i j => -p.rev f i j) (g := fun i j => -p.rev g i j) fun i j hj => by
    unfold Par.rev; dsimp only; rw [e i _ (rev_lt hj)]]

theorem Phi_iter_congr (p : Par K) (h : p.Ok) (ii n : ℕ) {f g : Traces K} (e : p.Eq f g) : p.Eq ((p.Phi ii)^[n] f) ((p.Phi ii)^[n] g) := by
  cases n with
  | zero => exact e
  | succ n => rw [Function.iterate_succ_apply, Function.iterate_succ_apply, Phi_congr p h ii e]; exact fun _ _ _ => rfl

theorem lo_pos (p : Par K) (h : p.Ok) {ii : ℕ} (hi : ii < p.iend) : 1 ≤ (p.nts : ℤ) - ii + p.isms := by
  have := h.stop
  have := h.smooth
  unfold Par.isms
  split <;> omega

/-- Two iterations of `R`, with the windows. -/
theorem two (p : Par K) (h : p.Ok) {ii : ℕ} (u f : Traces K) (e : p.Eq f fun i j => p.wlate ii j * u i j) :
    p.rev (p.R fun i => p.early ii (p.rev (p.R f) i)) = p.twice ii u := by
  unfold Par.twice
  rw [h.loc f (fun i j => p.wlate ii j * u i j) e]
  congr 1
  exact h.loc _ _ fun i j hj => early_val p ii _ j hj

theorem late_eq (p : Par K) (h : p.Ok) {ii : ℕ} (hi : ii < p.iend) (f : Traces K) : p.Eq (fun i => p.late ii (f i)) fun i j => p.wlate ii j * f i j :=
  fun i j hj => late_val p ii (by have := lo_pos p h hi; omega) (f i) j hj

/-- Passes that use the previous one: every two iterations apply the map. -/
theorem iter_again (p : Par K) (h : p.Ok) {ii : ℕ} (hi : ii < p.iend) (k M : Traces K)
    (hM : p.Eq M fun i j => p.wlate ii j * -p.rev k i j) (n : ℕ) :
    p.Eq (forN n (p.step ii true) ⟨M, k, fun _ _ => 0⟩).k ((p.Phi ii)^[n / 2] k) := by
  have key : ∀ m, ∃ M' k' u', forN (2 * m) (p.step ii true) ⟨M, k, fun _ _ => 0⟩ = ⟨M', k', u'⟩ ∧ p.Eq k' ((p.Phi ii)^[m] k) ∧
      p.Eq M' fun i j => p.wlate ii j * -p.rev k' i j := by
    intro m
    induction m with
    | zero => exact ⟨M, k, _, rfl, fun _ _ _ => rfl, hM⟩
    | succ m ih =>
      obtain ⟨M', k', u', e, ek, eM⟩ := ih
      rw [show 2 * (m + 1) = 2 * m + 1 + 1 by ring, forN_succ, forN_succ, e]
      have h1 : p.step ii true (2 * m) ⟨M', k', u'⟩ = ⟨fun i => p.early ii (p.rev (p.R M') i), k', u'⟩ := by
        unfold Par.step
        rw [if_pos (by omega)]
      have h2 : ∀ A : Traces K, p.step ii true (2 * m + 1) ⟨A, k', u'⟩ =
          ⟨fun i => p.late ii fun j => p.rev (p.R A) i j + -p.DD i j, fun i j => -p.rev (fun i j => p.rev (p.R A) i j + -p.DD i j) i j,
            fun i j => u' i j + (p.rev p.DD i j - -p.rev (fun i j => p.rev (p.R A) i j + -p.DD i j) i j)⟩ := fun A => by
        unfold Par.step
        have : ¬ (2 * m + 1) % 2 = 0 := by omega
        rw [if_neg this, if_pos rfl]
      rw [h1, h2, two p h (fun i j => -p.rev k' i j) M' eM]
      refine ⟨_, _, _, rfl, fun i j hj => ?_, fun i j hj => ?_⟩
      · rw [Function.iterate_succ_apply', ← Phi_congr p h ii ek]
        unfold Par.Phi Par.data Par.rev
        ring
      · have e3 := late_eq p h hi (fun i j => p.twice ii (fun i j => -p.rev k' i j) i j + -p.DD i j) i j hj
        refine e3.trans ?_
        unfold Par.rev
        dsimp only
        rw [rev_rev hj, neg_neg]
  obtain ⟨M', k', u', e, ek, _⟩ := key (n / 2)
  by_cases hn : n % 2 = 0
  · rw [show n = 2 * (n / 2) by omega, e, show 2 * (n / 2) / 2 = n / 2 by omega]
    exact ek
  · rw [show n = 2 * (n / 2) + 1 by omega, forN_succ, e, show (2 * (n / 2) + 1) / 2 = n / 2 by omega]
    unfold Par.step
    have : 2 * (n / 2) % 2 = 0 := by omega
    dsimp only
    rw [if_pos this]
    exact ek

/-- Passes of their own: the sum of all terms is the same map, applied to the data. -/
theorem iter_fresh (p : Par K) (h : p.Ok) {ii : ℕ} (hi : ii < p.iend) (n : ℕ) :
    (forN n (p.step ii false) (p.fresh ii)).k = (p.Phi ii)^[n / 2] p.data := by
  have key : ∀ m, ∃ M' k' u u', forN (2 * m) (p.step ii false) (p.fresh ii) = ⟨M', k', u'⟩ ∧ k' = (p.Phi ii)^[m] p.data ∧
      p.Eq M' (fun i j => p.wlate ii j * u i j) ∧ (fun i j => k' i j - p.rev (p.twice ii u) i j) = (p.Phi ii)^[m + 1] p.data := by
    intro m
    induction m with
    | zero =>
      refine ⟨_, _, fun i j => -p.DD i j, _, rfl, rfl, late_eq p h hi _, ?_⟩
      rw [Function.iterate_succ_apply', Function.iterate_zero_apply]
      unfold Par.Phi
      have : p.twice ii (fun i j => -p.rev p.data i j) = p.twice ii fun i j => -p.DD i j := twice_congr p h ii fun i j hj => by
        unfold Par.data Par.rev; rw [rev_rev hj]
      rw [this]
      rfl
    | succ m ih =>
      obtain ⟨M', k', u, u', e, ek, eM, enext⟩ := ih
      rw [show 2 * (m + 1) = 2 * m + 1 + 1 by ring, forN_succ, forN_succ, e]
      have h1 : p.step ii false (2 * m) ⟨M', k', u'⟩ = ⟨fun i => p.early ii (p.rev (p.R M') i), k', u'⟩ := by
        unfold Par.step
        rw [if_pos (by omega)]
      have h2 : ∀ A : Traces K, p.step ii false (2 * m + 1) ⟨A, k', u'⟩ =
          ⟨fun i => p.late ii (p.rev (p.R A) i), fun i j => k' i j - p.rev (p.rev (p.R A)) i j, fun i j => u' i j + p.rev (p.rev (p.R A)) i j⟩ := fun A => by
        unfold Par.step
        have : ¬ (2 * m + 1) % 2 = 0 := by omega
        rw [if_neg this, if_neg Bool.false_ne_true]
      rw [h1, h2, two p h u M' eM]
      refine ⟨_, _, p.twice ii u, _, rfl, enext, late_eq p h hi _, ?_⟩
      rw [Function.iterate_succ_apply', ← enext]
      unfold Par.Phi
      have e4 : p.twice ii (fun i j => -p.rev (fun i j => k' i j - p.rev (p.twice ii u) i j) i j) =
          fun i j => p.twice ii (fun i j => -p.rev k' i j) i j + p.twice ii (p.twice ii u) i j := by
        rw [← twice_add p h]
        refine twice_congr p h ii fun i j hj => ?_
        unfold Par.rev
        dsimp only
        rw [rev_rev hj]
        ring
      rw [e4]
      have e5 : ∀ i j, k' i j - p.rev (p.twice ii u) i j = p.data i j - p.rev (p.twice ii fun i j => -p.rev k' i j) i j := fun i j => by
        have := congrFun (congrFun enext i) j
        rw [Function.iterate_succ_apply', ← ek] at this
        exact this
      funext i j
      rw [e5]
      unfold Par.rev
      ring
  obtain ⟨M', k', u, u', e, ek, _⟩ := key (n / 2)
  by_cases hn : n % 2 = 0
  · rw [show n = 2 * (n / 2) by omega, e, show 2 * (n / 2) / 2 = n / 2 by omega, ek]
  · rw [show n = 2 * (n / 2) + 1 by omega, forN_succ, e, show (2 * (n / 2) + 1) / 2 = n / 2 by omega]
    unfold Par.step
    have : 2 * (n / 2) % 2 = 0 := by omega
    dsimp only
    rw [if_pos this, ek]

/-- What is taken away in a pass of its own. -/
theorem up_fresh (p : Par K) (ii n i j : ℕ) :
    (forN n (p.step ii false) (p.fresh ii)).k i j + (forN n (p.step ii false) (p.fresh ii)).up i j = p.data i j := by
  induction n with
  | zero => exact add_zero _
  | succ n ih =>
    rw [forN_succ]
    generalize forN n (p.step ii false) (p.fresh ii) = s at ih ⊢
    unfold Par.step
    dsimp only
    split
    · exact ih
    · rw [if_neg Bool.false_ne_true]
      dsimp only
      rw [← ih]
      ring

/-- What is taken away in a pass with two or three iterations after another. -/
theorem up_again (p : Par K) (ii n i j : ℕ) (hn : n / 2 = 1) (M k : Traces K) :
    (forN n (p.step ii true) ⟨M, k, fun _ _ => 0⟩).k i j + (forN n (p.step ii true) ⟨M, k, fun _ _ => 0⟩).up i j = p.data i j := by
  have h : n = 2 ∨ n = 3 := by omega
  have e2 : ∀ s : St K, s.up = (fun _ _ => 0) → (p.step ii true 1 (p.step ii true 0 s)).k i j + (p.step ii true 1 (p.step ii true 0 s)).up i j = p.data i j := by
    intro s hs
    unfold Par.step Par.data
    simp only [show (0 : ℕ) % 2 = 0 from rfl, show ¬ (1 : ℕ) % 2 = 0 by decide, if_true, if_false, hs]
    ring
  rcases h with rfl | rfl
  · rw [show 2 = 0 + 1 + 1 from rfl, forN_succ, forN_succ, forN_zero]
    exact e2 _ rfl
  · rw [show 3 = 0 + 1 + 1 + 1 from rfl, forN_succ, forN_succ, forN_succ, forN_zero]
    have : ∀ s : St K, (p.step ii true (0 + 1 + 1) s).k = s.k ∧ (p.step ii true (0 + 1 + 1) s).up = s.up := fun s => by
      unfold Par.step
      simp
    rw [(this _).1, (this _).2]
    exact e2 _ rfl

/-! ### All passes -/

/-- When passes use the previous one: the data is zero in the last `iend - istart` or so samples of the (padded) traces, and no pass
is so early that the stray write leaves `M0`. -/
structure Par.Recur (p : Par K) : Prop where
  zero : ∀ ii, ii < p.iend → ∀ i j, j < p.nts → (p.nts : ℤ) - ii + p.isms ≤ j → p.data i j = 0
  inside : p.npos ≤ 1 ∨ p.npos < p.nxs ∨ p.trans = true ∨ p.shift ≤ p.istart

theorem leftover_lt (p : Par K) (h : p.Ok) {ii : ℕ} (h1 : p.istart < ii) (hi : ii < p.iend) (ht : p.trans = true ∨ p.shift ≤ p.istart) :
    p.leftover ii < p.nts := by
  have := h.stop
  have := h.smooth
  unfold Par.leftover Par.isms Par.isme
  rcases ht with ht | ht
  · rw [ht, if_pos rfl, if_pos rfl]; omega
  · split <;> omega

theorem again_some (p : Par K) (h : p.Ok) (hr : p.Recur) {ii : ℕ} (h1 : p.istart < ii) (hi : ii < p.iend) (k : Traces K) :
    ∃ M, p.again ii k = some ⟨M, k, fun _ _ => 0⟩ ∧ p.Eq M fun i j => p.wlate ii j * -p.rev k i j := by
  unfold Par.again
  have hc : ¬ (1 < p.npos ∧ p.npos = p.nxs ∧ p.nts ≤ p.leftover ii) := by
    rintro ⟨a, b, c⟩
    rcases hr.inside with h' | h' | h'
    · omega
    · omega
    · have := leftover_lt p h h1 hi h'; omega
  rw [if_neg hc]
  refine ⟨_, rfl, fun i j hj => ?_⟩
  refine (late_eq p h hi (fun i j => if j = 0 then 0 else p.DD i (p.nts - j) - k i (p.nts - j)) i j hj).trans ?_
  dsimp only
  have hlo := lo_pos p h hi
  by_cases hl : (j : ℤ) < p.nts - ii + p.isms
  · unfold Par.wlate
    rw [if_pos hl, zero_mul, zero_mul]
  · have hj0 : ¬ j = 0 := by omega
    have hz := hr.zero ii hi i j hj (by omega)
    unfold Par.data Par.rev Prim.rev at hz
    unfold Par.rev Prim.rev
    rw [if_neg hj0] at hz ⊢
    rw [if_neg hj0, hz, zero_sub]

theorem pass_spec (p : Par K) (h : p.Ok) (hr : p.niterskip = 1 ∨ p.Recur) (d : ℕ) (hd : p.istart + d < p.iend) (s : Out K)
    (hs : 0 < d → p.Eq s.k (p.sol (d - 1))) :
    ∃ m : St K, p.pass (p.istart + d) s = some ⟨m.k, fun i j => if j = p.istart + d then m.k i j else s.rr i j,
        fun i j => if j = p.istart + d then m.up i j else s.upd i j⟩ ∧
      p.Eq m.k (p.sol d) ∧ (p.niterskip = 1 ∨ p.niterec / 2 = 1 → ∀ i j, m.k i j + m.up i j = p.data i j) := by
  unfold Par.pass Par.iters
  by_cases hf : (p.istart + d - p.istart) % p.niterskip = 0 ∨ p.istart + d = p.istart
  · rw [if_pos hf]
    refine ⟨_, rfl, fun i j _ => ?_, fun _ i j => up_fresh p _ _ i j⟩
    rw [iter_fresh p h hd]
    cases d with
    | zero => rfl
    | succ d =>
      have : (d + 1) % p.niterskip = 0 := by
        rcases hf with hf | hf
        · rwa [Nat.add_sub_cancel_left] at hf
        · omega
      unfold Par.sol
      rw [if_pos this]
  · rw [if_neg hf]
    rw [Nat.add_sub_cancel_left] at hf
    have hd0 : 0 < d := by omega
    have hr' : p.Recur := by
      rcases hr with hr | hr
      · exact absurd (Or.inl (by rw [hr]; omega)) hf
      · exact hr
    obtain ⟨M, hM, eM⟩ := again_some p h hr' (ii := p.istart + d) (by omega) hd s.k
    rw [hM]
    refine ⟨_, rfl, fun i j hj => ?_, fun hu i j => up_again p _ _ i j ?_ M s.k⟩
    · rw [iter_again p h hd s.k M eM p.niterec i j hj, Phi_iter_congr p h _ _ (hs hd0) i j hj]
      obtain ⟨e, rfl⟩ : ∃ e, d = e + 1 := ⟨d - 1, by omega⟩
      have : ¬ (e + 1) % p.niterskip = 0 := fun h => hf (Or.inl h)
      rw [Par.sol, if_neg this, Nat.add_sub_cancel]
    · rcases hu with hu | hu
      · exact absurd (Or.inl (by rw [hu]; omega)) hf
      · exact hu

theorem run_inv (p : Par K) (h : p.Ok) (hr : p.niterskip = 1 ∨ p.Recur) (k0 : Traces K) (n : ℕ) (hn : p.istart + n ≤ p.iend) :
    ∃ o, forNM n (fun d => p.pass (p.istart + d)) ⟨k0, fun _ _ => 0, fun _ _ => 0⟩ = some o ∧ (0 < n → p.Eq o.k (p.sol (n - 1))) ∧
      (∀ i j, j < p.nts → o.rr i j = if p.istart ≤ j ∧ j < p.istart + n then p.sol (j - p.istart) i j else 0) ∧
      (∀ i j, j < p.nts → ¬ (p.istart ≤ j ∧ j < p.istart + n) → o.upd i j = 0) ∧
      (p.niterskip = 1 ∨ p.niterec / 2 = 1 → ∀ i j, p.istart ≤ j ∧ j < p.istart + n → o.rr i j + o.upd i j = p.data i j) := by
  induction n with
  | zero => exact ⟨_, rfl, by omega, fun i j _ => by rw [if_neg (by omega)], fun _ _ _ _ => rfl, fun _ i j h => by omega⟩
  | succ n ih =>
    obtain ⟨o, e, ek, er, eu, ec⟩ := ih (by omega)
    rw [forNM_succ, e]
    obtain ⟨m, em, hm, hu⟩ := pass_spec p h hr n (by omega) o ek
    refine ⟨_, em, fun _ => hm, fun i j hj => ?_, fun i j hj hn' => ?_, fun hs i j hj => ?_⟩
    · dsimp only
      by_cases hjn : j = p.istart + n
      · rw [if_pos hjn, if_pos (by omega), hm i j hj]
        congr 1
        omega
      · rw [if_neg hjn, er i j hj]
        exact if_congr (by omega) rfl rfl
    · dsimp only
      rw [if_neg (by omega)]
      exact eu i j hj (by omega)
    · dsimp only
      by_cases hjn : j = p.istart + n
      · rw [if_pos hjn, if_pos hjn]
        exact hu hs i j
      · rw [if_neg hjn, if_neg hjn]
        exact ec hs i j (by omega)

/-! ### Properties -/

/-- **Primaries, every sample for itself** (`niterskip=1`).  The program finishes, and sample `j` of `file_rr`, for `istart ≤ j < iend`, is
that of the `niter/2`-th iterate of the map for that sample, from the data; it depends on nothing else.  The other samples are zero. -/
theorem primaries_each (p : Par K) (h : p.Ok) (h1 : p.niterskip = 1) (k0 : Traces K) :
    ∃ o, p.run k0 = some o ∧ ∀ i j, j < p.nts → o.rr i j = if p.istart ≤ j ∧ j < p.iend then (p.Phi j)^[p.niter / 2] p.data i j else 0 := by
  unfold Par.run
  by_cases hle : p.istart ≤ p.iend
  · obtain ⟨o, e, _, er, _⟩ := run_inv p h (Or.inl h1) k0 (p.iend - p.istart) (by omega)
    refine ⟨o, e, fun i j hj => ?_⟩
    rw [er i j hj]
    by_cases hc : p.istart ≤ j ∧ j < p.iend
    · rw [if_pos hc, if_pos (by omega)]
      obtain ⟨d, rfl⟩ : ∃ d, j = p.istart + d := ⟨j - p.istart, by omega⟩
      rw [Nat.add_sub_cancel_left]
      cases d with
      | zero => rfl
      | succ d => rw [Par.sol, if_pos (by rw [h1]; omega)]
    · rw [if_neg hc, if_neg (by omega)]
  · rw [show p.iend - p.istart = 0 by omega]
    exact ⟨_, rfl, fun i j _ => (if_neg (by omega)).symm⟩

/-- **Primaries with reuse of the previous sample.**  When the last samples of the padded traces are zero, a pass that starts from the result of
the previous one applies the same map, `niterec/2` times: all samples solve the same equations.  For arbitrary data the
statement is false: `primaries_reuse_wrong`. -/
theorem primaries_reuse_partial (p : Par K) (h : p.Ok) (hle : p.istart ≤ p.iend) (hr : p.niterskip = 1 ∨ p.Recur) (k0 : Traces K) :
    ∃ o, p.run k0 = some o ∧ ∀ i j, j < p.nts → o.rr i j = if p.istart ≤ j ∧ j < p.iend then p.sol (j - p.istart) i j else 0 := by
  obtain ⟨o, e, _, er, _⟩ := run_inv p h hr k0 (p.iend - p.istart) (by omega)
  refine ⟨o, e, fun i j hj => ?_⟩
  rw [er i j hj]
  exact if_congr (by omega) rfl rfl

/-- **What is removed** (`file_update`).  With samples each for itself, or two or three iterations for the others: `file_rr` and `file_update` add to the data. -/
theorem update_complement (p : Par K) (h : p.Ok) (hle : p.istart ≤ p.iend) (hr : p.niterskip = 1 ∨ p.Recur)
    (hn : p.niterskip = 1 ∨ p.niterec / 2 = 1) (k0 : Traces K) :
    ∃ o, p.run k0 = some o ∧ (∀ i j, p.istart ≤ j ∧ j < p.iend → o.rr i j + o.upd i j = p.data i j) ∧
      ∀ i j, j < p.nts → ¬ (p.istart ≤ j ∧ j < p.iend) → o.rr i j = 0 ∧ o.upd i j = 0 := by
  obtain ⟨o, e, _, er, eu, ec⟩ := run_inv p h hr k0 (p.iend - p.istart) (by omega)
  refine ⟨o, e, fun i j hj => ec hn i j (by omega), fun i j hj hc => ⟨?_, eu i j hj (by omega)⟩⟩
  rw [er i j hj, if_neg (by omega)]

/-- A sample solved exactly stays as it is: the pass after does not change a fixed point. -/
theorem reuse_fixed (p : Par K) (h : p.Ok) (hr : p.Recur) (ii : ℕ) (h1 : p.istart < ii) (hi : ii < p.iend)
    (hs : ¬ (ii - p.istart) % p.niterskip = 0) (k : Traces K) (hk : p.Eq (p.Phi ii k) k) :
    ∃ m, p.iters ii k = some m ∧ p.Eq m.k k := by
  unfold Par.iters
  obtain ⟨M, hM, eM⟩ := again_some p h hr h1 hi k
  have hf : ¬ ((ii - p.istart) % p.niterskip = 0 ∨ ii = p.istart) := by
    rintro (h' | h')
    · exact hs h'
    · omega
  rw [if_neg hf, hM]
  refine ⟨_, rfl, fun i j hj => ?_⟩
  rw [iter_again p h hi k M eM p.niterec i j hj]
  generalize p.niterec / 2 = n
  induction n generalizing i j with
  | zero => rfl
  | succ n ih =>
    rw [Function.iterate_succ_apply', Phi_congr p h ii (g := k) fun i j hj => ih i j hj]
    exact hk i j hj

/-- A stray write: with a pass that uses the previous one at a sample not after `shift`, with the positions filling the arrays, `M0` is
written to beyond its end. -/
theorem primaries_reuse_ub (p : Par K) (ii : ℕ) (k : Traces K) (h1 : p.istart < ii) (hs : ¬ (ii - p.istart) % p.niterskip = 0)
    (ht : p.trans = false) (hii : ii ≤ p.shift) (hn : 1 < p.npos) (hx : p.npos = p.nxs) : p.iters ii k = none := by
  have hf : ¬ ((ii - p.istart) % p.niterskip = 0 ∨ ii = p.istart) := by
    rintro (h' | h')
    · exact hs h'
    · omega
  have hl : p.nts ≤ p.leftover ii := by
    unfold Par.leftover Par.isms Par.isme
    rw [ht]
    simp only [Bool.false_eq_true, if_false]
    omega
  unfold Par.iters Par.again
  rw [if_neg hf, if_pos ⟨hn, hx, hl⟩]
  rfl

/-- **The pass that uses the previous one, for any data**: two iterations give the map less what the data, taken forward in time where it
should have been in reverse, gives in the window of the last samples. -/
theorem reuse_actual (p : Par K) (h : p.Ok) (hin : p.npos ≤ 1 ∨ p.npos < p.nxs ∨ p.trans = true ∨ p.shift ≤ p.istart) (h2 : p.niterec = 2)
    (ii : ℕ) (h1 : p.istart < ii) (hi : ii < p.iend) (hs : ¬ (ii - p.istart) % p.niterskip = 0) (k : Traces K) :
    ∃ m, p.iters ii k = some m ∧ m.k = fun i j => p.Phi ii k i j - p.rev (p.twice ii p.data) i j := by
  unfold Par.iters Par.again
  have hf : ¬ ((ii - p.istart) % p.niterskip = 0 ∨ ii = p.istart) := by
    rintro (h' | h')
    · exact hs h'
    · omega
  have hc : ¬ (1 < p.npos ∧ p.npos = p.nxs ∧ p.nts ≤ p.leftover ii) := by
    rintro ⟨a, b, c⟩
    rcases hin with h' | h' | h'
    · omega
    · omega
    · have := leftover_lt p h h1 hi h'; omega
  rw [if_neg hf, if_neg hc, h2]
  refine ⟨_, rfl, ?_⟩
  have hlo := lo_pos p h hi
  have e : p.Eq (fun i => p.late ii fun j => if j = 0 then 0 else p.DD i (p.nts - j) - k i (p.nts - j))
      fun i j => p.wlate ii j * (-p.rev k i j + p.data i j) := fun i j hj => by
    refine (late_eq p h hi (fun i j => if j = 0 then 0 else p.DD i (p.nts - j) - k i (p.nts - j)) i j hj).trans ?_
    dsimp only
    by_cases h0 : j = 0
    · have : p.wlate ii j = 0 := if_pos (by omega)
      rw [this, zero_mul, zero_mul]
    · unfold Par.data Par.rev Prim.rev
      rw [if_neg h0, if_neg h0]
      ring
  have e2 : forN 2 (p.step ii true) ⟨fun i => p.late ii fun j => if j = 0 then 0 else p.DD i (p.nts - j) - k i (p.nts - j), k, fun _ _ => 0⟩ =
      p.step ii true 1 (p.step ii true 0 ⟨fun i => p.late ii fun j => if j = 0 then 0 else p.DD i (p.nts - j) - k i (p.nts - j), k, fun _ _ => 0⟩) := rfl
  rw [e2]
  generalize (fun i => p.late ii fun j => if j = 0 then 0 else p.DD i (p.nts - j) - k i (p.nts - j)) = M at e
  have e3 := two p h _ M e
  rw [twice_add p h] at e3
  have e4 : (p.step ii true 1 (p.step ii true 0 ⟨M, k, fun _ _ => 0⟩)).k =
      fun i j => -p.rev (fun i j => p.rev (p.R fun i => p.early ii (p.rev (p.R M) i)) i j + -p.DD i j) i j := by
    unfold Par.step
    simp only [show (0 : ℕ) % 2 = 0 from rfl, show ¬ (1 : ℕ) % 2 = 0 by decide, if_true, if_false]
  rw [e4, e3]
  funext i j
  unfold Par.Phi Par.rev Par.data Par.rev
  ring

/-- The taper at the end of the causal window is applied to samples that are zero already: the window ends abruptly, for any taper. -/
theorem early_abrupt (p : Par K) (ii : ℕ) (f : ℕ → K) (j : ℕ) (hj : j < p.nts) (h : (ii : ℤ) - p.isme ≤ j) : p.early ii f j = 0 := by
  rw [early_val p ii f j hj]
  unfold Par.wearly
  rw [if_pos h, zero_mul]

/-- Just before the end nothing is taken away, once past the window at the start. -/
theorem early_keeps (p : Par K) (ii : ℕ) (f : ℕ → K) (j : ℕ) (hj : j < p.nts) (h0 : p.shift ≤ j) (h : (j : ℤ) < ii - p.isme) : p.early ii f j = f j := by
  have e1 : ¬ (ii : ℤ) - p.isme ≤ j := by omega
  have e2 : ¬ j < p.shift - p.smooth := by omega
  have e3 : ¬ j < p.shift := by omega
  rw [early_val p ii f j hj]
  unfold Par.wearly
  rw [if_neg e1, if_neg e2, if_neg e3, one_mul]

/-- One trace of eight samples; the operator delays by one sample, as one reflector does.  The data is a spike at sample 5. -/
def wit (niterskip niterec : ℕ) : Par ℤ where
  npos := 1
  nxs := 1
  nts := 8
  niter := 2
  niterec := niterec
  niterskip := niterskip
  shift := 0
  smooth := 0
  istart := 2
  iend := 4
  trans := false
  ct := fun _ => 1
  DD := fun _ j => if j = 3 then 1 else 0
  R := fun f i j => f i ((j + 7) % 8)

theorem wit_ok (a b : ℕ) (ha : 0 < a) : (wit a b).Ok where
  skip := ha
  smooth := le_refl _
  start := (by decide : 1 ≤ 2)
  stop := (by decide : 4 + 0 + 1 ≤ 8)
  add := fun _ _ => rfl
  loc := fun f g e => funext fun i => funext fun j => e i _ (Nat.mod_lt _ (by decide))

/-- Reuse is not the same map: with a spike at sample 5 of eight, sample 3, solved after sample 2, gets minus one where each map gives zero. -/
theorem primaries_reuse_wrong : ∃ p : Par ℤ, p.Ok ∧ p.niterec = 2 ∧ p.istart ≤ p.iend ∧
    ∃ o, p.run (fun _ _ => 0) = some o ∧ p.data 0 3 = 0 ∧ p.sol 1 0 3 = 0 ∧ o.rr 0 3 = -1 := by
  refine ⟨wit 50 2, wit_ok 50 2 (by decide), rfl, by decide, ?_⟩
  have h1 : ((wit 50 2).run fun _ _ => 0).map (fun o => o.rr 0 3) = some (-1) := by decide +kernel
  have h2 : (wit 50 2).sol 1 0 3 = 0 := by decide +kernel
  cases e : (wit 50 2).run fun _ _ => 0 with
  | none => rw [e] at h1; exact absurd h1 (by decide)
  | some o =>
    rw [e] at h1
    exact ⟨o, rfl, by decide, h2, Option.some.inj h1⟩

example : ((wit 1 2).run fun _ _ => 0).map (fun o => (o.rr 0 2, o.rr 0 3, o.rr 0 4)) = some (0, 0, 0) := by decide +kernel

/-- Four iterations after another: the update is counted twice.  The data is a spike at sample 3, with an operator that also scales. -/
def wit4 : Par ℤ where
  npos := 1
  nxs := 1
  nts := 8
  niter := 2
  niterec := 4
  niterskip := 50
  shift := 0
  smooth := 0
  istart := 2
  iend := 4
  trans := false
  ct := fun _ => 1
  DD := fun _ j => if j = 6 ∨ j = 5 then 1 else 0
  R := fun f i j => f i ((j + 6) % 8) + f i ((j + 7) % 8)

theorem wit4_ok : wit4.Ok where
  skip := by decide
  smooth := le_refl _
  start := by decide
  stop := by decide
  add := fun f g => by funext i j; unfold wit4; dsimp only; ring
  loc := fun f g e => funext fun i => funext fun j => by
    unfold wit4
    dsimp only
    have e1 : f i ((j + 6) % 8) = g i ((j + 6) % 8) := e i _ (Nat.mod_lt _ (by decide))
    have e2 : f i ((j + 7) % 8) = g i ((j + 7) % 8) := e i _ (Nat.mod_lt _ (by decide))
    rw [e1, e2]

theorem wit4_recur : wit4.Recur where
  zero := fun ii hi i j hj h => by
    have h' : (8 : ℤ) - ii + 0 ≤ j := h
    have hi' : ii < 4 := hi
    have hj' : j < 8 := hj
    unfold Par.data Par.rev Prim.rev wit4
    dsimp only
    have e1 : ¬ j = 0 := by omega
    have e2 : ¬ (8 - j = 6 ∨ 8 - j = 5) := by omega
    rw [if_neg e1, if_neg e2]
  inside := Or.inl (by decide)

/-- With four iterations or more in the passes that use the previous one, `file_update` is not what was taken from the data. -/
theorem update_counted_twice : ∃ p : Par ℤ, p.Ok ∧ p.Recur ∧ p.niterec = 4 ∧ p.istart ≤ p.iend ∧
    ∃ o, p.run (fun _ _ => 0) = some o ∧ p.data 0 3 = 1 ∧ o.rr 0 3 = 27 ∧ o.upd 0 3 = -33 := by
  refine ⟨wit4, wit4_ok, wit4_recur, rfl, by decide, ?_⟩
  have h1 : (wit4.run fun _ _ => 0).map (fun o => (o.rr 0 3, o.upd 0 3)) = some (27, -33) := by decide +kernel
  cases e : wit4.run fun _ _ => 0 with
  | none => rw [e] at h1; exact absurd h1 (by decide)
  | some o =>
    rw [e] at h1
    have := Option.some.inj h1
    exact ⟨o, rfl, by decide, congrArg Prod.fst this, congrArg Prod.snd this⟩

/-- Two iterations, with the same data: the hypotheses of `primaries_reuse_partial` and `update_complement` hold, and something is removed. -/
example : ∃ p : Par ℤ, p.Ok ∧ p.Recur ∧ p.niterskip = 50 ∧ p.niterec / 2 = 1 ∧ p.istart ≤ p.iend ∧
    (p.run fun _ _ => 0).map (fun o => (o.rr 0 2, o.upd 0 2, o.rr 0 3, o.upd 0 3)) = some (3, -2, 8, -7) := by
  refine ⟨{ wit4 with niterec := 2 }, ⟨?_, ?_, ?_, ?_, ?_, ?_⟩, ⟨wit4_recur.zero, wit4_recur.inside⟩, rfl, rfl, by decide, by decide +kernel⟩
  · exact wit4_ok.skip
  · exact wit4_ok.smooth
  · exact wit4_ok.start
  · exact wit4_ok.stop
  · exact wit4_ok.add
  · exact wit4_ok.loc

/-! ### The split in `u` and `v` -/

/-- `for (j = a, k = 0; j < b; j++, k++) uv[j] = f[j]*g(k)`. -/
def setR (a b : ℕ) (g : ℕ → K) (f uv : ℕ → K) : ℕ → K := forN (b - a) (fun k uv => aset uv (a + k) (f (a + k) * g k)) uv

/-- `file_vmin` for one trace, marchenko_primaries.c:946-974: `f` is `k1min`, `uv` what was in the buffer.  `none` when `iw-isme` is negative:
the loop in line 964 starts before the trace. -/
def Par.vmin (p : Par K) (ii : ℕ) (f uv : ℕ → K) : Option (ℕ → K) :=
  if (ii : ℤ) < p.isme then none
  else
    let a := ((ii : ℤ) - p.isme).toNat
    let b := ((ii : ℤ) - p.isms).toNat
    let uv := zeroR 0 (p.shift - p.smooth) uv
    let uv := setR (p.shift - p.smooth) p.shift (fun k => p.ct (p.smooth - (k + 1))) f uv
    let uv := setR p.shift a (fun _ => 1) f uv
    let uv := setR a b p.ct f uv
    some (zeroR b p.nts uv)

/-- `file_umin` for one trace, marchenko_primaries.c:975-992; `file_uplus` is the same with `k1plus`. -/
def Par.umin (p : Par K) (ii : ℕ) (f uv : ℕ → K) : ℕ → K :=
  let a := ((ii : ℤ) - p.isme).toNat
  let b := ((ii : ℤ) - p.isms).toNat
  let uv := zeroR 0 a uv
  let uv := setR a b (fun k => p.ct (p.smooth - (k + 1))) f uv
  setR b p.nts (fun _ => 1) f uv

theorem setR_val (a b : ℕ) (g f uv : ℕ → K) (m : ℕ) : setR a b g f uv m = if a ≤ m ∧ m < b then f m * g (m - a) else uv m := by
  unfold setR
  have key : ∀ n, forN n (fun k uv => aset uv (a + k) (f (a + k) * g k)) uv m = if a ≤ m ∧ m < a + n then f m * g (m - a) else uv m := by
    intro n
    induction n with
    | zero =>
      have : ¬ (a ≤ m ∧ m < a + 0) := by omega
      rw [forN_zero, if_neg this]
    | succ n ih =>
      rw [forN_succ]
      generalize forN n (fun k uv => aset uv (a + k) (f (a + k) * g k)) uv = q at ih
      unfold aset
      by_cases h : m = a + n
      · have h2 : a ≤ m ∧ m < a + (n + 1) := by omega
        rw [if_pos h, if_pos h2, h, Nat.add_sub_cancel_left]
      · rw [if_neg h, ih]
        exact if_congr (by omega) rfl rfl
  rw [key]
  exact if_congr (by omega) rfl rfl

/-- marchenko_primaries.c:211-218. -/
noncomputable def taper (smooth : ℕ) (i : ℕ) : ℝ := 0.5 * (1 + Real.cos ((i + 1) * (Real.pi / (smooth + 1))))

theorem taper_sum (n m : ℕ) (h : m < n) : taper n m + taper n (n - 1 - m) = 1 := by
  unfold taper
  have hc : (((n - 1 - m : ℕ) : ℝ) + 1) * (Real.pi / (n + 1)) = Real.pi - (m + 1) * (Real.pi / (n + 1)) := by
    have h1 : ((n - 1 - m : ℕ) : ℝ) = n - 1 - m := by
      rw [Nat.sub_sub, Nat.cast_sub (by omega)]; push_cast; ring
    have h2 : (n : ℝ) + 1 ≠ 0 := by positivity
    rw [h1]
    field_simp
    ring
  rw [hc, Real.cos_pi_sub]
  norm_num
  ring

/-- **The split of `k1min`.**  For a sample not before `shift` (when `T=0`), `file_vmin` and `file_umin` are written and add to `k1min` at all
times from `shift` on; before `ii-isme` all is in `v`, from `ii-isms` on in `u`, whatever the buffer held; before `shift`, `v` is tapered to zero. -/
theorem split_min (p : Par ℝ) (ii : ℕ) (hct : p.ct = taper p.smooth) (hi : p.isme ≤ ii) (f uv uv' : ℕ → ℝ) :
    ∃ v, p.vmin ii f uv = some v ∧ ∀ j, j < p.nts →
      (p.shift ≤ j → v j + p.umin ii f uv' j = f j) ∧
      ((j : ℤ) < ii - p.isme → p.umin ii f uv' j = 0) ∧
      ((ii : ℤ) - p.isms ≤ j → v j = 0 ∧ p.umin ii f uv' j = f j) ∧
      ((j : ℤ) < ii - p.isme → j < p.shift - p.smooth → v j = 0) := by
  have hw := width p
  unfold Par.vmin Par.umin
  have h0 : ¬ (ii : ℤ) < p.isme := by omega
  rw [if_neg h0]
  refine ⟨_, rfl, fun j hj => ?_⟩
  simp only [zeroR_val, setR_val]
  have hsm : ∀ k, p.smooth - (k + 1) = p.smooth - 1 - k := fun k => by omega
  have ha : (((ii : ℤ) - p.isme).toNat : ℤ) = ii - p.isme := by omega
  have hb : (((ii : ℤ) - p.isms).toNat : ℤ) = ii - p.isms := by omega
  generalize ((ii : ℤ) - p.isme).toNat = a at *
  generalize ((ii : ℤ) - p.isms).toNat = b at *
  have hab : b = a + p.smooth := by omega
  rw [← ha, ← hb]
  refine ⟨fun hs => ?_, fun h => ?_, fun h => ⟨?_, ?_⟩, fun h h' => ?_⟩
  · rcases Nat.lt_or_ge j a with h | h
    · rw [if_neg (show ¬ (b ≤ j ∧ j < p.nts) by omega), if_neg (show ¬ (a ≤ j ∧ j < b) by omega), if_pos (show p.shift ≤ j ∧ j < a by omega),
        if_neg (show ¬ (b ≤ j ∧ j < p.nts) by omega), if_neg (show ¬ (a ≤ j ∧ j < b) by omega), if_pos (show 0 ≤ j ∧ j < a by omega)]
      ring
    · rcases Nat.lt_or_ge j b with h2 | h2
      · rw [if_neg (show ¬ (b ≤ j ∧ j < p.nts) by omega), if_pos (show a ≤ j ∧ j < b by omega),
          if_neg (show ¬ (b ≤ j ∧ j < p.nts) by omega), if_pos (show a ≤ j ∧ j < b by omega), hct, hsm, ← mul_add, taper_sum _ _ (by omega), mul_one]
      · rw [if_pos (show b ≤ j ∧ j < p.nts by omega), if_pos (show b ≤ j ∧ j < p.nts by omega)]
        ring
  · rw [if_neg (show ¬ (b ≤ j ∧ j < p.nts) by omega), if_neg (show ¬ (a ≤ j ∧ j < b) by omega), if_pos (show 0 ≤ j ∧ j < a by omega)]
  · rw [if_pos (show b ≤ j ∧ j < p.nts by omega)]
  · rw [if_pos (show b ≤ j ∧ j < p.nts by omega), mul_one]
  · rw [if_neg (show ¬ (b ≤ j ∧ j < p.nts) by omega), if_neg (show ¬ (a ≤ j ∧ j < b) by omega), if_neg (show ¬ (p.shift ≤ j ∧ j < a) by omega),
      if_neg (show ¬ (p.shift - p.smooth ≤ j ∧ j < p.shift) by omega), if_pos (show 0 ≤ j ∧ j < p.shift - p.smooth by omega)]

/-- A sample before `shift` (`T=0`) makes the loop of `file_vmin` start before the trace. -/
theorem vmin_ub (p : Par K) (ht : p.trans = false) (ii : ℕ) (h : ii < p.shift) (f uv : ℕ → K) : p.vmin ii f uv = none := by
  unfold Par.vmin
  refine if_pos ?_
  unfold Par.isme
  rw [ht]
  simp only [Bool.false_eq_true, if_false]
  omega

/-- The default settings: `shift=20`, `smooth=10`, `istart=20`. -/
example : ∃ p : Par ℝ, p.ct = taper p.smooth ∧ p.shift = 20 ∧ p.smooth = 10 ∧ p.isme ≤ (20 : ℕ) ∧ p.isms = 10 :=
  ⟨{ npos := 2, nxs := 2, nts := 1024, niter := 22, niterec := 2, niterskip := 50, shift := 20, smooth := 10, istart := 20, iend := 1000,
     trans := false, ct := taper 10, DD := fun _ _ => 0, R := id }, rfl, rfl, rfl, by simp [Par.isme], by simp [Par.isms]⟩

/-- `primaries_reuse_ub`: `istart=1`, the second sample. -/
example : ∃ p : Par ℤ, p.istart < 2 ∧ ¬ (2 - p.istart) % p.niterskip = 0 ∧ p.trans = false ∧ 2 ≤ p.shift ∧ 1 < p.npos ∧ p.npos = p.nxs :=
  ⟨{ npos := 2, nxs := 2, nts := 1024, niter := 22, niterec := 2, niterskip := 50, shift := 20, smooth := 10, istart := 1, iend := 1000,
     trans := false, ct := fun _ => 1, DD := fun _ _ => 0, R := id }, by decide, by decide, rfl, by decide, by decide, rfl⟩

/-- `reuse_fixed`: without reflections the data is the solution. -/
example (p : Par ℤ) (hR : p.R = fun _ _ _ => 0) (ii : ℕ) : p.Eq (p.Phi ii p.data) p.data := fun i j _ => by
  unfold Par.Phi Par.twice Par.rev
  rw [hR]
  dsimp only
  ring
end Verif.Prim

import Verif.Base.Loop
import Mathlib.Analysis.SpecialFunctions.Sqrt
import Mathlib.Analysis.Complex.Basic
import Mathlib.Tactic.Linarith
import Mathlib.Tactic.Ring
import Mathlib.Tactic.FieldSimp
import Mathlib.Tactic.Positivity

/-!
# C46: correlation and coherence (corrvir/correlate.c)

Real numbers in place of float.  `cmaster` and `cslaves` are arrays of `ncor*nfreq` complex numbers.
-/

namespace Verif.Util
open Verif

noncomputable section

/-- `cC.r`, `cC.i` of correlate.c:30-31. -/
def corr (a b : ℂ) : ℂ := ⟨a.re * b.re + a.im * b.im, a.re * b.im - a.im * b.re⟩

/-- `correlate`, correlate.c:16-47. -/
def correlate (cmaster : Nat → ℂ) (nfreq ncor : Nat) (cslaves : Nat → ℂ) : Nat → ℂ :=
  forN ncor (fun istation c => forN nfreq (fun j c => fun x =>
    if x = istation * nfreq + j then corr (cmaster (istation * nfreq + j)) (c (istation * nfreq + j)) else c x) c) cslaves

theorem corr_eq (a b : ℂ) : corr a b = (starRingEnd ℂ) a * b := by
  apply Complex.ext
  · simp [corr]
  · simp [corr]; ring

/-- In a loop nest that visits every `x < ncor*nfreq` once, each visited element is updated once. -/
theorem nest_update (nfreq ncor : Nat) (g : Nat → ℂ → ℂ) (c : Nat → ℂ) (x : Nat) :
    forN ncor (fun istation c => forN nfreq (fun j c => fun x =>
      if x = istation * nfreq + j then g (istation * nfreq + j) (c (istation * nfreq + j)) else c x) c) c x =
    if x < ncor * nfreq then g x (c x) else c x := by
  have inner : ∀ (b : Nat) (m : Nat) (c : Nat → ℂ) (x : Nat),
      forN m (fun j (c : Nat → ℂ) => fun x => if x = b + j then g (b + j) (c (b + j)) else c x) c x =
      if b ≤ x ∧ x < b + m then g x (c x) else c x := by
    intro b m
    induction m with
    | zero => intro c x; rw [if_neg (by omega)]; rfl
    | succ m ih =>
      intro c x
      rw [forN_succ]
      by_cases hx : x = b + m
      · rw [if_pos hx, ih, if_neg (by omega), if_pos (by omega), hx]
      · rw [if_neg hx, ih]
        by_cases hc : b ≤ x ∧ x < b + m
        · rw [if_pos hc, if_pos (by omega)]
        · rw [if_neg hc, if_neg (by omega)]
  induction ncor with
  | zero => simp
  | succ n ih =>
    rw [forN_succ, inner, ih, Nat.succ_mul]
    by_cases h1 : x < n * nfreq
    · rw [if_neg (by omega), if_pos h1, if_pos (by omega)]
    · by_cases h2 : x < n * nfreq + nfreq
      · rw [if_pos (by omega), if_neg h1, if_pos h2]
      · rw [if_neg (by omega), if_neg h1, if_neg h2]

/-- **C46, correlation.** Every sample of every station is conj(master)*slave, and nothing else changes. -/
theorem correlate_conj_product (cmaster cslaves : Nat → ℂ) (nfreq ncor x : Nat) :
    correlate cmaster nfreq ncor cslaves x =
      if x < ncor * nfreq then (starRingEnd ℂ) (cmaster x) * cslaves x else cslaves x := by
  unfold correlate
  rw [nest_update nfreq ncor (fun x v => corr (cmaster x) v) cslaves x, corr_eq]

/-! ### Coherence -/

/-- `den[j+icc]`, correlate.c:62-64. -/
def denOf (a b : ℂ) : ℝ := Real.sqrt (a.re * a.re + a.im * a.im) * Real.sqrt (b.re * b.re + b.im * b.im)

/-- `maxden` over one station, correlate.c:71-74. -/
def maxden (den : Nat → ℝ) (nfreq : Nat) : ℝ := forN nfreq (fun j m => if m > den j then m else den j) 0

/-- The choice of `scl` (correlate.c:79-81); when no branch applies it keeps its previous value, which is
indeterminate (`none`) if there was none. -/
def pickScl (den mx reps epsmax : ℝ) (scl : Option ℝ) : Option ℝ :=
  open Classical in
  if den > epsmax * mx then some (1 / den)
  else if den < epsmax * mx ∧ den ≠ 0 then some (1 / (den + reps * mx))
  else if den = 0 then some 1
  else scl

/-- One station of `coherence` (correlate.c:71-89); `den` was computed from the inputs before (lines 59-66);
`icc = istation*nfreq`; the result is `none` once an indeterminate `scl` has been used. -/
def coherenceStation (cmaster : Nat → ℂ) (den : Nat → ℝ) (nfreq icc : Nat) (reps epsmax : ℝ)
    (st : (Nat → ℂ) × Option ℝ) : Option ((Nat → ℂ) × Option ℝ) :=
  forNM nfreq (fun j (st : (Nat → ℂ) × Option ℝ) =>
    let scl := pickScl (den (icc + j)) (maxden (fun j => den (icc + j)) nfreq) reps epsmax st.2
    scl.map fun (s : ℝ) => (fun x => if x = icc + j then corr (cmaster (icc + j)) (st.1 (icc + j)) * (s : ℂ)
      else st.1 x, scl)) st

/-- `coherence` (correlate.c:49-97): `scl` is declared outside the loops and has no initial value. -/
def coherence (cmaster cslaves : Nat → ℂ) (nfreq ncor : Nat) (reps epsmax : ℝ) : Option ((Nat → ℂ) × Option ℝ) :=
  forNM ncor (fun istation st =>
    coherenceStation cmaster (fun x => denOf (cmaster x) (cslaves x)) nfreq (istation * nfreq) reps epsmax st)
    (cslaves, none)

theorem denOf_eq (a b : ℂ) : denOf a b = ‖corr a b‖ := by
  rw [corr_eq, norm_mul, Complex.norm_conj]
  unfold denOf
  rw [Complex.norm_def, Complex.norm_def, Complex.normSq_apply, Complex.normSq_apply]

theorem denOf_nonneg (a b : ℂ) : 0 ≤ denOf a b := by rw [denOf_eq]; exact norm_nonneg _

theorem maxden_ge (den : Nat → ℝ) (nfreq : Nat) : 0 ≤ maxden den nfreq ∧ ∀ j, j < nfreq → den j ≤ maxden den nfreq := by
  unfold maxden
  apply forN_inv (fun m v => 0 ≤ v ∧ ∀ j, j < m → den j ≤ v)
  · exact ⟨le_refl _, fun j h => absurd h (Nat.not_lt_zero _)⟩
  · rintro k _ v ⟨h1, h2⟩
    split
    · next h => exact ⟨h1, fun j hj => by
        by_cases hk : j = k
        · subst hk; exact le_of_lt h
        · exact h2 j (by omega)⟩
    · next h =>
      have h' := not_lt.mp h
      refine ⟨le_trans h1 h', fun j hj => ?_⟩
      by_cases hk : j = k
      · subst hk; exact le_refl _
      · exact le_trans (h2 j (by omega)) h'

/-- What the property asks of one output sample `c`, for amplitudes with product `d` and threshold `t`. -/
def GoodSample (a b : ℂ) (t : ℝ) (c : ℂ) : Prop :=
  (∃ s : ℝ, 0 < s ∧ c = (starRingEnd ℂ) a * b * s) ∧ ‖c‖ ≤ 1 ∧ (t < ‖a‖ * ‖b‖ → ‖c‖ = 1)

theorem denOf_norm (a b : ℂ) : denOf a b = ‖a‖ * ‖b‖ := by
  rw [denOf_eq, corr_eq, norm_mul, Complex.norm_conj]

theorem station_good (a b : Nat → ℂ) (nfreq icc : Nat) (reps epsmax : ℝ) (hr : 0 ≤ reps) (he : 0 ≤ epsmax)
    (st : (Nat → ℂ) × Option ℝ) (hst : ∀ j, j < nfreq → st.1 (icc + j) = b (icc + j))
    (hne : ∀ j, j < nfreq → denOf (a (icc + j)) (b (icc + j)) ≠ 0 →
      denOf (a (icc + j)) (b (icc + j)) ≠ epsmax * maxden (fun j => denOf (a (icc + j)) (b (icc + j))) nfreq) :
    ∃ c scl, coherenceStation a (fun x => denOf (a x) (b x)) nfreq icc reps epsmax st = some (c, scl) ∧
      (∀ j, j < nfreq → GoodSample (a (icc + j)) (b (icc + j))
        (epsmax * maxden (fun j => denOf (a (icc + j)) (b (icc + j))) nfreq) (c (icc + j))) ∧
      ∀ x, x < icc ∨ icc + nfreq ≤ x → c x = st.1 x := by
  obtain ⟨hm0, hm⟩ := maxden_ge (fun j => denOf (a (icc + j)) (b (icc + j))) nfreq
  unfold coherenceStation
  generalize hM : maxden (fun j => denOf (a (icc + j)) (b (icc + j))) nfreq = M at *
  have key := forNM_inv (n := nfreq) (s := st)
    (body := fun j (st : (Nat → ℂ) × Option ℝ) =>
      let scl := pickScl (denOf (a (icc + j)) (b (icc + j))) M reps epsmax st.2
      scl.map fun (s : ℝ) => (fun x => if x = icc + j then corr (a (icc + j)) (st.1 (icc + j)) * (s : ℂ)
        else st.1 x, scl))
    (fun m s => (∀ j, j < m → GoodSample (a (icc + j)) (b (icc + j)) (epsmax * M) (s.1 (icc + j))) ∧
      ∀ x, x < icc ∨ icc + m ≤ x → s.1 x = st.1 x)
    ⟨fun j h => absurd h (Nat.not_lt_zero _), fun _ _ => rfl⟩ (by
      rintro j hj ⟨c, scl⟩ ⟨hc, hrest⟩
      dsimp only at hc hrest ⊢
      -- the scale factor
      have hs : ∃ s : ℝ, pickScl (denOf (a (icc + j)) (b (icc + j))) M reps epsmax scl = some s ∧ 0 < s ∧
          denOf (a (icc + j)) (b (icc + j)) * s ≤ 1 ∧
          (epsmax * M < denOf (a (icc + j)) (b (icc + j)) → denOf (a (icc + j)) (b (icc + j)) * s = 1) := by
        have hd0 := denOf_nonneg (a (icc + j)) (b (icc + j))
        have hnej := hne j hj
        generalize denOf (a (icc + j)) (b (icc + j)) = d at *
        have hem : 0 ≤ epsmax * M := mul_nonneg he hm0
        unfold pickScl
        by_cases h1 : d > epsmax * M
        · have hp : 0 < d := lt_of_le_of_lt hem h1
          have e : d * (1 / d) = 1 := by field_simp
          exact ⟨_, if_pos h1, by positivity, by rw [e], fun _ => e⟩
        · by_cases h2 : d = 0
          · refine ⟨1, ?_, one_pos, by rw [h2]; norm_num, fun h => absurd h h1⟩
            rw [if_neg h1, if_neg (fun h => h.2 h2), if_pos h2]
          · have h3 : d < epsmax * M := lt_of_le_of_ne (not_lt.mp h1) (hnej h2)
            have hp : 0 < d := lt_of_le_of_ne hd0 (Ne.symm h2)
            have hp2 : 0 < d + reps * M := by
              have := mul_nonneg hr hm0; linarith
            refine ⟨1 / (d + reps * M), ?_, by positivity, ?_, fun h => absurd h h1⟩
            · rw [if_neg h1, if_pos ⟨h3, h2⟩]
            · rw [mul_one_div, div_le_one hp2]
              have := mul_nonneg hr hm0; linarith
      obtain ⟨s, s1, s2, s3, s4⟩ := hs
      rw [s1]
      refine ⟨_, rfl, ?_, ?_⟩
      · intro k hk
        dsimp only
        by_cases hkj : k = j
        · subst hkj
          rw [if_pos rfl, hrest (icc + k) (Or.inr (le_refl _)), hst k hj]
          have hn : ‖corr (a (icc + k)) (b (icc + k)) * (s:ℂ)‖ = denOf (a (icc + k)) (b (icc + k)) * s := by
            rw [norm_mul, denOf_eq, Complex.norm_real, Real.norm_of_nonneg (le_of_lt s2)]
          refine ⟨⟨s, s2, by rw [corr_eq]⟩, by rw [hn]; exact s3, fun h => ?_⟩
          rw [hn]; exact s4 (by rw [denOf_norm]; exact h)
        · rw [if_neg (by omega)]
          exact hc k (by omega)
      · intro x hx
        dsimp only
        rw [if_neg (by omega)]
        exact hrest x (by omega))
  obtain ⟨⟨c, scl⟩, k1, k2, k3⟩ := key
  exact ⟨c, scl, k1, k2, k3⟩

/-- The largest product of amplitudes of a station is what `maxden` is specified to be. -/
theorem maxden_attained (den : Nat → ℝ) (nfreq : Nat) (h0 : ∀ j, j < nfreq → 0 ≤ den j) (hn : 0 < nfreq) :
    ∃ j, j < nfreq ∧ maxden den nfreq = den j := by
  unfold maxden
  have := forN_inv (n := nfreq) (s := (0:ℝ)) (body := fun j m => if m > den j then m else den j)
    (fun m v => (m = 0 ∧ v = 0) ∨ ∃ j, j < m ∧ v = den j) (Or.inl ⟨rfl, rfl⟩) (by
      rintro k hk v hv
      split
      · next h =>
        rcases hv with ⟨_, h2⟩ | ⟨j, hj, h2⟩
        · rw [h2] at h; exact absurd h (not_lt.mpr (h0 k hk))
        · exact Or.inr ⟨j, by omega, h2⟩
      · exact Or.inr ⟨k, by omega, rfl⟩)
  rcases this with ⟨h1, _⟩ | h
  · omega
  · exact h

/-- **C46, coherence** (when no non-zero product of amplitudes equals the threshold `epsmax*max`): the program runs
and every output sample of every station has the phase of conj(master)*slave and modulus at most one, exactly one
above the threshold.  `mx k` is the largest product of amplitudes of station `k`.  Missing: the samples on the
threshold, where the claim is false (see below). -/
theorem coherence_modulus_partial (a b : Nat → ℂ) (nfreq ncor : Nat) (reps epsmax : ℝ) (hr : 0 ≤ reps) (he : 0 ≤ epsmax)
    (mx : Nat → ℝ)
    (hmx : ∀ k, k < ncor → (∀ j, j < nfreq → ‖a (k * nfreq + j)‖ * ‖b (k * nfreq + j)‖ ≤ mx k) ∧
      ∃ j, j < nfreq ∧ mx k = ‖a (k * nfreq + j)‖ * ‖b (k * nfreq + j)‖)
    (hne : ∀ k j, k < ncor → j < nfreq → ‖a (k * nfreq + j)‖ * ‖b (k * nfreq + j)‖ ≠ 0 →
      ‖a (k * nfreq + j)‖ * ‖b (k * nfreq + j)‖ ≠ epsmax * mx k) :
    ∃ c scl, coherence a b nfreq ncor reps epsmax = some (c, scl) ∧
      ∀ k j, k < ncor → j < nfreq →
        GoodSample (a (k * nfreq + j)) (b (k * nfreq + j)) (epsmax * mx k) (c (k * nfreq + j)) := by
  have hmx' : ∀ k, k < ncor → maxden (fun j => denOf (a (k * nfreq + j)) (b (k * nfreq + j))) nfreq = mx k := by
    intro k hk
    obtain ⟨q1, j, hj, q2⟩ := hmx k hk
    obtain ⟨_, m2⟩ := maxden_ge (fun j => denOf (a (k * nfreq + j)) (b (k * nfreq + j))) nfreq
    obtain ⟨j', hj', m3⟩ := maxden_attained (fun j => denOf (a (k * nfreq + j)) (b (k * nfreq + j))) nfreq
      (fun j _ => denOf_nonneg _ _) (by omega)
    apply le_antisymm
    · rw [m3]; rw [denOf_norm]; exact q1 j' hj'
    · rw [q2, ← denOf_norm]; exact m2 j hj
  unfold coherence
  have key := forNM_inv (n := ncor) (s := (b, (none : Option ℝ)))
    (body := fun istation st =>
      coherenceStation a (fun x => denOf (a x) (b x)) nfreq (istation * nfreq) reps epsmax st)
    (fun m s => (∀ k j, k < m → j < nfreq →
        GoodSample (a (k * nfreq + j)) (b (k * nfreq + j)) (epsmax * mx k) (s.1 (k * nfreq + j))) ∧
      ∀ x, m * nfreq ≤ x → s.1 x = b x)
    ⟨fun k j h _ => absurd h (Nat.not_lt_zero _), fun _ _ => rfl⟩ (by
      rintro m hm s ⟨g1, g2⟩
      obtain ⟨c, scl, e1, e2, e3⟩ := station_good a b nfreq (m * nfreq) reps epsmax hr he s
        (fun j hj => g2 _ (by omega)) (fun j hj h => by
          rw [hmx' m hm]
          rw [denOf_norm] at h ⊢
          exact hne m j hm hj h)
      refine ⟨_, e1, ?_, ?_⟩
      · intro k j hk hj
        by_cases hkm : k = m
        · subst hkm
          rw [← hmx' k hm]
          exact e2 j hj
        · have h1 : k * nfreq + j < m * nfreq := by
            have : (k + 1) * nfreq ≤ m * nfreq := Nat.mul_le_mul_right _ (by omega)
            rw [Nat.succ_mul] at this; omega
          dsimp only
          rw [e3 _ (Or.inl h1)]
          exact g1 k j (by omega) hj
      · intro x hx
        rw [Nat.succ_mul] at hx
        dsimp only
        rw [e3 x (Or.inr hx)]
        exact g2 x (by omega))
  obtain ⟨⟨c, scl⟩, k1, k2, _⟩ := key
  exact ⟨c, scl, k1, k2⟩

/-- **C46 is refuted at the threshold**: with `epsmax=1`, `reps=0` and the two products 1/100 and 1 of amplitudes, the
second sample re-uses the scale factor of the first and gets modulus 100. -/
theorem coherence_above_one :
    ∃ c scl, coherence (fun _ => 1) (fun j => if j = 0 then ((1/100 : ℝ) : ℂ) else ((1:ℝ):ℂ)) 2 1 0 1 = some (c, scl) ∧
      ‖c 1‖ = 100 := by
  have d0 : denOf 1 ((1/100 : ℝ) : ℂ) = 1/100 := by
    rw [denOf_eq, corr_eq, map_one, one_mul, Complex.norm_real]; norm_num
  have d1 : denOf 1 ((1 : ℝ) : ℂ) = 1 := by
    rw [denOf_eq, corr_eq, map_one, one_mul, Complex.norm_real]; norm_num
  have hM : maxden (fun j => denOf 1 (if j = 0 then ((1/100 : ℝ) : ℂ) else ((1:ℝ):ℂ))) 2 = 1 := by
    unfold maxden
    rw [forN_succ, forN_succ, forN_zero]
    simp only [if_true, if_false, Nat.one_ne_zero, d0, d1]
    norm_num
  have p0 : pickScl (1/100) 1 0 1 none = some 100 := by
    unfold pickScl
    rw [if_neg (by norm_num), if_pos (by norm_num)]
    norm_num
  have p1 : pickScl 1 1 0 1 (some 100) = some 100 := by
    unfold pickScl
    rw [if_neg (by norm_num), if_neg (by norm_num), if_neg (by norm_num)]
  refine ⟨fun x => if x = 1 then corr 1 ((1:ℝ):ℂ) * ((100:ℝ):ℂ) else
      if x = 0 then corr 1 ((1/100:ℝ):ℂ) * ((100:ℝ):ℂ) else if x = 0 then ((1/100 : ℝ):ℂ) else ((1:ℝ):ℂ), some 100, ?_, ?_⟩
  · unfold coherence coherenceStation
    rw [forNM_succ, forNM_zero]
    simp only [Option.bind_some, Nat.zero_mul, Nat.zero_add]
    rw [forNM_succ, forNM_succ, forNM_zero]
    simp only [Option.bind_some, if_true, if_false, Nat.one_ne_zero]
    rw [hM, d0, p0]
    simp only [Option.map_some, Option.bind_some, if_true, if_false, Nat.one_ne_zero]
    rw [d1, p1]
    simp only [Option.map_some]
  · beta_reduce
    rw [if_pos rfl, corr_eq, map_one, one_mul, norm_mul, Complex.norm_real, Complex.norm_real]
    norm_num

/-- **C46, undefined behaviour**: if the very first sample is the largest one, `scl` is used uninitialised. -/
theorem coherence_uninitialised : coherence (fun _ => 1) (fun _ => 1) 1 1 0 1 = none := by
  have d1 : denOf 1 1 = 1 := by
    rw [denOf_eq, corr_eq, map_one, one_mul, norm_one]
  have hM : maxden (fun _ => denOf 1 1) 1 = 1 := by
    unfold maxden
    rw [forN_succ, forN_zero, d1]; norm_num
  unfold coherence coherenceStation
  rw [forNM_succ, forNM_zero]
  simp only [Option.bind_some]
  rw [forNM_succ, forNM_zero]
  simp only [Option.bind_some]
  rw [hM, d1]
  have : pickScl 1 1 0 1 none = none := by
    unfold pickScl
    rw [if_neg (by norm_num), if_neg (by norm_num), if_neg (by norm_num)]
  rw [this]
  rfl

/-- The hypotheses of the positive theorem hold with `epsmax=1/10` for two stations with a flat spectrum. -/
example : (∀ k, k < 2 → (∀ j, j < 2 → ‖(fun _ => (1:ℂ)) (k * 2 + j)‖ * ‖(fun _ => (1:ℂ)) (k * 2 + j)‖ ≤ (fun _ => (1:ℝ)) k) ∧
      ∃ j, j < 2 ∧ (fun _ => (1:ℝ)) k = ‖(fun _ => (1:ℂ)) (k * 2 + j)‖ * ‖(fun _ => (1:ℂ)) (k * 2 + j)‖) ∧
    (∀ k j, k < 2 → j < 2 → ‖(fun _ => (1:ℂ)) (k * 2 + j)‖ * ‖(fun _ => (1:ℂ)) (k * 2 + j)‖ ≠ 0 →
      ‖(fun _ => (1:ℂ)) (k * 2 + j)‖ * ‖(fun _ => (1:ℂ)) (k * 2 + j)‖ ≠ (1/10:ℝ) * (fun _ => (1:ℝ)) k) := by
  refine ⟨fun k _ => ⟨fun j _ => by simp, 0, by norm_num, by simp⟩, fun k j _ _ _ => by norm_num⟩

end

end Verif.Util

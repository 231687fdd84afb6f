import Verif.Extrap.Kw
import Verif.Extrap.Props

/-! # Phase-shift extrapolation: energy, phases, and what leaks between frequencies -/

namespace Verif.Extrap

open Verif Verif.Toep Finset Complex

noncomputable section

/-! ## Specification -/

/-- Energy of the first `n` samples. -/
def energy (n : ℕ) (z : ℕ → ℂ) : ℝ := ∑ j ∈ range n, normSq (z j)

/-- Number of the wavenumber of sample `q`, without sign. -/
def absNo (nkx q : ℕ) : ℕ := min q (nkx - q)

/-- The vertical phase of one step for wavenumber number `m`. -/
def phase (k dkx dz : ℝ) (m : ℕ) : ℝ := Real.sqrt (k ^ 2 - (m * dkx) ^ 2) * dz

/-! ## Multiplications -/

theorem rot_eq (a : ℝ) (z : ℂ) : rot a z = Complex.exp (a * I) * z := by
  unfold rot
  apply Complex.ext
  · rw [mul_re, exp_ofReal_mul_I_re, exp_ofReal_mul_I_im]; ring
  · rw [mul_im, exp_ofReal_mul_I_re, exp_ofReal_mul_I_im]; ring

theorem rot_normSq (a : ℝ) (z : ℂ) : normSq (rot a z) = normSq z := by
  unfold rot
  rw [normSq_apply, normSq_apply]
  have := Real.sin_sq_add_cos_sq a
  dsimp only
  linear_combination (z.re * z.re + z.im * z.im) * this

/-- Result of the multiplications up to wavenumber number `e`. -/
def rotated (nkx : ℕ) (k dkx dz : ℝ) (e : ℤ) (z : ℕ → ℂ) (q : ℕ) : ℂ :=
  if q = 0 then rot (k * dz) (z 0)
  else if (absNo nkx q : ℤ) ≤ e then
    if 2 * q = nkx then rot (phase k dkx dz (absNo nkx q)) (rot (phase k dkx dz (absNo nkx q)) (z q))
    else rot (phase k dkx dz (absNo nkx q)) (z q)
  else z q

theorem phases_spec {nkx : ℕ} (hn : 0 < nkx) (k dkx dz : ℝ) (z : ℕ → ℂ) :
    ∃ z', phases nkx k dkx dz z = some z' ∧ ∀ q < nkx, z' q = rotated nkx k dkx dz (min (toInt (k / dkx)) ((nkx / 2 : ℕ) : ℤ)) z q := by
  unfold phases forIM
  rw [rd_some hn]
  simp only [Option.bind_eq_bind, Option.bind_some, wr_some hn]
  set e := min (toInt (k / dkx)) ((nkx / 2 : ℕ) : ℤ) with he
  have hle : e ≤ ((nkx / 2 : ℕ) : ℤ) := min_le_right _ _
  refine Exists.elim (forNM_inv (n := (e + 1 - 1).toNat) (s := fun q => if q = 0 then rot (k * dz) (z 0) else z q)
    (body := fun i z => (rd nkx z (1 + (i : ℤ)).toNat).bind fun a =>
      (wr nkx z (1 + (i : ℤ)).toNat (rot (Real.sqrt (k * k - ((1 + (i : ℤ) : ℤ) : ℝ) * dkx * (((1 + (i : ℤ) : ℤ) : ℝ) * dkx)) * dz) a)).bind
        fun z => (rd nkx z (nkx - (1 + (i : ℤ)).toNat)).bind fun b =>
          wr nkx z (nkx - (1 + (i : ℤ)).toNat)
            (rot (Real.sqrt (k * k - ((1 + (i : ℤ) : ℤ) : ℝ) * dkx * (((1 + (i : ℤ) : ℤ) : ℝ) * dkx)) * dz) b))
    (P := fun i (w : ℕ → ℂ) => ∀ q < nkx, w q = rotated nkx k dkx dz i z q) ?_ ?_) ?_
  · intro q hq
    dsimp only
    by_cases h : q = 0
    · rw [rotated, if_pos h, if_pos h]
    · rw [rotated, if_neg h, if_neg h, if_neg (by unfold absNo; push_cast; omega)]
  · intro i hi w hw
    have e1 : (1 + (i : ℤ)).toNat = i + 1 := by omega
    have hi2 : i + 1 ≤ nkx / 2 := by omega
    have e2 : Real.sqrt (k * k - ((1 + (i : ℤ) : ℤ) : ℝ) * dkx * (((1 + (i : ℤ) : ℤ) : ℝ) * dkx)) * dz = phase k dkx dz (i + 1) := by
      unfold phase; congr 2; push_cast; ring
    rw [e1, e2, rd_some (by omega), Option.bind_some, wr_some (by omega), Option.bind_some, rd_some (by omega), Option.bind_some,
      wr_some (by omega)]
    refine ⟨_, rfl, fun q hq => ?_⟩
    have old : ∀ q, q < nkx → q ≠ 0 → absNo nkx q = i + 1 → w q = z q := by
      intro q h1 h2 h3
      rw [hw q h1, rotated, if_neg h2, if_neg (by omega)]
    by_cases h0 : q = 0
    · subst h0
      rw [if_neg (show ¬ 0 = nkx - (i + 1) by omega), if_neg (show ¬ 0 = i + 1 by omega), hw 0 hq, rotated, rotated, if_pos rfl, if_pos rfl]
    · by_cases hm : absNo nkx q = i + 1
      · have hz := old q hq h0 hm
        by_cases h2 : 2 * q = nkx
        · have hq1 : q = i + 1 := by unfold absNo at hm; omega
          have R : rotated nkx k dkx dz ((i + 1 : ℕ) : ℤ) z q = rot (phase k dkx dz (i + 1)) (rot (phase k dkx dz (i + 1)) (z q)) := by
            rw [rotated, if_neg h0, hm, if_pos (le_refl _), if_pos h2]
          rw [R, if_pos (show q = nkx - (i + 1) by omega), if_pos (show nkx - (i + 1) = i + 1 by omega), ← hq1, hz]
        · have R : rotated nkx k dkx dz ((i + 1 : ℕ) : ℤ) z q = rot (phase k dkx dz (i + 1)) (z q) := by
            rw [rotated, if_neg h0, hm, if_pos (le_refl _), if_neg h2]
          rw [R]
          have : q = i + 1 ∧ i + 1 ≠ nkx - (i + 1) ∨ q = nkx - (i + 1) ∧ nkx - (i + 1) ≠ i + 1 := by unfold absNo at hm; omega
          rcases this with ⟨a, b⟩ | ⟨a, b⟩
          · rw [if_neg (show ¬ q = nkx - (i + 1) by omega), if_pos a, ← a, hz]
          · rw [if_pos a, if_neg b, ← a, hz]
      · have n1 : q ≠ nkx - (i + 1) := by unfold absNo at hm; omega
        have n2 : q ≠ i + 1 := by unfold absNo at hm; omega
        rw [if_neg n1, if_neg n2, hw q hq, rotated, rotated, if_neg h0, if_neg h0]
        by_cases h3 : (absNo nkx q : ℤ) ≤ i
        · rw [if_pos h3, if_pos (show (absNo nkx q : ℤ) ≤ ((i + 1 : ℕ) : ℤ) by push_cast; omega)]
        · rw [if_neg h3, if_neg (show ¬ (absNo nkx q : ℤ) ≤ ((i + 1 : ℕ) : ℤ) by push_cast; omega)]
  · intro w ⟨h1, h2⟩
    refine ⟨w, h1, fun q hq => ?_⟩
    rw [h2 q hq, rotated, rotated]
    by_cases h0 : q = 0
    · rw [if_pos h0, if_pos h0]
    · rw [if_neg h0, if_neg h0]
      have : 1 ≤ absNo nkx q := by unfold absNo; omega
      by_cases h3 : (absNo nkx q : ℤ) ≤ e
      · rw [if_pos h3, if_pos (by omega)]
      · rw [if_neg h3, if_neg (by omega)]

theorem rotated_normSq (nkx : ℕ) (k dkx dz : ℝ) (e : ℤ) (z : ℕ → ℂ) (q : ℕ) : normSq (rotated nkx k dkx dz e z q) = normSq (z q) := by
  unfold rotated
  split
  · rename_i h; rw [h, rot_normSq]
  · split
    · split
      · rw [rot_normSq, rot_normSq]
      · rw [rot_normSq]
    · rfl

/-! ## One depth step -/

theorem scaleLoop (n : ℕ) (f : ℕ → ℂ) (z : ℕ → ℂ) :
    ∀ i, forN n (fun j z => fun i => if i = j then z j * f j else z i) z i = if i < n then z i * f i else z i := by
  refine forN_inv (P := fun m (w : ℕ → ℂ) => ∀ i, w i = if i < m then z i * f i else z i) (fun i => by rw [if_neg (by omega)])
    (fun m hm w hw i => ?_)
  by_cases h : i = m
  · rw [if_pos h, if_pos (by omega), hw m, if_neg (by omega), h]
  · rw [if_neg h, hw i]
    by_cases h' : i < m
    · rw [if_pos h', if_pos (by omega)]
    · rw [if_neg h', if_neg (by omega)]

theorem depthStep_spec {nkx : ℕ} (hn : 0 < nkx) (k dkx dz : ℝ) (tap : ℕ → ℝ) (j1 j2 : Fft.Lib.Junk) (z : ℕ → ℂ) {s : Fft.Lib.St}
    (hs : Fft.Lib.Hist s) :
    ∃ z' s', depthStep nkx k dkx dz tap j1 j2 z s = some (z', s') ∧ Fft.Lib.Hist s' ∧ ∀ j < nkx, z' j =
      Fft.dft (-1) nkx (rotated nkx k dkx dz (min (toInt (k / dkx)) ((nkx / 2 : ℕ) : ℤ)) (Fft.dft 1 nkx z)) j * ((1 / nkx : ℝ) * tap j : ℝ) := by
  obtain ⟨y, s1, e1, H1, hy, -⟩ := Fft.Lib.cc1_fft_dft nkx nkx hn (le_refl _) 1 (Or.inl rfl) j1 z s hs
  obtain ⟨x, ex, hx⟩ := phases_spec hn k dkx dz y
  obtain ⟨v, s2, e2, H2, hv, -⟩ := Fft.Lib.cc1_fft_dft nkx nkx hn (le_refl _) (-1) (Or.inr rfl) j2 x s1 H1
  refine ⟨forN nkx (fun j z => fun i => if i = j then z j * ((1 / nkx : ℝ) * tap j : ℝ) else z i) v, s2, ?_, H2, fun j hj => ?_⟩
  · unfold depthStep
    rw [e1]
    simp only [Option.bind_eq_bind, Option.bind_some]
    rw [ex, Option.bind_some, e2]
    rfl
  · rw [scaleLoop, if_pos hj, hv j hj]
    congr 1
    unfold Fft.dft
    apply sum_congr rfl
    intro q hq
    have hq' := mem_range.1 hq
    rw [hx q hq']
    congr 1
    unfold rotated
    rw [hy q hq', hy 0 hn]
    rfl

/-! ## Energy -/

theorem conj_exp_neg (n a b : ℕ) (sg : ℤ) :
    (starRingEnd ℂ) (Complex.exp (sg * (2 * Real.pi * I * (a * b) / n))) = Complex.exp (-sg * (2 * Real.pi * I * (a * b) / n)) := by
  rw [← Complex.exp_conj]
  congr 1
  have h2 : (starRingEnd ℂ) 2 = 2 := Complex.conj_ofNat 2
  simp [h2]
  ring

/-- Parseval. -/
theorem energy_dft {n : ℕ} (hn : 0 < n) {sg : ℤ} (hs : sg = 1 ∨ sg = -1) (z : ℕ → ℂ) : energy n (Fft.dft sg n z) = n * energy n z := by
  have hC : ((energy n (Fft.dft sg n z) : ℝ) : ℂ) = ((n * energy n z : ℝ) : ℂ) := by
    unfold energy
    push_cast
    have e : ∀ q ∈ range n, (normSq (Fft.dft sg n z q) : ℂ) =
        ∑ j ∈ range n, (starRingEnd ℂ) (z j) * (Fft.dft sg n z q * Complex.exp (((-sg : ℤ) : ℂ) * (2 * Real.pi * I * (q * j) / n))) := by
      intro q _
      rw [← mul_conj]
      conv_lhs => rw [show (starRingEnd ℂ) (Fft.dft sg n z q) =
        ∑ j ∈ range n, (starRingEnd ℂ) (z j) * Complex.exp (((-sg : ℤ) : ℂ) * (2 * Real.pi * I * (q * j) / n)) from by
          unfold Fft.dft
          rw [map_sum]
          apply sum_congr rfl
          intro j _
          rw [map_mul, conj_exp_neg]
          congr 2
          push_cast; ring]
      rw [mul_sum]
      exact sum_congr rfl fun j _ => by ring
    rw [sum_congr rfl e, sum_comm, mul_sum]
    apply sum_congr rfl
    intro j hj
    rw [← mul_sum, ← mul_conj]
    have := Fft.dft_roundtrip sg hs n hn z j (mem_range.1 hj)
    unfold Fft.dft at this ⊢
    rw [this]; ring
  exact_mod_cast hC

theorem energy_rotated (nkx : ℕ) (k dkx dz : ℝ) (e : ℤ) (z : ℕ → ℂ) : energy nkx (rotated nkx k dkx dz e z) = energy nkx z :=
  sum_congr rfl fun q _ => rotated_normSq nkx k dkx dz e z q

theorem energy_filtered {nkx : ℕ} (hn : 0 < nkx) (k dkx dz : ℝ) (e : ℤ) (z : ℕ → ℂ) :
    energy nkx (fun j => Fft.dft (-1) nkx (rotated nkx k dkx dz e (Fft.dft 1 nkx z)) j * ((1 / nkx : ℝ) : ℂ)) = energy nkx z := by
  have h1 : energy nkx (fun j => Fft.dft (-1) nkx (rotated nkx k dkx dz e (Fft.dft 1 nkx z)) j * ((1 / nkx : ℝ) : ℂ)) =
      (1 / (nkx : ℝ)) ^ 2 * energy nkx (Fft.dft (-1) nkx (rotated nkx k dkx dz e (Fft.dft 1 nkx z))) := by
    unfold energy
    rw [mul_sum]
    exact sum_congr rfl fun j _ => by rw [normSq_mul, normSq_ofReal]; ring
  have hn' : (nkx : ℝ) ≠ 0 := by exact_mod_cast hn.ne'
  rw [h1, energy_dft hn (Or.inr rfl), energy_rotated, energy_dft hn (Or.inl rfl)]
  field_simp

/-- One depth step does not increase the energy; without taper it keeps it. -/
theorem depthStep_energy {nkx : ℕ} (hn : 0 < nkx) (k dkx dz : ℝ) {tap : ℕ → ℝ} (ht : ∀ j < nkx, 0 ≤ tap j ∧ tap j ≤ 1)
    (j1 j2 : Fft.Lib.Junk) (z : ℕ → ℂ) {s : Fft.Lib.St} (hs : Fft.Lib.Hist s) :
    ∃ z' s', depthStep nkx k dkx dz tap j1 j2 z s = some (z', s') ∧ Fft.Lib.Hist s' ∧ energy nkx z' ≤ energy nkx z ∧
      ((∀ j < nkx, tap j = 1) → energy nkx z' = energy nkx z) := by
  obtain ⟨z', s', e, H, hz⟩ := depthStep_spec hn k dkx dz tap j1 j2 z hs
  refine ⟨z', s', e, H, ?_, fun h1 => ?_⟩
  · rw [← energy_filtered hn k dkx dz (min (toInt (k / dkx)) ((nkx / 2 : ℕ) : ℤ)) z]
    unfold energy
    apply sum_le_sum
    intro j hj
    have hj' := mem_range.1 hj
    rw [hz j hj', ofReal_mul, ← mul_assoc, normSq_mul _ (tap j : ℂ), normSq_ofReal]
    have := ht j hj'
    have h2 := normSq_nonneg (Fft.dft (-1) nkx (rotated nkx k dkx dz (min (toInt (k / dkx)) ((nkx / 2 : ℕ) : ℤ)) (Fft.dft 1 nkx z)) j *
      ((1 / nkx : ℝ) : ℂ))
    nlinarith [mul_le_one₀ this.2 this.1 this.2]
  · rw [← energy_filtered hn k dkx dz (min (toInt (k / dkx)) ((nkx / 2 : ℕ) : ℤ)) z]
    unfold energy
    apply sum_congr rfl
    intro j hj
    rw [hz j (mem_range.1 hj), h1 j (mem_range.1 hj), mul_one]

/-! ## Phases -/

/-- What one depth step does to wavenumber sample `q`: propagating waves are shifted in phase, evanescent waves stay as they are. -/
def factor (nkx : ℕ) (k dkx dz : ℝ) (q : ℕ) : ℂ :=
  if absNo nkx q * dkx ≤ k then Complex.exp (phase k dkx dz (absNo nkx q) * I) else 1

theorem le_toInt {x : ℝ} (hx : 0 ≤ x) (m : ℕ) : (m : ℤ) ≤ toInt x ↔ (m : ℝ) ≤ x := by
  unfold toInt
  rw [if_pos hx, Int.le_floor]; push_cast; rfl

theorem rotated_factor {nkx : ℕ} (hn : 0 < nkx) {k dkx : ℝ} (hk : 0 ≤ k) (hd : 0 < dkx) (dz : ℝ) (z : ℕ → ℂ) {q : ℕ} (hq : q < nkx) :
    rotated nkx k dkx dz (min (toInt (k / dkx)) ((nkx / 2 : ℕ) : ℤ)) z q =
      (if 2 * q = nkx then factor nkx k dkx dz q else 1) * (factor nkx k dkx dz q * z q) := by
  have hx : 0 ≤ k / dkx := div_nonneg hk hd.le
  have hle : (absNo nkx q : ℤ) ≤ min (toInt (k / dkx)) ((nkx / 2 : ℕ) : ℤ) ↔ absNo nkx q * dkx ≤ k := by
    rw [le_min_iff, le_toInt hx, le_div_iff₀ hd]
    constructor
    · exact fun h => h.1
    · exact fun h => ⟨h, by unfold absNo; omega⟩
  unfold rotated
  by_cases h0 : q = 0
  · subst h0
    have h1 : factor nkx k dkx dz 0 = Complex.exp ((k * dz : ℝ) * I) := by
      unfold factor absNo phase
      simp [hk, Real.sqrt_sq hk]
    rw [if_pos rfl, if_neg (by omega), h1, rot_eq, one_mul]
  · rw [if_neg h0]
    unfold factor
    by_cases h : absNo nkx q * dkx ≤ k
    · rw [if_pos (hle.2 h), if_pos h]
      by_cases h2 : 2 * q = nkx
      · rw [if_pos h2, if_pos h2, rot_eq, rot_eq]
      · rw [if_neg h2, if_neg h2, rot_eq, one_mul]
    · rw [if_neg (fun c => h (hle.1 c)), if_neg h]; simp

/-- One depth step without taper, wavenumber by wavenumber. -/
theorem depthStep_phase {nkx : ℕ} (hn : 0 < nkx) {k dkx : ℝ} (hk : 0 ≤ k) (hd : 0 < dkx) (dz : ℝ) {tap : ℕ → ℝ} (ht : ∀ j < nkx, tap j = 1)
    (j1 j2 : Fft.Lib.Junk) (z : ℕ → ℂ) {s : Fft.Lib.St} (hs : Fft.Lib.Hist s) :
    ∃ z' s', depthStep nkx k dkx dz tap j1 j2 z s = some (z', s') ∧ Fft.Lib.Hist s' ∧ ∀ q < nkx,
      Fft.dft 1 nkx z' q = (if 2 * q = nkx then factor nkx k dkx dz q else 1) * (factor nkx k dkx dz q * Fft.dft 1 nkx z q) := by
  obtain ⟨z', s', e, H, hz⟩ := depthStep_spec hn k dkx dz tap j1 j2 z hs
  refine ⟨z', s', e, H, fun q hq => ?_⟩
  rw [← rotated_factor hn hk hd dz (Fft.dft 1 nkx z) hq]
  have hn' : (nkx : ℂ) ≠ 0 := by exact_mod_cast hn.ne'
  have rt := Fft.dft_roundtrip (-1) (Or.inr rfl) nkx hn (rotated nkx k dkx dz (min (toInt (k / dkx)) ((nkx / 2 : ℕ) : ℤ)) (Fft.dft 1 nkx z)) q hq
  rw [neg_neg] at rt
  have : Fft.dft 1 nkx z' q = (1 / nkx : ℂ) * Fft.dft 1 nkx (fun j => Fft.dft (-1) nkx
      (rotated nkx k dkx dz (min (toInt (k / dkx)) ((nkx / 2 : ℕ) : ℤ)) (Fft.dft 1 nkx z)) j) q := by
    conv_lhs => unfold Fft.dft
    conv_rhs => rw [Fft.dft]
    rw [mul_sum]
    apply sum_congr rfl
    intro j hj
    rw [hz j (mem_range.1 hj), ht j (mem_range.1 hj)]
    push_cast; ring
  rw [this, rt]
  field_simp

/-! ## Loops -/

theorem layerK_spec {nxm : ℕ} {velmod : ℕ → ℝ} (hx : 0 < nxm) (hv : ∀ i, 0 < velmod i) (d : ℕ) {om : ℝ} :
    layerK nxm velmod d om = some (om / ((∑ ix ∈ range nxm, velmod (d * nxm + ix)) / nxm)) ∧
      0 < (∑ ix ∈ range nxm, velmod (d * nxm + ix)) / nxm := by
  have e : forN nxm (fun ix c => c + velmod (d * nxm + ix)) 0 = ∑ ix ∈ range nxm, velmod (d * nxm + ix) := by
    refine forN_inv (P := fun m (c : ℝ) => c = ∑ ix ∈ range m, velmod (d * nxm + ix)) (by simp) (fun m _ c hc => ?_)
    rw [sum_range_succ, hc]
  have pos : 0 < ∑ ix ∈ range nxm, velmod (d * nxm + ix) := sum_pos (fun i _ => hv _) ⟨0, mem_range.2 hx⟩
  have hn : (0 : ℝ) < nxm := by exact_mod_cast hx
  unfold layerK
  dsimp only
  rw [e, if_neg pos.ne']
  refine ⟨?_, by positivity⟩
  congr 1
  field_simp

theorem record_spec {p : KwPar} (hx : ∀ j < p.nrec, p.ntap + p.xi j < p.nkx) (iom d : ℕ) (z : ℕ → ℂ) (c : ℕ → ℕ → ℂ) :
    ∃ c', record p iom d z c = some c' ∧
      ∀ a b, c' a b = if a = iom ∧ b < p.nrec ∧ p.zi b = d then z (p.ntap + p.xi b) else c a b := by
  unfold record
  refine Exists.elim (forNM_inv (n := p.nrec) (s := c) (body := fun j c =>
    if p.zi j = d then (rd p.nkx z (p.ntap + p.xi j)).map fun v => fun a b => if a = iom ∧ b = j then v else c a b
    else some c)
    (P := fun m (w : ℕ → ℕ → ℂ) => ∀ a b, w a b = if a = iom ∧ b < m ∧ p.zi b = d then z (p.ntap + p.xi b) else c a b) ?_ ?_) ?_
  · intro a b; rw [if_neg (by omega)]
  · intro j hj w hw
    by_cases hz : p.zi j = d
    · rw [if_pos hz, rd_some (hx j hj)]
      refine ⟨_, rfl, fun a b => ?_⟩
      change (if a = iom ∧ b = j then z (p.ntap + p.xi j) else w a b) = _
      by_cases h : a = iom ∧ b = j
      · rw [if_pos h, if_pos (show a = iom ∧ b < j + 1 ∧ p.zi b = d from ⟨h.1, by omega, by rw [h.2]; exact hz⟩), h.2]
      · rw [if_neg h, hw a b]
        by_cases h' : a = iom ∧ b < j ∧ p.zi b = d
        · rw [if_pos h', if_pos ⟨h'.1, by omega, h'.2.2⟩]
        · rw [if_neg h', if_neg (fun hc => h' ⟨hc.1, by
            have : b ≠ j := fun e => h ⟨hc.1, e⟩
            omega, hc.2.2⟩)]
    · rw [if_neg hz]
      refine ⟨w, rfl, fun a b => ?_⟩
      rw [hw a b]
      by_cases h' : a = iom ∧ b < j ∧ p.zi b = d
      · rw [if_pos h', if_pos ⟨h'.1, by omega, h'.2.2⟩]
      · rw [if_neg h', if_neg (fun hc => h' ⟨hc.1, by
          have : b ≠ j := fun e => hz (by rw [← e]; exact hc.2.2)
          omega, hc.2.2⟩)]
  · intro w ⟨h1, h2⟩
    exact ⟨w, h1, h2⟩

theorem place_spec {p : KwPar} (hx : p.ntap + p.nxm ≤ p.nkx) (f : ℕ → ℂ) (z : ℕ → ℂ) :
    ∃ z', forNM p.nxm (fun j z => wr p.nkx z (p.ntap + j) (f j)) z = some z' ∧
      ∀ i, z' i = if p.ntap ≤ i ∧ i < p.ntap + p.nxm then f (i - p.ntap) else z i :=
  setLoop (fun i hi a => wr_some (by omega)) z

end

end Verif.Extrap

import Verif.Fft.KissFactor
import Mathlib.Algebra.BigOperators.Intervals
import Mathlib.Data.Complex.BigOperators
import Mathlib.Analysis.Complex.Norm
import Mathlib.Tactic.Ring
import Mathlib.Tactic.LinearCombination
import Mathlib.Tactic.Linarith
import Mathlib.Tactic.IntervalCases

/-!
# The butterflies of kiss_fft: what one stage computes
-/

noncomputable section
namespace Verif.Fft
open Verif Finset

/-- One stage, as a sum: combine the `p` partial transforms `Y q` of column `u` into output `q1`. -/
def stage (w : ℂ) (fs m p : Nat) (Y : Nat → ℂ) (u q1 : Nat) : ℂ :=
  ∑ q ∈ range p, Y q * w ^ (fs * q * (u + q1 * m))

/-- A loop over columns `u < m` whose body touches only the cells `b + q*m + u`, `q < p`. -/
theorem columns (p m b : Nat) (body : Nat → Mem → Mem) (G : Nat → Nat → (Nat → ℂ) → ℂ) (A : Mem)
    (h1 : ∀ u, u < m → ∀ A : Mem, ∀ q, q < p →
      body u A (b + q * m + u) = G u q (fun q' => A (b + q' * m + u)))
    (h2 : ∀ u, u < m → ∀ (A : Mem) x, (∀ q, q < p → x ≠ b + q * m + u) → body u A x = A x) :
    (∀ u, u < m → ∀ q, q < p →
      forN m body A (b + q * m + u) = G u q (fun q' => A (b + q' * m + u))) ∧
    (∀ x, (x < b ∨ b + p * m ≤ x) → forN m body A x = A x) := by
  have hdist : ∀ {q u q' u' : Nat}, u < m → u' < m → b + q * m + u = b + q' * m + u' → u = u' := by
    intro q u q' u' hu hu' he
    have h3 : u + m * q = u' + m * q' := by rw [Nat.mul_comm m q, Nat.mul_comm m q']; omega
    have h4 := congrArg (· % m) h3
    simpa [Nat.add_mul_mod_self_left, Nat.mod_eq_of_lt hu, Nat.mod_eq_of_lt hu'] using h4
  have key : ∀ n, n ≤ m →
      (∀ u, u < n → ∀ q, q < p →
        forN n body A (b + q * m + u) = G u q (fun q' => A (b + q' * m + u))) ∧
      (∀ x, (∀ u, u < n → ∀ q, q < p → x ≠ b + q * m + u) → forN n body A x = A x) := by
    intro n
    induction n with
    | zero => intro _; exact ⟨fun u hu => absurd hu (by omega), fun x _ => rfl⟩
    | succ n ih =>
      intro hn
      obtain ⟨i1, i2⟩ := ih (by omega)
      constructor
      · intro u hu q hq
        rw [forN_succ]
        by_cases hun : u = n
        · subst hun
          rw [h1 u (by omega) _ q hq]
          congr 1
          funext q'
          apply i2
          intro u' hu' q'' _ he
          have := hdist (by omega) (by omega) he
          omega
        · rw [h2 n (by omega) _ _ ?_]
          · exact i1 u (by omega) q hq
          · intro q' _ he
            exact hun (hdist (by omega) (by omega) he)
      · intro x hx
        rw [forN_succ, h2 n (by omega) _ _ (fun q hq => hx n (by omega) q hq)]
        exact i2 x (fun u hu q hq => hx u (by omega) q hq)
  obtain ⟨k1, k2⟩ := key m (le_refl m)
  refine ⟨k1, fun x hx => k2 x ?_⟩
  intro u hu q hq he
  have h5 : (q + 1) * m ≤ p * m := Nat.mul_le_mul_right m hq
  rw [Nat.add_mul, Nat.one_mul] at h5
  omega

/-- Twiddle factors of the plan: `tw i = w^i` for the allocated entries. -/
structure Twiddles (st : Cfg) (w : ℂ) : Prop where
  pos : 0 < st.nfft
  tw : ∀ i, i < st.nfft → st.tw i = w ^ i
  root : w ^ st.nfft = 1

/-- What every butterfly must do. -/
def StageOk (w : ℂ) (b fs m p : Nat) (f : Mem → Mem) : Prop :=
  ∀ A : Mem, (∀ u, u < m → ∀ q, q < p →
      f A (b + q * m + u) = stage w fs m p (fun q' => A (b + q' * m + u)) u q) ∧
    (∀ x, (x < b ∨ b + p * m ≤ x) → f A x = A x)

theorem StageOk.of_columns {w : ℂ} {b fs m p : Nat} {body : Nat → Mem → Mem}
    (h1 : ∀ u, u < m → ∀ A : Mem, ∀ q, q < p →
      body u A (b + q * m + u) = stage w fs m p (fun q' => A (b + q' * m + u)) u q)
    (h2 : ∀ u, u < m → ∀ (A : Mem) x, (∀ q, q < p → x ≠ b + q * m + u) → body u A x = A x) :
    StageOk w b fs m p (forN m body) := fun A =>
  columns p m b body (fun u q Y => stage w fs m p Y u q) A h1 h2

theorem pow_split (w : ℂ) (fs m u q q1 : Nat) :
    w ^ (fs * q * (u + q1 * m)) = w ^ (q * u * fs) * (w ^ (fs * m)) ^ (q * q1) := by
  rw [← pow_mul, ← pow_add]; congr 1; ring

theorem bfly2_ok (st : Cfg) (w : ℂ) (h : Twiddles st w) (b fs m : Nat)
    (hN : fs * (2 * m) = st.nfft) (hw : w ^ (fs * m) = -1) :
    StageOk w b fs m 2 (bfly2 st b fs m) := by
  have hmpos : 0 < m := by rcases Nat.eq_zero_or_pos m with rfl | h'; · simp at hN; have := h.pos; omega
                           · exact h'
  have hfs : 0 < fs := by rcases Nat.eq_zero_or_pos fs with rfl | h'; · simp at hN; have := h.pos; omega
                          · exact h'
  refine StageOk.of_columns ?_ ?_
  · intro u hu A q hq
    have ht1 : st.tw (u * fs) = w ^ (u * fs) := h.tw _ (by nlinarith)
    simp only [stage, sum_range_succ, sum_range_zero, pow_split, hw, put]
    rw [ht1]
    have e1 : b + 0 * m + u = b + u := by omega
    have e2 : b + 1 * m + u = b + m + u := by omega
    interval_cases q
    · rw [if_pos (by omega), if_neg (by omega), e1, e2]
      simp
    · rw [if_neg (by omega), if_pos (by omega), e1, e2]
      simp; ring
  · intro u hu A x hx
    have h0 := hx 0 (by decide)
    have h1 := hx 1 (by decide)
    simp only [put]
    rw [if_neg (by omega), if_neg (by omega)]

theorem bfly4_ok (st : Cfg) (w : ℂ) (h : Twiddles st w) (b fs m : Nat)
    (hN : fs * (4 * m) = st.nfft)
    (hw : w ^ (fs * m) = if st.inverse then Complex.I else -Complex.I) :
    StageOk w b fs m 4 (bfly4 st b fs m) := by
  have hmpos : 0 < m := by rcases Nat.eq_zero_or_pos m with rfl | h'; · simp at hN; have := h.pos; omega
                           · exact h'
  have hfs : 0 < fs := by rcases Nat.eq_zero_or_pos fs with rfl | h'; · simp at hN; have := h.pos; omega
                          · exact h'
  refine StageOk.of_columns ?_ ?_
  · intro u hu A q hq
    have hu1 : u * fs < m * fs := Nat.mul_lt_mul_of_pos_right hu hfs
    have hmf : m * fs = fs * m := Nat.mul_comm _ _
    have hN' : 4 * (fs * m) = st.nfft := by rw [← hN]; ring
    have ht1 : st.tw (u * fs) = w ^ (1 * u * fs) := by rw [h.tw _ (by omega)]; congr 1; ring
    have ht2 : st.tw (u * (fs * 2)) = w ^ (2 * u * fs) := by
      rw [h.tw _ (by rw [← Nat.mul_assoc]; omega)]; congr 1; ring
    have ht3 : st.tw (u * (fs * 3)) = w ^ (3 * u * fs) := by
      rw [h.tw _ (by rw [← Nat.mul_assoc]; omega)]; congr 1; ring
    have e0 : b + 0 * m + u = b + u := by omega
    have e1 : b + 1 * m + u = b + u + m := by omega
    have e2 : b + 2 * m + u = b + u + 2 * m := by omega
    have e3 : b + 3 * m + u = b + u + 3 * m := by omega
    simp only [stage, sum_range_succ, sum_range_zero, pow_split, put, ht1, ht2, ht3, e0, e1, e2, e3]
    generalize w ^ (1 * u * fs) = t1
    generalize w ^ (2 * u * fs) = t2
    generalize w ^ (3 * u * fs) = t3
    generalize A (b + u) = y0
    generalize A (b + u + m) = y1
    generalize A (b + u + 2 * m) = y2
    generalize A (b + u + 3 * m) = y3
    have c1 : b + u + m ≠ b + u := by omega
    have c2 : b + u + 2 * m ≠ b + u := by omega
    have c3 : b + u + 3 * m ≠ b + u := by omega
    have c4 : b + u + 2 * m ≠ b + u + m := by omega
    have c5 : b + u + 3 * m ≠ b + u + m := by omega
    have c6 : b + u + 3 * m ≠ b + u + 2 * m := by omega
    rw [hw]
    have hI2 : Complex.I ^ 2 = -1 := Complex.I_sq
    cases st.inverse <;> interval_cases q <;>
      simp only [e0, e1, e2, e3, c1, c2, c3, c4, c5, c6, c1.symm, c2.symm, c3.symm, c4.symm, c5.symm,
        c6.symm, put, if_true, if_false, ite_true, ite_false, Bool.false_eq_true] <;>
      (apply Complex.ext <;> simp [pow_succ] <;> ring)
  · intro u hu A x hx
    have h0 := hx 0 (by decide)
    have h1 := hx 1 (by decide)
    have h2 := hx 2 (by decide)
    have h3 := hx 3 (by decide)
    have g0 : x ≠ b + u := by omega
    have g1 : x ≠ b + u + m := by omega
    have g2 : x ≠ b + u + 2 * m := by omega
    have g3 : x ≠ b + u + 3 * m := by omega
    cases st.inverse <;> simp [put, g0, g1, g2, g3]

theorem bfly3_ok (st : Cfg) (w : ℂ) (h : Twiddles st w) (b fs m : Nat)
    (hN : fs * (3 * m) = st.nfft) (hre : (w ^ (fs * m)).re = -1/2)
    (hc : (w ^ (fs * m)) ^ 2 = (starRingEnd ℂ) (w ^ (fs * m))) :
    StageOk w b fs m 3 (bfly3 st b fs m) := by
  have hmpos : 0 < m := by rcases Nat.eq_zero_or_pos m with rfl | h'; · simp at hN; have := h.pos; omega
                           · exact h'
  have hfs : 0 < fs := by rcases Nat.eq_zero_or_pos fs with rfl | h'; · simp at hN; have := h.pos; omega
                          · exact h'
  have hfm : 0 < fs * m := Nat.mul_pos hfs hmpos
  have hN' : 3 * (fs * m) = st.nfft := by rw [← hN]; ring
  have h3 : (w ^ (fs * m)) ^ 3 = 1 := by
    rw [← pow_mul, Nat.mul_comm (fs * m) 3, hN', h.root]
  refine StageOk.of_columns ?_ ?_
  · intro u hu A q hq
    have hu1 : u * fs < m * fs := Nat.mul_lt_mul_of_pos_right hu hfs
    have hmf : m * fs = fs * m := Nat.mul_comm _ _
    have ht0 : st.tw (fs * m) = w ^ (fs * m) := h.tw _ (by omega)
    have ht1 : st.tw (u * fs) = w ^ (1 * u * fs) := by rw [h.tw _ (by omega)]; congr 1; ring
    have ht2 : st.tw (u * (fs * 2)) = w ^ (2 * u * fs) := by
      rw [h.tw _ (by rw [← Nat.mul_assoc]; omega)]; congr 1; ring
    have e0 : b + 0 * m + u = b + u := by omega
    have e1 : b + 1 * m + u = b + u + m := by omega
    have e2 : b + 2 * m + u = b + u + 2 * m := by omega
    simp only [stage, sum_range_succ, sum_range_zero, pow_split, put, ht0, ht1, ht2, e0, e1, e2]
    generalize w ^ (1 * u * fs) = t1
    generalize w ^ (2 * u * fs) = t2
    generalize w ^ (fs * m) = ω at *
    generalize A (b + u) = y0
    generalize A (b + u + m) = y1
    generalize A (b + u + 2 * m) = y2
    have c1 : b + u + m ≠ b + u := by omega
    have c2 : b + u + 2 * m ≠ b + u := by omega
    have c4 : b + u + 2 * m ≠ b + u + m := by omega
    have h4 : ω ^ 4 = ω := by
      calc ω ^ 4 = ω ^ 3 * ω := by ring
        _ = ω := by rw [h3, one_mul]
    have p0 : ω ^ 0 = 1 := pow_zero _
    have p1 : ω ^ 1 = ω := pow_one _
    interval_cases q <;>
      simp only [e0, e1, e2, c1, c2, c4, c1.symm, c2.symm, c4.symm, if_true, if_false,
        show 0 * 0 = 0 from rfl, show 0 * 1 = 0 from rfl, show 0 * 2 = 0 from rfl,
        show 1 * 0 = 0 from rfl, show 2 * 0 = 0 from rfl, show 1 * 1 = 1 from rfl,
        show 1 * 2 = 2 from rfl, show 2 * 1 = 2 from rfl, show 2 * 2 = 4 from rfl, p0, p1, hc, h4] <;>
      (apply Complex.ext <;> simp [hre] <;> ring)
  · intro u hu A x hx
    have h0 := hx 0 (by decide)
    have h1 := hx 1 (by decide)
    have h2 := hx 2 (by decide)
    have g0 : x ≠ b + u := by omega
    have g1 : x ≠ b + u + m := by omega
    have g2 : x ≠ b + u + 2 * m := by omega
    simp [put, g0, g1, g2]

theorem bfly5_ok (st : Cfg) (w : ℂ) (h : Twiddles st w) (b fs m : Nat)
    (hN : fs * (5 * m) = st.nfft)
    (hc : (w ^ (fs * m)) ^ 4 = (starRingEnd ℂ) (w ^ (fs * m))) :
    StageOk w b fs m 5 (bfly5 st b fs m) := by
  have hmpos : 0 < m := by rcases Nat.eq_zero_or_pos m with rfl | h'; · simp at hN; have := h.pos; omega
                           · exact h'
  have hfs : 0 < fs := by rcases Nat.eq_zero_or_pos fs with rfl | h'; · simp at hN; have := h.pos; omega
                          · exact h'
  have hfm : 0 < fs * m := Nat.mul_pos hfs hmpos
  have hN' : 5 * (fs * m) = st.nfft := by rw [← hN]; ring
  have h5 : (w ^ (fs * m)) ^ 5 = 1 := by
    rw [← pow_mul, Nat.mul_comm (fs * m) 5, hN', h.root]
  refine StageOk.of_columns ?_ ?_
  · intro u hu A q hq
    have hu1 : u * fs < m * fs := Nat.mul_lt_mul_of_pos_right hu hfs
    have hmf : m * fs = fs * m := Nat.mul_comm _ _
    have ht0 : st.tw (fs * m) = w ^ (fs * m) := h.tw _ (by omega)
    have htb : st.tw (fs * 2 * m) = (w ^ (fs * m)) ^ 2 := by
      rw [h.tw _ (by rw [Nat.mul_assoc, Nat.mul_left_comm]; omega), ← pow_mul]; congr 1; ring
    have ht1 : st.tw (u * fs) = w ^ (1 * u * fs) := by rw [h.tw _ (by omega)]; congr 1; ring
    have ht2 : st.tw (2 * u * fs) = w ^ (2 * u * fs) := h.tw _ (by rw [Nat.mul_assoc]; omega)
    have ht3 : st.tw (3 * u * fs) = w ^ (3 * u * fs) := h.tw _ (by rw [Nat.mul_assoc]; omega)
    have ht4 : st.tw (4 * u * fs) = w ^ (4 * u * fs) := h.tw _ (by rw [Nat.mul_assoc]; omega)
    have e0 : b + 0 * m + u = b + u := by omega
    have e1 : b + 1 * m + u = b + u + m := by omega
    have e2 : b + 2 * m + u = b + u + 2 * m := by omega
    have e3 : b + 3 * m + u = b + u + 3 * m := by omega
    have e4 : b + 4 * m + u = b + u + 4 * m := by omega
    simp only [stage, sum_range_succ, sum_range_zero, pow_split, put, ht0, htb, ht1, ht2, ht3, ht4,
      e0, e1, e2, e3, e4]
    generalize w ^ (1 * u * fs) = t1
    generalize w ^ (2 * u * fs) = t2
    generalize w ^ (3 * u * fs) = t3
    generalize w ^ (4 * u * fs) = t4
    generalize w ^ (fs * m) = ω at *
    generalize A (b + u) = y0
    generalize A (b + u + m) = y1
    generalize A (b + u + 2 * m) = y2
    generalize A (b + u + 3 * m) = y3
    generalize A (b + u + 4 * m) = y4
    have c1 : b + u + m ≠ b + u := by omega
    have c2 : b + u + 2 * m ≠ b + u := by omega
    have c3 : b + u + 3 * m ≠ b + u := by omega
    have c4 : b + u + 4 * m ≠ b + u := by omega
    have c5 : b + u + 2 * m ≠ b + u + m := by omega
    have c6 : b + u + 3 * m ≠ b + u + m := by omega
    have c7 : b + u + 4 * m ≠ b + u + m := by omega
    have c8 : b + u + 3 * m ≠ b + u + 2 * m := by omega
    have c9 : b + u + 4 * m ≠ b + u + 2 * m := by omega
    have c10 : b + u + 4 * m ≠ b + u + 3 * m := by omega
    have k3 : ω ^ 3 = (starRingEnd ℂ) (ω ^ 2) := by
      rw [map_pow, ← hc]
      calc ω ^ 3 = ω ^ 5 * ω ^ 3 := by rw [h5, one_mul]
        _ = (ω ^ 4) ^ 2 := by ring
    have k6 : ω ^ 6 = ω := by
      calc ω ^ 6 = ω ^ 5 * ω := by ring
        _ = ω := by rw [h5, one_mul]
    have k8 : ω ^ 8 = (starRingEnd ℂ) (ω ^ 2) := by
      rw [← k3]
      calc ω ^ 8 = ω ^ 5 * ω ^ 3 := by ring
        _ = ω ^ 3 := by rw [h5, one_mul]
    have k9 : ω ^ 9 = (starRingEnd ℂ) ω := by
      rw [← hc]
      calc ω ^ 9 = ω ^ 5 * ω ^ 4 := by ring
        _ = ω ^ 4 := by rw [h5, one_mul]
    have k12 : ω ^ 12 = ω ^ 2 := by
      calc ω ^ 12 = ω ^ 5 * ω ^ 5 * ω ^ 2 := by ring
        _ = ω ^ 2 := by rw [h5]; ring
    have k16 : ω ^ 16 = ω := by
      calc ω ^ 16 = ω ^ 5 * ω ^ 5 * ω ^ 5 * ω := by ring
        _ = ω := by rw [h5]; ring
    have p0 : ω ^ 0 = 1 := pow_zero _
    have p1 : ω ^ 1 = ω := pow_one _
    interval_cases q <;>
      simp only [e0, e1, e2, e3, e4, c1, c2, c3, c4, c5, c6, c7, c8, c9, c10, c1.symm, c2.symm, c3.symm,
        c4.symm, c5.symm, c6.symm, c7.symm, c8.symm, c9.symm, c10.symm, if_true, if_false,
        Nat.reduceMul, p0, p1, k3, hc, k6, k8, k9, k12, k16] <;>
      generalize ω ^ 2 = yb <;>
      (apply Complex.ext <;> simp <;> ring)
  · intro u hu A x hx
    have h0 := hx 0 (by decide)
    have h1 := hx 1 (by decide)
    have h2 := hx 2 (by decide)
    have h3 := hx 3 (by decide)
    have h4 := hx 4 (by decide)
    have g0 : x ≠ b + u := by omega
    have g1 : x ≠ b + u + m := by omega
    have g2 : x ≠ b + u + 2 * m := by omega
    have g3 : x ≠ b + u + 3 * m := by omega
    have g4 : x ≠ b + u + 4 * m := by omega
    simp [put, g0, g1, g2, g3, g4]

/-- The accumulation of the generic butterfly: the twiddle index is `q*fstride*k mod nfft`. -/
theorem genAcc_eq (st : Cfg) (w : ℂ) (h : Twiddles st w) (fs k p : Nat) (hk : fs * k < st.nfft)
    (hp : 1 ≤ p) (Y : Nat → ℂ) :
    (genAcc st fs k p Y).2 = ∑ q ∈ range p, Y q * w ^ (fs * q * k) := by
  have key : ∀ n, let s := forN n (fun j s =>
      let q := j + 1
      let twidx := s.1 + fs * k
      let twidx := if twidx ≥ st.nfft then twidx - st.nfft else twidx
      (twidx, s.2 + Y q * st.tw twidx)) ((0, Y 0) : Nat × ℂ)
      s.1 < st.nfft ∧ w ^ s.1 = w ^ (n * (fs * k)) ∧
        s.2 = ∑ q ∈ range (n + 1), Y q * w ^ (fs * q * k) := by
    intro n
    induction n with
    | zero => exact ⟨h.pos, by simp, by simp⟩
    | succ n ih =>
      intro s
      obtain ⟨i1, i2, i3⟩ := ih
      simp only [s, forN_succ]
      generalize (forN n (fun j s =>
        let q := j + 1
        let twidx := s.1 + fs * k
        let twidx := if twidx ≥ st.nfft then twidx - st.nfft else twidx
        (twidx, s.2 + Y q * st.tw twidx)) ((0, Y 0) : Nat × ℂ)) = s' at *
      have hpow : w ^ (if s'.1 + fs * k ≥ st.nfft then s'.1 + fs * k - st.nfft else s'.1 + fs * k) =
          w ^ ((n + 1) * (fs * k)) := by
        have e : w ^ (s'.1 + fs * k) = w ^ ((n + 1) * (fs * k)) := by
          rw [pow_add, i2, ← pow_add]; congr 1; ring
        split
        · rename_i hge
          rw [← e]
          conv_rhs => rw [show s'.1 + fs * k = (s'.1 + fs * k - st.nfft) + st.nfft by omega, pow_add, h.root,
            mul_one]
        · exact e
      have hlt : (if s'.1 + fs * k ≥ st.nfft then s'.1 + fs * k - st.nfft else s'.1 + fs * k) < st.nfft := by
        split <;> omega
      refine ⟨hlt, hpow, ?_⟩
      rw [i3, h.tw _ hlt, hpow, sum_range_succ _ (n + 1)]
      congr 3
      ring
  have := (key (p - 1)).2.2
  unfold genAcc
  rw [this, show p - 1 + 1 = p by omega]

theorem bflyGeneric_ok (st : Cfg) (w : ℂ) (h : Twiddles st w) (b fs m p : Nat) (hp : 1 ≤ p)
    (hN : fs * (p * m) = st.nfft) : StageOk w b fs m p (bflyGeneric st b fs m p) := by
  have hmpos : 0 < m := by rcases Nat.eq_zero_or_pos m with rfl | h'; · simp at hN; have := h.pos; omega
                           · exact h'
  have hfs : 0 < fs := by rcases Nat.eq_zero_or_pos fs with rfl | h'; · simp at hN; have := h.pos; omega
                          · exact h'
  -- the inner loop over outputs
  have inner : ∀ (val : Nat → ℂ) (u n : Nat) (A : Mem) (x : Nat),
      (∀ q, q < n → x = b + q * m + u →
        forN n (fun q1 A => put A (b + (u + q1 * m)) (val q1)) A x = val q) ∧
      ((∀ q, q < n → x ≠ b + q * m + u) →
        forN n (fun q1 A => put A (b + (u + q1 * m)) (val q1)) A x = A x) := by
    intro val u n A x
    induction n with
    | zero => exact ⟨fun q hq => absurd hq (by omega), fun _ => rfl⟩
    | succ n ih =>
      constructor
      · intro q hq he
        rw [forN_succ]
        unfold put
        by_cases hqn : q = n
        · subst hqn; rw [if_pos (by omega)]
        · rw [if_neg]
          · exact ih.1 q (by omega) he
          · intro h1
            have h2 : q * m = n * m := by omega
            exact hqn (Nat.eq_of_mul_eq_mul_right hmpos h2)
      · intro hx
        rw [forN_succ]
        unfold put
        rw [if_neg (by have := hx n (by omega); omega)]
        exact ih.2 (fun q hq => hx q (by omega))
  refine StageOk.of_columns ?_ ?_
  · intro u hu A q hq
    have hk : fs * (u + q * m) < st.nfft := by
      rw [← hN]
      apply Nat.mul_lt_mul_of_pos_left _ hfs
      have : (q + 1) * m ≤ p * m := Nat.mul_le_mul_right m hq
      rw [Nat.add_mul, Nat.one_mul] at this
      omega
    have := (inner (fun q1 => (genAcc st fs (u + q1 * m) p (fun q1 => A (b + (u + q1 * m)))).2) u p A
      (b + q * m + u)).1 q hq rfl
    dsimp only at this ⊢
    rw [this, genAcc_eq st w h fs _ p hk hp]
    unfold stage
    apply sum_congr rfl
    intro q' _
    rw [show b + (u + q' * m) = b + q' * m + u by omega]
  · intro u hu A x hx
    exact (inner _ u p A x).2 hx

end Verif.Fft

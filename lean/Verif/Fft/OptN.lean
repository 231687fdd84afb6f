import Verif.Fft.PfaTable
import Mathlib.Analysis.SpecialFunctions.Log.Base
import Mathlib.Analysis.Complex.ExponentialBounds

/-!
# C05: the transform length chosen for `n` samples (FFTlib/optnumber.c)
-/

noncomputable section
namespace Verif.Fft

/-- `n2 = pow(2.0, 1.0*(int)(log((float)n)/log(2.0)+0.9999))`, FFTlib/optnumber.c:34, 60.
Simplification: exact real arithmetic (the conversion of `n` to float is exact up to 2^24). `n ≥ 1`, so the
cast truncates a non-negative number. -/
def pow2Len (n : Nat) : Nat := 2 ^ (⌊Real.logb 2 n + 9999/10000⌋).toNat

/-- `optncc`, FFTlib/optnumber.c:27-44 (the branch without SGI). -/
def optncc (n : Nat) : Nat :=
  let n2 := pow2Len n
  if n2 ≠ n then
    let n3 := npfa n
    if (n3 : Int) - n < (n2 : Int) - n then npfa n else n2
  else n

/-- `optncr` (and, with `long`, `loptncr`), FFTlib/optnumber.c:53-70, 94-109. -/
def optncr (n : Nat) : Nat :=
  let n2 := pow2Len n
  if n2 ≠ n then
    let n3 := npfar n
    if (n3 : Int) - n < (n2 : Int) - n then npfar n else n2
  else n

/-! ### The power of two -/

theorem pow2Len_eq (n k : Nat) (h1 : (k:ℝ) ≤ Real.logb 2 n + 9999/10000)
    (h2 : Real.logb 2 n + 9999/10000 < k + 1) : pow2Len n = 2 ^ k := by
  unfold pow2Len
  have : ⌊Real.logb 2 n + 9999/10000⌋ = (k : Int) := by
    rw [Int.floor_eq_iff]; push_cast; exact ⟨h1, h2⟩
  rw [this]; simp

theorem logb_le_of_le {n k : Nat} (hn : 0 < n) (h : n ≤ 2 ^ k) : Real.logb 2 n ≤ k := by
  rw [Real.logb_le_iff_le_rpow (by norm_num) (by exact_mod_cast hn), Real.rpow_natCast]
  exact_mod_cast h

theorem le_logb_of_le {n k : Nat} (hn : 0 < n) (h : 2 ^ k ≤ n) : (k:ℝ) ≤ Real.logb 2 n := by
  rw [Real.le_logb_iff_rpow_le (by norm_num) (by exact_mod_cast hn), Real.rpow_natCast]
  exact_mod_cast h

theorem le_pow2Len {n k : Nat} (h : (k:ℝ) ≤ Real.logb 2 n + 9999/10000) : 2 ^ k ≤ pow2Len n := by
  unfold pow2Len
  apply Nat.pow_le_pow_right (by norm_num)
  have : (k:Int) ≤ ⌊Real.logb 2 n + 9999/10000⌋ := by rw [Int.le_floor]; exact_mod_cast h
  omega

/-- For n strictly between 2^k and 2^(k+1), the next power of two is taken as soon as n exceeds 2^k by
the factor `1+1/8192`. -/
theorem logb_gap {n k : Nat} (h : (2:ℝ) ^ k * (1 + 1/8192) ≤ n) :
    ((k+1:Nat):ℝ) ≤ Real.logb 2 n + 9999/10000 := by
  have hpos : (0:ℝ) < (2:ℝ)^k * (1 + 1/8192) := by positivity
  have h1 : Real.log ((2:ℝ)^k * (1 + 1/8192)) ≤ Real.log n := Real.log_le_log hpos h
  rw [Real.log_mul (by positivity) (by norm_num), Real.log_pow] at h1
  have h2 := Real.one_sub_inv_le_log_of_pos (x := (1 + 1/8192 : ℝ)) (by norm_num)
  have hl := Real.log_two_lt_d9
  have hl0 : 0 < Real.log 2 := Real.log_pos (by norm_num)
  have h3 : (k:ℝ) + 1/10000 ≤ Real.logb 2 n := by
    unfold Real.logb
    rw [le_div_iff₀ hl0]
    have : (1 + 1/8192 : ℝ)⁻¹ = 8192/8193 := by norm_num
    rw [this] at h2
    nlinarith
  push_cast
  linarith

/-- Up to 16384 samples the power of two is large enough. -/
theorem pow2Len_ge {n : Nat} (hn : 0 < n) (h : n ≤ 16384) : n ≤ pow2Len n := by
  obtain ⟨k, hk1, hk2⟩ : ∃ k, 2 ^ k ≤ n ∧ n < 2 ^ (k+1) :=
    ⟨Nat.log 2 n, Nat.pow_log_le_self 2 hn.ne', Nat.lt_pow_succ_log_self (by norm_num) n⟩
  rcases Nat.eq_or_lt_of_le hk1 with he | hlt
  · have := le_pow2Len (n := n) (k := k) (by have := le_logb_of_le hn hk1; linarith)
    omega
  · have hk : k ≤ 13 := by
      by_contra hc
      have : 2 ^ 14 ≤ 2 ^ k := Nat.pow_le_pow_right (by norm_num) (by omega)
      omega
    have hp : (2:Nat) ^ k ≤ 8192 := by
      calc 2 ^ k ≤ 2 ^ 13 := Nat.pow_le_pow_right (by norm_num) hk
        _ = 8192 := by norm_num
    have := le_pow2Len (n := n) (k := k+1) (logb_gap (by
      have h1 : ((2^k:Nat):ℝ) + 1 ≤ n := by exact_mod_cast hlt
      have h2 : ((2^k:Nat):ℝ) ≤ 8192 := by exact_mod_cast hp
      push_cast at h1 h2
      linarith))
    omega

/-! ### C05 -/

/-- **C05 (partial).** The complex transform length holds `n` samples, for every `n` up to 16384.
Missing: larger `n`, where the claim is false (`optncc_too_short`, `optncc_too_short_beyond_table`);
`optncc_ge_partial'` gives the exact condition up to the table limit. -/
theorem optncc_ge_partial (n : Nat) (hn : 0 < n) (h : n ≤ 16384) : n ≤ optncc n := by
  have h1 := pow2Len_ge hn h
  have h2 := npfa_ge n (by omega)
  unfold optncc
  dsimp only
  split
  · split
    · omega
    · exact h1
  · exact le_refl _

/-- **C05 (partial).** The real transform length holds `n` samples, for every `n` up to 16384. -/
theorem optncr_ge_partial (n : Nat) (hn : 0 < n) (h : n ≤ 16384) : n ≤ optncr n := by
  have h1 := pow2Len_ge hn h
  have h2 := (npfar_least n (by omega) (by omega)).1.2
  unfold optncr
  dsimp only
  split
  · split
    · omega
    · exact h1
  · exact le_refl _

/-- **C05 (partial).** Up to the table limit the only lengths at risk are those within the factor
`1+1/8192` above a power of two: for all others `n ≤ optncc n` and `n ≤ optncr n`. -/
theorem optn_ge_partial' (n k : Nat) (hn : n ≤ 720720) (h1 : (2:ℝ) ^ k * (1 + 1/8192) ≤ n)
    (h2 : n ≤ 2 ^ (k+1)) : n ≤ optncc n ∧ n ≤ optncr n := by
  have hp := le_pow2Len (logb_gap h1)
  have h3 := npfa_ge n (by omega)
  have h4 := (npfar_least n (by omega) (by omega)).1.2
  unfold optncc optncr
  dsimp only
  constructor
  · split
    · split <;> omega
    · exact le_refl _
  · split
    · split <;> omega
    · exact le_refl _

example : (2:ℝ) ^ 14 * (1 + 1/8192) ≤ (20000:Nat) ∧ 20000 ≤ 2 ^ 15 := by norm_num

theorem pow2Len_16385 : pow2Len 16385 = 16384 := by
  have h := pow2Len_eq 16385 14 ?_ ?_
  · rw [h]; norm_num
  · have := le_logb_of_le (n := 16385) (k := 14) (by norm_num) (by norm_num)
    push_cast at this ⊢; linarith
  · have e : (16385:ℝ) = 2 ^ 14 * (1 + 1/16384) := by norm_num
    have hlog : Real.log (16385:ℝ) ≤ 14 * Real.log 2 + 1/16384 := by
      rw [e, Real.log_mul (by positivity) (by norm_num), Real.log_pow]
      have := Real.log_le_sub_one_of_pos (x := (1 + 1/16384 : ℝ)) (by norm_num)
      push_cast
      linarith
    have hl := Real.log_two_gt_d9
    have hl0 : 0 < Real.log 2 := Real.log_pos (by norm_num)
    have : Real.logb 2 ((16385:Nat):ℝ) < 14 + 1/10000 := by
      unfold Real.logb
      rw [div_lt_iff₀ hl0]
      push_cast
      nlinarith
    push_cast at this ⊢
    linarith

/-- **C05 is false**: for 16385 samples both functions return 16384, one sample too few. -/
theorem optn_too_short : optncc 16385 = 16384 ∧ optncr 16385 = 16384 := by
  have h1 : (16384:Int) ≤ npfa ((16385:Nat):Int) := by
    have : 16384 ≤ npfa ((16385:Nat):Int) := by decide +kernel
    exact_mod_cast this
  have h2 : (16384:Int) ≤ npfar ((16385:Nat):Int) := by
    have : 16384 ≤ npfar ((16385:Nat):Int) := by decide +kernel
    exact_mod_cast this
  constructor
  · unfold optncc
    rw [pow2Len_16385]
    dsimp only
    rw [if_pos (by decide), if_neg (by omega)]
  · unfold optncr
    rw [pow2Len_16385]
    dsimp only
    rw [if_pos (by decide), if_neg (by omega)]

/-- **C05 is false** for every length beyond the table that is not itself a power of two: `optncc`
returns 720720 whatever the number of samples. -/
theorem optncc_too_short_beyond_table (n : Nat) (h : 720720 < n) (hp : ∀ k, n ≠ 2 ^ k) :
    optncc n = 720720 := by
  have h2 : 720720 < pow2Len n := by
    have : 2 ^ 20 ≤ pow2Len n := by
      apply le_pow2Len
      apply logb_gap (k := 19)
      have : (720720:ℝ) < n := by exact_mod_cast h
      norm_num
      linarith
    norm_num at this
    omega
  have hne : pow2Len n ≠ n := fun e => hp _ (e.symm.trans rfl)
  have h3 := npfa_over n (by omega)
  unfold optncc
  dsimp only
  rw [if_pos hne, h3, if_pos (by omega)]

example : optncc 1000000 = 720720 :=
  optncc_too_short_beyond_table 1000000 (by norm_num) (by
    intro k hk
    have h5 : 5 ∣ 2 ^ k := by rw [← hk]; norm_num
    have := Nat.Prime.dvd_of_dvd_pow Nat.prime_five h5
    omega)

/-- The lengths returned are lengths the transforms handle without falling back to the direct sum:
a power of two or a valid prime-factor length. -/
theorem optncc_efficient (n : Nat) : (∃ k, optncc n = 2 ^ k) ∨ ValidLen (optncc n) := by
  unfold optncc
  dsimp only
  split
  · split
    · right; exact npfa_valid _
    · left; exact ⟨_, rfl⟩
  · next h => left; exact ⟨_, (not_not.mp h).symm.trans rfl⟩

/-- The chosen length is never longer than the next power of two the code computes, nor longer than
the next prime-factor length. -/
theorem optncc_shortest (n : Nat) (hne : pow2Len n ≠ n) :
    optncc n = min (pow2Len n) (npfa n) := by
  unfold optncc
  dsimp only
  rw [if_pos hne]
  split <;> omega

end Verif.Fft

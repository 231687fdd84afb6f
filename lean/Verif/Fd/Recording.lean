import Verif.Base.Loop
import Verif.Base.Num
import Mathlib.Tactic.Ring
import Mathlib.Tactic.FieldSimp
import Mathlib.Tactic.NormNum

/-!
# Model of the receiver recording of `fdelmodc`

`fdelmodc/fdelmodc.c:558-572` (time loop), `:654-685` (recording block),
`fdelmodc/getParameters.c:184-185, 1159-1170` (number of samples),
`fdelmodc/getRecTimes.c:227` (accumulation in the receiver array).
Real arithmetic is exact (ℚ); `int` is unbounded.
-/

namespace Verif.Fd
open Verif

/-- Recording parameters; `t0n = NINT(mod.t0/mod.dt)`. -/
structure RecPar where
  nt : Int       -- rec.nt
  skipdt : Int   -- rec.skipdt
  delay : Int    -- rec.delay
  it1 : Int      -- mod.nt + NINT(-mod.t0/mod.dt)
  t0n : Int

/-- One call of `getRecTimes` at time step `it` with sample index `isam`. -/
structure Store where
  it : Int
  isam : Int
deriving DecidableEq, Repr

/-- Loop-carried variables of the recording block, with the history of stores (newest last) and
of files written inside the time loop (`fileno`, number of samples). -/
structure RecState where
  fileno : Int := 0
  stores : List Store := []
  files : List (Int × Int) := []
deriving DecidableEq, Repr

/-- C `%` and `/` on `int` truncate toward zero: `Int.tmod`, `Int.tdiv`. -/
def writeToFile (r : RecPar) (it : Int) : Bool :=
  -- fdelmodc.c:661-666
  if ((it - r.delay + r.t0n).tdiv r.skipdt) + 1 ≠ 0 then
    decide ((((it - r.delay + r.t0n).tdiv r.skipdt) + 1).tmod r.nt = 0)
  else false

/-- fdelmodc.c:667-671 -/
def sampleIndex (r : RecPar) (fileno it : Int) : Int :=
  let itwritten := fileno * r.nt * r.skipdt
  let isam := (it - r.delay - itwritten + r.t0n).tdiv r.skipdt + 1
  if isam < 0 then r.nt + isam else isam

/-- fdelmodc.c:658-685 -/
def recStep (r : RecPar) (it : Int) (s : RecState) : RecState :=
  if (it - r.delay).tmod r.skipdt = 0 ∧ r.delay ≤ it then
    let isam := sampleIndex r s.fileno it
    let stores := s.stores ++ [⟨it, isam⟩]
    if writeToFile r it ∧ it + r.skipdt ≤ r.it1 - 1 then
      let fileno := (((it - r.delay).tdiv r.skipdt) + 1).tdiv r.nt
      { fileno := fileno, stores := stores, files := s.files ++ [(fileno, isam + 1)] }
    else { s with stores := stores }
  else s

/-- The time loop, fdelmodc.c:572: `for (it=it0; it<it1; it++)` with `it0=0`, `fileno=0`
(fdelmodc.c:526). -/
def recRun (r : RecPar) : RecState := forI 0 r.it1 (recStep r) {}

/-- C `round` for the argument of getParameters.c:1162 (half away from zero). -/
def cround (x : ℚ) : Int := if 0 ≤ x then ⌊x + 1/2⌋ else ⌈x - 1/2⌉

/-- rec.nt, getParameters.c:1162 and 1170.  `ntsam` is the value of the parameter `rec_ntsam`
if it was given. -/
def recNt (tmod rdelay dt : ℚ) (skipdt : Int) (ntsam : Option Int) : Int :=
  let dtrcv := dt * skipdt
  let nt0 := match ntsam with
    | some n => n
    | none => cround ((tmod - rdelay + 1/100 * dt) / dtrcv) + 1
  min nt0 (NINT (⌈(tmod - rdelay + 1/100 * dt) / dtrcv⌉ : ℚ))

/-- The parameter block built from times: getParameters.c:184-186, 1159-1170 with `mod.t0 = 0`. -/
def recPar (tmod rdelay dt : ℚ) (skipdt : Int) (ntsam : Option Int) : RecPar where
  nt := recNt tmod rdelay dt skipdt ntsam
  skipdt := skipdt
  delay := NINT (rdelay / dt)
  it1 := NINT (tmod / dt)
  t0n := 0

/-- Receiver array after a list of stores, `rec_p[irec*rec.nt+isam] += p(irec,it)`
(getRecTimes.c:55, 227) starting from zero; cells are numbered as in the flat C array. -/
def recArray (r : RecPar) (nrec : Nat) (p : Nat → Int → ℚ) (stores : List Store) : Int → ℚ :=
  stores.foldl (fun arr s => forN nrec (fun irec arr =>
    fun c => if c = irec * r.nt + s.isam then arr c + p irec s.it else arr c) arr) (fun _ => 0)

/-! ## Lemmas -/

/-- Number of `k` with `k*S < x`. -/
def nRec (S x : Nat) : Nat := (x + S - 1) / S

theorem lt_nRec {S x k : Nat} (hS : 0 < S) : k < nRec S x ↔ k * S < x := by
  unfold nRec
  rw [← Nat.succ_le_iff, Nat.le_div_iff_mul_le hS, Nat.succ_mul]
  omega

/-- The file counter after `K` stores. -/
def filenoAt (R S D T K : Nat) : Nat := if D + K * S ≤ T - 1 then K / R else (K - 1) / R

/-- The history after `K` stores. -/
def histAt (R S D T K : Nat) : RecState where
  fileno := filenoAt R S D T K
  stores := (List.range K).map fun k => ⟨(D + k * S : Nat), (k % R + 1 : Nat)⟩
  files := (List.range (filenoAt R S D T K)).map fun (f : Nat) => ((f:Int) + 1, (R:Int) + 1)

theorem recStep_hist (R S D T it : Nat) (hR : 0 < R) (hS : 0 < S) (hit : it < T) :
    recStep ⟨R, S, D, T, 0⟩ it (histAt R S D T (nRec S (it - D))) =
      histAt R S D T (nRec S (it + 1 - D)) := by
  have hlt : ∀ k x, k < nRec S x ↔ k * S < x := fun k x => lt_nRec hS
  generalize hK : nRec S (it - D) = K at *
  have hKc : ∀ k, k < K ↔ k * S < it - D := fun k => by rw [← hK]; exact hlt k _
  by_cases hc : it = D + K * S
  · -- a store happens
    have hK1 : nRec S (it + 1 - D) = K + 1 := by
      apply Nat.le_antisymm
      · by_contra h
        have := (hlt (K+1) (it+1-D)).mp (by omega)
        rw [Nat.succ_mul] at this; omega
      · exact (hlt K (it+1-D)).mpr (by omega)
    rw [hK1]
    have e0 : ((it:Int) - D) = ((K * S : Nat) : Int) := by omega
    have hS0 : (S:Int) ≠ 0 := by omega
    have hdiv : ((K * S : Nat) : Int).tdiv S = K := by
      push_cast; exact Int.mul_tdiv_cancel _ hS0
    have hfn : filenoAt R S D T K = K / R := by unfold filenoAt; rw [if_pos (by omega)]
    have hmod : K % R + R * (K / R) = K := Nat.mod_add_div K R
    have hsi : sampleIndex ⟨R, S, D, T, 0⟩ ((K / R : Nat) : Int) it = ((K % R + 1 : Nat) : Int) := by
      unfold sampleIndex
      simp only []
      have : ((it:Int) - D - ((K/R : Nat):Int) * R * S + 0) = ((K % R : Nat) : Int) * S := by
        rw [e0]
        have h2 : (K:Int) = ((K % R : Nat):Int) + R * ((K / R : Nat):Int) := by exact_mod_cast hmod.symm
        push_cast at h2 ⊢
        rw [add_zero]
        have h3 : (K:Int) * S = ((K:Int) % R + R * ((K:Int) / R)) * S := by rw [← h2]
        rw [h3]; ring
      rw [this, Int.mul_tdiv_cancel _ hS0, if_neg (by omega)]
      push_cast; rfl
    have hw : writeToFile ⟨R, S, D, T, 0⟩ it = decide ((K+1) % R = 0) := by
      unfold writeToFile
      simp only []
      rw [add_zero, e0, hdiv, if_pos (by omega)]
      rw [decide_eq_decide]
      have : ((K:Int)+1).tmod R = (((K+1) % R : Nat) : Int) := by
        rw [show ((K:Int)+1) = ((K+1 : Nat) : Int) by push_cast; rfl]
        exact (Int.ofNat_tmod (K+1) R).symm
      rw [this]; omega
    unfold recStep
    rw [if_pos ⟨by rw [show (⟨R, S, D, T, 0⟩ : RecPar).delay = (D:Int) from rfl, e0]; push_cast; exact Int.mul_tmod_left _ _, by
      show (D:Int) ≤ it; omega⟩]
    simp only [hw, histAt, hfn, hsi, decide_eq_true_eq]
    have hst : ((List.range K).map (fun k => (⟨((D + k * S : Nat):Int), ((k % R + 1 : Nat) : Int)⟩ : Store)))
        ++ [⟨it, ((K % R + 1 : Nat) : Int)⟩] =
        (List.range (K+1)).map (fun k => (⟨((D + k * S : Nat):Int), ((k % R + 1 : Nat) : Int)⟩ : Store)) := by
      rw [List.range_succ, List.map_append, hc]; rfl
    rw [hst]
    have hle : ((it:Int) + S ≤ (T:Int) - 1) ↔ D + (K+1) * S ≤ T - 1 := by
      rw [Nat.succ_mul]; omega
    by_cases hm : (K+1) % R = 0
    · by_cases hn : D + (K+1) * S ≤ T - 1
      · rw [if_pos ⟨hm, hle.mpr hn⟩]
        have hq : (K+1) / R = K / R + 1 := by
          rw [Nat.succ_div, if_pos (Nat.dvd_of_mod_eq_zero hm)]
        have hfn1 : filenoAt R S D T (K+1) = K / R + 1 := by
          unfold filenoAt; rw [if_pos hn, hq]
        have hKR : K % R + 1 = R := by
          have h1 := Nat.mod_add_div (K+1) R
          rw [hm, hq] at h1
          have : R * (K/R+1) = R * (K/R) + R := by ring
          omega
        have hfnI : ((((it:Int) - D).tdiv S) + 1).tdiv R = ((K / R + 1 : Nat) : Int) := by
          rw [e0, hdiv, show ((K:Int)+1) = ((K+1 : Nat) : Int) by push_cast; rfl, ← Int.ofNat_tdiv, hq]
        simp only [hfn1]
        rw [hfnI]
        congr 1
        rw [List.range_succ, List.map_append, hKR]; rfl
      · rw [if_neg (fun h => hn (hle.mp h.2))]
        have hfn1 : filenoAt R S D T (K+1) = K / R := by
          unfold filenoAt; rw [if_neg hn]; rfl
        simp only [hfn1]
    · rw [if_neg (fun h => hm h.1)]
      have hq : (K+1) / R = K / R := by
        rw [Nat.succ_div, if_neg (fun h => hm (Nat.mod_eq_zero_of_dvd h))]; rfl
      have hfn1 : filenoAt R S D T (K+1) = K / R := by
        unfold filenoAt; split
        · exact hq
        · rfl
      simp only [hfn1]
  · -- no store
    have hK1 : nRec S (it + 1 - D) = K := by
      apply Nat.le_antisymm
      · by_contra h
        have h1 := (hlt K (it+1-D)).mp (by omega)
        have h2 := (hKc K).mpr
        omega
      · by_contra h
        have h1 : ¬ (K - 1 < nRec S (it + 1 - D)) := by omega
        rw [hlt] at h1
        have h2 := (hKc (K-1)).mp (by omega)
        omega
    rw [hK1]
    unfold recStep
    rw [if_neg]
    rintro ⟨h1, h2⟩
    replace h2 : (D:Int) ≤ it := h2
    have h3 : (S:Int) ∣ (it:Int) - D := Int.dvd_of_tmod_eq_zero h1
    have h4 : S ∣ it - D := by
      have : ((it - D : Nat):Int) = it - D := by omega
      rw [← this] at h3; exact_mod_cast h3
    obtain ⟨j, hj⟩ := h4
    have hj1 : ¬ j < K := by rw [hKc, hj, Nat.mul_comm]; omega
    have hj2 : ¬ K < j := by
      intro hlt'
      have : K * S < it - D := by rw [hj, Nat.mul_comm S j]; exact Nat.mul_lt_mul_of_pos_right hlt' hS
      have := (hKc K).mpr this
      omega
    have : j = K := by omega
    subst this
    apply hc; rw [Nat.mul_comm]; omega

theorem recRun_hist (R S D T : Nat) (hR : 0 < R) (hS : 0 < S) :
    recRun ⟨R, S, D, T, 0⟩ = histAt R S D T (nRec S (T - D)) := by
  unfold recRun forI
  have : ((T:Int) - 0).toNat = T := by omega
  simp only [this]
  have key : ∀ n, n ≤ T → forN n (fun k => recStep ⟨R, S, D, T, 0⟩ (0 + (k:Int))) {} =
      histAt R S D T (nRec S (n - D)) := by
    intro n
    induction n with
    | zero =>
      intro _
      have h0 : nRec S (0 - D) = 0 := by
        have := (lt_nRec (k := 0) (x := 0 - D) hS).not.mpr (by omega)
        omega
      rw [h0]
      simp [histAt, filenoAt]
    | succ n ih =>
      intro hn
      rw [forN_succ, ih (by omega)]
      simp only [Int.zero_add]
      exact recStep_hist R S D T n hR hS (by omega)
  exact key T (Nat.le_refl T)

/-- The default trace length for a modelling time that is a whole number of steps. -/
theorem recNt_default (T D S : Nat) (dt : ℚ) (hdt : 0 < dt) (hS : 0 < S) (hD : D ≤ T) :
    recNt (T * dt) (D * dt) dt S none = ((T - D) / S + 1 : Nat) := by
  obtain ⟨n, hn⟩ : ∃ n, T = D + n := ⟨T - D, by omega⟩
  subst hn
  have hx : (((D + n : Nat) : ℚ) * dt - D * dt + 1/100 * dt) / (dt * (S:Int)) = ((n:ℚ) + 1/100) / S := by
    push_cast; field_simp; ring
  unfold recNt
  simp only [hx]
  have hSq : (0:ℚ) < S := by exact_mod_cast hS
  obtain ⟨q, m, hm, hnq⟩ : ∃ q m : Nat, m < S ∧ n = q * S + m :=
    ⟨n / S, n % S, Nat.mod_lt _ hS, by rw [Nat.mul_comm]; exact (Nat.div_add_mod n S).symm⟩
  have hmq : (m:ℚ) + 1 ≤ S := by exact_mod_cast hm
  have hm0 : (0:ℚ) ≤ m := by exact_mod_cast Nat.zero_le m
  have hnQ : (n:ℚ) = q * S + m := by rw [hnq]; push_cast; ring
  have hlow : (q:ℚ) < ((n:ℚ) + 1/100) / S := by
    rw [lt_div_iff₀ hSq, hnQ]; linarith
  have hhigh : ((n:ℚ) + 1/100) / S ≤ q + 1 := by
    rw [div_le_iff₀ hSq, hnQ]; nlinarith
  have hceil : ⌈((n:ℚ) + 1/100) / S⌉ = (q:Int) + 1 := by
    rw [Int.ceil_eq_iff]; constructor
    · push_cast; linarith
    · push_cast; linarith
  have hq : (D + n - D) / S = q := by
    rw [Nat.add_sub_cancel_left, hnq, Nat.mul_comm, Nat.mul_add_div hS, Nat.div_eq_of_lt hm]; rfl
  rw [hceil, hq, NINT_int]
  have hround : (q:Int) ≤ cround (((n:ℚ) + 1/100) / S) := by
    unfold cround
    rw [if_pos (by positivity)]
    rw [Int.le_floor]; push_cast; linarith
  push_cast
  omega

end Verif.Fd

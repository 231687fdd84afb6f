import Verif.Fft.PfaPass
import Verif.Fft.KissProps

/-!
# The prime-factor transform is the discrete Fourier transform (FFTlib/pfafft.c)
-/

namespace Verif.Fft.Pfa

open Complex Finset

/-- Every factor the loop takes is prime to the rest of the length, and nothing is left at the end. -/
def goodB (n : Nat) : Nat → List Nat → Bool
  | left, [] => left == 1
  | left, p :: ps => if left / p * p = left then Nat.gcd p (n / p) == 1 && goodB n (left / p) ps else goodB n left ps

theorem table_good : ∀ e ∈ nctab, goodB e.1 e.1 kfax = true := by decide +kernel

theorem valid_good {n : Nat} (h : ValidLen n) : goodB n n kfax = true := by
  obtain ⟨i, hi, rfl⟩ := valid_in_table h
  obtain ⟨e, he, h2⟩ := tabN_mem hi
  rw [← h2]; exact table_good e he

theorem valid_pos {n : Nat} (h : ValidLen n) : 0 < n := by
  obtain ⟨l, h1, _, rfl⟩ := h
  apply List.prod_pos
  intro f hf
  have := h1 f hf
  simp only [pfaFactors, List.mem_cons, List.not_mem_nil, or_false] at this
  omega

theorem rotFactor_spec {m p : Nat} (hp : 2 ≤ p) (hc : Nat.Coprime p m) :
    rotFactor m p < p ∧ (rotFactor m p * m) % p = 1 := by
  obtain ⟨j, hj1, hj2⟩ : ∃ j, j < p ∧ (j * m) % p = 1 := by
    obtain ⟨j, hj⟩ := Nat.exists_mul_mod_eq_one_of_coprime hc.symm (by omega)
    exact ⟨j % p, Nat.mod_lt _ (by omega), by rw [Nat.mod_mul_mod, Nat.mul_comm]; exact hj.2⟩
  have hj0 : 0 < j := by
    rcases Nat.eq_zero_or_pos j with h | h
    · subst h; simp at hj2
    · exact h
  cases hf : ((List.range p).map (· + 1)).find? fun j => (j * m) % p == 1 with
  | none =>
    have := List.find?_eq_none.mp hf j (List.mem_map.mpr ⟨j - 1, List.mem_range.mpr (by omega), by omega⟩)
    simp [hj2] at this
  | some r =>
    have h1 := List.find?_some hf
    have h2 := List.mem_of_find?_eq_some hf
    simp only [rotFactor, hf, Option.getD_some]
    obtain ⟨a, ha, e⟩ := List.mem_map.mp h2
    have ha := List.mem_range.mp ha
    have h3 : (r * m) % p = 1 := by simpa using h1
    refine ⟨?_, h3⟩
    rcases Nat.lt_or_ge r p with h | h
    · exact h
    · have : r = p := by omega
      rw [this, Nat.mul_mod_right] at h3
      omega

theorem signedMu_spec {isign : Int} {m p mu n : Nat} (hp : 2 ≤ p) (h1 : mu < p) (h2 : (mu * m) % p = 1) (hn : p ∣ n)
    (hn0 : 0 < n) :
    signedMu isign p mu < p ∧ Nat.Coprime (signedMu isign p mu) p ∧ signedMu isign p mu * m ≡ sres isign n [MOD p] := by
  have hmu0 : 0 < mu := by
    rcases Nat.eq_zero_or_pos mu with h | h
    · subst h; simp at h2
    · exact h
  have hcop : Nat.Coprime mu p := Nat.coprime_of_mul_modEq_one m (by rw [Nat.ModEq, h2, Nat.mod_eq_of_lt (by omega)])
  simp only [signedMu, sres]
  split
  · refine ⟨by omega, ?_, ?_⟩
    · rw [Nat.coprime_comm]; exact (Nat.coprime_self_sub_right (by omega)).mpr hcop.symm
    · have e1 : (p - mu) * m + mu * m = p * m := by rw [← Nat.add_mul, Nat.sub_add_cancel (by omega)]
      have e2 : (p - mu) * m + mu * m ≡ (n - 1) + mu * m [MOD p] := by
        rw [e1]
        have a1 : mu * m ≡ 1 [MOD p] := by rw [Nat.ModEq, h2, Nat.mod_eq_of_lt (by omega)]
        have a2 : n - 1 + mu * m ≡ n - 1 + 1 [MOD p] := a1.add_left _
        rw [Nat.sub_add_cancel (by omega)] at a2
        have a3 : n ≡ 0 [MOD p] := (Nat.modEq_zero_iff_dvd).mpr hn
        have a4 : p * m ≡ 0 [MOD p] := (Nat.modEq_zero_iff_dvd).mpr (Nat.dvd_mul_right p m)
        exact a4.trans (a2.trans a3).symm
      exact Nat.ModEq.add_right_cancel' _ e2
  · exact ⟨h1, hcop, by rw [Nat.ModEq, h2, Nat.mod_eq_of_lt (by omega)]⟩

theorem kfax_ge {p : Nat} (h : p ∈ kfax) : 2 ≤ p := by
  simp only [kfax, List.mem_cons, List.not_mem_nil, or_false] at h
  omega

theorem factors_spec (isign : Int) (n nt k kt len : Nat) (hn : 0 < n) (hL : Lay n nt k kt len) (z0 : Nat → ℂ)
    (ps : List Nat) (hps : ∀ p ∈ ps, p ∈ kfax) (left Q c : Nat) (z : Nat → ℂ) (hQ : left * Q = n) (hc : left ∣ c)
    (hs : c ≡ sres isign n [MOD Q]) (hg : goodB n left ps = true)
    (hz : ∀ t, t < nt → ∀ x, x < n → z (x * k + t * kt) = part n left c (fun y => z0 (y * k + t * kt)) x)
    (hfr : ∀ i, (∀ x t, x < n → t < nt → i ≠ x * k + t * kt) → z i = z0 i) :
    ∃ z' c', factors isign n nt k kt len ps (left, z) = some (1, z') ∧ c' ≡ sres isign n [MOD n] ∧
      (∀ t, t < nt → ∀ x, x < n → z' (x * k + t * kt) = part n 1 c' (fun y => z0 (y * k + t * kt)) x) ∧
      ∀ i, (∀ x t, x < n → t < nt → i ≠ x * k + t * kt) → z' i = z0 i := by
  induction ps generalizing left Q c z with
  | nil =>
    have h1 : left = 1 := by simpa [goodB] using hg
    subst h1
    rw [Nat.one_mul] at hQ
    subst hQ
    exact ⟨z, c, rfl, hs, hz, hfr⟩
  | cons p ps ih =>
    have hpk := hps p List.mem_cons_self
    have hp2 := kfax_ge hpk
    have hps' : ∀ q ∈ ps, q ∈ kfax := fun q hq => hps q (List.mem_cons_of_mem _ hq)
    rw [goodB] at hg
    by_cases hd : left / p * p = left
    · rw [if_pos hd, Bool.and_eq_true] at hg
      obtain ⟨hg1, hg2⟩ := hg
      obtain ⟨R, hR⟩ : ∃ R, left / p = R := ⟨_, rfl⟩
      have hleft : left = p * R := by rw [← hd, hR, Nat.mul_comm]
      have hnn : n = p * (Q * R) := by rw [← hQ, hleft]; ring
      have hm : n / p = Q * R := by rw [hnn, Nat.mul_div_cancel_left _ (by omega)]
      have hQR : 0 < Q * R := by
        rcases Nat.eq_zero_or_pos (Q * R) with h | h
        · rw [h, Nat.mul_zero] at hnn; omega
        · exact h
      have hQ0 : 0 < Q := Nat.pos_of_mul_pos_right hQR
      have hR0 : 0 < R := Nat.pos_of_mul_pos_left hQR
      have hcop : Nat.Coprime p (Q * R) := by rw [← hm]; simpa using hg1
      have hpQ : Nat.Coprime p Q := hcop.coprime_mul_right_right
      obtain ⟨r1, r2⟩ := rotFactor_spec hp2 hcop
      obtain ⟨s1, s2, s3⟩ := signedMu_spec (isign := isign) (n := n) hp2 r1 r2 ⟨_, hnn⟩ hn
      have hL' : Lay (p * (Q * R)) nt k kt len := hnn ▸ hL
      obtain ⟨js', z', e1, _, a1, f1⟩ := pass_spec hpk s1 s2 hcop hL' (fun _ => starts_res hp2 hQR r1 r2) z (Q * R) le_rfl
      have hstep : factorStep isign n nt k kt len (left, z) p = some (R, z') := by
        simp only [factorStep]
        rw [if_neg (by simpa using hd), hm, hR]
        rw [hnn, e1]; rfl
      rw [factors, hstep, Option.bind_some]
      have hc' : p * R ∣ c := hleft ▸ hc
      apply ih hps' R (p * Q) (c + signedMu isign p (rotFactor (Q * R) p) * (Q * R)) z'
      · rw [hnn]; ring
      · exact Nat.dvd_add ((Nat.dvd_mul_left R p).trans hc') ((Nat.dvd_mul_left R Q).mul_left _)
      · apply (Nat.modEq_and_modEq_iff_modEq_mul hpQ).mp
        constructor
        · have : c ≡ 0 [MOD p] := (Nat.modEq_zero_iff_dvd).mpr ((Nat.dvd_mul_right p R).trans hc')
          simpa using this.add s3
        · have : signedMu isign p (rotFactor (Q * R) p) * (Q * R) ≡ 0 [MOD Q] :=
            (Nat.modEq_zero_iff_dvd).mpr ((Nat.dvd_mul_right Q R).mul_left _)
          simpa using hs.add this
      · rw [← hR]; exact hg2
      · intro t ht x hx
        rw [hnn] at hx
        rw [a1 t ht x hx, if_pos (Nat.mod_lt _ hQR)]
        have e : passSpec p (Q * R) (signedMu isign p (rotFactor (Q * R) p)) (fun y => z (y * k + t * kt)) x =
            passSpec p (Q * R) (signedMu isign p (rotFactor (Q * R) p))
              (part (p * (Q * R)) (p * R) c (fun y => z0 (y * k + t * kt))) x := by
          rw [passSpec, passSpec]
          refine sum_congr rfl fun y hy => ?_
          rw [hz t ht y (by rw [hnn]; exact mem_range.mp (mem_filter.mp hy).1)]
          rw [← hleft, ← hnn]
        rw [e, part_step p Q R _ c (by omega) hQ0 hR0 hpQ hc', ← hnn]
      · intro i hi
        rw [f1 i (fun x t hx ht => hi x t (hnn ▸ hx) ht), hfr i hi]
    · rw [if_neg hd] at hg
      have hstep : factorStep isign n nt k kt len (left, z) p = some (left, z) := by
        simp only [factorStep]
        rw [if_pos (by simpa using hd)]
      rw [factors, hstep, Option.bind_some]
      exact ih hps' left Q c z hQ hc hs hg hz hfr

/-- The sign the code takes from its argument: every negative number means `-1`. -/
def sgn (isign : Int) : Int := if isign < 0 then -1 else 1

theorem sres_sgn (isign : Int) (n : Nat) : sres isign n = sres (sgn isign) n := by
  simp only [sres, sgn]; split <;> simp

theorem sgn_cases (isign : Int) : sgn isign = 1 ∨ sgn isign = -1 := by
  simp only [sgn]; split <;> simp

/-- **C77.** `pfamcc` replaces each of its `nt` transforms by its discrete Fourier transform, for every length that is a
product of mutually prime factors 2,3,4,5,7,8,9,11,13,16, any number of transforms and all strides that keep the transforms
apart; it stays within the array and leaves all other elements alone. -/
theorem pfamcc_dft (isign : Int) (n nt k kt len : Nat) (hv : ValidLen n) (hL : Lay n nt k kt len) (z : Nat → ℂ) :
    ∃ z', pfamcc isign n nt k kt len z = some z' ∧
      (∀ t, t < nt → ∀ x, x < n → z' (x * k + t * kt) = dft (sgn isign) n (fun y => z (y * k + t * kt)) x) ∧
      ∀ i, (∀ x t, x < n → t < nt → i ≠ x * k + t * kt) → z' i = z i := by
  have hn := valid_pos hv
  obtain ⟨z', c', e, hc, a, f⟩ := factors_spec isign n nt k kt len hn hL z kfax (fun _ h => h) n 1 0 z (Nat.mul_one n)
    (dvd_zero n) (by simp [Nat.modEq_one]) (valid_good hv)
    (fun t _ x hx => (part_start n (fun y => z (y * k + t * kt)) x hx).symm) (fun _ _ => rfl)
  refine ⟨z', by rw [pfamcc, e]; rfl, fun t ht x hx => ?_, f⟩
  rw [a t ht x hx, part_end n c' _ hn hc, sres_sgn, sum_dft hn _ (sgn_cases isign)]

/-- Three transforms of length 60, the traces 64 elements apart, in an array of 188 elements. -/
example : ValidLen 60 ∧ Lay 60 3 1 64 188 :=
  ⟨⟨[5, 4, 3], by decide, by decide, by norm_num⟩, ⟨fun x t hx ht => by omega, fun x t x' t' hx ht hx' ht' e => by omega⟩⟩

/-- Seven transforms of length 9 along the second dimension of a 7 by 9 array. -/
example : ValidLen 9 ∧ Lay 9 7 7 1 63 :=
  ⟨⟨[9], by decide, by decide, by norm_num⟩, ⟨fun x t hx ht => by omega, fun x t x' t' hx ht hx' ht' e => by omega⟩⟩

/-- The sign argument 0 selects the positive exponent. -/
example : sgn 0 = 1 ∧ sgn (-1) = -1 ∧ sgn 7 = 1 := by decide

end Verif.Fft.Pfa

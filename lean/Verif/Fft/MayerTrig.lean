import Verif.Fft.Mayer

/-! # The generator of sines and cosines of the Hartley transform -/

noncomputable section
namespace Verif.Fft.Mayer
open Verif Verif.Fft

theorem upd_same (a : Mem) (i : Nat) (v : ℝ) : upd a i v i = v := if_pos rfl
theorem upd_ne (a : Mem) {i c : Nat} (v : ℝ) (h : c ≠ i) : upd a i v c = a c := if_neg h

/-- The number that entry `i` of the working tables stands for after `t` calls: the next odd multiple of `2^(k-i)`. -/
def nxt (k i t : Nat) : Nat := 2 ^ (k - i) * (2 * ((t + 2 ^ (k - i)) / (2 * 2 ^ (k - i))) + 1)

theorem scanSet_spec : ∀ (f lam i q : Nat), lam = 2 ^ i * q → 0 < q → q < 2 ^ f →
    ∃ e u, scanSet lam i f = some e ∧ lam = 2 ^ e * (2 * u + 1)
  | 0, _, _, q, _, h0, h1 => by simp at h1; omega
  | f + 1, lam, i, q, hl, h0, h1 => by
    have hd : lam / 2 ^ i = q := by rw [hl, Nat.mul_div_cancel_left _ (by positivity)]
    rw [scanSet, Nat.testBit_eq_decide_div_mod_eq, hd]
    by_cases hq : q % 2 = 1
    · refine ⟨i, q / 2, by simp [hq], ?_⟩
      rw [hl]; congr 1; omega
    · rw [if_neg (by simpa using hq)]
      refine scanSet_spec f lam (i + 1) (q / 2) ?_ (by omega) ?_
      · rw [hl, pow_succ, Nat.mul_assoc]; congr 1; omega
      · rw [pow_succ] at h1; omega

theorem scanClear_spec : ∀ (f lam j : Nat), lam / 2 ^ j < 2 ^ f →
    ∃ e w, scanClear lam j (f + 1) = some (j + e) ∧ lam / 2 ^ j + 1 = 2 ^ e * (2 * w + 1)
  | f, lam, j, h => by
    rw [scanClear, Nat.testBit_eq_decide_div_mod_eq]
    by_cases hq : lam / 2 ^ j % 2 = 1
    · rw [if_pos (by simpa using hq)]
      have hd : lam / 2 ^ (j + 1) = lam / 2 ^ j / 2 := by rw [pow_succ, Nat.div_div_eq_div_mul]
      match f, h with
      | 0, h => exfalso; clear hd; simp only [pow_zero] at h; generalize lam / 2 ^ j = x at *; omega
      | f + 1, h =>
        obtain ⟨e, w, h1, h2⟩ := scanClear_spec f lam (j + 1) (by rw [hd]; exact Nat.div_lt_of_lt_mul (by rw [pow_succ] at h; linarith))
        refine ⟨e + 1, w, by rw [h1]; congr 1; omega, ?_⟩
        rw [hd] at h2
        have : 2 ^ (e + 1) * (2 * w + 1) = 2 * (2 ^ e * (2 * w + 1)) := by ring
        rw [this, ← h2]
        clear this h1 h2 hd h
        generalize lam / 2 ^ j = x at *
        omega
    · rw [if_neg (by simpa using hq)]
      exact ⟨0, lam / 2 ^ j / 2, rfl, by simp only [pow_zero]; omega⟩

/-- Right after the call whose number is an odd multiple of `2^e`. -/
theorem nxt_now (k i t u : Nat) (h : t + 1 = 2 ^ (k - i) * (2 * u + 1)) :
    nxt k i t = t + 1 ∧ nxt k i (t + 1) = t + 1 + 2 * 2 ^ (k - i) := by
  unfold nxt
  generalize hs : 2 ^ (k - i) = s at *
  have h0 : 0 < s := by rw [← hs]; positivity
  have e1 : t + s = 2 * s * u + (2 * s - 1) := by
    have : s * (2 * u + 1) = 2 * s * u + s := by ring
    omega
  have e2 : t + 1 + s = 2 * s * (u + 1) := by
    have : s * (2 * u + 1) = 2 * s * u + s := by ring
    have : 2 * s * (u + 1) = 2 * s * u + 2 * s := by ring
    omega
  rw [e1, e2, Nat.mul_add_div (by omega), Nat.div_eq_of_lt (by omega : 2 * s - 1 < 2 * s), Nat.mul_div_cancel_left _ (by omega)]
  constructor
  · rw [h]; ring
  · rw [h]; ring

/-- The other entries stay. -/
theorem nxt_keep (k l e t u : Nat) (h : t + 1 = 2 ^ e * (2 * u + 1)) (hl : k - l ≠ e) : nxt k l (t + 1) = nxt k l t := by
  unfold nxt
  generalize hd : k - l = d at *
  have h0 : 0 < 2 ^ d := by positivity
  have key : ¬ (2 * 2 ^ d ∣ t + 1 + 2 ^ d) := by
    intro hdv
    rcases Nat.lt_or_gt_of_ne hl with hlt | hgt
    · obtain ⟨w, rfl⟩ : ∃ w, e = d + 1 + w := ⟨e - d - 1, by omega⟩
      have h1 : 2 * 2 ^ d ∣ t + 1 := by
        rw [h]; refine Dvd.dvd.mul_right ⟨2 ^ w, ?_⟩ _
        rw [pow_add, pow_succ]; ring
      have h2 := (Nat.dvd_add_right h1).1 hdv
      exact absurd (Nat.le_of_dvd h0 h2) (by omega)
    · obtain ⟨w, rfl⟩ : ∃ w, d = e + 1 + w := ⟨d - e - 1, by omega⟩
      have h1 : 2 ^ (e + 1) ∣ 2 ^ (e + 1 + w) := ⟨2 ^ w, by rw [pow_add]⟩
      have h2 : 2 ^ (e + 1) ∣ t + 1 + 2 ^ (e + 1 + w) := (Dvd.dvd.mul_left h1 2).trans hdv
      have h3 := (Nat.dvd_add_left h1).1 h2
      rw [h, pow_succ] at h3
      have h4 := Nat.dvd_of_mul_dvd_mul_left (by positivity) h3
      omega
  have : (t + 1 + 2 ^ d) / (2 * 2 ^ d) = (t + 2 ^ d) / (2 * 2 ^ d) := by
    have e1 : t + 1 + 2 ^ d = (t + 2 ^ d) + 1 := by omega
    rw [e1] at key ⊢
    rw [Nat.succ_div, if_neg key, Nat.add_zero]
  rw [this]

/-- The two numbers whose mean is the next one. -/
theorem nxt_mean (k t e v d f w : Nat) (hd : d < 2) (h : t + 1 = 2 ^ e * (2 * (2 * v + d) + 1)) (hv : v + 1 = 2 ^ f * (2 * w + 1))
    (hk : t + 1 < 2 ^ (k - 1)) (hk2 : 2 ≤ k) :
    e + 2 ≤ k ∧ e + 2 + f ≤ k ∧
    (nxt k (k - e - 1) t = t + 1 + (1 + 2 * d) * 2 ^ e) ∧ (nxt k (k - (e + 2 + f)) t = t + 1 + (3 - 2 * d) * 2 ^ e) := by
  have he0 : 0 < 2 ^ e := by positivity
  have hle : 2 ^ e ≤ t + 1 := by rw [h]; exact Nat.le_mul_of_pos_right _ (by omega)
  have hek : e < k - 1 := (Nat.pow_lt_pow_iff_right (by omega : 1 < 2)).1 (lt_of_le_of_lt hle hk)
  obtain ⟨m, rfl⟩ : ∃ m, k = e + 2 + m := ⟨k - e - 2, by omega⟩
  have hm : 2 ^ (e + 2 + m - 1) = 2 * (2 ^ e * 2 ^ m) := by
    rw [show e + 2 + m - 1 = e + m + 1 by omega, pow_succ, pow_add]; ring
  rw [hm] at hk
  generalize hE : 2 ^ e = E at *
  have hm0 : 0 < 2 ^ m := by positivity
  have hF : 0 < 2 ^ f := by positivity
  -- the other multiple
  have oth : t + 1 + (3 - 2 * d) * E = 2 ^ (e + 2 + f) * (2 * w + 1) := by
    have a1 : 2 ^ (e + 2 + f) * (2 * w + 1) = 4 * E * (v + 1) := by
      rw [hv, pow_add, pow_add, hE]; ring
    rw [a1, h]
    rcases (by omega : d = 0 ∨ d = 1) with rfl | rfl
    · ring
    · simp only [Nat.mul_one]; ring
  have hb : 2 * (2 * v + d) + 1 + 1 ≤ 2 * 2 ^ m := by
    have : E * (2 * (2 * v + d) + 1) < E * (2 * 2 ^ m) := by
      rw [← h]; linarith [hk, (by ring : 2 * (E * 2 ^ m) = E * (2 * 2 ^ m))]
    have := Nat.lt_of_mul_lt_mul_left this
    omega
  have hfm : f ≤ m := by
    by_contra hc
    have h1 : 2 ^ (m + 1) ≤ 2 ^ f := Nat.pow_le_pow_right (by omega) (by omega)
    have h2 : 2 ^ f ≤ v + 1 := by rw [hv]; exact Nat.le_mul_of_pos_right _ (by omega)
    rw [pow_succ] at h1
    omega
  refine ⟨by omega, by omega, ?_, ?_⟩
  · have hx : e + 2 + m - (e + 2 + m - e - 1) = e + 1 := by omega
    unfold nxt
    rw [hx, pow_succ, hE]
    have q : (t + E * 2) / (2 * (E * 2)) = v + d := by
      rcases (by omega : d = 0 ∨ d = 1) with rfl | rfl
      · have : t + E * 2 = 2 * (E * 2) * v + (3 * E - 1) := by
          have : E * (2 * (2 * v + 0) + 1) = 2 * (E * 2) * v + E := by ring
          omega
        rw [this, Nat.mul_add_div (by omega), Nat.div_eq_of_lt (by omega)]
      · have : t + E * 2 = 2 * (E * 2) * (v + 1) + (E - 1) := by
          have : E * (2 * (2 * v + 1) + 1) = 2 * (E * 2) * v + 3 * E := by ring
          have : 2 * (E * 2) * (v + 1) = 2 * (E * 2) * v + 4 * E := by ring
          omega
        rw [this, Nat.mul_add_div (by omega), Nat.div_eq_of_lt (by omega)]
    rw [q, h]; ring
  · have hx : e + 2 + m - (e + 2 + m - (e + 2 + f)) = e + 2 + f := by omega
    unfold nxt
    rw [hx, oth]
    have hS : 4 * E ≤ 2 ^ (e + 2 + f) := by
      rw [pow_add, pow_add, hE]
      have : E * 2 ^ 2 * 1 ≤ E * 2 ^ 2 * 2 ^ f := Nat.mul_le_mul_left _ hF
      linarith
    generalize 2 ^ (e + 2 + f) = S at *
    have : (t + S) / (2 * S) = w := by
      have hdE : E ≤ (3 - 2 * d) * E ∧ (3 - 2 * d) * E ≤ 3 * E := by
        rcases (by omega : d = 0 ∨ d = 1) with rfl | rfl <;> constructor <;> simp <;> omega
      have : t + S = 2 * S * w + (2 * S - 1 - (3 - 2 * d) * E) := by
        have : S * (2 * w + 1) = 2 * S * w + S := by ring
        omega
      rw [this, Nat.mul_add_div (by omega), Nat.div_eq_of_lt (by omega)]; omega
    rw [this]

/-- Angle number `a` of stage `k`. -/
def ang (k : Nat) (a : ℝ) : ℝ := a * (Real.pi / 2 ^ (k + 1))

/-- The working tables after `t` calls. -/
def TrigAt (k t : Nat) (T : Trig) : Prop :=
  T.lam = t ∧ ∀ i ≤ k, T.cw i = Real.cos (ang k (nxt k i t)) ∧ T.sw i = Real.sin (ang k (nxt k i t))

/-- Entries 0 and 1 of the statics never change. -/
def TrigOk (T : Trig) : Prop := T.cw 0 = 0 ∧ T.sw 0 = 1 ∧ T.cw 1 = Real.cos (Real.pi / 4) ∧ T.sw 1 = Real.sin (Real.pi / 4)

theorem trigOk_start : TrigOk Trig.start := by
  refine ⟨?_, ?_, ?_, ?_⟩ <;> simp only [Trig.start, costab, sintab] <;> norm_num

theorem ang_level (k i : Nat) (h : i ≤ k) : ang k ((2 ^ (k - i) : Nat) : ℝ) = Real.pi / 2 ^ (i + 1) := by
  unfold ang
  obtain ⟨d, rfl⟩ : ∃ d, k = i + d := ⟨k - i, by omega⟩
  rw [Nat.add_sub_cancel_left, show i + d + 1 = d + (i + 1) by omega, pow_add (2 : ℝ) d]
  push_cast
  have : (2 : ℝ) ^ d ≠ 0 := by positivity
  have : (2 : ℝ) ^ (i + 1) ≠ 0 := by positivity
  field_simp

theorem nxt_zero (k i : Nat) : nxt k i 0 = 2 ^ (k - i) := by
  unfold nxt
  have : 0 < 2 ^ (k - i) := by positivity
  rw [Nat.zero_add, Nat.div_eq_of_lt (by omega)]; ring

theorem trigInit_spec (k : Nat) (hk : 1 ≤ k) (hk15 : k ≤ 15) (T : Trig) (h : TrigOk T) :
    ∃ T', trigInit k T = some T' ∧ TrigAt k 0 T' ∧ TrigOk T' := by
  obtain ⟨T1, h1, h2⟩ := forNM_inv (n := k + 1 - 2) (s := T)
    (body := fun d (t : Trig) =>
      if d + 2 < 20 then some { t with cw := upd t.cw (d + 2) (costab (d + 2)), sw := upd t.sw (d + 2) (sintab (d + 2)) } else none)
    (fun d t => TrigOk t ∧ ∀ i, 2 ≤ i → i < d + 2 → t.cw i = costab i ∧ t.sw i = sintab i)
    ⟨h, fun i a b => by omega⟩ (by
      intro d hd t ⟨hO, ht⟩
      rw [if_pos (by omega)]
      refine ⟨_, rfl, ?_, ?_⟩
      · obtain ⟨a, b, c, e⟩ := hO
        refine ⟨?_, ?_, ?_, ?_⟩ <;> dsimp only <;> rw [upd_ne _ _ (by omega)] <;> assumption
      · intro i h2 hi
        by_cases hc : i = d + 2
        · subst hc; exact ⟨upd_same _ _ _, upd_same _ _ _⟩
        · dsimp only; rw [upd_ne _ _ hc, upd_ne _ _ hc]; exact ht i h2 (by omega))
  obtain ⟨hO, ht⟩ := h2
  refine ⟨{ T1 with lam := 0 }, by rw [trigInit, h1]; rfl, ⟨rfl, ?_⟩, hO⟩
  intro i hi
  rw [nxt_zero, ang_level k i hi]
  obtain ⟨a, b, c, e⟩ := hO
  rcases (by omega : i = 0 ∨ i = 1 ∨ 2 ≤ i) with rfl | rfl | h2
  · dsimp only; rw [a, b]; norm_num
  · dsimp only; rw [c, e]; norm_num
  · obtain ⟨p, q⟩ := ht i h2 (by omega)
    dsimp only
    rw [p, q, costab, sintab, if_pos (by omega), if_pos (by omega)]
    exact ⟨rfl, rfl⟩

theorem cos_mean (a b c : ℝ) (h : Real.cos b ≠ 0) (A B : ℝ) (hA : A = a + b ∧ B = a - b ∨ A = a - b ∧ B = a + b) (hc : c = 1 / (2 * Real.cos b)) :
    c * (Real.cos A + Real.cos B) = Real.cos a ∧ c * (Real.sin A + Real.sin B) = Real.sin a := by
  rcases hA with ⟨rfl, rfl⟩ | ⟨rfl, rfl⟩ <;>
  · rw [hc, Real.cos_add, Real.cos_sub, Real.sin_add, Real.sin_sub]
    constructor <;> field_simp <;> ring

/-- One call delivers the next cosine and sine. -/
theorem trigNext_spec (k : Nat) (hk : 2 ≤ k) (hk15 : k ≤ 15) (t : Nat) (ht : t + 1 < 2 ^ (k - 1)) (T : Trig) (h : TrigAt k t T)
    (hO : TrigOk T) :
    ∃ T', trigNext k T = some (Real.cos (ang k ((t + 1 : Nat) : ℝ)), Real.sin (ang k ((t + 1 : Nat) : ℝ)), T') ∧
      TrigAt k (t + 1) T' ∧ TrigOk T' := by
  obtain ⟨hl, hT⟩ := h
  have hbig : t + 1 < 2 ^ 14 := lt_of_lt_of_le ht (Nat.pow_le_pow_right (by omega) (by omega))
  obtain ⟨e, u, s1, s2⟩ := scanSet_spec 31 (t + 1) 0 (t + 1) (by simp) (by omega) (by omega)
  have he0 : 0 < 2 ^ e := by positivity
  have hle : 2 ^ e ≤ t + 1 := by
    have := Nat.le_mul_of_pos_right (2 ^ e) (show 0 < 2 * u + 1 by omega)
    omega
  have hek : e < k - 1 := (Nat.pow_lt_pow_iff_right (by omega : 1 < 2)).1 (lt_of_le_of_lt hle ht)
  have hdiv : (t + 1) / 2 ^ (e + 2) = u / 2 := by
    rw [pow_add, ← Nat.div_div_eq_div_mul, s2, Nat.mul_div_cancel_left _ he0]; omega
  obtain ⟨f, w, c1, c2⟩ := scanClear_spec (30 - (e + 2)) (t + 1) (e + 2) (by
    refine lt_of_lt_of_le (Nat.div_lt_of_lt_mul (?_ : t + 1 < 2 ^ (e + 2) * 2 ^ (30 - (e + 2)))) (le_refl _)
    rw [← pow_add, show e + 2 + (30 - (e + 2)) = 30 by omega]
    omega)
  rw [hdiv] at c2
  obtain ⟨-, m2, m3, m4⟩ := nxt_mean k t e (u / 2) (u % 2) f w (by omega)
    (by rw [show 2 * (u / 2) + u % 2 = u by omega]; exact s2) c2 ht hk
  have ki : k - (k - e) = e := by omega
  have now := nxt_now k (k - e) t u (by rw [ki]; exact s2)
  rw [ki] at now
  have hfe : 31 - (e + 2) = 30 - (e + 2) + 1 := by omega
  have ev : trigNext k T = some (T.cw (k - e), T.sw (k - e),
      ⟨upd T.cw (k - e) (halsec (k - e) * (T.cw (k - e - 1) + T.cw (k - (e + 2 + f)))),
       upd T.sw (k - e) (halsec (k - e) * (T.sw (k - e - 1) + T.sw (k - (e + 2 + f)))), t + 1⟩) := by
    unfold trigNext
    dsimp only
    rw [hl, s1]
    simp only [Option.bind_some]
    rw [if_neg (by omega), if_pos (by omega), ki, hfe, c1]
    simp only [Option.bind_some]
    rw [if_neg (by omega)]
  refine ⟨_, by rw [ev, (hT (k - e) (by omega)).1, (hT (k - e) (by omega)).2, now.1], ⟨rfl, ?_⟩, ?_⟩
  · intro i hi
    dsimp only
    by_cases hie : i = k - e
    · subst hie
      rw [upd_same, upd_same, (hT _ (by omega : k - e - 1 ≤ k)).1, (hT _ (by omega : k - e - 1 ≤ k)).2,
        (hT _ (by omega : k - (e + 2 + f) ≤ k)).1, (hT _ (by omega : k - (e + 2 + f) ≤ k)).2, m3, m4, now.2]
      have hlev : ang k ((2 ^ e : Nat) : ℝ) = Real.pi / 2 ^ (k - e + 1) := by
        have := ang_level k (k - e) (by omega)
        rwa [ki] at this
      have hcos : Real.cos (Real.pi / 2 ^ (k - e + 1)) ≠ 0 := by
        apply ne_of_gt
        apply Real.cos_pos_of_mem_Ioo
        have hpi := Real.pi_pos
        have h4 : (4 : ℝ) ≤ 2 ^ (k - e + 1) := by
          have : (2 : ℝ) ^ 2 ≤ 2 ^ (k - e + 1) := pow_le_pow_right₀ (by norm_num) (by omega)
          linarith
        have : Real.pi / 2 ^ (k - e + 1) ≤ Real.pi / 4 := div_le_div_of_nonneg_left hpi.le (by norm_num) h4
        have : 0 < Real.pi / 2 ^ (k - e + 1) := by positivity
        constructor <;> linarith
      refine cos_mean _ (Real.pi / 2 ^ (k - e + 1)) _ hcos _ _ ?_ ?_
      · rw [← hlev]
        unfold ang
        push_cast
        rcases (by omega : u % 2 = 0 ∨ u % 2 = 1) with hu | hu
        · right
          rw [hu]
          constructor <;> norm_num <;> ring
        · left
          rw [hu]
          constructor <;> norm_num <;> ring
      · rw [halsec, if_pos (by omega)]
    · rw [upd_ne _ _ hie, upd_ne _ _ hie, nxt_keep k i e t u s2 (by omega)]
      exact hT i hi
  · obtain ⟨a, b, c, d⟩ := hO
    refine ⟨?_, ?_, ?_, ?_⟩ <;> dsimp only <;> rw [upd_ne _ _ (by omega)] <;> assumption

end Verif.Fft.Mayer

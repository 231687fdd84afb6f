import Verif.Fft.MayerProps

/-! # C69: the lengths for which the real transform of power-of-two length fails -/

noncomputable section
namespace Verif.Fft.Mayer
open Verif Verif.Fft Finset

/-! ### One and two points -/

/-- **C69 (defect).** The transforms of one and of two points access memory behind the array: the first pass works on groups of
four or eight. -/
theorem pow2_small_out_of_bounds (s : Int) (x re im buf y : Mem) (T : Trig) :
    rc1Pow2 1 s x re im T = none ∧ rc1Pow2 2 s x re im T = none ∧ cr1Pow2 1 s re im buf y T = none ∧ cr1Pow2 2 s re im buf y T = none := by
  have h1 : ∀ z, fht 1 z T = none := fun z => by
    unfold fht
    rw [Option.bind_eq_none_iff]
    intro z1 _
    simp [logLoop, pass4, forNM_succ]
  have h2 : ∀ z, fht 2 z T = none := fun z => by
    unfold fht
    rw [Option.bind_eq_none_iff]
    intro z1 _
    simp [logLoop, pass8, forNM_succ]
  simp only [rc1Pow2, cr1Pow2, realfft, realifft, h1, h2, Option.map_none, and_self]

/-! ### More than 131072 points -/

private theorem trigInit_le (k : Nat) (T T' : Trig) (he : trigInit k T = some T') : k ≤ 19 := by
  unfold trigInit at he
  rw [Option.map_eq_some_iff] at he
  obtain ⟨T1, h1, rfl⟩ := he
  have := forNM_some (fun d _ => d ≤ 18) h1 (by omega) (by
    intro d _ t t' _ hs
    split at hs
    · omega
    · cases hs)
  omega

private theorem trigInit_val (k : Nat) (hk : 2 ≤ k) (T T' : Trig) (he : trigInit k T = some T') :
    T'.cw k = costab k ∧ T'.sw k = sintab k ∧ T'.lam = 0 := by
  unfold trigInit at he
  rw [Option.map_eq_some_iff] at he
  obtain ⟨T1, h1, rfl⟩ := he
  have := forNM_some (fun d (t : Trig) => ∀ i, 2 ≤ i → i < d + 2 → t.cw i = costab i ∧ t.sw i = sintab i) h1 (fun i a b => by omega) (by
    intro d _ t t' ht hs i hi hid
    split at hs
    · cases hs
      by_cases e : i = d + 2
      · subst e; exact ⟨upd_same _ _ _, upd_same _ _ _⟩
      · dsimp only; rw [upd_ne _ _ e, upd_ne _ _ e]; exact ht i hi (by omega)
    · cases hs)
  exact ⟨(this k hk (by omega)).1, (this k hk (by omega)).2, rfl⟩

/-- The first `h` elements are zero. -/
private def Z (h : Nat) (z : Mem) : Prop := ∀ c < h, z c = 0

private theorem Z.upd {h : Nat} {z : Mem} (hz : Z h z) (i : Nat) (v : ℝ) (hv : h ≤ i ∨ v = 0) : Z h (upd z i v) := by
  intro c hc
  by_cases e : c = i
  · subst e
    rw [upd_same]
    rcases hv with hv | hv
    · omega
    · exact hv
  · rw [upd_ne _ _ e]; exact hz c hc

private theorem Z.quad {h : Nat} {z : Mem} (hz : Z h z) (a0 a1 a2 a3 : Nat) (ha : (h ≤ a0 ∧ h ≤ a1 ∧ h ≤ a2 ∧ h ≤ a3) ∨ (a0 < h ∧ a1 < h ∧ a2 < h ∧ a3 < h)) :
    Z h (quad z a0 a1 a2 a3) := by
  unfold Mayer.quad
  rcases ha with ⟨b0, b1, b2, b3⟩ | ⟨b0, b1, b2, b3⟩
  · exact (((hz.upd _ _ (Or.inl b2)).upd _ _ (Or.inl b0)).upd _ _ (Or.inl b3)).upd _ _ (Or.inl b1)
  · simp only [hz _ b0, hz _ b1, hz _ b2, hz _ b3]
    exact (((hz.upd _ _ (Or.inr (by norm_num))).upd _ _ (Or.inr (by norm_num))).upd _ _ (Or.inr (by norm_num))).upd _ _ (Or.inr (by norm_num))

private theorem Z.quadMid {h : Nat} {z : Mem} (hz : Z h z) (a0 a1 a2 a3 : Nat) (ha : (h ≤ a0 ∧ h ≤ a1 ∧ h ≤ a2 ∧ h ≤ a3) ∨ (a0 < h ∧ a1 < h ∧ a2 < h ∧ a3 < h)) :
    Z h (quadMid z a0 a1 a2 a3) := by
  unfold Mayer.quadMid
  rcases ha with ⟨b0, b1, b2, b3⟩ | ⟨b0, b1, b2, b3⟩
  · exact (((hz.upd _ _ (Or.inl b2)).upd _ _ (Or.inl b0)).upd _ _ (Or.inl b3)).upd _ _ (Or.inl b1)
  · simp only [hz _ b0, hz _ b1, hz _ b2, hz _ b3]
    exact (((hz.upd _ _ (Or.inr (by norm_num))).upd _ _ (Or.inr (by norm_num))).upd _ _ (Or.inr (by norm_num))).upd _ _ (Or.inr (by norm_num))

private theorem Z.octet {h : Nat} {z : Mem} (hz : Z h z) (p : Nat) (ha : h ≤ p ∨ p + 8 ≤ h) : Z h (octet z p) := by
  unfold Mayer.octet
  dsimp only
  rcases ha with ha | ha
  · exact (((((((hz.upd _ _ (Or.inl (by omega))).upd _ _ (Or.inl (by omega))).upd _ _ (Or.inl (by omega))).upd _ _ (Or.inl (by omega))).upd _ _
      (Or.inl (by omega))).upd _ _ (Or.inl (by omega))).upd _ _ (Or.inl (by omega))).upd _ _ (Or.inl (by omega))
  · rw [hz p (by omega), hz (p + 1) (by omega), hz (p + 2) (by omega), hz (p + 1 + 2) (by omega), hz (p + 4) (by omega), hz (p + 1 + 4) (by omega),
      hz (p + 6) (by omega), hz (p + 1 + 6) (by omega)]
    exact (((((((hz.upd _ _ (Or.inr (by norm_num))).upd _ _ (Or.inr (by norm_num))).upd _ _ (Or.inr (by norm_num))).upd _ _ (Or.inr (by norm_num))).upd _ _
      (Or.inr (by norm_num))).upd _ _ (Or.inr (by norm_num))).upd _ _ (Or.inr (by norm_num))).upd _ _ (Or.inr (by norm_num))

private theorem Z.ends {h : Nat} {z z' : Mem} (hz : Z h z) (n k1 p : Nat) (hk : 2 ≤ k1) (ha : h ≤ p ∨ p + 4 * k1 ≤ h) (he : ends n k1 p z = some z') : Z h z' := by
  unfold Mayer.ends at he
  split at he
  · cases he
    exact (hz.quad _ _ _ _ (by omega)).quadMid _ _ _ _ (by omega)
  · cases he

private theorem Z.bfly {h : Nat} {z z' : Mem} (hz : Z h z) (n k1 i : Nat) (c1 s1 : ℝ) (p : Nat) (hi : 0 < i) (hik : i < k1)
    (ha : h ≤ p ∨ p + 4 * k1 ≤ h) (he : bfly n k1 i c1 s1 p z = some z') : Z h z' := by
  unfold Mayer.bfly at he
  dsimp only at he
  split at he
  · rw [Option.some.injEq] at he
    rw [← he]
    rcases ha with ha | ha
    · exact (((((((hz.upd _ _ (Or.inl (by omega))).upd _ _ (Or.inl (by omega))).upd _ _ (Or.inl (by omega))).upd _ _ (Or.inl (by omega))).upd _ _
        (Or.inl (by omega))).upd _ _ (Or.inl (by omega))).upd _ _ (Or.inl (by omega))).upd _ _ (Or.inl (by omega))
    · rw [hz (p + i) (by omega), hz (p + i + k1) (by omega), hz (p + i + 2 * k1) (by omega), hz (p + i + 3 * k1) (by omega),
        hz (p + k1 - i) (by omega), hz (p + k1 - i + k1) (by omega), hz (p + k1 - i + 2 * k1) (by omega), hz (p + k1 - i + 3 * k1) (by omega)]
      exact (((((((hz.upd _ _ (Or.inr (by norm_num))).upd _ _ (Or.inr (by norm_num))).upd _ _ (Or.inr (by norm_num))).upd _ _ (Or.inr (by norm_num))).upd _ _
        (Or.inr (by norm_num))).upd _ _ (Or.inr (by norm_num))).upd _ _ (Or.inr (by norm_num))).upd _ _ (Or.inr (by norm_num))
  · cases he

private theorem Z.blocks {K H n i : Nat} {body : Nat → Mem → Option Mem} (hb : ∀ p z z', (K * H ≤ p ∨ p + K ≤ K * H) → Z (K * H) z → body p z = some z' → Z (K * H) z') :
    ∀ f P z z', Z (K * H) z → blocks n K i body f (K * P) z = some z' → Z (K * H) z'
  | 0, _, _, _, _, he => by cases he
  | f + 1, P, z, z', hz, he => by
    rw [Mayer.blocks, Option.bind_eq_some_iff] at he
    obtain ⟨z1, h1, he⟩ := he
    have h2 : Z (K * H) z1 := hb (K * P) z z1 (by
      rcases Nat.lt_or_ge P H with hl | hl
      · right
        have : K * (P + 1) ≤ K * H := Nat.mul_le_mul_left _ hl
        have : K * (P + 1) = K * P + K := by ring
        omega
      · left; exact Nat.mul_le_mul_left _ hl) hz h1
    split at he
    · rw [show K * P + K = K * (P + 1) by ring] at he
      exact Z.blocks hb f (P + 1) z1 z' h2 he
    · cases he; exact h2

private theorem Z.stage (n k H : Nat) (hk : 1 ≤ k) (z z' : Mem) (T T' : Trig) (hz : Z (4 * 2 ^ k * H) z) (he : stage n k z T = some (z', T')) :
    Z (4 * 2 ^ k * H) z' := by
  unfold Mayer.stage at he
  dsimp only at he
  have h2k : 2 ≤ 2 ^ k := by
    calc 2 = 2 ^ 1 := by norm_num
      _ ≤ 2 ^ k := Nat.pow_le_pow_right (by omega) hk
  rw [Option.bind_eq_some_iff] at he
  obtain ⟨z1, h1, he⟩ := he
  rw [Option.bind_eq_some_iff] at he
  obtain ⟨T1, _, he⟩ := he
  have g1 : Z (4 * 2 ^ k * H) z1 := Z.blocks (fun p z z' ha hz he => hz.ends n (2 ^ k) p h2k ha he) n 0 z z1 hz h1
  exact forNM_some (fun _ (st : Mem × Trig) => Z (4 * 2 ^ k * H) st.1) he g1 (by
    rintro d hd ⟨w, t⟩ ⟨w', t'⟩ hw hs
    dsimp only at hs hw ⊢
    rw [Option.bind_eq_some_iff] at hs
    obtain ⟨⟨c1, s1, t2⟩, h2, hs⟩ := hs
    dsimp only at hs
    rw [Option.map_eq_some_iff] at hs
    obtain ⟨w2, h3, hs⟩ := hs
    cases hs
    exact Z.blocks (fun p z z' ha hz he => hz.bfly n (2 ^ k) (d + 1) c1 s1 p (by omega) (by omega) ha he) n 0 w w' hw h3)

/-- The last stage, if the table has a zero instead of the angle. -/
private theorem last_stage (k : Nat) (hk : 16 ≤ k) (z z' : Mem) (T T' : Trig) (hz : Z (2 * 2 ^ k) z) (he : stage (4 * 2 ^ k) k z T = some (z', T')) :
    z' 1 = 0 ∧ z' (4 * 2 ^ k - 1) = 0 := by
  unfold Mayer.stage at he
  dsimp only at he
  have h2k : 2 ^ 16 ≤ 2 ^ k := Nat.pow_le_pow_right (by omega) hk
  have hev : 2 * (2 ^ k / 2) = 2 ^ k := by
    obtain ⟨j, rfl⟩ : ∃ j, k = j + 1 := ⟨k - 1, by omega⟩
    rw [pow_succ]; omega
  rw [Option.bind_eq_some_iff] at he
  obtain ⟨z1, h1, he⟩ := he
  rw [Option.bind_eq_some_iff] at he
  obtain ⟨T1, ht, he⟩ := he
  obtain ⟨v1, v2, v3⟩ := trigInit_val k (by omega) T T1 ht
  have hone : ∀ i (body : Nat → Mem → Option Mem) w w', blocks (4 * 2 ^ k) (4 * 2 ^ k) i body (4 * 2 ^ k) 0 w = some w' → body 0 w = some w' := by
    intro i body w w' hw
    obtain ⟨f, hf⟩ : ∃ f, 4 * 2 ^ k = f + 1 := ⟨4 * 2 ^ k - 1, by omega⟩
    rw [show blocks (4 * 2 ^ k) (4 * 2 ^ k) i body (4 * 2 ^ k) 0 w = blocks (4 * 2 ^ k) (4 * 2 ^ k) i body (f + 1) 0 w by rw [hf],
      Mayer.blocks, Option.bind_eq_some_iff] at hw
    obtain ⟨w1, a, b⟩ := hw
    rw [if_neg (by omega)] at b
    cases b; exact a
  have g1 := hone _ _ _ _ h1
  generalize hB : 2 ^ k = B at *
  have g2 : z1 1 = 0 ∧ z1 (B - 1) = 0 := by
    unfold Mayer.ends at g1
    split at g1
    · cases g1
      constructor
      · rw [(quadMid_val _ _ _ _ _ ⟨by omega, by omega, by omega⟩).2.2.2.2 _ (by omega) (by omega) (by omega) (by omega),
          (quad_val _ _ _ _ _ ⟨by omega, by omega, by omega⟩).2.2.2.2 _ (by omega) (by omega) (by omega) (by omega)]
        exact hz 1 (by omega)
      · rw [(quadMid_val _ _ _ _ _ ⟨by omega, by omega, by omega⟩).2.2.2.2 _ (by omega) (by omega) (by omega) (by omega),
          (quad_val _ _ _ _ _ ⟨by omega, by omega, by omega⟩).2.2.2.2 _ (by omega) (by omega) (by omega) (by omega)]
        exact hz (B - 1) (by omega)
    · cases g1
  have := forNM_some (fun d (st : Mem × Trig) => (d = 0 ∧ st = (z1, T1)) ∨ (0 < d ∧ st.1 1 = 0 ∧ st.1 (4 * B - 1) = 0)) he (Or.inl ⟨rfl, rfl⟩) (by
    rintro d hd ⟨w, t⟩ ⟨w', t'⟩ hw hs
    dsimp only at hs hw ⊢
    rw [Option.bind_eq_some_iff] at hs
    obtain ⟨⟨c1, s1, t2⟩, h2, hs⟩ := hs
    dsimp only at hs
    rw [Option.map_eq_some_iff] at hs
    obtain ⟨w2, h3, hs⟩ := hs
    cases hs
    have h4 := hone _ _ _ _ h3
    refine Or.inr ⟨Nat.succ_pos d, ?_⟩
    rcases hw with ⟨rfl, hst⟩ | ⟨hd0, hw1, hw2⟩
    · cases hst
      have hc : c1 = 0 ∧ s1 = 0 := by
        unfold trigNext at h2
        dsimp only at h2
        rw [v3] at h2
        have : scanSet (0 + 1) 0 31 = some 0 := by simp [scanSet]
        rw [this, Option.bind_some] at h2
        split at h2
        · cases h2
        · rw [Nat.sub_zero] at h2
          have hcc : costab k = 0 := by unfold costab; rw [if_neg (by omega)]
          have hss : sintab k = 0 := by unfold sintab; rw [if_neg (by omega)]
          split at h2
          · rw [Option.bind_eq_some_iff] at h2
            obtain ⟨j, _, h2⟩ := h2
            split at h2
            · cases h2
            · cases h2; exact ⟨v1.trans hcc, v2.trans hss⟩
          · cases h2; exact ⟨v1.trans hcc, v2.trans hss⟩
      obtain ⟨rfl, rfl⟩ := hc
      unfold Mayer.bfly at h4
      dsimp only at h4
      split at h4
      · rw [Option.some.injEq] at h4
        rw [← h4]
        constructor
        · rw [upd_ne _ _ (by omega), upd_ne _ _ (by omega), upd_ne _ _ (by omega), upd_ne _ _ (by omega), upd_ne _ _ (by omega), upd_ne _ _ (by omega)]
          rw [show (0 + (0 + 1) : Nat) = 1 from rfl, upd_same, g2.1]
          ring
        · rw [upd_ne _ _ (by omega), upd_ne _ _ (by omega), upd_ne _ _ (by omega), upd_ne _ _ (by omega), upd_ne _ _ (by omega),
            show 0 + B - (0 + 1) + 3 * B = 4 * B - 1 by omega, upd_same, show 0 + B - (0 + 1) = B - 1 by omega, g2.2]
          ring
      · cases h4
    · unfold Mayer.bfly at h4
      dsimp only at h4
      split at h4
      · rw [Option.some.injEq] at h4
        rw [← h4]
        constructor
        · rw [upd_ne _ _ (by omega), upd_ne _ _ (by omega), upd_ne _ _ (by omega), upd_ne _ _ (by omega), upd_ne _ _ (by omega), upd_ne _ _ (by omega),
            upd_ne _ _ (by omega), upd_ne _ _ (by omega), hw1]
        · rw [upd_ne _ _ (by omega), upd_ne _ _ (by omega), upd_ne _ _ (by omega), upd_ne _ _ (by omega), upd_ne _ _ (by omega), upd_ne _ _ (by omega),
            upd_ne _ _ (by omega), upd_ne _ _ (by omega), hw2]
      · cases h4)
  rcases this with ⟨h, _⟩ | ⟨_, h⟩
  · omega
  · exact h

private theorem stages_bad (m : Nat) : ∀ f k z z' T T', k + 4 ≤ m → k % 2 = m % 2 → 18 ≤ m → Z (2 ^ (m - 1)) z →
    stages (2 ^ m) f k z T = some (z', T') → z' 1 = 0 ∧ z' (2 ^ m - 1) = 0
  | 0, _, _, _, _, _, _, _, _, _, he => by cases he
  | f + 1, k, z, z', T, T', h4, hpar, h18, hz, he => by
    rw [stages, Option.bind_eq_some_iff] at he
    obtain ⟨⟨z1, T1⟩, h1, he⟩ := he
    dsimp only at he
    have e4 : 4 * 2 ^ (k + 2) = 2 ^ (k + 4) := by ring
    rw [e4] at he
    by_cases hk : k + 4 = m
    · subst hk
      rw [if_neg (by omega)] at he
      cases he
      rw [← e4] at h1 ⊢
      refine last_stage (k + 2) (by omega) z _ T _ ?_ h1
      rw [show k + 4 - 1 = k + 2 + 1 by omega, pow_succ'] at hz
      exact hz
    · rw [if_pos (Nat.pow_lt_pow_right (by omega) (by omega))] at he
      have hH : 2 ^ (m - 1) = 4 * 2 ^ (k + 2) * 2 ^ (m - 1 - (k + 4)) := by
        rw [e4, ← pow_add]; congr 1; omega
      have h2 : Z (2 ^ (m - 1)) z1 := by
        rw [hH] at hz ⊢
        exact Z.stage (2 ^ m) (k + 2) _ (by omega) z z1 T T1 hz h1
      exact stages_bad m f (k + 2) z1 z' T1 T' (by omega) (by omega) h18 h2 he

/-- A unit pulse at sample 1. -/
def pulse : Mem := fun j => if j = 1 then 1 else 0

private theorem fht_bad (m : Nat) (h18 : 18 ≤ m) (z' : Mem) (T T' : Trig) (he : fht (2 ^ m) pulse T = some (z', T')) :
    z' 1 = 0 ∧ z' (2 ^ m - 1) = 0 := by
  obtain ⟨z0, a1, a2, a3⟩ := reorder_spec m (by omega) pulse
  have hm1 : 2 ^ m = 2 * 2 ^ (m - 1) := by rw [← pow_succ', show m - 1 + 1 = m by omega]
  have hm4 : 2 ^ (m - 1) = 8 * 2 ^ (m - 4) := by rw [show m - 1 = m - 4 + 3 by omega, pow_add]; ring
  have hp : 2 ^ 14 ≤ 2 ^ (m - 4) := Nat.pow_le_pow_right (by omega) (by omega)
  have hz0 : Z (2 ^ (m - 1)) z0 := by
    intro c hc
    rw [a2 c (by omega)]
    unfold pulse
    rw [if_neg]
    intro h
    have h2 := rev_rev m c (by omega)
    rw [h] at h2
    have : rev m 1 = 2 ^ (m - 1) := by
      obtain ⟨j, rfl⟩ : ∃ j, m = j + 1 := ⟨m - 1, by omega⟩
      have hz : ∀ i, rev i 0 = 0 := fun i => by
        induction i with
        | zero => rfl
        | succ i ih => rw [rev]; simp [ih]
      rw [rev, show 1 / 2 = 0 from rfl, hz]; simp
    omega
  by_cases h31 : m < 31
  · have hl := logLoop_spec m 31 0 (by omega) (by omega)
    unfold fht at he
    rw [a1, Option.bind_some, hl, Option.bind_some] at he
    dsimp only at he
    rw [Option.bind_eq_some_iff] at he
    obtain ⟨z1, h1, he⟩ := he
    rw [if_neg (by omega)] at he
    refine stages_bad m _ _ z1 z' T T' (by omega) (by omega) h18 ?_ he
    split at h1
    · unfold pass4 at h1
      exact forNM_some (fun _ w => Z (2 ^ (m - 1)) w) h1 hz0 (by
        intro P _ w w' hw hs
        split at hs
        · cases hs
          exact hw.quad _ _ _ _ (by omega)
        · cases hs)
    · unfold pass8 at h1
      exact forNM_some (fun _ w => Z (2 ^ (m - 1)) w) h1 hz0 (by
        intro P _ w w' hw hs
        split at hs
        · cases hs
          exact hw.octet _ (by omega)
        · cases hs)
  · exfalso
    have hl : ∀ f k, k + f ≤ m → logLoop (2 ^ m) k f = none := by
      intro f
      induction f with
      | zero => intro k _; rfl
      | succ f ih => intro k hk; rw [logLoop, if_pos (Nat.pow_lt_pow_right (by omega) (by omega))]; exact ih _ (by omega)
    unfold fht at he
    rw [a1, Option.bind_some, hl 31 0 (by omega)] at he
    cases he

/-- **C69 (defect).** For `n = 262144, 524288, …` points the forward transform of a unit pulse at sample 1 is wrong at frequency 1
in every state of the statics, if the call returns at all: the tables of the angles end after sixteen entries. -/
theorem rc1_pow2_large_wrong (m : Nat) (h18 : 18 ≤ m) (s : Int) (hs : s = 1 ∨ s = -1) (re im : Mem) (T : Trig) :
    ¬ ∃ re' im' T', rc1Pow2 (2 ^ m) s pulse re im T = some (re', im', T') ∧ (⟨re' 1, im' 1⟩ : ℂ) = dft s (2 ^ m) (fun j => (pulse j : ℂ)) 1 := by
  rintro ⟨re', im', T', he, hd⟩
  have hbig : 2 ^ 18 ≤ 2 ^ m := Nat.pow_le_pow_right (by omega) h18
  unfold rc1Pow2 realfft at he
  rw [Option.map_map, Option.map_eq_some_iff] at he
  obtain ⟨⟨z, T1⟩, h1, he⟩ := he
  obtain ⟨b1, b2⟩ := fht_bad m h18 z T T1 h1
  have hr := congrArg Complex.re hd
  rw [(dft_re_im s hs (2 ^ m) pulse 1).1] at hr
  have hsum : ∑ j ∈ range (2 ^ m), pulse j * Real.cos (2 * Real.pi / (2 ^ m : Nat) * (1 * j : Nat)) = Real.cos (2 * Real.pi / 2 ^ m) := by
    rw [sum_eq_single 1]
    · simp [pulse]
    · intro j _ hj; simp [pulse, hj]
    · intro h; exact absurd (mem_range.2 (by omega)) h
  rw [hsum] at hr
  have hc : 0 < Real.cos (2 * Real.pi / 2 ^ m) := by
    have hb : (2 : ℝ) ^ 18 ≤ 2 ^ m := by exact_mod_cast hbig
    have hpi := Real.pi_pos
    apply Real.cos_pos_of_mem_Ioo
    constructor
    · have : 0 < 2 * Real.pi / 2 ^ m := by positivity
      linarith
    · rw [div_lt_iff₀ (by positivity)]
      nlinarith
  have hf := (fold_spec (2 ^ m) (fun a b => (a + b) * (1 / 2)) (fun a b => (a - b) * (1 / 2)) z).1 1 (by omega) (by omega)
  dsimp only [Function.comp] at he hf
  rw [b1, b2] at hf
  generalize forN (2 ^ m / 2 - 1) _ z = d at he hf
  have loop := forN_inv (n := 2 ^ m / 2) (s := (re, upd im 0 0))
    (body := fun j (s' : Mem × Mem) => (upd s'.1 j (d j), upd s'.2 (j + 1) (s * d (2 ^ m - j - 1))))
    (fun e w => 2 ≤ e → w.1 1 = d 1) (fun h => by omega) (by
      rintro e _ w hw he2
      by_cases e1 : e = 1
      · subst e1; exact upd_same w.1 1 (d 1)
      · dsimp only; rw [upd_ne _ _ (by omega)]; exact hw (by omega)) (by omega)
  rw [Prod.mk.injEq] at he
  rw [← he.1, upd_ne _ _ (by omega), loop, hf.1] at hr
  norm_num at hr
  linarith

private theorem stages_le (m : Nat) : ∀ f k z r T, stages (2 ^ m) f k z T = some r → m ≤ 21
  | 0, _, _, _, _, he => by cases he
  | f + 1, k, z, r, T, he => by
    rw [stages, Option.bind_eq_some_iff] at he
    obtain ⟨⟨z1, T1⟩, h1, he⟩ := he
    dsimp only at he
    split at he
    · exact stages_le m f _ _ _ _ he
    · rename_i hn
      unfold stage at h1
      dsimp only at h1
      rw [Option.bind_eq_some_iff] at h1
      obtain ⟨z2, _, h1⟩ := h1
      rw [Option.bind_eq_some_iff] at h1
      obtain ⟨T2, h2, _⟩ := h1
      have := trigInit_le _ _ _ h2
      rw [show 4 * 2 ^ (k + 2) = 2 ^ (k + 4) by ring] at hn
      have := (Nat.pow_le_pow_iff_right (by omega : 1 < 2)).1 (Nat.le_of_not_lt hn)
      omega

/-- **C69 (defect).** For `n = 4194304, …` points the forward transform of every trace accesses memory behind the tables, in every
state of the statics. -/
theorem rc1_pow2_huge_out_of_bounds (m : Nat) (h22 : 22 ≤ m) (s : Int) (x re im : Mem) (T : Trig) : rc1Pow2 (2 ^ m) s x re im T = none := by
  have hbig : 2 ^ 22 ≤ 2 ^ m := Nat.pow_le_pow_right (by omega) h22
  have : fht (2 ^ m) x T = none := by
    unfold fht
    simp only [Option.bind_eq_none_iff]
    intro z _ k _ z1 _
    rw [if_neg (by omega)]
    cases h : stages (2 ^ m) (2 ^ m) (k % 2) z1 T with
    | none => rfl
    | some r => have := stages_le m _ _ _ _ _ h; omega
  rw [rc1Pow2, realfft, this]
  rfl

end Verif.Fft.Mayer

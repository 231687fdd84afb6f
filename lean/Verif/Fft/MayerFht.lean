import Verif.Fft.MayerStage

/-! # The fast Hartley transform computes the Hartley transform -/

noncomputable section
namespace Verif.Fft.Mayer
open Verif Verif.Fft Finset

/-! ### The first pass -/

theorem blk_one (m : Nat) (x : Mem) (Q : Nat) :
    blk (m + 1) 1 x (2 * Q) = x (rev (m + 1) (2 * Q)) + x (rev (m + 1) (2 * Q + 1)) ∧
    blk (m + 1) 1 x (2 * Q + 1) = x (rev (m + 1) (2 * Q)) - x (rev (m + 1) (2 * Q + 1)) := by
  have e1 : 2 * Q / 2 = Q := by omega
  have e2 : (2 * Q + 1) / 2 = Q := by omega
  have e3 : 2 * Q % 2 = 0 := by omega
  have e4 : (2 * Q + 1) % 2 = 1 := by omega
  have r0 : rev (m + 1) (2 * Q) = rev m Q := by rw [rev, e1, e3]; omega
  have r1 : rev (m + 1) (2 * Q + 1) = rev m Q + 1 * 2 ^ m := by rw [rev, e2, e4]; ring
  constructor
  · simp only [blk, hart, pow_one, sum_range_succ, range_zero, sum_empty, e1, e3, Nat.add_sub_cancel, r0, r1]
    simp
  · simp only [blk, hart, pow_one, sum_range_succ, range_zero, sum_empty, e2, e4, Nat.add_sub_cancel, r0, r1]
    have : 2 * Real.pi * (((1 : Nat) : ℤ) : ℝ) * ((1 : Nat) : ℝ) / ((2 : Nat) : ℝ) = Real.pi := by push_cast; ring
    rw [this]
    simp
    ring

theorem pass4_spec (M : Nat) (x z : Mem) (hz : ∀ c < 2 ^ (2 + M), z c = x (rev (2 + M) c)) :
    ∃ z', pass4 (2 ^ (2 + M)) z = some z' ∧ (∀ c < 2 ^ (2 + M), z' c = blk (2 + M) 2 x c) ∧ ∀ c, 2 ^ (2 + M) ≤ c → z' c = z c := by
  have hn : 2 ^ (2 + M) = 4 * 2 ^ M := by ring
  have hN : (2 ^ (2 + M) + 3) / 4 = 2 ^ M := by omega
  have hz0 : ∀ c < 2 ^ (0 + 2 + M), z c = blk (0 + 2 + M) 0 x c := fun c hc => by
    rw [blk_zero]; simpa using hz c (by simpa using hc)
  have key : ∀ P < 2 ^ M, Own (fun z => if 4 * P + 3 < 2 ^ (2 + M) then some (quad z (4 * P) (4 * P + 1) (4 * P + 2) (4 * P + 3)) else none)
      z (blk (2 + M) 2 x) (rowOf 1 (4 * P) 0) := fun P hP => by
    have := quad_own 0 M P x z hz0 hP
    simp only [if_pos (show 4 * P + 3 < 2 ^ (2 + M) by omega)]
    simpa using this
  obtain ⟨z', a1, a2, a3⟩ := Own.forNM key (by
    intro P hP Q hQ hne c h1 h2
    have a := rowOf_block 1 P 0 c (by omega) (by simpa using h1)
    have b := rowOf_block 1 Q 0 c (by omega) (by simpa using h2)
    omega) z (fun _ _ => rfl)
  refine ⟨z', by rw [pass4, hN]; exact a1, fun c hc => a2 c ⟨c / 4, by omega, ?_⟩, fun c hc => a3 c ?_⟩
  · unfold rowOf; omega
  · rintro ⟨P, hP, h⟩
    unfold rowOf at h; omega

theorem octet_own (M P : Nat) (x z0 : Mem) (hz0 : ∀ c < 2 ^ (3 + M), z0 c = x (rev (3 + M) c)) (hP : P < 2 ^ M) :
    Own (fun z => some (octet z (8 * P))) z0 (blk (3 + M) 3 x) (fun c => c / 8 = P) := by
  intro z hz
  have hn : 2 ^ (3 + M) = 8 * 2 ^ M := by ring
  have em : 1 + 2 + M = 3 + M := by ring
  have em2 : 0 + 1 + 2 + M = 3 + M := by ring
  obtain ⟨i0, i1, i2, i3⟩ := in4 1 M P 0 x (blk (3 + M) 1 x) (fun c _ => by rw [em]) hP (by norm_num)
  obtain ⟨j0, j1, j2, j3⟩ := in4 1 M P 1 x (blk (3 + M) 1 x) (fun c _ => by rw [em]) hP (by norm_num)
  obtain ⟨o0, o1, o2, o3⟩ := hart_first 2 (by omega) (sub M P x)
  obtain ⟨q0, q1, q2, q3⟩ := hart_mid 1 2 (by omega) (by omega) (sub M P x)
  have g : ∀ R < 8, blk (3 + M) 3 x (8 * P + R) = hart 8 (sub M P x) (R : ℤ) := fun R hR => by
    have := blk_out 1 M P R x (by omega)
    rw [em] at this
    exact this
  have hw : ∀ t < 8, z (8 * P + t) = x (rev (3 + M) (8 * P + t)) := fun t ht => by
    rw [hz _ (by omega), hz0 _ (by omega)]
  have b1 : ∀ u < 4, blk (3 + M) 1 x (8 * P + 2 * u) = z (8 * P + 2 * u) + z (8 * P + (2 * u + 1)) ∧
      blk (3 + M) 1 x (8 * P + (2 * u + 1)) = z (8 * P + 2 * u) - z (8 * P + (2 * u + 1)) := fun u hu => by
    rw [hw _ (by omega), hw _ (by omega)]
    have := blk_one (2 + M) x (4 * P + u)
    rw [show 2 + M + 1 = 3 + M by ring, show 2 * (4 * P + u) = 8 * P + 2 * u by ring] at this
    exact this
  have s0 := b1 0 (by omega)
  have s1 := b1 1 (by omega)
  have s2 := b1 2 (by omega)
  have s3 := b1 3 (by omega)
  have g0 := g 0 (by omega)
  have g1 := g 1 (by omega)
  have g2 := g 2 (by omega)
  have g3 := g 3 (by omega)
  have g4 := g 4 (by omega)
  have g5 := g 5 (by omega)
  have g6 := g 6 (by omega)
  have g7 := g 7 (by omega)
  norm_num only [Nat.cast_zero, Nat.cast_one, Nat.cast_ofNat, pow_one, mul_zero, mul_one, add_zero, zero_add, add_assoc]
    at i0 i1 i2 i3 j0 j1 j2 j3 o0 o1 o2 o3 q0 q1 q2 q3 s0 s1 s2 s3 g0 g1 g2 g3 g4 g5 g6 g7
  refine ⟨_, rfl, ?_, ?_⟩
  · intro c hc
    obtain ⟨t, ht, rfl⟩ : ∃ t < 8, c = 8 * P + t := ⟨c - 8 * P, by omega, by omega⟩
    unfold octet
    simp only [add_assoc]
    norm_num only
    interval_cases t
    · rw [upd_ne _ _ (by omega), upd_ne _ _ (by omega), upd_ne _ _ (by omega), upd_ne _ _ (by omega), upd_ne _ _ (by omega), upd_ne _ _ (by omega),
        add_zero, upd_same, g0, o0, ← i0, ← i1, ← i2, ← i3, s0.1, s1.1, s2.1, s3.1]
      try ring
    · rw [upd_ne _ _ (by omega), upd_ne _ _ (by omega), upd_same, g1, q0, ← j0, ← j1, ← j2, s0.2, s1.2, s2.2]
      try ring
    · rw [upd_ne _ _ (by omega), upd_ne _ _ (by omega), upd_ne _ _ (by omega), upd_ne _ _ (by omega), upd_same, g2, o1,
        ← i0, ← i1, ← i2, ← i3, s0.1, s1.1, s2.1, s3.1]
      try ring
    · rw [upd_same, g3, q1, ← j0, ← j1, ← j3, s0.2, s1.2, s3.2]
      try ring
    · rw [upd_ne _ _ (by omega), upd_ne _ _ (by omega), upd_ne _ _ (by omega), upd_ne _ _ (by omega), upd_ne _ _ (by omega), upd_ne _ _ (by omega),
        upd_ne _ _ (by omega), upd_same, g4, o2, ← i0, ← i1, ← i2, ← i3, s0.1, s1.1, s2.1, s3.1]
      try ring
    · rw [upd_ne _ _ (by omega), upd_ne _ _ (by omega), upd_ne _ _ (by omega), upd_same, g5, q2, ← j0, ← j1, ← j2, s0.2, s1.2, s2.2]
      try ring
    · rw [upd_ne _ _ (by omega), upd_ne _ _ (by omega), upd_ne _ _ (by omega), upd_ne _ _ (by omega), upd_ne _ _ (by omega), upd_same,
        g6, o3, ← i0, ← i1, ← i2, ← i3, s0.1, s1.1, s2.1, s3.1]
      try ring
    · rw [upd_ne _ _ (by omega), upd_same, g7, q3, ← j0, ← j1, ← j3, s0.2, s1.2, s3.2]
      try ring
  · intro c hc
    unfold octet
    rw [upd_ne _ _ (by omega), upd_ne _ _ (by omega), upd_ne _ _ (by omega), upd_ne _ _ (by omega), upd_ne _ _ (by omega), upd_ne _ _ (by omega),
      upd_ne _ _ (by omega), upd_ne _ _ (by omega)]

theorem pass8_spec (M : Nat) (x z : Mem) (hz : ∀ c < 2 ^ (3 + M), z c = x (rev (3 + M) c)) :
    ∃ z', pass8 (2 ^ (3 + M)) z = some z' ∧ (∀ c < 2 ^ (3 + M), z' c = blk (3 + M) 3 x c) ∧ ∀ c, 2 ^ (3 + M) ≤ c → z' c = z c := by
  have hn : 2 ^ (3 + M) = 8 * 2 ^ M := by ring
  have hN : (2 ^ (3 + M) + 7) / 8 = 2 ^ M := by omega
  have key : ∀ P < 2 ^ M, Own (fun z => if 8 * P + 7 < 2 ^ (3 + M) then some (octet z (8 * P)) else none)
      z (blk (3 + M) 3 x) (fun c => c / 8 = P) := fun P hP => by
    have := octet_own M P x z hz hP
    simp only [if_pos (show 8 * P + 7 < 2 ^ (3 + M) by omega)]
    exact this
  obtain ⟨z', a1, a2, a3⟩ := Own.forNM key (by
    intro P hP Q hQ hne c h1 h2
    omega) z (fun _ _ => rfl)
  refine ⟨z', by rw [pass8, hN]; exact a1, fun c hc => a2 c ⟨c / 8, by omega, rfl⟩, fun c hc => a3 c ?_⟩
  rintro ⟨P, hP, h⟩
  omega

/-! ### A stage -/

theorem pair_iff (B N c r1 r2 : Nat) (h1 : r1 < B) (h2 : r2 < B) :
    (∃ P, 0 ≤ P ∧ P < N ∧ (rowOf B (4 * B * P) r1 c ∨ rowOf B (4 * B * P) r2 c)) ↔ c < 4 * B * N ∧ (c % B = r1 ∨ c % B = r2) := by
  have a := rowOf_iff B N c r1 h1
  have b := rowOf_iff B N c r2 h2
  constructor
  · rintro ⟨P, p0, p1, h | h⟩
    · obtain ⟨u, v⟩ := a.1 ⟨P, p0, p1, h⟩; exact ⟨u, Or.inl v⟩
    · obtain ⟨u, v⟩ := b.1 ⟨P, p0, p1, h⟩; exact ⟨u, Or.inr v⟩
  · rintro ⟨u, v | v⟩
    · obtain ⟨P, p0, p1, h⟩ := a.2 ⟨u, v⟩; exact ⟨P, p0, p1, Or.inl h⟩
    · obtain ⟨P, p0, p1, h⟩ := b.2 ⟨u, v⟩; exact ⟨P, p0, p1, Or.inr h⟩

theorem pair_block (B P c r1 r2 : Nat) (h1 : r1 < B) (h2 : r2 < B)
    (h : rowOf B (4 * B * P) r1 c ∨ rowOf B (4 * B * P) r2 c) : c / (4 * B) = P := by
  rcases h with h | h
  · exact (rowOf_block B P r1 c h1 h).1
  · exact (rowOf_block B P r2 c h2 h).1

theorem stage_spec (b M : Nat) (hb : 1 ≤ b) (hb15 : b + 1 ≤ 15) (x z : Mem) (T : Trig)
    (hz : ∀ c < 2 ^ (b + 1 + 2 + M), z c = blk (b + 1 + 2 + M) (b + 1) x c) (hO : TrigOk T) :
    ∃ z' T', stage (2 ^ (b + 1 + 2 + M)) (b + 1) z T = some (z', T') ∧
      (∀ c < 2 ^ (b + 1 + 2 + M), z' c = blk (b + 1 + 2 + M) (b + 1 + 2) x c) ∧ (∀ c, 2 ^ (b + 1 + 2 + M) ≤ c → z' c = z c) ∧ TrigOk T' := by
  have hn : (2 : Nat) ^ (b + 1 + 2 + M) = 4 * 2 ^ (b + 1) * 2 ^ M := by ring
  have hb0 : 0 < 2 ^ b := by positivity
  have hM0 : 0 < 2 ^ M := by positivity
  have hb1 : 2 ^ (b + 1) = 2 * 2 ^ b := by ring
  have hNn : 2 ^ M ≤ 2 ^ (b + 1 + 2 + M) := Nat.pow_le_pow_right (by omega) (by omega)
  set G := blk (b + 1 + 2 + M) (b + 1 + 2) x with hG
  have p1 := Own.blocks (K := 4 * 2 ^ (b + 1)) (N := 2 ^ M) (i := 0) (by omega) (body := ends (2 ^ (b + 1 + 2 + M)) (2 ^ (b + 1)))
    (own := fun P c => rowOf (2 ^ (b + 1)) (4 * 2 ^ (b + 1) * P) 0 c ∨ rowOf (2 ^ (b + 1)) (4 * 2 ^ (b + 1) * P) (2 ^ b) c)
    (fun P hP => ends_own b M P x z hz hP) (by
      intro P hP Q hQ hne c h1 h2
      exact hne ((pair_block _ _ _ _ _ (by omega) (by omega) h1).symm.trans (pair_block _ _ _ _ _ (by omega) (by omega) h2)))
    (2 ^ (b + 1 + 2 + M)) 0 hM0 (by omega)
  rw [← hn, Nat.mul_zero] at p1
  obtain ⟨z1, a1, a2, a3⟩ := p1 z fun _ _ => rfl
  simp only [pair_iff _ _ _ _ _ (show 0 < 2 ^ (b + 1) by omega) (show 2 ^ b < 2 ^ (b + 1) by omega), ← hn] at a2 a3
  obtain ⟨T1, t1, t2, t3⟩ := trigInit_spec (b + 1) (by omega) hb15 T hO
  obtain ⟨st, s1, s2⟩ := forNM_inv (n := 2 ^ (b + 1) / 2 - 1) (s := (z1, T1))
    (body := fun d (st : Mem × Trig) => (trigNext (b + 1) st.2).bind fun (c1, s1, t) =>
      (blocks (2 ^ (b + 1 + 2 + M)) (4 * 2 ^ (b + 1)) (d + 1) (bfly (2 ^ (b + 1 + 2 + M)) (2 ^ (b + 1)) (d + 1) c1 s1) (2 ^ (b + 1 + 2 + M)) 0 st.1).map
        fun z => (z, t))
    (fun d st => (∀ c, c < 2 ^ (b + 1 + 2 + M) →
        (c % 2 ^ (b + 1) = 0 ∨ c % 2 ^ (b + 1) = 2 ^ b ∨ c % 2 ^ (b + 1) ≤ d ∨ 2 ^ (b + 1) - d ≤ c % 2 ^ (b + 1)) → st.1 c = G c) ∧
      (∀ c, ¬ (c < 2 ^ (b + 1 + 2 + M) ∧
        (c % 2 ^ (b + 1) = 0 ∨ c % 2 ^ (b + 1) = 2 ^ b ∨ c % 2 ^ (b + 1) ≤ d ∨ 2 ^ (b + 1) - d ≤ c % 2 ^ (b + 1))) → st.1 c = z c) ∧
      TrigAt (b + 1) d st.2 ∧ TrigOk st.2) ⟨by
        intro c hc h
        have := Nat.mod_lt c (show 0 < 2 ^ (b + 1) by omega)
        exact a2 c ⟨hc, by omega⟩, by
        intro c h
        exact a3 c fun h' => h ⟨h'.1, by omega⟩, t2, t3⟩ (by
      rintro d hd ⟨w, T⟩ ⟨h1, h2, h3, h4⟩
      dsimp only at h1 h2 h3 h4 ⊢
      obtain ⟨T', u1, u2, u3⟩ := trigNext_spec (b + 1) (by omega) hb15 d (by rw [Nat.add_sub_cancel]; omega) T h3 h4
      rw [u1]
      have p2 := Own.blocks (K := 4 * 2 ^ (b + 1)) (N := 2 ^ M) (i := d + 1) (by omega)
        (body := bfly (2 ^ (b + 1 + 2 + M)) (2 ^ (b + 1)) (d + 1) (Real.cos (ang (b + 1) ((d + 1 : Nat) : ℝ))) (Real.sin (ang (b + 1) ((d + 1 : Nat) : ℝ))))
        (own := fun P c => rowOf (2 ^ (b + 1)) (4 * 2 ^ (b + 1) * P) (d + 1) c ∨ rowOf (2 ^ (b + 1)) (4 * 2 ^ (b + 1) * P) (2 ^ (b + 1) - (d + 1)) c)
        (fun P hP => bfly_own (b + 1) M P (d + 1) x z hz hP (by omega) (by omega)) (by
          intro P hP Q hQ hne c h1 h2
          exact hne ((pair_block _ _ _ _ _ (by omega) (by omega) h1).symm.trans (pair_block _ _ _ _ _ (by omega) (by omega) h2)))
        (2 ^ (b + 1 + 2 + M)) 0 hM0 (by omega)
      rw [← hn, Nat.mul_zero] at p2
      unfold Own at p2
      simp only [pair_iff _ _ _ _ _ (show d + 1 < 2 ^ (b + 1) by omega) (show 2 ^ (b + 1) - (d + 1) < 2 ^ (b + 1) by omega), ← hn] at p2
      obtain ⟨w', v1, v2, v3⟩ := p2 w fun c hc => h2 c (by
        rintro ⟨e1, e2⟩
        obtain ⟨e3, e4⟩ := hc
        generalize c % 2 ^ (b + 1) = r at *
        generalize 2 ^ (b + 1 + 2 + M) = n at *
        omega)
      refine ⟨(w', T'), ?_, ?_, ?_, u2, u3⟩
      · simp only [Option.bind_some]
        rw [v1]; rfl
      · intro c hc h
        by_cases hm : c % 2 ^ (b + 1) = d + 1 ∨ c % 2 ^ (b + 1) = 2 ^ (b + 1) - (d + 1)
        · exact v2 c ⟨hc, hm⟩
        · dsimp only
          rw [v3 c fun h => hm h.2]
          refine h1 c hc ?_
          clear h1 h2 v1 v2 v3 p2
          generalize c % 2 ^ (b + 1) = r at *
          omega
      · intro c h
        dsimp only
        rw [v3 c fun h' => h ⟨h'.1, by
          obtain ⟨h5, h6⟩ := h'
          clear h h1 h2 v1 v2 v3 p2
          generalize c % 2 ^ (b + 1) = r at *
          omega⟩]
        refine h2 c fun h' => h ⟨h'.1, ?_⟩
        obtain ⟨h5, h6⟩ := h'
        clear h h1 h2 v1 v2 v3 p2
        generalize c % 2 ^ (b + 1) = r at *
        omega)
  refine ⟨st.1, st.2, ?_, ?_, ?_, s2.2.2.2⟩
  · rw [stage]
    dsimp only
    rw [a1]
    simp only [Option.bind_some]
    rw [t1]
    exact s1
  · intro c hc
    refine s2.1 c hc ?_
    have := Nat.mod_lt c (show 0 < 2 ^ (b + 1) by omega)
    generalize c % 2 ^ (b + 1) = r at *
    omega
  · intro c hc
    refine s2.2.1 c fun h => ?_
    omega

theorem stages_spec (x : Mem) (m : Nat) (hm : m ≤ 17) : ∀ (u f k : Nat) (z : Mem) (T : Trig), k + 2 + (2 * u + 2) = m → u < f →
    (∀ c < 2 ^ m, z c = blk m (k + 2) x c) → TrigOk T →
    ∃ z' T', stages (2 ^ m) f k z T = some (z', T') ∧ (∀ c < 2 ^ m, z' c = blk m m x c) ∧ (∀ c, 2 ^ m ≤ c → z' c = z c) ∧ TrigOk T' := by
  intro u
  induction u with
  | zero =>
    intro f k z T hk hf hz hO
    obtain ⟨f, rfl⟩ : ∃ f', f = f' + 1 := ⟨f - 1, by omega⟩
    have em : k + 1 + 1 + 2 + 0 = m := by omega
    obtain ⟨z', T', a1, a2, a3, a4⟩ := stage_spec (k + 1) 0 (by omega) (by omega) x z T (by rw [em]; exact hz) hO
    rw [em] at a1 a2 a3
    refine ⟨z', T', ?_, ?_, a3, a4⟩
    · rw [stages, show k + 2 = k + 1 + 1 by omega, a1]
      simp only [Option.bind_some]
      rw [if_neg]
      rw [← em]
      have : (2 : Nat) ^ (k + 1 + 1 + 2 + 0) = 4 * 2 ^ (k + 1 + 1) := by ring
      omega
    · exact a2
  | succ u ih =>
    intro f k z T hk hf hz hO
    obtain ⟨f, rfl⟩ : ∃ f', f = f' + 1 := ⟨f - 1, by omega⟩
    have em : k + 1 + 1 + 2 + (2 * u + 2) = m := by omega
    obtain ⟨z1, T1, a1, a2, a3, a4⟩ := stage_spec (k + 1) (2 * u + 2) (by omega) (by omega) x z T (by rw [em]; exact hz) hO
    rw [em] at a1 a2 a3
    obtain ⟨z', T', b1, b2, b3, b4⟩ := ih f (k + 2) z1 T1 (by omega) (by omega) a2 a4
    refine ⟨z', T', ?_, b2, fun c hc => (b3 c hc).trans (a3 c hc), b4⟩
    rw [stages, show k + 2 = k + 1 + 1 by omega, a1]
    simp only [Option.bind_some]
    rw [if_pos]
    · exact b1
    · rw [← em]
      have : (2 : Nat) ^ (k + 1 + 1 + 2 + (2 * u + 2)) = 4 * 2 ^ (k + 1 + 1) * (4 * 2 ^ (2 * u)) := by ring
      have h1 : 0 < 2 ^ (2 * u) := by positivity
      have h2 : 0 < 2 ^ (k + 1 + 1) := by positivity
      rw [this]
      exact lt_mul_of_one_lt_right (by omega) (by omega)

/-- The whole transform, from any state of the static variables that earlier calls can leave behind. -/
theorem fht_spec (m : Nat) (h2 : 2 ≤ m) (h17 : m ≤ 17) (x : Mem) (T : Trig) (hO : TrigOk T) :
    ∃ z T', fht (2 ^ m) x T = some (z, T') ∧ (∀ c < 2 ^ m, z c = hart (2 ^ m) x (c : ℤ)) ∧ (∀ c, 2 ^ m ≤ c → z c = x c) ∧ TrigOk T' := by
  obtain ⟨z0, a1, a2, a3⟩ := reorder_spec m (by omega) x
  have hl := logLoop_spec m 31 0 (by omega) (by omega)
  have hmn : m < 2 ^ m := Nat.lt_two_pow_self
  rcases Nat.mod_two_eq_zero_or_one m with he | he
  · obtain ⟨M, rfl⟩ : ∃ M, m = 2 + M := ⟨m - 2, by omega⟩
    obtain ⟨z1, b1, b2, b3⟩ := pass4_spec M x z0 a2
    by_cases hs : M = 0
    · subst hs
      refine ⟨z1, T, ?_, fun c hc => by rw [b2 c hc]; exact blk_all _ x c hc, fun c hc => (b3 c hc).trans (a3 c hc), hO⟩
      simp only [fht, a1, hl, Option.bind_some, he, if_true, b1]
      norm_num
    · obtain ⟨u, rfl⟩ : ∃ u, M = 2 * u + 2 := ⟨M / 2 - 1, by omega⟩
      obtain ⟨z', T', c1, c2, c3, c4⟩ := stages_spec x (2 + (2 * u + 2)) h17 u (2 ^ (2 + (2 * u + 2))) 0 z1 T (by omega) (by omega) b2 hO
      refine ⟨z', T', ?_, fun c hc => by rw [c2 c hc]; exact blk_all _ x c hc,
        fun c hc => (c3 c hc).trans ((b3 c hc).trans (a3 c hc)), c4⟩
      simp only [fht, a1, hl, Option.bind_some, he, if_true, b1]
      rw [if_neg]
      · exact c1
      · have : (2 : Nat) ^ (2 + (2 * u + 2)) = 16 * 2 ^ (2 * u) := by ring
        have : 0 < 2 ^ (2 * u) := by positivity
        omega
  · obtain ⟨M, rfl⟩ : ∃ M, m = 3 + M := ⟨m - 3, by omega⟩
    obtain ⟨z1, b1, b2, b3⟩ := pass8_spec M x z0 a2
    by_cases hs : M = 0
    · subst hs
      refine ⟨z1, T, ?_, fun c hc => by rw [b2 c hc]; exact blk_all _ x c hc, fun c hc => (b3 c hc).trans (a3 c hc), hO⟩
      simp only [fht, a1, hl, Option.bind_some, he, one_ne_zero, if_false, b1]
      norm_num
    · obtain ⟨u, rfl⟩ : ∃ u, M = 2 * u + 2 := ⟨M / 2 - 1, by omega⟩
      obtain ⟨z', T', c1, c2, c3, c4⟩ := stages_spec x (3 + (2 * u + 2)) h17 u (2 ^ (3 + (2 * u + 2))) 1 z1 T (by omega) (by omega) b2 hO
      refine ⟨z', T', ?_, fun c hc => by rw [c2 c hc]; exact blk_all _ x c hc,
        fun c hc => (c3 c hc).trans ((b3 c hc).trans (a3 c hc)), c4⟩
      simp only [fht, a1, hl, Option.bind_some, he, one_ne_zero, if_false, b1]
      rw [if_neg]
      · exact c1
      · have : (2 : Nat) ^ (3 + (2 * u + 2)) = 32 * 2 ^ (2 * u) := by ring
        have : 0 < 2 ^ (2 * u) := by positivity
        omega

end Verif.Fft.Mayer

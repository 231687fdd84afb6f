import Verif.Conv.MainProps

/-!
# The gathers `fconv` writes (C91)
-/

namespace Verif.Conv

open Finset Verif Verif.Fft Verif.Fft.Lib

noncomputable section

/-- What is known of one operation on two gathers holds of every gather written. -/
theorem fconv_gathers (P : Par) (F1 F2 : File) (w : Nat → Work) (hF : Files P F1 F2) (hn : P.nsam0 = max P.nt1 P.nt2)
    (ht : max P.nt1 P.nt2 ≤ P.ntmax) (Q : Gather → Gather → Out → Prop)
    (hc : ∀ a b nrec w d1 d2 cov s, nrec ≤ P.nxmax → Hist s → Holds P a P.nt1 nrec (max P.nt1 P.nt2) d1 →
      Holds P b P.nt2 nrec (max P.nt1 P.nt2) d2 → ∃ c s', combine P nrec (max P.nt1 P.nt2) (P.nsam0 * P.nxmax) w d1 d2 cov s = some (c, s') ∧
        Hist s' ∧ Q a b ⟨nrec, P.ntout (max P.nt1 P.nt2), weigh nrec (P.ntout (max P.nt1 P.nt2)) P.etapi c⟩) (s : St) (hs : Hist s) :
    ∃ outs, fconv P w F1 F2 s = some (outs, true) ∧ outs.length = F1.num ∧
      ∀ k, k < F1.num → ∃ o, outs[k]? = some o ∧ o.nrec = nrecOf F1 F2 k ∧ o.nt = P.ntout (max P.nt1 P.nt2) ∧ Q (F1.g k) (F2.partner k) o := by
  have h1 := hF.num1
  have h2 := hF.num2
  obtain ⟨x1, x2, x3⟩ := hF.nx1 0 h1
  obtain ⟨y1, y2, y3⟩ := hF.nx2 0 h2
  have hnr : max (F1.g 0).nx (F2.g 0).nx = nrecOf F1 F2 0 := by rw [nrecOf, if_pos h2]
  obtain ⟨outs, e, hl, ho⟩ := loop_spec P F1 F2 w hF hn ht Q hc (F1.num - 1) 0
    { nx2 := (F2.g 0).nx, nrec := max (F1.g 0).nx (F2.g 0).nx, nsam := P.nsam0, rep := false,
      d1 := fill0 (F1.g 0).nx P.nt1 (max (F1.g 0).nx (F2.g 0).nx) P.nsam0 P.etap (F1.g 0).dat fun _ => 0,
      d2 := fill0 (F2.g 0).nx P.nt2 (max (F1.g 0).nx (F2.g 0).nx) P.nsam0 P.etap (F2.g 0).dat fun _ => 0, conv := fun _ => 0, st := s }
    (by omega) ⟨hs, hn, hnr, fill0_holds P _ x1 (le_max_left _ _) (by dsimp only; omega), by
      rw [File.partner, Nat.zero_min, ← hnr]
      exact fill0_holds P _ y1 (le_max_right _ _) (by dsimp only; omega), ⟨fun h => by simp at h, fun h => by omega⟩, fun h => by simp at h⟩
  refine ⟨outs, ?_, by omega, fun k hk => ?_⟩
  · unfold fconv
    dsimp only
    rw [if_pos ⟨x3, y3, by omega, by omega, by omega, fun _ => by omega⟩, e]
  · obtain ⟨o, a, b⟩ := ho k (by omega)
    rw [Nat.zero_add] at b
    exact ⟨o, a, b⟩

/-! ### Convolution -/

/-- **Specification.**  The convolution of trace `i` of two gathers plus what is behind `N` samples, brought back to the beginning with the
factor `exp(alpha*N*dt)`. -/
def convTrace (P : Par) (N : Nat) (a b : Gather) (i t : Nat) : ℝ :=
  P.dt * (lconv (a.sample P.nt1 i) (b.sample P.nt2 i) t + Real.exp (P.alpha * N * P.dt) * lconv (a.sample P.nt1 i) (b.sample P.nt2 i) (t + N))

theorem etap_pow (P : Par) (j : Nat) : P.etap j = Real.exp (P.alpha * P.dt) ^ j := by
  rw [Par.etap, ← Real.exp_nat_mul]; congr 1; ring

theorem etapi_pow (P : Par) (h : P.shft = false) (j : Nat) : P.etapi j * Real.exp (P.alpha * P.dt) ^ j = 1 := by
  rw [Par.etapi, if_neg (by simp [h]), ← Real.exp_nat_mul, ← Real.exp_add]
  rw [show -P.alpha * j * P.dt + j * (P.alpha * P.dt) = 0 by ring, Real.exp_zero]

theorem Holds.pad {P : Par} {g : Gather} {nt nrec nsam : Nat} (ht : nt ≤ nsam) {d : Nat → ℝ} (h : Holds P g nt nrec nsam d) {i : Nat}
    (hi : i < nrec) : pad nsam (trace nsam d i) = fun j => g.sample nt i j * Real.exp (P.alpha * P.dt) ^ j := by
  funext j
  unfold Conv.pad trace
  split
  · rw [h i j hi (by assumption), etap_pow]
  · rw [Gather.sample, if_neg (by omega), zero_mul]

private theorem conv_op (P : Par) (hm : P.mode = .conv) (hsh : P.shift = false) (nsam : Nat) (h1 : P.nt1 ≤ nsam) (h2 : P.nt2 ≤ nsam)
    (h3 : 3 ≤ nsam) (h16 : nsam ≤ 16384) (a b : Gather) (nrec : Nat) (lend : Nat) (hle : nrec * nsam ≤ lend) (w : Work) (d1 d2 cov : Nat → ℝ)
    (s : St) (hs : Hist s) (hd1 : Holds P a P.nt1 nrec nsam d1) (hd2 : Holds P b P.nt2 nrec nsam d2) :
    ∃ c s', combine P nrec nsam lend w d1 d2 cov s = some (c, s') ∧ Hist s' ∧
      ∀ i t, i < nrec → t < nsam → weigh nrec (P.ntout nsam) P.etapi c (i * nsam + t) = convTrace P (optncr nsam) a b i t := by
  have hsf : P.shft = false := by rw [Par.shft, if_neg (by rw [hm]; decide), hsh]
  have hto : P.ntout nsam = nsam := by rw [Par.ntout, if_neg (by rw [hm]; decide)]
  obtain ⟨c, s', e, p, v⟩ := convol_wrap nrec nsam lend lend h3 h16 hle hle P.dt w d1 d2 cov s hs
  refine ⟨c, s', ?_, p, fun i t hi ht => ?_⟩
  · unfold combine
    rw [hm]
    dsimp only
    rw [hsf, e]
  · rw [hto, weigh_val nrec nsam _ _ i t hi ht, v i t hi ht, hd1.pad h1 hi, hd2.pad h2 hi, lconv_weight, lconv_weight, pow_add, convTrace]
    have hb := etapi_pow P hsf t
    have hN : Real.exp (P.alpha * P.dt) ^ optncr nsam = Real.exp (P.alpha * optncr nsam * P.dt) := by
      rw [← Real.exp_nat_mul]; congr 1; ring
    rw [hN]
    linear_combination (P.dt * (lconv (a.sample P.nt1 i) (b.sample P.nt2 i) t + Real.exp (P.alpha * optncr nsam * P.dt) *
      lconv (a.sample P.nt1 i) (b.sample P.nt2 i) (t + optncr nsam))) * hb

/-- **C91 (convolution).** -/
theorem fconv_convolution (P : Par) (F1 F2 : File) (w : Nat → Work) (hF : Files P F1 F2) (hm : P.mode = .conv) (hsh : P.shift = false)
    (hn : P.ntfft = none) (h3 : 3 ≤ max P.nt1 P.nt2) (h16 : max P.nt1 P.nt2 ≤ 16384) (ht : max P.nt1 P.nt2 ≤ P.ntmax) (s : St) (hs : Hist s) :
    ∃ outs, fconv P w F1 F2 s = some (outs, true) ∧ outs.length = F1.num ∧
      ∀ k, k < F1.num → ∃ o, outs[k]? = some o ∧ o.nrec = nrecOf F1 F2 k ∧ o.nt = max P.nt1 P.nt2 ∧
        ∀ i t, i < o.nrec → t < o.nt → o.dat (i * o.nt + t) = convTrace P (optncr (max P.nt1 P.nt2)) (F1.g k) (F2.partner k) i t := by
  have hn0 : P.nsam0 = max P.nt1 P.nt2 := by rw [Par.nsam0, hn, Option.getD_none]
  have hto : P.ntout (max P.nt1 P.nt2) = max P.nt1 P.nt2 := by rw [Par.ntout, if_neg (by rw [hm]; decide)]
  obtain ⟨outs, e, hl, ho⟩ := fconv_gathers P F1 F2 w hF hn0 ht
    (fun a b o => ∀ i t, i < o.nrec → t < o.nt → o.dat (i * o.nt + t) = convTrace P (optncr (max P.nt1 P.nt2)) a b i t)
    (fun a b nrec w d1 d2 cov s hx hs hd1 hd2 => by
      obtain ⟨c, s', e, p, v⟩ := conv_op P hm hsh _ (le_max_left _ _) (le_max_right _ _) h3 h16 a b nrec (P.nsam0 * P.nxmax)
        (by rw [hn0, Nat.mul_comm]; exact Nat.mul_le_mul_left _ hx) w d1 d2 cov s hs hd1 hd2
      exact ⟨c, s', e, p, fun i t hi ht => by rw [hto] at ht ⊢; have := v i t hi ht; rw [hto] at this; exact this⟩) s hs
  refine ⟨outs, e, hl, fun k hk => ?_⟩
  obtain ⟨o, a, b, c, q⟩ := ho k hk
  exact ⟨o, a, b, by rw [c, hto], q⟩

/-- **C91 (convolution without wrap-around).**  When the two traces together are at most one sample longer than the padded length, the
Laplace factor has no influence. -/
theorem convTrace_linear (P : Par) (N : Nat) (a b : Gather) (i t : Nat) (h : P.nt1 + P.nt2 ≤ N + 1) :
    convTrace P N a b i t = P.dt * ∑ p ∈ antidiagonal t, a.sample P.nt1 i p.1 * b.sample P.nt2 i p.2 := by
  rw [convTrace, lconv_zero P.nt1 P.nt2 (a.sample P.nt1 i) (b.sample P.nt2 i) (fun j hj => by rw [Gather.sample, if_neg (by omega)])
    (fun j hj => by rw [Gather.sample, if_neg (by omega)]) (t + N) (by omega), mul_zero, add_zero, lconv]

/-- The same for a single gather and a transform length asked for with `ntfft`, as long as it fits into `ntmax`. -/
theorem fconv_ntfft_partial (P : Par) (F1 F2 : File) (w : Nat → Work) (hF : Files P F1 F2) (h1 : F1.num = 1) (hm : P.mode = .conv)
    (hsh : P.shift = false) (n : Nat) (hn : P.ntfft = some n) (hle : max P.nt1 P.nt2 ≤ n) (h3 : 3 ≤ n) (h16 : n ≤ 16384) (ht : n ≤ P.ntmax)
    (s : St) (hs : Hist s) :
    ∃ o, fconv P w F1 F2 s = some ([o], true) ∧ o.nrec = nrecOf F1 F2 0 ∧ o.nt = n ∧
        ∀ i t, i < o.nrec → t < n → o.dat (i * n + t) = convTrace P (optncr n) (F1.g 0) (F2.g 0) i t := by
  have hn0 : P.nsam0 = n := by rw [Par.nsam0, hn, Option.getD_some]
  have hto : P.ntout n = n := by rw [Par.ntout, if_neg (by rw [hm]; decide)]
  obtain ⟨x1, x2, x3⟩ := hF.nx1 0 hF.num1
  obtain ⟨y1, y2, y3⟩ := hF.nx2 0 hF.num2
  have hnr : max (F1.g 0).nx (F2.g 0).nx = nrecOf F1 F2 0 := by rw [nrecOf, if_pos hF.num2]
  obtain ⟨c, s', e, p, v⟩ := conv_op P hm hsh n (by omega) (by omega) h3 h16 (F1.g 0) (F2.g 0) (max (F1.g 0).nx (F2.g 0).nx) (P.nsam0 * P.nxmax)
    (by rw [hn0, Nat.mul_comm]; exact Nat.mul_le_mul_left _ (by omega)) (w 0) _ _ (fun _ => 0) s hs
    (fill0_holds P (F1.g 0) x1 (le_max_left _ _) (by omega)) (fill0_holds P (F2.g 0) y1 (le_max_right _ _) (by omega))
  refine ⟨⟨max (F1.g 0).nx (F2.g 0).nx, P.ntout n, weigh (max (F1.g 0).nx (F2.g 0).nx) (P.ntout n) P.etapi c⟩, ?_, hnr, hto, v⟩
  unfold fconv
  dsimp only
  rw [if_pos ⟨x3, y3, by omega, by omega, by omega, fun _ => by omega⟩, h1, hn0, Nat.sub_self]
  unfold loop one
  dsimp only
  rw [hn0] at e ⊢
  rw [e, Option.bind_some]
  dsimp only
  rw [if_pos (by omega), Option.map_some]

/-! ### Correlation -/

/-- **C91 (correlation).**  Without Laplace factor, at the lags that fit. -/
theorem fconv_correlation (P : Par) (F1 F2 : File) (w : Nat → Work) (hF : Files P F1 F2) (hm : P.mode = .cor1) (hsh : P.shift = false)
    (hal : P.alpha = 0) (hn : P.ntfft = none) (h3 : 3 ≤ max P.nt1 P.nt2) (h16 : max P.nt1 P.nt2 ≤ 16384) (ht : max P.nt1 P.nt2 ≤ P.ntmax)
    (s : St) (hs : Hist s) :
    ∃ outs, fconv P w F1 F2 s = some (outs, true) ∧ outs.length = F1.num ∧
      ∀ k, k < F1.num → ∃ o, outs[k]? = some o ∧ o.nrec = nrecOf F1 F2 k ∧ o.nt = max P.nt1 P.nt2 ∧
        (∀ i l, i < o.nrec → l < o.nt → l + P.nt2 ≤ optncr o.nt → o.dat (i * o.nt + l) =
          P.dt * ∑ u ∈ range (o.nt - l), (F1.g k).sample P.nt1 i (u + l) * (F2.partner k).sample P.nt2 i u) ∧
        ∀ i l, i < o.nrec → 0 < l → optncr o.nt - l < o.nt → l + P.nt1 ≤ optncr o.nt → l ≤ optncr o.nt → o.dat (i * o.nt + (optncr o.nt - l)) =
          P.dt * ∑ u ∈ range (o.nt - l), (F1.g k).sample P.nt1 i u * (F2.partner k).sample P.nt2 i (u + l) := by
  have hn0 : P.nsam0 = max P.nt1 P.nt2 := by rw [Par.nsam0, hn, Option.getD_none]
  have hto : P.ntout (max P.nt1 P.nt2) = max P.nt1 P.nt2 := by rw [Par.ntout, if_neg (by rw [hm]; decide)]
  have hsf : P.shft = false := by rw [Par.shft, if_neg (by rw [hm]; decide), hsh]
  have he : ∀ j, P.etap j = 1 := fun j => by rw [Par.etap, hal]; simp
  have hei : ∀ j, P.etapi j = 1 := fun j => by rw [Par.etapi, if_neg (by simp [hsf]), hal]; simp
  obtain ⟨outs, e, hl, ho⟩ := fconv_gathers P F1 F2 w hF hn0 ht
    (fun a b o => 
        (∀ i l, i < o.nrec → l < o.nt → l + P.nt2 ≤ optncr o.nt → o.dat (i * o.nt + l) =
          P.dt * ∑ u ∈ range (o.nt - l), a.sample P.nt1 i (u + l) * b.sample P.nt2 i u) ∧
        ∀ i l, i < o.nrec → 0 < l → optncr o.nt - l < o.nt → l + P.nt1 ≤ optncr o.nt → l ≤ optncr o.nt → o.dat (i * o.nt + (optncr o.nt - l)) =
          P.dt * ∑ u ∈ range (o.nt - l), a.sample P.nt1 i u * b.sample P.nt2 i (u + l))
    (fun a b nrec w d1 d2 cov s hx hs hd1 hd2 => by
      have hle : nrec * max P.nt1 P.nt2 ≤ P.nsam0 * P.nxmax := by rw [hn0, Nat.mul_comm]; exact Nat.mul_le_mul_left _ hx
      have z1 : ∀ i j, i < nrec → P.nt1 ≤ j → j < max P.nt1 P.nt2 → d1 (i * max P.nt1 P.nt2 + j) = 0 := fun i j hi hj hj2 => by
        rw [hd1 i j hi hj2, Gather.sample, if_neg (by omega), zero_mul]
      have z2 : ∀ i j, i < nrec → P.nt2 ≤ j → j < max P.nt1 P.nt2 → d2 (i * max P.nt1 P.nt2 + j) = 0 := fun i j hi hj hj2 => by
        rw [hd2 i j hi hj2, Gather.sample, if_neg (by omega), zero_mul]
      obtain ⟨c, s', e, p, u, v⟩ := corr_lags nrec (max P.nt1 P.nt2) (P.nsam0 * P.nxmax) (P.nsam0 * P.nxmax) P.nt1 P.nt2 h3 h16 hle hle P.dt w
        d1 d2 cov z1 z2 s hs
      refine ⟨c, s', ?_, p, fun i l hi hl hl2 => ?_, fun i l hi hl0 hl hl1 hl2 => ?_⟩
      · unfold combine
        rw [hm]
        dsimp only
        rw [hsf, e]
      · rw [hto] at hl hl2 ⊢
        dsimp only at hi hl hl2 ⊢
        rw [weigh_val nrec _ _ _ i l hi hl, hei, mul_one, u i l hi hl hl2]
        refine congrArg _ (sum_congr rfl fun q hq => ?_)
        have hq := mem_range.mp hq
        rw [hd1 i _ hi (by omega), hd2 i _ hi (by omega), he, he, mul_one, mul_one]
      · rw [hto] at hl hl1 hl2 ⊢
        dsimp only at hi hl hl1 hl2 ⊢
        rw [weigh_val nrec _ _ _ i _ hi hl, hei, mul_one, v i l hi hl0 hl hl1 hl2]
        refine congrArg _ (sum_congr rfl fun q hq => ?_)
        have hq := mem_range.mp hq
        rw [hd1 i _ hi (by omega), hd2 i _ hi (by omega), he, he, mul_one, mul_one]) s hs
  refine ⟨outs, e, hl, fun k hk => ?_⟩
  obtain ⟨o, a, b, c, q⟩ := ho k hk
  exact ⟨o, a, b, by rw [c, hto], q⟩

/-! ### What goes wrong -/

/-- **C91 fails with `ntfft`.**  A transform length above `ntmax` (by default the length of the longer traces) leaves the array of the
inverse Laplace factors. -/
theorem ntfft_overflows (P : Par) (F1 F2 : File) (w : Nat → Work) (s : St) (hm : P.mode ≠ .cor3) (n : Nat) (hn : P.ntfft = some n)
    (h : P.ntmax < n) : fconv P w F1 F2 s = none := by
  have hn0 : P.nsam0 = n := by rw [Par.nsam0, hn, Option.getD_some]
  have h1 : ∀ lend w v, v.nsam = n → one P lend w v = none := by
    intro lend w v hv
    unfold one
    cases combine P v.nrec v.nsam lend w v.d1 v.d2 v.conv v.st with
    | none => rfl
    | some r =>
      obtain ⟨c, t⟩ := r
      rw [Option.bind_some]
      dsimp only
      rw [if_neg]
      rw [Par.ntout, if_neg hm, hv]; omega
  unfold fconv
  dsimp only
  split
  · cases F1.num - 1 <;> unfold loop <;> rw [h1 _ _ _ hn0] <;> rfl
  · rfl

/-- The first result has the length asked for with `ntfft`, the later ones have not. -/
theorem ntfft_forgotten (P : Par) (F1 F2 : File) (w : Nat → Work) (s : St) (outs : List Out) (e : fconv P w F1 F2 s = some (outs, true)) :
    (∀ o, outs[0]? = some o → o.nt = P.ntout P.nsam0) ∧ ∀ k o, 0 < k → outs[k]? = some o → o.nt = P.ntout (max P.nt1 P.nt2) := by
  have h1 : ∀ lend w v r, one P lend w v = some r → r.1.nt = P.ntout v.nsam := by
    intro lend w v r h
    unfold one at h
    cases hc : combine P v.nrec v.nsam lend w v.d1 v.d2 v.conv v.st with
    | none => rw [hc] at h; cases h
    | some c =>
      rw [hc, Option.bind_some] at h
      dsimp only at h
      split at h
      · cases h; rfl
      · cases h
  have key : ∀ r k v outs, loop P F1 F2 w r k v = some (outs, true) →
      (∀ o, outs[0]? = some o → o.nt = P.ntout v.nsam) ∧ ∀ k o, 0 < k → outs[k]? = some o → o.nt = P.ntout (max P.nt1 P.nt2) := by
    intro r
    induction r with
    | zero =>
      intro k v outs h
      unfold loop at h
      cases ho : one P (P.nsam0 * P.nxmax) (w k) v with
      | none => rw [ho] at h; cases h
      | some x =>
        rw [ho, Option.map_some] at h
        cases h
        refine ⟨fun o h => ?_, fun k o hk h => ?_⟩
        · cases h; exact h1 _ _ _ _ ho
        · cases k with
          | zero => omega
          | succ k => simp at h
    | succ r ih =>
      intro k v outs h
      unfold loop at h
      cases ho : one P (P.nsam0 * P.nxmax) (w k) v with
      | none => rw [ho] at h; cases h
      | some x =>
        obtain ⟨out, v'⟩ := x
        rw [ho, Option.bind_some] at h
        dsimp only at h
        split at h
        · split at h
          · cases hr : read2 P F2 v'.rep v'.nx2 (k + 1) with
            | none => rw [hr] at h; cases h
            | some y =>
              obtain ⟨nx2, rep, g⟩ := y
              rw [hr, Option.bind_some] at h
              dsimp only at h
              split at h
              · rw [Option.map_eq_some_iff] at h
                obtain ⟨⟨zo, zb⟩, hz, h⟩ := h
                cases h
                obtain ⟨a, b⟩ := ih _ _ zo hz
                refine ⟨fun o h => ?_, fun k o hk h => ?_⟩
                · cases h; exact h1 _ _ _ _ ho
                · cases k with
                  | zero => omega
                  | succ k =>
                    rw [List.getElem?_cons_succ] at h
                    cases k with
                    | zero => exact a o h
                    | succ k => exact b (k + 1) o (by omega) h
              · cases h
          · cases h
        · cases h
  unfold fconv at e
  dsimp only at e
  split at e
  · exact key _ _ _ _ e
  · cases e

/-- **C91 fails when a later gather is larger.**  The read buffer is made for the first gather (unless `nxmax` is given). -/
theorem later_gather_overflows (P : Par) (F1 F2 : File) (w : Nat → Work) (s : St) (h2 : 2 ≤ F1.num) (ht : 0 < P.nt1)
    (hl : P.len1 = P.nt1 * (F1.g 0).nx) (h : (F1.g 0).nx < (F1.g 1).nx) : fconv P w F1 F2 s = none := by
  have hn : ¬ (F1.g 1).nx * P.nt1 ≤ P.len1 := by
    rw [hl, Nat.mul_comm]
    exact Nat.not_le.mpr (Nat.mul_lt_mul_of_pos_left h ht)
  obtain ⟨r, hr⟩ : ∃ r, F1.num - 1 = r + 1 := ⟨F1.num - 2, by omega⟩
  unfold fconv
  dsimp only
  split
  · rw [hr]
    unfold loop
    generalize one P (P.nsam0 * P.nxmax) (w 0) _ = x
    cases x with
    | none => rfl
    | some x =>
      rw [Option.bind_some]
      dsimp only
      rw [if_neg hn]
  · rfl

end

end Verif.Conv

import Verif.Conv.MainProps2

/-!
# `fconv`: the repeated trace, and `auto=1` (C91, C92)
-/

namespace Verif.Conv

open Finset Verif Verif.Fft Verif.Fft.Lib

noncomputable section

private theorem lconv_none (x y : Nat → ℝ) (h : ∀ j, y j = 0) (t : Nat) : lconv x y t = 0 :=
  sum_eq_zero fun p _ => by rw [h, mul_zero]

/-- **C91 fails for a single trace in the second file.**  When the first gather of the first file has one trace and the second gather has
two, the trace of the second file is not repeated for the second trace: the result is zero, whatever the data. -/
theorem repeated_trace_lost (P : Par) (F1 F2 : File) (w : Nat → Work) (h1 : F1.num = 2) (h2 : F2.num = 1) (hx0 : (F1.g 0).nx = 1)
    (hx1 : (F1.g 1).nx = 2) (hy : (F2.g 0).nx = 1) (hm : P.mode = .conv) (hsh : P.shift = false) (hn : P.ntfft = none) (hnt : P.nt1 = P.nt2)
    (h3 : 3 ≤ P.nt1) (h16 : P.nt1 ≤ 16384) (ht : P.nt1 ≤ P.ntmax) (hnx : 2 ≤ P.nxmax) (hl1 : 2 * P.nt1 ≤ P.len1) (hl2 : P.nt1 ≤ P.len2)
    (s : St) (hs : Hist s) :
    ∃ o0 o1, fconv P w F1 F2 s = some ([o0, o1], true) ∧ o1.nrec = 2 ∧ o1.nt = P.nt1 ∧ ∀ t, t < P.nt1 → o1.dat (P.nt1 + t) = 0 := by
  have hmax : max P.nt1 P.nt2 = P.nt1 := by omega
  have hn0 : P.nsam0 = P.nt1 := by rw [Par.nsam0, hn, Option.getD_none, hmax]
  have hsf : P.shft = false := by rw [Par.shft, if_neg (by rw [hm]; decide), hsh]
  have hto : P.ntout P.nt1 = P.nt1 := by rw [Par.ntout, if_neg (by rw [hm]; decide)]
  -- the second trace of the second buffer is still zero
  have hz : ∀ t, t < P.nt1 → fill0 1 P.nt2 1 P.nt1 P.etap (F2.g 0).dat (fun _ => 0) (P.nt1 + t) = 0 := by
    intro t _
    have w1 := Writes.forN (n := 1) (f := fun i d => forN P.nt2 (fun j d => aset d (i * P.nt1 + j) ((F2.g 0).dat (i * P.nt2 + j) * P.etap j)) d)
      (fun i _ => Writes.forN (n := P.nt2) (fun j _ => Writes.aset (i * P.nt1 + j) ((F2.g 0).dat (i * P.nt2 + j) * P.etap j)))
    refine w1.frame (fun _ => (0 : ℝ)) ?_
    rintro v ⟨i, hi, j, hj, e, _⟩
    obtain rfl : i = 0 := by omega
    omega
  have run : ∀ nrec w d1 d2 cov s, nrec ≤ P.nxmax → Hist s → ∃ c s', combine P nrec P.nt1 (P.nsam0 * P.nxmax) w d1 d2 cov s = some (c, s') ∧
      Hist s' ∧ ((∀ t, t < P.nt1 → d2 (P.nt1 + t) = 0) → 2 ≤ nrec → ∀ t, t < P.nt1 → c (1 * P.nt1 + t) = 0) := by
    intro nrec w d1 d2 cov s hle hs
    have hle' : nrec * P.nt1 ≤ P.nsam0 * P.nxmax := by rw [hn0, Nat.mul_comm]; exact Nat.mul_le_mul_left _ hle
    obtain ⟨c, s', e, p, v⟩ := convol_wrap nrec P.nt1 _ _ h3 h16 hle' hle' P.dt w d1 d2 cov s hs
    refine ⟨c, s', ?_, p, fun hd hr t ht => ?_⟩
    · unfold combine
      rw [hm]
      dsimp only
      rw [hsf, e]
    · have hp : ∀ j, pad P.nt1 (trace P.nt1 d2 1) j = 0 := by
        intro j
        unfold pad trace
        split
        · rw [Nat.one_mul]; exact hd j (by assumption)
        · rfl
      rw [v 1 t (by omega) ht, lconv_none _ _ hp, lconv_none _ _ hp, add_zero, mul_zero]
  obtain ⟨c0, s0, e0, p0, _⟩ := run 1 (w 0) (fill0 1 P.nt1 1 P.nt1 P.etap (F1.g 0).dat fun _ => 0)
    (fill0 1 P.nt2 1 P.nt1 P.etap (F2.g 0).dat fun _ => 0) (fun _ => 0) s (by omega) hs
  obtain ⟨c1, s1, e1, _, q1⟩ := run 2 (w 1) (fill 2 P.nt1 2 P.nt1 P.etap (F1.g 1).dat (fill0 1 P.nt1 1 P.nt1 P.etap (F1.g 0).dat fun _ => 0))
    (fill0 1 P.nt2 1 P.nt1 P.etap (F2.g 0).dat fun _ => 0) (weigh 1 P.nt1 P.etapi c0) s0 (by omega) p0
  refine ⟨⟨1, P.nt1, weigh 1 P.nt1 P.etapi c0⟩, ⟨2, P.nt1, weigh 2 P.nt1 P.etapi c1⟩, ?_, rfl, rfl, fun t ht => ?_⟩
  · unfold fconv
    dsimp only
    rw [hx0, hy, hn0, if_pos ⟨by omega, by omega, le_rfl, by omega, by omega, fun _ => by omega⟩, h1, show 2 - 1 = 0 + 1 from rfl, max_self]
    unfold loop one
    dsimp only
    rw [e0, Option.bind_some]
    dsimp only
    rw [hto, if_pos ht, Option.bind_some]
    dsimp only
    unfold read2
    rw [Nat.zero_add, hx1, if_pos hl1, if_pos ⟨ht, hnx⟩, if_neg (by simp), if_neg (by omega), Option.bind_some]
    dsimp only
    rw [hy, hmax, show max 2 1 = 2 from rfl, if_pos ⟨hnx, by omega⟩]
    unfold loop one refill
    dsimp only
    rw [e1, Option.bind_some]
    dsimp only
    rw [hto, if_pos ht, Option.map_some, Option.map_some]
  · dsimp only
    have := weigh_val 2 P.nt1 P.etapi c1 1 t (by omega) ht
    rw [Nat.one_mul] at this
    have hc := q1 hz le_rfl t ht
    rw [Nat.one_mul] at hc
    rw [this, hc, zero_mul]

/-! ### `auto=1` -/

private theorem copyLoop (n : Nat) (a d : Nat → ℝ) (m : Nat) (hm : m < n) : forN n (fun j d => aset d j (a j)) d m = a m := by
  have w := Writes.forN (n := n) (f := fun j d => aset d j (a j)) (fun j _ => Writes.aset j (a j))
  exact w.val d ⟨m, hm, rfl, rfl⟩ (by rintro v ⟨j, _, rfl, rfl⟩; rfl)

/-- What holds with `auto=1` when gather `k` is in the buffers. -/
private structure ReadyA (P : Par) (F1 : File) (n k : Nat) (v : Vars) : Prop where
  st : Hist v.st
  nsam : v.nsam = P.nt1
  nrec : v.nrec = n
  nx2 : v.nx2 = n
  d1 : Holds P (F1.g k) P.nt1 n P.nt1 v.d1
  d2 : Holds P (F1.g k) P.nt1 n P.nt1 v.d2

/-- **C92.**  With `auto=1` and gathers of the same number of traces every gather is combined with itself: what is known of one operation
holds of every gather written. -/
theorem auto_gathers_partial (P : Par) (F1 : File) (w : Nat → Work) (n : Nat) (hn : 0 < n) (h1 : 0 < F1.num)
    (hnx : ∀ k, k < F1.num → (F1.g k).nx = n) (hmax : n ≤ P.nxmax) (ht : P.nt1 ≤ P.ntmax) (hl : n * P.nt1 ≤ P.len1)
    (Q : Gather → Out → Prop)
    (hc : ∀ a w d1 d2 cov s, Hist s → Holds P a P.nt1 n P.nt1 d1 → Holds P a P.nt1 n P.nt1 d2 →
      ∃ c s', combine P n P.nt1 (P.nt1 * n) w d1 d2 cov s = some (c, s') ∧ Hist s' ∧
        Q a ⟨n, P.ntout P.nt1, weigh n (P.ntout P.nt1) P.etapi c⟩) (junk1 junk2 : Nat → ℝ) (s : St) (hs : Hist s) :
    ∃ outs, fconvAuto P w F1 junk1 junk2 s = some (outs, true) ∧ outs.length = F1.num ∧
      ∀ k, k < F1.num → ∃ o, outs[k]? = some o ∧ o.nrec = n ∧ o.nt = P.ntout P.nt1 ∧ Q (F1.g k) o := by
  have hout : P.ntout P.nt1 ≤ P.ntmax := by unfold Par.ntout; split <;> omega
  have step : ∀ k v w, ReadyA P F1 n k v → ∃ o v', one P (P.nt1 * n) w v = some (o, v') ∧ ReadyA P F1 n k v' ∧
      o.nrec = n ∧ o.nt = P.ntout P.nt1 ∧ Q (F1.g k) o := by
    intro k v w hv
    obtain ⟨c, s', e, p, q⟩ := hc (F1.g k) w v.d1 v.d2 v.conv v.st hv.st hv.d1 hv.d2
    refine ⟨_, { v with conv := weigh n (P.ntout P.nt1) P.etapi c, st := s' }, ?_, ⟨p, hv.nsam, hv.nrec, hv.nx2, hv.d1, hv.d2⟩, rfl, rfl, q⟩
    unfold one
    rw [hv.nsam, hv.nrec, e, Option.bind_some]
    dsimp only
    rw [if_pos hout]
  have both : ∀ a (d1 d2 : Nat → ℝ), Holds P a P.nt1 n P.nt1 d1 → Holds P a P.nt1 n P.nt1 (forN (P.nt1 * n) (fun j d => aset d j (d1 j)) d2) := by
    intro a d1 d2 h i j hi hj
    rw [copyLoop _ _ _ _ (by rw [Nat.mul_comm P.nt1 n]; exact row_le hi hj), h i j hi hj]
  have main : ∀ r k v, k + r + 1 = F1.num → ReadyA P F1 n k v →
      ∃ outs, autoLoop P F1 (P.nt1 * n) n w r k v = some (outs, true) ∧ outs.length = r + 1 ∧
        ∀ j, j ≤ r → ∃ o, outs[j]? = some o ∧ o.nrec = n ∧ o.nt = P.ntout P.nt1 ∧ Q (F1.g (k + j)) o := by
    intro r
    induction r with
    | zero =>
      intro k v hk hv
      obtain ⟨o, v', e, hv', a, b, q⟩ := step k v (w k) hv
      refine ⟨[o], ?_, rfl, fun j hj => ⟨o, ?_, a, b, ?_⟩⟩
      · unfold autoLoop
        rw [e, Option.map_some]
      · obtain rfl : j = 0 := by omega
        rfl
      · obtain rfl : j = 0 := by omega
        exact q
    | succ r ih =>
      intro k v hk hv
      obtain ⟨o, v', e, hv', a, b, q⟩ := step k v (w k) hv
      have hx := hnx (k + 1) (by omega)
      have hf := fill_holds P (F1.g (k + 1)) (by omega) (le_of_eq hx) (le_refl P.nt1) v'.d1
      rw [hx] at hf
      obtain ⟨outs, e3, hlen, ho⟩ := ih (k + 1) 
        { v' with nx2 := n, nrec := n, nsam := P.nt1, d1 := fill n P.nt1 n P.nt1 P.etap (F1.g (k + 1)).dat v'.d1,
                  d2 := forN (P.nt1 * n) (fun j d => aset d j (fill n P.nt1 n P.nt1 P.etap (F1.g (k + 1)).dat v'.d1 j)) v'.d2 }
        (by omega) ⟨hv'.st, rfl, rfl, rfl, hf, both _ _ _ hf⟩
      refine ⟨o :: outs, ?_, by rw [List.length_cons, hlen], fun j hj => ?_⟩
      · unfold autoLoop
        rw [e, Option.bind_some]
        dsimp only
        rw [hx, if_pos hl, if_pos ⟨ht, hmax⟩, hv'.nx2, max_self, if_pos ⟨by rw [Nat.mul_comm], le_rfl⟩, e3, Option.map_some]
      · cases j with
        | zero => exact ⟨o, rfl, a, b, q⟩
        | succ j =>
          obtain ⟨o', e', q'⟩ := ho j (by omega)
          rw [show k + (j + 1) = k + 1 + j by omega]
          exact ⟨o', by rw [List.getElem?_cons_succ]; exact e', q'⟩
  have hx := hnx 0 h1
  have w1 := Writes.forN (n := n) (f := fun i d => forN P.nt1 (fun j d => aset d (i * P.nt1 + j) ((F1.g 0).dat (i * P.nt1 + j) * P.etap j)) d)
    (fun i _ => Writes.forN (n := P.nt1) (fun j _ => Writes.aset (i * P.nt1 + j) ((F1.g 0).dat (i * P.nt1 + j) * P.etap j)))
  have hd : Holds P (F1.g 0) P.nt1 n P.nt1
      (forN n (fun i d => forN P.nt1 (fun j d => aset d (i * P.nt1 + j) ((F1.g 0).dat (i * P.nt1 + j) * P.etap j)) d) junk1) := by
    intro i j hi hj
    rw [Gather.sample, if_pos hj, hx, show min i (n - 1) = i by omega]
    refine w1.val _ ⟨i, hi, j, hj, rfl, rfl⟩ ?_
    rintro v ⟨i', hi', j', hj', e, rfl⟩
    obtain ⟨rfl, rfl⟩ := rc_inj (le_refl P.nt1) hj hj' e
    rfl
  obtain ⟨outs, e, hlen, ho⟩ := main (F1.num - 1) 0
    { nx2 := n, nrec := n, nsam := P.nt1, rep := false,
      d1 := forN n (fun i d => forN P.nt1 (fun j d => aset d (i * P.nt1 + j) ((F1.g 0).dat (i * P.nt1 + j) * P.etap j)) d) junk1,
      d2 := forN (P.nt1 * n) (fun j d => aset d j (forN n (fun i d => forN P.nt1 (fun j d => aset d (i * P.nt1 + j)
        ((F1.g 0).dat (i * P.nt1 + j) * P.etap j)) d) junk1 j)) junk2,
      conv := fun _ => 0, st := s } (by omega) ⟨hs, rfl, rfl, rfl, hd, both _ _ _ hd⟩
  refine ⟨outs, ?_, by omega, fun k hk => ?_⟩
  · unfold fconvAuto
    dsimp only
    rw [hx, if_pos ⟨hl, hmax, fun _ => ht⟩, e]
  · obtain ⟨o, a, b⟩ := ho k (by omega)
    rw [Nat.zero_add] at b
    exact ⟨o, a, b⟩

/-- **C92 (autocorrelation).**  Without Laplace factor: at the lags that fit, every trace is correlated with itself. -/
theorem auto_correlation_partial (P : Par) (F1 : File) (w : Nat → Work) (n : Nat) (hn : 0 < n) (h1 : 0 < F1.num)
    (hnx : ∀ k, k < F1.num → (F1.g k).nx = n) (hmax : n ≤ P.nxmax) (ht : P.nt1 ≤ P.ntmax) (hl : n * P.nt1 ≤ P.len1) (hm : P.mode = .cor1)
    (hsh : P.shift = false) (hal : P.alpha = 0) (h3 : 3 ≤ P.nt1) (h16 : P.nt1 ≤ 16384) (junk1 junk2 : Nat → ℝ) (s : St) (hs : Hist s) :
    ∃ outs, fconvAuto P w F1 junk1 junk2 s = some (outs, true) ∧ outs.length = F1.num ∧
      ∀ k, k < F1.num → ∃ o, outs[k]? = some o ∧ o.nrec = n ∧ o.nt = P.nt1 ∧
        ∀ i l, i < n → l < P.nt1 → l + P.nt1 ≤ optncr P.nt1 → o.dat (i * P.nt1 + l) =
          P.dt * ∑ u ∈ range (P.nt1 - l), (F1.g k).dat (i * P.nt1 + (u + l)) * (F1.g k).dat (i * P.nt1 + u) := by
  have hto : P.ntout P.nt1 = P.nt1 := by rw [Par.ntout, if_neg (by rw [hm]; decide)]
  have hsf : P.shft = false := by rw [Par.shft, if_neg (by rw [hm]; decide), hsh]
  have he : ∀ j, P.etap j = 1 := fun j => by rw [Par.etap, hal]; simp
  have hei : ∀ j, P.etapi j = 1 := fun j => by rw [Par.etapi, if_neg (by simp [hsf]), hal]; simp
  obtain ⟨outs, e, hlen, ho⟩ := auto_gathers_partial P F1 w n hn h1 hnx hmax ht hl
    (fun a o => a.nx = n → ∀ i l, i < n → l < P.nt1 → l + P.nt1 ≤ optncr P.nt1 → o.dat (i * P.nt1 + l) =
          P.dt * ∑ u ∈ range (P.nt1 - l), a.dat (i * P.nt1 + (u + l)) * a.dat (i * P.nt1 + u))
    (fun a w d1 d2 cov s hs hd1 hd2 => by
      obtain ⟨c, s', e, p, u, v⟩ := corr_lags n P.nt1 (P.nt1 * n) (P.nt1 * n) P.nt1 P.nt1 h3 h16 (by rw [Nat.mul_comm]) (by rw [Nat.mul_comm])
        P.dt w d1 d2 cov (fun i j _ _ _ => by omega) (fun i j _ _ _ => by omega) s hs
      refine ⟨c, s', ?_, p, fun ha i l hi hl hl2 => ?_⟩
      · unfold combine
        rw [hm]
        dsimp only
        rw [hsf, e]
      · dsimp only
        rw [hto, weigh_val n _ _ _ i l hi hl, hei, mul_one, u i l hi hl hl2]
        refine congrArg _ (sum_congr rfl fun q hq => ?_)
        have hq := mem_range.mp hq
        rw [hd1 i _ hi (by omega), hd2 i _ hi (by omega), he, he, mul_one, mul_one, Gather.sample, Gather.sample, if_pos (by omega),
          if_pos (by omega), ha, show min i (n - 1) = i by omega]) junk1 junk2 s hs
  refine ⟨outs, e, hlen, fun k hk => ?_⟩
  obtain ⟨o, a, b, c, q⟩ := ho k hk
  exact ⟨o, a, b, by rw [c, hto], q (hnx k hk)⟩

/-- **C92 fails for a smaller gather.**  Whatever is written after the first gather has at least as many traces as the first gather. -/
theorem auto_extra_traces (P : Par) (F1 : File) (w : Nat → Work) (junk1 junk2 : Nat → ℝ) (s : St) (outs : List Out)
    (e : fconvAuto P w F1 junk1 junk2 s = some (outs, true)) : ∀ (k : Nat) (o : Out), outs[k]? = some o → (F1.g 0).nx ≤ o.nrec := by
  have h1 : ∀ lend w v r, one P lend w v = some r → r.1.nrec = v.nrec ∧ r.2.nx2 = v.nx2 := by
    intro lend w v r h
    unfold one at h
    cases hc : combine P v.nrec v.nsam lend w v.d1 v.d2 v.conv v.st with
    | none => rw [hc] at h; cases h
    | some c =>
      rw [hc, Option.bind_some] at h
      dsimp only at h
      split at h
      · cases h; exact ⟨rfl, rfl⟩
      · cases h
  have key : ∀ lend nxh r k v outs, autoLoop P F1 lend nxh w r k v = some (outs, true) → v.nx2 = (F1.g 0).nx → (F1.g 0).nx ≤ v.nrec →
      ∀ (k : Nat) (o : Out), outs[k]? = some o → (F1.g 0).nx ≤ o.nrec := by
    intro lend nxh r
    induction r with
    | zero =>
      intro k v outs h hx hle j o hj
      unfold autoLoop at h
      cases ho : one P lend (w k) v with
      | none => rw [ho] at h; cases h
      | some x =>
        rw [ho, Option.map_some] at h
        cases h
        cases j with
        | zero => cases hj; rw [(h1 _ _ _ _ ho).1]; exact hle
        | succ j => simp at hj
    | succ r ih =>
      intro k v outs h hx hle j o hj
      unfold autoLoop at h
      cases ho : one P lend (w k) v with
      | none => rw [ho] at h; cases h
      | some x =>
        obtain ⟨out, v'⟩ := x
        obtain ⟨a1, a2⟩ := h1 _ _ _ _ ho
        rw [ho, Option.bind_some] at h
        dsimp only at h a1 a2
        split at h
        · split at h
          · split at h
            · rw [Option.map_eq_some_iff] at h
              obtain ⟨⟨zo, zb⟩, hz, h⟩ := h
              cases h
              cases j with
              | zero => cases hj; rw [a1]; exact hle
              | succ j =>
                rw [List.getElem?_cons_succ] at hj
                refine ih _ _ zo hz (by rw [← hx, ← a2]) ?_ j o hj
                dsimp only
                rw [a2, hx]; exact le_max_right _ _
            · cases h
          · cases h
        · cases h
  unfold fconvAuto at e
  dsimp only at e
  split at e
  · exact key _ _ _ _ _ _ e rfl le_rfl
  · cases e

/-! ### Cases that meet the hypotheses -/

/-- Two gathers of two traces in the first file, one gather of one trace in the second. -/
def files1 : File := ⟨2, fun k => ⟨2, fun j => j + k⟩⟩
/-- One gather of one trace. -/
def files2 : File := ⟨1, fun _ => ⟨1, fun j => j⟩⟩
/-- Traces of eight samples. -/
def par (m : Mode) (alpha : ℝ) : Par := ⟨8, 5, 16, 16, 8, 2, none, m, false, alpha, 1, 0, 0, 0⟩

theorem files_ok (m : Mode) (alpha : ℝ) : Files (par m alpha) files1 files2 where
  num1 := by norm_num [files1]
  num2 := by norm_num [files2]
  nx1 := fun k _ => by norm_num [files1, par]
  nx2 := fun k _ => by norm_num [files2, par]
  rep := fun k _ _ => by simp [nrecOf, files1, files2]

example : ∃ outs, fconv (par .conv (-2)) (fun _ => work0) files1 files2 St.init = some (outs, true) ∧ outs.length = 2 := by
  obtain ⟨outs, e, h, _⟩ := fconv_convolution (par .conv (-2)) files1 files2 (fun _ => work0) (files_ok _ _) rfl rfl rfl (by norm_num [par])
    (by norm_num [par]) (by norm_num [par]) St.init .start
  exact ⟨outs, e, h⟩

example : ∃ outs, fconv (par .cor1 0) (fun _ => work0) files1 files2 St.init = some (outs, true) ∧ outs.length = 2 := by
  obtain ⟨outs, e, h, _⟩ := fconv_correlation (par .cor1 0) files1 files2 (fun _ => work0) (files_ok _ _) rfl rfl rfl rfl (by norm_num [par])
    (by norm_num [par]) (by norm_num [par]) St.init .start
  exact ⟨outs, e, h⟩

example : ∃ outs, fconvAuto (par .cor1 0) (fun _ => work0) files1 0 0 St.init = some (outs, true) ∧ outs.length = 2 := by
  obtain ⟨outs, e, h, _⟩ := auto_correlation_partial (par .cor1 0) files1 (fun _ => work0) 2 (by norm_num) (by norm_num [files1])
    (fun _ _ => rfl) le_rfl le_rfl (by norm_num [par]) rfl rfl rfl (by norm_num [par]) (by norm_num [par]) 0 0 St.init .start
  exact ⟨outs, e, h⟩

example : ∃ o, fconv { par .conv 0 with ntfft := some 16, ntmax := 16 } (fun _ => work0) ⟨1, files1.g⟩ files2 St.init = some ([o], true) ∧ o.nt = 16 := by
  obtain ⟨o, e, _, h, _⟩ := fconv_ntfft_partial { par .conv 0 with ntfft := some 16, ntmax := 16 } ⟨1, files1.g⟩ files2 (fun _ => work0)
    ⟨by norm_num, by norm_num [files2], fun k _ => by norm_num [files1, par], fun k _ => by norm_num [files2, par],
      fun k _ _ => by simp [nrecOf, files1, files2]⟩ rfl rfl rfl 16 rfl (by norm_num [par]) (by norm_num) (by norm_num) le_rfl St.init .start
  exact ⟨o, e, h⟩

example : fconv { par .conv 0 with ntfft := some 16 } (fun _ => work0) files1 files2 St.init = none :=
  ntfft_overflows _ _ _ _ _ (by simp [par]) 16 rfl (by norm_num [par])

/-- The case of `repeated_trace_lost`: the trace of the second file has samples `1 0 0 …`, so the convolution is the trace itself. -/
example : ∃ o0 o1, fconv { par .conv 0 with nt2 := 8 } (fun _ => work0) ⟨2, fun k => ⟨k + 1, fun _ => 1⟩⟩ ⟨1, fun _ => ⟨1, fun j => if j = 0 then 1 else 0⟩⟩
    St.init = some ([o0, o1], true) ∧ o1.dat (8 + 3) = 0 ∧
    convTrace { par .conv 0 with nt2 := 8 } 16 ⟨2, fun _ => 1⟩ ⟨1, fun j => if j = 0 then 1 else 0⟩ 1 3 = 1 := by
  obtain ⟨o0, o1, e, _, _, h⟩ := repeated_trace_lost { par .conv 0 with nt2 := 8 } ⟨2, fun k => ⟨k + 1, fun _ => 1⟩⟩
    ⟨1, fun _ => ⟨1, fun j => if j = 0 then 1 else 0⟩⟩ (fun _ => work0) rfl rfl rfl rfl rfl rfl rfl rfl rfl (by norm_num [par])
    (by norm_num [par]) le_rfl le_rfl le_rfl (by norm_num [par]) St.init .start
  refine ⟨o0, o1, e, h 3 (by norm_num [par]), ?_⟩
  rw [convTrace_linear _ _ _ _ _ _ (by norm_num [par])]
  simp [Nat.antidiagonal_succ, Gather.sample, par]

end

end Verif.Conv

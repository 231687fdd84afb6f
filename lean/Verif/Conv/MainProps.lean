import Verif.Conv.Main
import Verif.Conv.Examples

/-!
# The gather loop of `fconv`

* **C91** every gather of the first file is combined with the gather of the second file of the same number, or with the last one when the
  second file has fewer gathers; a gather with fewer traces is continued with its last trace, a shorter trace with zeroes.  With the
  convolution the Laplace factor only damps the wrap-around.
-/

namespace Verif.Conv

open Finset Verif Verif.Fft Verif.Fft.Lib

noncomputable section

/-- **Specification.**  Sample `j` of trace `i` of a gather: after the last trace the last trace again, after the last sample zero. -/
def Gather.sample (g : Gather) (nt i j : Nat) : ℝ := if j < nt then g.dat (min i (g.nx - 1) * nt + j) else 0

/-- The traces in a buffer are those of a gather, weighted with the Laplace factor. -/
def Holds (P : Par) (g : Gather) (nt nrec nsam : Nat) (d : Nat → ℝ) : Prop :=
  ∀ i j, i < nrec → j < nsam → d (i * nsam + j) = g.sample nt i j * P.etap j

theorem fill_holds (P : Par) (g : Gather) (hg : 0 < g.nx) {nt nrec nsam : Nat} (hn : g.nx ≤ nrec) (ht : nt ≤ nsam) (d : Nat → ℝ) :
    Holds P g nt nrec nsam (fill g.nx nt nrec nsam P.etap g.dat d) := by
  have w1 := Writes.forN (n := g.nx) (f := fun i d =>
      forN (nsam - nt) (fun j d => aset d (i * nsam + (nt + j)) (0 : ℝ))
        (forN nt (fun j d => aset d (i * nsam + j) (g.dat (i * nt + j) * P.etap j)) d))
    (fun i _ => (Writes.forN (n := nt) (fun j _ => Writes.aset (i * nsam + j) (g.dat (i * nt + j) * P.etap j))).comp
      (Writes.forN (n := nsam - nt) (fun j _ => Writes.aset (i * nsam + (nt + j)) (0 : ℝ))))
  have w2 := Writes.forN (n := nrec - g.nx) (f := fun i d =>
      forN (nsam - nt) (fun j d => aset d ((g.nx + i) * nsam + (nt + j)) (0 : ℝ))
        (forN nt (fun j d => aset d ((g.nx + i) * nsam + j) (g.dat ((g.nx - 1) * nt + j) * P.etap j)) d))
    (fun i _ => (Writes.forN (n := nt) (fun j _ => Writes.aset ((g.nx + i) * nsam + j) (g.dat ((g.nx - 1) * nt + j) * P.etap j))).comp
      (Writes.forN (n := nsam - nt) (fun j _ => Writes.aset ((g.nx + i) * nsam + (nt + j)) (0 : ℝ))))
  intro i j hi hj
  refine (w1.comp w2).val d (v := g.sample nt i j * P.etap j) ?_ ?_
  · by_cases h : i < g.nx
    · left
      refine ⟨i, h, ?_⟩
      rw [Gather.sample, show min i (g.nx - 1) = i by omega]
      by_cases hjn : j < nt
      · left; exact ⟨j, hjn, rfl, by rw [if_pos hjn]⟩
      · right; exact ⟨j - nt, by omega, by rw [Nat.add_sub_cancel' (by omega)], by rw [if_neg hjn, zero_mul]⟩
    · right
      refine ⟨i - g.nx, by omega, ?_⟩
      rw [Gather.sample, show min i (g.nx - 1) = g.nx - 1 by omega, show g.nx + (i - g.nx) = i by omega]
      by_cases hjn : j < nt
      · left; exact ⟨j, hjn, rfl, by rw [if_pos hjn]⟩
      · right; exact ⟨j - nt, by omega, by rw [Nat.add_sub_cancel' (by omega)], by rw [if_neg hjn, zero_mul]⟩
  · rintro v (⟨i', hi', ⟨j', hj', e, rfl⟩ | ⟨j', hj', e, rfl⟩⟩ | ⟨i', hi', ⟨j', hj', e, rfl⟩ | ⟨j', hj', e, rfl⟩⟩)
    all_goals
      obtain ⟨rfl, rfl⟩ := rc_inj (le_refl nsam) hj (by omega) e
      unfold Gather.sample
    · rw [if_pos hj', show min i (g.nx - 1) = i by omega]
    · rw [if_neg (by omega), zero_mul]
    · rw [if_pos hj', show min (g.nx + i') (g.nx - 1) = g.nx - 1 by omega]
    · rw [if_neg (by omega), zero_mul]

/-- A loop that copies row `r` of the array to `n` later rows. -/
private theorem copyRows (ld r q : Nat) (hr : r < q) (d : Nat → ℝ) : ∀ n,
    (∀ i j, i < n → j < ld → forN n (fun i d => forN ld (fun j d => aset d ((q + i) * ld + j) (d (r * ld + j))) d) d ((q + i) * ld + j) =
      d (r * ld + j)) ∧
    (∀ m, m < q * ld → forN n (fun i d => forN ld (fun j d => aset d ((q + i) * ld + j) (d (r * ld + j))) d) d m = d m) ∧
    ∀ m, (q + n) * ld ≤ m → forN n (fun i d => forN ld (fun j d => aset d ((q + i) * ld + j) (d (r * ld + j))) d) d m = d m := by
  intro n
  induction n with
  | zero => exact ⟨fun i j hi => by omega, fun m _ => rfl, fun m _ => rfl⟩
  | succ n ih =>
    obtain ⟨a, b, c⟩ := ih
    simp only [forN_succ]
    generalize forN n (fun i d => forN ld (fun j d => aset d ((q + i) * ld + j) (d (r * ld + j))) d) d = e at a b c
    have inner : ∀ k, k ≤ ld →
        (∀ j, j < k → forN k (fun j d => aset d ((q + n) * ld + j) (d (r * ld + j))) e ((q + n) * ld + j) = e (r * ld + j)) ∧
        ∀ m, (m < (q + n) * ld ∨ (q + n) * ld + k ≤ m) → forN k (fun j d => aset d ((q + n) * ld + j) (d (r * ld + j))) e m = e m := by
      intro k hk
      induction k with
      | zero => exact ⟨fun j hj => by omega, fun m _ => rfl⟩
      | succ k ih =>
        obtain ⟨p, f⟩ := ih (by omega)
        simp only [forN_succ]
        have hrow : r * ld + k < (q + n) * ld := by
          have := row_le (show r < q + n by omega) (show k < ld by omega); omega
        generalize forN k (fun j d => aset d ((q + n) * ld + j) (d (r * ld + j))) e = u at p f
        refine ⟨fun j hj => ?_, fun m hm => ?_⟩
        · unfold aset
          by_cases h : j = k
          · subst h; rw [if_pos rfl, f _ (Or.inl hrow)]
          · rw [if_neg (by omega), p j (by omega)]
        · unfold aset
          rw [if_neg (by omega), f m (by omega)]
    obtain ⟨p, f⟩ := inner ld le_rfl
    have hq : q * ld ≤ (q + n) * ld := Nat.mul_le_mul_right _ (by omega)
    have hn1 : (q + (n + 1)) * ld = (q + n) * ld + ld := by ring
    refine ⟨fun i j hi hj => ?_, fun m hm => ?_, fun m hm => ?_⟩
    · by_cases h : i = n
      · subst h
        rw [p j hj, b]
        exact row_le hr hj
      · rw [f, a i j (by omega) hj]
        exact Or.inl (row_le (by omega) hj)
    · rw [f m (Or.inl (by omega)), b m hm]
    · rw [f m (Or.inr (by omega)), c m (by omega)]

theorem fill0_holds (P : Par) (g : Gather) (hg : 0 < g.nx) {nt nrec nsam : Nat} (hn : g.nx ≤ nrec) (ht : nt ≤ nsam) :
    Holds P g nt nrec nsam (fill0 g.nx nt nrec nsam P.etap g.dat fun _ => 0) := by
  have w1 := Writes.forN (n := g.nx) (f := fun i d => forN nt (fun j d => aset d (i * nsam + j) (g.dat (i * nt + j) * P.etap j)) d)
    (fun i _ => Writes.forN (n := nt) (fun j _ => Writes.aset (i * nsam + j) (g.dat (i * nt + j) * P.etap j)))
  have a : ∀ i j, i < g.nx → j < nsam → forN g.nx (fun i d => forN nt (fun j d => aset d (i * nsam + j) (g.dat (i * nt + j) * P.etap j)) d)
      (fun _ => 0) (i * nsam + j) = g.sample nt i j * P.etap j := by
    intro i j hi hj
    rw [Gather.sample, show min i (g.nx - 1) = i by omega]
    by_cases hjn : j < nt
    · rw [if_pos hjn]
      refine w1.val _ ⟨i, hi, j, hjn, rfl, rfl⟩ ?_
      rintro v ⟨i', hi', j', hj', e, rfl⟩
      obtain ⟨rfl, rfl⟩ := rc_inj (le_refl nsam) hj (by omega) e
      rfl
    · rw [if_neg hjn, zero_mul]
      refine w1.frame (fun _ => 0) ?_
      rintro v ⟨i', hi', j', hj', e, _⟩
      obtain ⟨rfl, rfl⟩ := rc_inj (le_refl nsam) hj (by omega) e
      exact hjn hj'
  intro i j hi hj
  unfold fill0
  generalize forN g.nx (fun i d => forN nt (fun j d => aset d (i * nsam + j) (g.dat (i * nt + j) * P.etap j)) d) (fun _ => 0) = d at a
  obtain ⟨p, q, _⟩ := copyRows nsam (g.nx - 1) g.nx (by omega) d (nrec - g.nx)
  by_cases h : i < g.nx
  · rw [q _ (row_le h hj), a i j h hj]
  · have := p (i - g.nx) j (by omega) hj
    rw [show g.nx + (i - g.nx) = i by omega] at this
    rw [this, a _ _ (by omega) hj, Gather.sample, Gather.sample, show min i (g.nx - 1) = g.nx - 1 by omega, min_self]

theorem weigh_val (nrec nt : Nat) (e c : Nat → ℝ) : ∀ i j, i < nrec → j < nt → weigh nrec nt e c (i * nt + j) = c (i * nt + j) * e j := by
  have key : ∀ n, (∀ i j, i < n → j < nt → forN n (fun i c => forN nt (fun j c => aset c (i * nt + j) (c (i * nt + j) * e j)) c) c (i * nt + j) =
      c (i * nt + j) * e j) ∧
      ∀ m, n * nt ≤ m → forN n (fun i c => forN nt (fun j c => aset c (i * nt + j) (c (i * nt + j) * e j)) c) c m = c m := by
    intro n
    induction n with
    | zero => exact ⟨fun i j hi => by omega, fun m _ => rfl⟩
    | succ n ih =>
      obtain ⟨a, b⟩ := ih
      simp only [forN_succ]
      generalize forN n (fun i c => forN nt (fun j c => aset c (i * nt + j) (c (i * nt + j) * e j)) c) c = u at a b
      have inner : ∀ k, (∀ j, j < k → forN k (fun j c => aset c (n * nt + j) (c (n * nt + j) * e j)) u (n * nt + j) = u (n * nt + j) * e j) ∧
          ∀ m, (m < n * nt ∨ n * nt + k ≤ m) → forN k (fun j c => aset c (n * nt + j) (c (n * nt + j) * e j)) u m = u m := by
        intro k
        induction k with
        | zero => exact ⟨fun j hj => by omega, fun m _ => rfl⟩
        | succ k ih =>
          obtain ⟨p, f⟩ := ih
          simp only [forN_succ]
          generalize forN k (fun j c => aset c (n * nt + j) (c (n * nt + j) * e j)) u = x at p f
          refine ⟨fun j hj => ?_, fun m hm => ?_⟩
          · unfold aset
            by_cases h : j = k
            · subst h; rw [if_pos rfl, f _ (Or.inr (by omega))]
            · rw [if_neg (by omega), p j (by omega)]
          · unfold aset
            rw [if_neg (by omega), f m (by omega)]
      obtain ⟨p, f⟩ := inner nt
      have hn1 : (n + 1) * nt = n * nt + nt := by ring
      refine ⟨fun i j hi hj => ?_, fun m hm => ?_⟩
      · by_cases h : i = n
        · subst h; rw [p j hj, b _ (by omega)]
        · rw [f _ (Or.inl (row_le (by omega) hj)), a i j (by omega) hj]
      · rw [f m (Or.inr (by omega)), b m (by omega)]
  exact (key nrec).1

/-! ### The loop -/

/-- **Specification.**  The gather of the second file that belongs to gather `k` of the first: the last one when there are no more. -/
def File.partner (F : File) (k : Nat) : Gather := F.g (min k (F.num - 1))

/-- The number of traces of result `k`: the larger one of the two gathers; after the end of the second file its first gather counts. -/
def nrecOf (F1 F2 : File) (k : Nat) : Nat := max (F1.g k).nx (if k < F2.num then (F2.g k).nx else (F2.g 0).nx)

/-- What the files must be like: no gather larger than the buffers, and after the end of the second file no gather needs more traces than
the buffer of the last one has. -/
structure Files (P : Par) (F1 F2 : File) : Prop where
  num1 : 0 < F1.num
  num2 : 0 < F2.num
  nx1 : ∀ k, k < F1.num → 0 < (F1.g k).nx ∧ (F1.g k).nx ≤ P.nxmax ∧ (F1.g k).nx * P.nt1 ≤ P.len1
  nx2 : ∀ k, k < F2.num → 0 < (F2.g k).nx ∧ (F2.g k).nx ≤ P.nxmax ∧ (F2.g k).nx * P.nt2 ≤ P.len2
  rep : ∀ k, F2.num ≤ k → k < F1.num → nrecOf F1 F2 k ≤ nrecOf F1 F2 (F2.num - 1)

theorem Files.nrec_le {P : Par} {F1 F2 : File} (h : Files P F1 F2) {k : Nat} (hk : k < F1.num) : nrecOf F1 F2 k ≤ P.nxmax := by
  unfold nrecOf
  have := (h.nx1 k hk).2.1
  split
  · have := (h.nx2 k (by assumption)).2.1; omega
  · have := (h.nx2 0 h.num2).2.1; omega

/-- What holds when gather `k` is in the buffers. -/
structure Ready (P : Par) (F1 F2 : File) (k : Nat) (v : Vars) : Prop where
  st : Hist v.st
  nsam : v.nsam = max P.nt1 P.nt2
  nrec : v.nrec = nrecOf F1 F2 k
  d1 : Holds P (F1.g k) P.nt1 v.nrec v.nsam v.d1
  d2 : Holds P (F2.partner k) P.nt2 (nrecOf F1 F2 (min k (F2.num - 1))) v.nsam v.d2
  rep : v.rep = true ↔ F2.num ≤ k
  nx2 : v.rep = true → v.nx2 = (F2.g 0).nx

theorem Holds.mono {P : Par} {g : Gather} {nt n m nsam : Nat} {d : Nat → ℝ} (h : Holds P g nt m nsam d) (hn : n ≤ m) : Holds P g nt n nsam d :=
  fun i j hi hj => h i j (by omega) hj

/-- What is known of one operation on two gathers carries over to the loop. -/
theorem loop_spec (P : Par) (F1 F2 : File) (w : Nat → Work) (hF : Files P F1 F2) (hn : P.nsam0 = max P.nt1 P.nt2)
    (ht : max P.nt1 P.nt2 ≤ P.ntmax) (Q : Gather → Gather → Out → Prop)
    (hc : ∀ a b nrec w d1 d2 cov s, nrec ≤ P.nxmax → Hist s → Holds P a P.nt1 nrec (max P.nt1 P.nt2) d1 →
      Holds P b P.nt2 nrec (max P.nt1 P.nt2) d2 → ∃ c s', combine P nrec (max P.nt1 P.nt2) (P.nsam0 * P.nxmax) w d1 d2 cov s = some (c, s') ∧
        Hist s' ∧ Q a b ⟨nrec, P.ntout (max P.nt1 P.nt2), weigh nrec (P.ntout (max P.nt1 P.nt2)) P.etapi c⟩) :
    ∀ r k v, k + r + 1 = F1.num → Ready P F1 F2 k v →
      ∃ outs, loop P F1 F2 w r k v = some (outs, true) ∧ outs.length = r + 1 ∧
        ∀ j, j ≤ r → ∃ o, outs[j]? = some o ∧ o.nrec = nrecOf F1 F2 (k + j) ∧ o.nt = P.ntout (max P.nt1 P.nt2) ∧
          Q (F1.g (k + j)) (F2.partner (k + j)) o := by
  have hout : P.ntout (max P.nt1 P.nt2) ≤ P.ntmax := by unfold Par.ntout; split <;> omega
  have step : ∀ k v w, k < F1.num → Ready P F1 F2 k v → ∃ o v', one P (P.nsam0 * P.nxmax) w v = some (o, v') ∧ Ready P F1 F2 k v' ∧
      o.nrec = nrecOf F1 F2 k ∧ o.nt = P.ntout (max P.nt1 P.nt2) ∧ Q (F1.g k) (F2.partner k) o := by
    intro k v w hk hv
    have hle : v.nrec ≤ nrecOf F1 F2 (min k (F2.num - 1)) := by
      rw [hv.nrec]
      by_cases h : k < F2.num
      · rw [show min k (F2.num - 1) = k by omega]
      · rw [show min k (F2.num - 1) = F2.num - 1 by omega]
        exact hF.rep k (by omega) hk
    have h1 := hv.d1
    have h2 := hv.d2.mono hle
    rw [hv.nsam] at h1 h2
    obtain ⟨c, s', e, hs, q⟩ := hc (F1.g k) (F2.partner k) v.nrec w v.d1 v.d2 v.conv v.st (by rw [hv.nrec]; exact hF.nrec_le hk) hv.st h1 h2
    refine ⟨_, { v with conv := weigh v.nrec (P.ntout (max P.nt1 P.nt2)) P.etapi c, st := s' }, ?_, ⟨hs, hv.nsam, hv.nrec, hv.d1, hv.d2, hv.rep, hv.nx2⟩, hv.nrec, rfl, q⟩
    unfold one
    rw [hv.nsam, e, Option.bind_some]
    dsimp only
    rw [if_pos hout]
  intro r
  induction r with
  | zero =>
    intro k v hk hv
    obtain ⟨o, v', e, hv', a, b, q⟩ := step k v (w k) (by omega) hv
    refine ⟨[o], ?_, rfl, fun j hj => ⟨o, ?_, ?_⟩⟩
    · unfold loop
      rw [e, Option.map_some]
    · obtain rfl : j = 0 := by omega
      rfl
    · obtain rfl : j = 0 := by omega
      exact ⟨a, b, q⟩
  | succ r ih =>
    intro k v hk hv
    obtain ⟨o, v', e, hv', a, b, q⟩ := step k v (w k) (by omega) hv
    obtain ⟨x1, x2, x3⟩ := hF.nx1 (k + 1) (by omega)
    have hnr : nrecOf F1 F2 (k + 1) ≤ P.nxmax := hF.nrec_le (by omega)
    have key : ∃ nx2 rep h, read2 P F2 v'.rep v'.nx2 (k + 1) = some (nx2, rep, h) ∧ max (F1.g (k + 1)).nx nx2 = nrecOf F1 F2 (k + 1) ∧
        (rep = true ↔ F2.num ≤ k + 1) ∧ (rep = true → nx2 = (F2.g 0).nx) ∧ 
        Holds P (F2.partner (k + 1)) P.nt2 (nrecOf F1 F2 (min (k + 1) (F2.num - 1))) (max P.nt1 P.nt2)
          (refill P (nrecOf F1 F2 (k + 1)) (max P.nt1 P.nt2) h v'.d2) := by
      unfold read2
      by_cases hr : v'.rep = true
      · have hK := hv'.rep.mp hr
        rw [if_pos hr]
        refine ⟨_, _, _, rfl, ?_, ⟨fun _ => by omega, fun _ => rfl⟩, fun _ => hv'.nx2 hr, ?_⟩
        · rw [nrecOf, if_neg (by omega), hv'.nx2 hr]
        · have := hv'.d2
          rw [hv'.nsam, File.partner, show min k (F2.num - 1) = min (k + 1) (F2.num - 1) by omega] at this
          exact this
      · have hK : ¬ F2.num ≤ k := fun h => hr (hv'.rep.mpr h)
        rw [if_neg hr]
        by_cases hk2 : k + 1 < F2.num
        · obtain ⟨y1, y2, y3⟩ := hF.nx2 (k + 1) hk2
          rw [if_pos hk2, if_pos y3]
          refine ⟨_, _, _, rfl, ?_, ⟨fun h => by simp at h, fun h => by omega⟩, fun h => by simp at h, ?_⟩
          · rw [nrecOf, if_pos hk2]
          · rw [File.partner, show min (k + 1) (F2.num - 1) = k + 1 by omega]
            refine fill_holds P _ y1 ?_ (le_max_right _ _) _
            rw [nrecOf, if_pos hk2]; exact le_max_right _ _
        · rw [if_neg hk2]
          refine ⟨_, _, _, rfl, ?_, ⟨fun _ => by omega, fun _ => rfl⟩, fun _ => rfl, ?_⟩
          · rw [nrecOf, if_neg hk2]
          · have := hv'.d2
            rw [hv'.nsam, File.partner, show min k (F2.num - 1) = min (k + 1) (F2.num - 1) by omega] at this
            exact this
    obtain ⟨nx2, rep, h, e2, m1, m2, m3, m4⟩ := key
    obtain ⟨outs, e3, hl, ho⟩ := ih (k + 1)
      { v' with nx2 := nx2, nrec := nrecOf F1 F2 (k + 1), nsam := max P.nt1 P.nt2, rep := rep,
                d1 := fill (F1.g (k + 1)).nx P.nt1 (nrecOf F1 F2 (k + 1)) (max P.nt1 P.nt2) P.etap (F1.g (k + 1)).dat v'.d1,
                d2 := refill P (nrecOf F1 F2 (k + 1)) (max P.nt1 P.nt2) h v'.d2 }
      (by omega) ⟨hv'.st, rfl, rfl, fill_holds P _ x1 (by rw [← m1]; exact le_max_left _ _) (le_max_left _ _) _, m4, m2, m3⟩
    refine ⟨o :: outs, ?_, by rw [List.length_cons, hl], fun j hj => ?_⟩
    · unfold loop
      rw [e, Option.bind_some]
      dsimp only
      rw [if_pos x3, if_pos ⟨by omega, x2⟩, e2, Option.bind_some]
      dsimp only
      rw [m1, if_pos ⟨hnr, by omega⟩, e3, Option.map_some]
    · cases j with
      | zero => exact ⟨o, rfl, a, b, q⟩
      | succ j =>
        obtain ⟨o', e', q'⟩ := ho j (by omega)
        rw [show k + (j + 1) = k + 1 + j by omega]
        exact ⟨o', by rw [List.getElem?_cons_succ]; exact e', q'⟩

end

end Verif.Conv

import Verif.Ray.Main

/-! # Travel times: removal of head waves, the whole call, scaling -/

namespace Verif.Ray

open Verif

noncomputable section

/-! ## rm_head -/

theorem seek_ok (g : Grid) (x : ℤ) (val : ℝ) (d : ℤ) (more : ℤ → Bool) (m : ℤ → ℕ)
    (hm : ∀ i, g.Has x i → more i = true → g.Has x (i + d) ∧ m (i + d) < m i) :
    ∀ fuel iz, g.Has x iz → m iz < fuel → ∃ n : ℕ, seek g x val d more fuel iz (g.slow x iz) = some (iz + d * n, g.slow x (iz + d * n)) ∧
      g.Has x (iz + d * n) ∧ (∀ j : ℕ, j < n → g.slow x (iz + d * j) = val) ∧
      (g.slow x (iz + d * n) ≠ val ∨ more (iz + d * n) = false) := by
  intro fuel
  induction fuel with
  | zero => intro iz _ h; omega
  | succ fuel ih =>
    intro iz hz hf
    unfold seek
    by_cases c : g.slow x iz = val ∧ more iz = true
    · obtain ⟨h1, h2⟩ := hm iz hz c.2
      obtain ⟨n, e, a, b, f⟩ := ih (iz + d) h1 (by omega)
      rw [if_pos c, show sget g x (iz + d) = some (g.slow x (iz + d)) by unfold sget; rw [if_pos h1], Option.bind_some]
      have key : ∀ j : ℕ, iz + d * ((j + 1 : ℕ) : ℤ) = iz + d + d * j := fun j => by push_cast; ring
      refine ⟨n + 1, ?_, ?_, ?_, ?_⟩
      · rw [key]; exact e
      · rw [key]; exact a
      · intro j hj
        rcases j with _ | j
        · simpa using c.1
        · rw [key]; exact b j (by omega)
      · rw [key]; exact f
    · rw [if_neg c]
      refine ⟨0, by simp, by simpa using hz, fun j hj => absurd hj (by omega), ?_⟩
      simp only [Nat.cast_zero, mul_zero, add_zero]
      by_cases h : g.slow x iz = val
      · exact Or.inr (by simpa [h] using c)
      · exact Or.inl h

/-- Value `v` occurs in row `z`. -/
def InRow (g : Grid) (s : ℤ → ℤ → ℝ) (v : ℝ) (z : ℤ) : Prop := ∃ x, 0 ≤ x ∧ x < g.nx ∧ s x z = v

open Classical in
theorem rowSub_ok (g : Grid) (brd val : ℝ) (l lp : ℤ) (s : ℤ → ℤ → ℝ) (hl : 0 ≤ l ∧ l < g.nz) :
    rowSub g brd val l (s, lp) =
      some (fun x z => if z = l ∧ 0 ≤ x ∧ x < g.nx ∧ s x z = brd then val else s x z, if InRow g s brd l then l else lp) := by
  unfold rowSub forIM
  refine Exists.elim (forNM_inv (n := (g.nx - 0).toNat) (s := (s, lp)) (body := fun (k : ℕ) (s : (ℤ → ℤ → ℝ) × ℤ) =>
      if g.Has (0 + k) l then some (if s.1 (0 + k) l = brd then (fun a b => if a = 0 + k ∧ b = l then val else s.1 a b, l) else s) else none)
    (fun k (r : (ℤ → ℤ → ℝ) × ℤ) => r.1 = (fun (x z : ℤ) => if z = l ∧ 0 ≤ x ∧ x < k ∧ s x z = brd then val else s x z) ∧
      r.2 = if ∃ x, 0 ≤ x ∧ x < (k : ℤ) ∧ s x l = brd then l else lp) ?_ ?_) ?_
  · refine ⟨funext fun x => funext fun z => ?_, ?_⟩
    · rw [if_neg]; push_cast; rintro ⟨_, _, _, _⟩; omega
    · rw [if_neg]; push_cast; rintro ⟨x, _, _, _⟩; omega
  · rintro k hk ⟨r, p⟩ ⟨h1, h2⟩
    dsimp only at h1 h2
    rw [if_pos ⟨by omega, by omega, by omega, by omega⟩]
    refine ⟨_, rfl, ?_⟩
    simp only [zero_add]
    have rk : r k l = s k l := by rw [h1]; dsimp only; rw [if_neg]; rintro ⟨_, _, _, _⟩; omega
    rw [rk]
    by_cases c : s k l = brd
    · rw [if_pos c]
      refine ⟨funext fun x => funext fun z => ?_, ?_⟩
      · dsimp only
        by_cases c1 : x = k ∧ z = l
        · rw [if_pos c1, if_pos ⟨c1.2, by omega, by push_cast; omega, by rw [c1.1, c1.2]; exact c⟩]
        · rw [if_neg c1, h1]
          dsimp only
          by_cases c2 : z = l ∧ 0 ≤ x ∧ x < k ∧ s x z = brd
          · rw [if_pos c2, if_pos ⟨c2.1, c2.2.1, by push_cast; omega, c2.2.2.2⟩]
          · rw [if_neg c2, if_neg]
            rintro ⟨a, b, c', d⟩
            push_cast at c'
            by_cases hx : x = k
            · exact c1 ⟨hx, a⟩
            · exact c2 ⟨a, b, by omega, d⟩
      · dsimp only
        rw [if_pos ⟨k, by omega, by push_cast; omega, c⟩]
    · rw [if_neg c]
      refine ⟨funext fun x => funext fun z => ?_, ?_⟩
      · rw [h1]; dsimp only
        by_cases c2 : z = l ∧ 0 ≤ x ∧ x < k ∧ s x z = brd
        · rw [if_pos c2, if_pos ⟨c2.1, c2.2.1, by push_cast; omega, c2.2.2.2⟩]
        · rw [if_neg c2, if_neg]
          rintro ⟨a, b, c', d⟩
          push_cast at c'
          by_cases hx : x = k
          · rw [hx, a] at d; exact c d
          · exact c2 ⟨a, b, by omega, d⟩
      · rw [h2]
        dsimp only
        congr 1
        refine propext ⟨fun ⟨x, a, b, d⟩ => ⟨x, a, by push_cast; omega, d⟩, fun ⟨x, a, b, d⟩ => ?_⟩
        push_cast at b
        by_cases hx : x = k
        · rw [hx] at d; exact (c d).elim
        · exact ⟨x, a, by omega, d⟩
  · rintro ⟨r, p⟩ ⟨e, h1, h2⟩
    rw [e]
    dsimp only at h1 h2
    congr 1
    refine Prod.ext (h1.trans ?_) (h2.trans ?_)
    · funext x z
      congr 1
      refine propext ⟨fun ⟨a, b, c, d⟩ => ⟨a, b, by omega, d⟩, fun ⟨a, b, c, d⟩ => ⟨a, b, by omega, d⟩⟩
    · congr 1
      refine propext ⟨fun ⟨x, b, c, d⟩ => ⟨x, b, by omega, d⟩, fun ⟨x, b, c, d⟩ => ⟨x, b, by omega, d⟩⟩

open Classical in
theorem rowsSub_ok (g : Grid) (brd val : ℝ) (d : ℤ) (hd : d ≠ 0) (more : ℤ → Bool) (m : ℤ → ℕ) (lim : ℤ → Prop)
    (hm : ∀ i, lim i → more i = true → (0 ≤ i ∧ i < g.nz) ∧ lim (i + d) ∧ m (i + d) < m i) :
    ∀ fuel l lp (s : ℤ → ℤ → ℝ), lim l → m l < fuel → (lp = l - d ∨ (lp = l ∧ InRow g s brd l)) →
      ∃ n : ℕ, rowsSub g brd val d more fuel l (s, lp) =
          some (fun x z => if (∃ j : ℕ, j < n ∧ z = l + d * j) ∧ 0 ≤ x ∧ x < g.nx ∧ s x z = brd then val else s x z) ∧
        (∀ j : ℕ, j < n → more (l + d * j) = true ∧ InRow g s brd (l + d * j)) ∧
        (more (l + d * n) = false ∨ ¬InRow g s brd (l + d * n)) := by
  intro fuel
  induction fuel with
  | zero => intro l lp s _ h; omega
  | succ fuel ih =>
    intro l lp s hi hf hp
    unfold rowsSub
    by_cases c : more l = true
    · obtain ⟨h1, hi', h2⟩ := hm l hi c
      rw [if_pos c, rowSub_ok g brd val l lp s h1, Option.bind_some]
      dsimp only
      by_cases r : InRow g s brd l
      · rw [if_pos r, if_neg (by simp)]
        obtain ⟨n, e, a, b⟩ := ih (l + d) l (fun x z => if z = l ∧ 0 ≤ x ∧ x < g.nx ∧ s x z = brd then val else s x z) hi' (by omega)
          (Or.inl (by omega))
        have key : ∀ j : ℕ, l + d * ((j + 1 : ℕ) : ℤ) = l + d + d * j := fun j => by push_cast; ring
        have off : ∀ j : ℕ, l + d + d * j ≠ l := fun j h => by
          have h' : d * ((j : ℤ) + 1) = 0 := by linear_combination h
          rcases mul_eq_zero.1 h' with h | h <;> omega
        have same : ∀ j : ℕ, InRow g (fun x z => if z = l ∧ 0 ≤ x ∧ x < g.nx ∧ s x z = brd then val else s x z) brd (l + d + d * j) ↔
            InRow g s brd (l + d + d * j) := fun j => by
          unfold InRow
          refine exists_congr fun x => ?_
          dsimp only
          rw [if_neg (fun h => off j h.1)]
        refine ⟨n + 1, ?_, ?_, ?_⟩
        · rw [e]
          congr 1
          funext x z
          by_cases hz : z = l
          · have nj : ¬((∃ j : ℕ, j < n ∧ z = l + d + d * j) ∧ 0 ≤ x ∧ x < g.nx ∧
                (if z = l ∧ 0 ≤ x ∧ x < g.nx ∧ s x z = brd then val else s x z) = brd) := by
              rintro ⟨⟨j, -, h⟩, -⟩
              exact off j (by rw [← h]; exact hz)
            rw [if_neg nj]
            by_cases cc : 0 ≤ x ∧ x < g.nx ∧ s x z = brd
            · rw [if_pos ⟨hz, cc⟩, if_pos ⟨⟨0, by omega, by simpa using hz⟩, cc⟩]
            · rw [if_neg (fun h => cc h.2), if_neg (fun h => cc h.2)]
          · have e1 : (if z = l ∧ 0 ≤ x ∧ x < g.nx ∧ s x z = brd then val else s x z) = s x z := if_neg fun h => hz h.1
            rw [e1]
            congr 1
            refine propext (and_congr_left fun _ => ⟨fun ⟨j, hj, h⟩ => ⟨j + 1, by omega, by rw [key]; exact h⟩, fun ⟨j, hj, h⟩ => ?_⟩)
            rcases j with _ | j
            · exact (hz (by simpa using h)).elim
            · exact ⟨j, by omega, by rw [← key]; exact h⟩
        · intro j hj
          rcases j with _ | j
          · simpa using ⟨c, r⟩
          · rw [key]
            have := a j (by omega)
            exact ⟨this.1, (same j).1 this.2⟩
        · rw [key]
          exact b.imp id fun h h' => h ((same n).2 h')
      · rw [if_neg r]
        have hp' : lp ≠ l := by
          rcases hp with h | h
          · omega
          · exact (r h.2).elim
        rw [if_pos hp']
        refine ⟨0, ?_, fun j hj => absurd hj (by omega), Or.inr (by simpa using r)⟩
        refine congrArg some (funext fun x => funext fun z => ?_)
        rw [if_neg (fun h => r ⟨x, h.2.1, h.2.2.1, by rw [← h.1]; exact h.2.2.2⟩), if_neg]
        rintro ⟨⟨j, hj, -⟩, -⟩; omega
    · rw [if_neg c]
      refine ⟨0, ?_, fun j hj => absurd hj (by omega), Or.inl (by simpa using c)⟩
      refine congrArg some (funext fun x => funext fun z => ?_)
      rw [if_neg]
      rintro ⟨⟨j, hj, -⟩, -⟩; omega

/-- What `rm_head` should leave: rows `a..b` with the slowness `brd` replaced by `val`. -/
def Replaced (g : Grid) (a b : ℤ) (brd val : ℝ) (s' : ℤ → ℤ → ℝ) : Prop :=
  ∀ x z, g.Has x z → s' x z = if a ≤ z ∧ z ≤ b ∧ g.slow x z = brd then val else g.slow x z

/-- Source in the top row: nothing is changed. -/
theorem rmHead_top (g : Grid) (sx mzrcv : ℤ) : rmHead g sx 0 mzrcv = some g.slow := by
  unfold rmHead; rw [if_pos rfl]

/-- Receivers not below the source: `l` is the first row from the source downwards where the slowness under the source differs from the
slowness `val` just above the source (the last row if there is none).  Its slowness becomes `val` in that row and in the unbroken run of rows
above it that contain it, the top row excepted. -/
theorem rmHead_below (g : Grid) (sx sz mzrcv : ℤ) (hs : g.Has sx sz) (h0 : sz ≠ 0) (hr : mzrcv ≤ sz) :
    ∃ l a s', rmHead g sx sz mzrcv = some s' ∧ sz ≤ l ∧ l < g.nz ∧ 1 ≤ a ∧ a ≤ l ∧
      (∀ z, sz ≤ z → z < l → g.slow sx z = g.slow sx (sz - 1)) ∧ (g.slow sx l ≠ g.slow sx (sz - 1) ∨ l = g.nz - 1) ∧
      (∀ z, a ≤ z → z ≤ l → InRow g g.slow (g.slow sx l) z) ∧ (a = 1 ∨ ¬InRow g g.slow (g.slow sx l) (a - 1)) ∧
      Replaced g a l (g.slow sx l) (g.slow sx (sz - 1)) s' := by
  obtain ⟨x0, x1, z0, z1⟩ := hs
  have hs' : g.Has sx (sz - 1) := ⟨x0, x1, by omega, by omega⟩
  unfold rmHead
  dsimp only
  rw [if_neg h0, if_pos hr]
  simp only [Option.bind_eq_bind, sget_some hs', sget_some (⟨x0, x1, z0, z1⟩ : g.Has sx sz), Option.bind_some]
  obtain ⟨n, e, hn, hv, hend⟩ := seek_ok g sx (g.slow sx (sz - 1)) 1 (fun iz => decide (iz < g.nz - 1)) (fun i => (g.nz - 1 - i).toNat)
    (fun i hi h => by
      simp only [decide_eq_true_eq] at h
      obtain ⟨_, _, _, _⟩ := hi
      exact ⟨⟨by omega, by omega, by omega, by omega⟩, by omega⟩) (g.nz.toNat + 1) sz ⟨x0, x1, z0, z1⟩ (by omega)
  rw [e, Option.bind_some]
  dsimp only
  obtain ⟨l, hl⟩ : ∃ l, l = sz + 1 * (n : ℤ) := ⟨_, rfl⟩
  rw [← hl] at hn hend ⊢
  obtain ⟨_, _, l0, l1⟩ := hn
  obtain ⟨k, e2, a, b⟩ := rowsSub_ok g (g.slow sx l) (g.slow sx (sz - 1)) (-1) (by omega) (fun l => decide (l > 0))
    (fun i => i.toNat) (fun i => i < g.nz) (fun i hi h => by
      simp only [decide_eq_true_eq] at h
      exact ⟨⟨by omega, hi⟩, by omega, by omega⟩) (g.nz.toNat + 1) l l g.slow l1 (by omega) (Or.inr ⟨rfl, sx, x0, x1, rfl⟩)
  simp only [decide_eq_true_eq, decide_eq_false_iff_not] at a b hend
  have kl : 1 ≤ k := by
    by_contra hk
    have : k = 0 := by omega
    subst this
    rcases b with h | h
    · apply h; push_cast; omega
    · apply h; simp only [Nat.cast_zero, mul_zero, add_zero]; exact ⟨sx, x0, x1, rfl⟩
  have k1 := (a (k - 1) (by omega)).1
  refine ⟨l, l - k + 1, _, e2, by omega, l1, by omega, by omega, fun z h1 h2 => ?_, hend.imp id fun h => by omega, fun z h1 h2 => ?_,
    b.imp (fun h => by omega) (fun h => by rwa [show l - k + 1 - 1 = l + -1 * (k : ℤ) by ring]), fun x z hz => ?_⟩
  · have := hv (z - sz).toNat (by omega)
    rwa [show sz + 1 * ((z - sz).toNat : ℤ) = z by omega] at this
  · have := (a (l - z).toNat (by omega)).2
    rwa [show l + -1 * ((l - z).toNat : ℤ) = z by omega] at this
  · dsimp only
    congr 1
    refine propext ⟨fun ⟨⟨j, hj, hz'⟩, _, _, h⟩ => ⟨by omega, by omega, h⟩, fun ⟨h1, h2, h⟩ => ⟨⟨(l - z).toNat, by omega, by omega⟩, hz.1, hz.2.1, h⟩⟩

/-- Receivers below the source: the same with the row below the source and the rows from the source upwards. -/
theorem rmHead_above (g : Grid) (sx sz mzrcv : ℤ) (hs : g.Has sx sz) (h0 : sz ≠ 0) (hr : sz < mzrcv) (hm : mzrcv < g.nz) :
    ∃ l b s', rmHead g sx sz mzrcv = some s' ∧ 0 ≤ l ∧ l ≤ sz ∧ l ≤ b ∧ b < g.nz ∧
      (∀ z, l < z → z ≤ sz → g.slow sx z = g.slow sx (sz + 1)) ∧ (g.slow sx l ≠ g.slow sx (sz + 1) ∨ l = 0) ∧
      (∀ z, l ≤ z → z ≤ b → InRow g g.slow (g.slow sx l) z) ∧ (b = g.nz - 1 ∨ ¬InRow g g.slow (g.slow sx l) (b + 1)) ∧
      Replaced g l b (g.slow sx l) (g.slow sx (sz + 1)) s' := by
  obtain ⟨x0, x1, z0, z1⟩ := hs
  have hs' : g.Has sx (sz + 1) := ⟨x0, x1, by omega, by omega⟩
  unfold rmHead
  dsimp only
  rw [if_neg h0, if_neg (by omega)]
  simp only [Option.bind_eq_bind, sget_some hs', sget_some (⟨x0, x1, z0, z1⟩ : g.Has sx sz), Option.bind_some]
  obtain ⟨n, e, hn, hv, hend⟩ := seek_ok g sx (g.slow sx (sz + 1)) (-1) (fun iz => decide (iz > 0)) (fun i => i.toNat)
    (fun i hi h => by
      simp only [decide_eq_true_eq] at h
      obtain ⟨_, _, _, _⟩ := hi
      exact ⟨⟨by omega, by omega, by omega, by omega⟩, by omega⟩) (g.nz.toNat + 1) sz ⟨x0, x1, z0, z1⟩ (by omega)
  rw [e, Option.bind_some]
  dsimp only
  obtain ⟨l, hl⟩ : ∃ l, l = sz + -1 * (n : ℤ) := ⟨_, rfl⟩
  rw [← hl] at hn hend ⊢
  obtain ⟨_, _, l0, l1⟩ := hn
  rw [if_pos l1]
  obtain ⟨k, e2, a, b⟩ := rowsSub_ok g (g.slow sx l) (g.slow sx (sz + 1)) 1 (by omega) (fun l => decide (l < g.nz))
    (fun i => (g.nz - i).toNat) (fun i => 0 ≤ i) (fun i hi h => by
      simp only [decide_eq_true_eq] at h
      exact ⟨⟨by omega, h⟩, by omega, by omega⟩) (g.nz.toNat + 1) l l g.slow l0 (by omega) (Or.inr ⟨rfl, sx, x0, x1, rfl⟩)
  simp only [decide_eq_true_eq, decide_eq_false_iff_not] at a b hend
  have kl : 1 ≤ k := by
    by_contra hk
    have : k = 0 := by omega
    subst this
    rcases b with h | h
    · apply h; push_cast; omega
    · apply h; simp only [Nat.cast_zero, mul_zero, add_zero]; exact ⟨sx, x0, x1, rfl⟩
  have k1 := (a (k - 1) (by omega)).1
  refine ⟨l, l + k - 1, _, e2, by omega, by omega, by omega, by omega, fun z h1 h2 => ?_, hend.imp id fun h => by omega, fun z h1 h2 => ?_,
    b.imp (fun h => by omega) (fun h => by rwa [show l + k - 1 + 1 = l + 1 * (k : ℤ) by ring]), fun x z hz => ?_⟩
  · have := hv (sz - z).toNat (by omega)
    rwa [show sz + -1 * ((sz - z).toNat : ℤ) = z by omega] at this
  · have := (a (z - l).toNat (by omega)).2
    rwa [show l + 1 * ((z - l).toNat : ℤ) = z by omega] at this
  · dsimp only
    congr 1
    refine propext ⟨fun ⟨⟨j, hj, hz'⟩, _, _, h⟩ => ⟨by omega, by omega, h⟩, fun ⟨h1, h2, h⟩ => ⟨⟨(z - l).toNat, by omega, by omega⟩, hz.1, hz.2.1, h⟩⟩

/-- Every slowness after `rm_head` is a slowness of the model. -/
theorem rmHead_values (g : Grid) (sx sz mzrcv : ℤ) (hs : g.Has sx sz) (hm : mzrcv < g.nz) :
    ∃ s', rmHead g sx sz mzrcv = some s' ∧ ∀ x z, g.Has x z → ∃ z' x', g.Has x' z' ∧ s' x z = g.slow x' z' := by
  obtain ⟨x0, x1, z0, z1⟩ := hs
  by_cases h0 : sz = 0
  · subst h0
    exact ⟨_, rmHead_top g sx mzrcv, fun x z h => ⟨z, x, h, rfl⟩⟩
  · rcases lt_or_ge sz mzrcv with h | h
    · obtain ⟨l, b, s', e, -, -, -, -, -, -, -, -, R⟩ := rmHead_above g sx sz mzrcv ⟨x0, x1, z0, z1⟩ h0 h hm
      refine ⟨s', e, fun x z hz => ?_⟩
      rw [R x z hz]
      split
      · exact ⟨sz + 1, sx, ⟨x0, x1, by omega, by omega⟩, rfl⟩
      · exact ⟨z, x, hz, rfl⟩
    · obtain ⟨l, b, s', e, -, -, -, -, -, -, -, -, R⟩ := rmHead_below g sx sz mzrcv ⟨x0, x1, z0, z1⟩ h0 h
      refine ⟨s', e, fun x z hz => ?_⟩
      rw [R x z hz]
      split
      · exact ⟨sz - 1, sx, ⟨x0, x1, by omega, by omega⟩, rfl⟩
      · exact ⟨z, x, hz, rfl⟩

/-! ## The whole call -/

/-- On a grid of at least two by two points with positive slowness, for a source and receivers on the grid and a source box of at least one
point to each side, `vidale` stays inside its arrays, never computes with a time that was not set, and sets a time at every point: 0 at the
source, elsewhere at least one step with the smallest slowness and at most `√2` steps with the largest slowness for each step of the larger
of the horizontal and the vertical distance. -/
theorem vidale_all (g : Grid) (s0 s1 : ℝ) (sx sz order mzrcv : ℤ) (M : Medium g s0 s1) (S : Src g sx sz) (ho : 1 ≤ order)
    (hm : mzrcv < g.nz) :
    ∃ T, vidale g sx sz order mzrcv = some T ∧ T sx sz = some 0 ∧
      ∀ x z, g.Has x z → (x ≠ sx ∨ z ≠ sz) →
        ∃ t, T x z = some t ∧ g.h * s0 ≤ t ∧ t ≤ Real.sqrt 2 * g.h * s1 * (max |x - sx| |z - sz| : ℤ) := by
  obtain ⟨s', e, hv⟩ := rmHead_values g sx sz mzrcv S.src hm
  have M' : Medium { g with slow := s' } s0 s1 := by
    refine ⟨M.step, M.pos, fun x z h => ?_, fun x z h => ?_⟩
    · obtain ⟨z', x', h', e'⟩ := hv x z h
      dsimp only; rw [e']; exact M.lo _ _ h'
    · obtain ⟨z', x', h', e'⟩ := hv x z h
      dsimp only; rw [e']; exact M.hi _ _ h'
  obtain ⟨T, eT, hT, hN⟩ := eikonal_ok M' (⟨S.nx, S.nz, S.src⟩ : Src { g with slow := s' } sx sz) ho
  unfold vidale
  simp only [Option.bind_eq_bind, e, Option.bind_some]
  refine ⟨T, eT, ?_, fun x z h hne => ?_⟩
  · rw [hN sx sz S.src (by simp; omega) (by simp; omega)]
    simp [nearTime]
  · obtain ⟨t, ht, -, a, b⟩ := hT x z h
    refine ⟨t, ht, a fun h0 => ?_, b⟩
    unfold cheb at h0
    have h1 : |x - sx| ≤ 0 := h0 ▸ le_max_left _ _
    have h2 : |z - sz| ≤ 0 := h0 ▸ le_max_right _ _
    rw [abs_nonpos_iff] at h1 h2
    omega

/-- In the source box the time is that of the straight ray with the mean of the slowness at its ends, after `rm_head`. -/
theorem vidale_near (g : Grid) (s0 s1 : ℝ) (sx sz order mzrcv : ℤ) (M : Medium g s0 s1) (S : Src g sx sz) (ho : 1 ≤ order)
    (hm : mzrcv < g.nz) :
    ∃ T s', vidale g sx sz order mzrcv = some T ∧ rmHead g sx sz mzrcv = some s' ∧
      ∀ x z, g.Has x z → |x - sx| ≤ order → |z - sz| ≤ order →
        T x z = some (Real.sqrt (((x - sx : ℤ) * g.h) ^ 2 + ((z - sz : ℤ) * g.h) ^ 2) * ((s' x z + s' sx sz) / 2)) := by
  obtain ⟨s', e, hv⟩ := rmHead_values g sx sz mzrcv S.src hm
  have M' : Medium { g with slow := s' } s0 s1 := by
    refine ⟨M.step, M.pos, fun x z h => ?_, fun x z h => ?_⟩
    · obtain ⟨z', x', h', e'⟩ := hv x z h
      dsimp only; rw [e']; exact M.lo _ _ h'
    · obtain ⟨z', x', h', e'⟩ := hv x z h
      dsimp only; rw [e']; exact M.hi _ _ h'
  obtain ⟨T, eT, hT, hN⟩ := eikonal_ok M' (⟨S.nx, S.nz, S.src⟩ : Src { g with slow := s' } sx sz) ho
  refine ⟨T, s', ?_, e, fun x z h hx hz => ?_⟩
  · unfold vidale
    simp only [Option.bind_eq_bind, e, Option.bind_some]
    exact eT
  · rw [hN x z h hx hz]
    unfold nearTime
    congr 1
    ring

end

end Verif.Ray

import Verif.Snap.Combine

/-! # C194, C195: what combine writes -/

namespace Verif.Snap

universe u
variable {K : Type u}

theorem inIdx_lt {tr : Bool} {nt ny nx nz it iy ix iz : Nat} (h4 : it < nt) (h3 : iy < ny) (h2 : ix < nx) (h1 : iz < nz) :
    inIdx tr ny nx nz it iy ix iz < nt * ny * nx * nz := by
  unfold inIdx
  split
  · have := idx_lt (d3 := ny) (d2 := nz) (d1 := nx) h4 h3 h1 h2
    unfold idx at this
    calc _ < nt * ny * nz * nx := this
      _ = _ := by ring
  · exact idx_lt h4 h3 h2 h1

/-- Room for a shifted file. -/
theorem shift_le {is N n : Nat} (h : is < N) (hn : 0 < n) : is + n ≤ n * N := by
  obtain ⟨m, rfl⟩ : ∃ m, n = m + 1 := ⟨n - 1, by omega⟩
  have : m * 1 ≤ m * N := Nat.mul_le_mul_left m (by omega)
  rw [Nat.add_mul]
  omega

/-- One file: the cells of its window hold its samples, the others are as before. -/
theorem combineFile_spec (tr : Bool) (dir : Dir) (N nt ny nx nz is : Nat) (ind out : Nat → K) (hs : is < N) (py : 0 < ny)
    (px : 0 < nx) (pz : 0 < nz) :
    ∃ o, combineFile tr dir N nt ny nx nz is ind out = some o ∧
      ∀ it iy ix iz, it < nt → iy < (outSize dir N ny nx nz).1 → ix < (outSize dir N ny nx nz).2.1 →
        iz < (outSize dir N ny nx nz).2.2 →
        o (idx (outSize dir N ny nx nz).1 (outSize dir N ny nx nz).2.1 (outSize dir N ny nx nz).2.2 it iy ix iz) =
        if is ≤ along dir iy ix iz ∧ along dir iy ix iz < is + along dir ny nx nz then
          ind (inIdx tr ny nx nz it (iy - (shift dir is).1) (ix - (shift dir is).2.1) (iz - (shift dir is).2.2))
        else out (idx (outSize dir N ny nx nz).1 (outSize dir N ny nx nz).2.1 (outSize dir N ny nx nz).2.2 it iy ix iz) := by
  have hy := shift_le hs py
  have hx := shift_le hs px
  have hz := shift_le hs pz
  have hw : ∀ iy ix iz, iy < ny → ix < nx → iz < nz → iy + (shift dir is).1 < (outSize dir N ny nx nz).1 ∧
      ix + (shift dir is).2.1 < (outSize dir N ny nx nz).2.1 ∧ iz + (shift dir is).2.2 < (outSize dir N ny nx nz).2.2 := by
    intro iy ix iz h1 h2 h3
    cases dir <;> simp only [shift, outSize] <;> omega
  unfold combineFile
  obtain ⟨o, h1, h2, h3⟩ := copyM_spec
    (n := nt * (outSize dir N ny nx nz).1 * (outSize dir N ny nx nz).2.1 * (outSize dir N ny nx nz).2.2)
    (m := nt * ny * nx * nz)
    (f := fun (it, iy, ix, iz) => idx (outSize dir N ny nx nz).1 (outSize dir N ny nx nz).2.1 (outSize dir N ny nx nz).2.2 it
      (iy + (shift dir is).1) (ix + (shift dir is).2.1) (iz + (shift dir is).2.2))
    (g := fun (it, iy, ix, iz) => inIdx tr ny nx nz it iy ix iz) (src := ind) (quads nt ny nx nz) out
    (by
      rintro ⟨it, iy, ix, iz⟩ hm
      rw [mem_quads] at hm
      obtain ⟨a, b, c, d⟩ := hm
      obtain ⟨e1, e2, e3⟩ := hw iy ix iz b c d
      exact ⟨idx_lt a e1 e2 e3, inIdx_lt a b c d⟩)
    (by
      rintro ⟨it, iy, ix, iz⟩ hm ⟨jt, jy, jx, jz⟩ hm' e
      rw [mem_quads] at hm hm'
      obtain ⟨a, b, c, d⟩ := hm
      obtain ⟨a', b', c', d'⟩ := hm'
      obtain ⟨e1, e2, e3⟩ := hw iy ix iz b c d
      obtain ⟨e1', e2', e3'⟩ := hw jy jx jz b' c' d'
      obtain ⟨q1, q2, q3, q4⟩ := idx_inj e1 e2 e3 e1' e2' e3' e
      have r2 : iy = jy := by omega
      have r3 : ix = jx := by omega
      have r4 : iz = jz := by omega
      rw [q1, r2, r3, r4])
  refine ⟨o, h1, fun it iy ix iz a b c d => ?_⟩
  by_cases hc : is ≤ along dir iy ix iz ∧ along dir iy ix iz < is + along dir ny nx nz
  · rw [if_pos hc]
    have hin : iy - (shift dir is).1 < ny ∧ ix - (shift dir is).2.1 < nx ∧ iz - (shift dir is).2.2 < nz ∧
        iy - (shift dir is).1 + (shift dir is).1 = iy ∧ ix - (shift dir is).2.1 + (shift dir is).2.1 = ix ∧
        iz - (shift dir is).2.2 + (shift dir is).2.2 = iz := by
      cases dir <;> simp only [shift, outSize, along] at * <;> omega
    obtain ⟨i1, i2, i3, i4, i5, i6⟩ := hin
    have := h2 (it, iy - (shift dir is).1, ix - (shift dir is).2.1, iz - (shift dir is).2.2) (mem_quads.mpr ⟨a, i1, i2, i3⟩)
    beta_reduce at this
    dsimp only at this
    rw [i4, i5, i6] at this
    exact this
  · rw [if_neg hc]
    apply h3
    rintro ⟨jt, jy, jx, jz⟩ hm e
    rw [mem_quads] at hm
    obtain ⟨a', b', c', d'⟩ := hm
    obtain ⟨e1', e2', e3'⟩ := hw jy jx jz b' c' d'
    obtain ⟨q1, q2, q3, q4⟩ := idx_inj e1' e2' e3' b c d e
    apply hc
    cases dir <;> simp only [shift, along] at * <;> omega

/-- Cell `(it, iy, ix, iz)` of the volume after `m` files. -/
def expected [Zero K] (tr : Bool) (dir : Dir) (m ny nx nz : Nat) (file : Nat → Nat → K) (it iy ix iz : Nat) : K :=
  if along dir iy ix iz + 1 < along dir ny nx nz + m then
    file (min (along dir iy ix iz) (m - 1)) (inIdx tr ny nx nz it (iy - (shift dir (min (along dir iy ix iz) (m - 1))).1)
      (ix - (shift dir (min (along dir iy ix iz) (m - 1))).2.1) (iz - (shift dir (min (along dir iy ix iz) (m - 1))).2.2))
  else 0

/-- C194: what combine writes, for files of any thickness `n` in the stacking direction.  The program never leaves its arrays.  Plane
`k` of the volume is plane `k - s` of file `s = min k (N-1)`; the planes from `n + N - 1` on are zero. -/
theorem combine_planes [Zero K] (tr : Bool) (dir : Dir) (N nt ny nx nz : Nat) (file : Nat → Nat → K) (hN : 0 < N) (py : 0 < ny)
    (px : 0 < nx) (pz : 0 < nz) :
    ∃ o, combine tr dir N nt ny nx nz file = some o ∧
      ∀ it iy ix iz, it < nt → iy < (outSize dir N ny nx nz).1 → ix < (outSize dir N ny nx nz).2.1 →
        iz < (outSize dir N ny nx nz).2.2 →
        o (idx (outSize dir N ny nx nz).1 (outSize dir N ny nx nz).2.1 (outSize dir N ny nx nz).2.2 it iy ix iz) =
          expected tr dir N ny nx nz file it iy ix iz := by
  have key : ∀ m, 0 < m → m ≤ N → ∃ o, (List.range m).foldlM (fun o is => combineFile tr dir N nt ny nx nz is (file is) o)
      (fun _ => 0) = some o ∧
      ∀ it iy ix iz, it < nt → iy < (outSize dir N ny nx nz).1 → ix < (outSize dir N ny nx nz).2.1 →
        iz < (outSize dir N ny nx nz).2.2 →
        o (idx (outSize dir N ny nx nz).1 (outSize dir N ny nx nz).2.1 (outSize dir N ny nx nz).2.2 it iy ix iz) =
          expected tr dir m ny nx nz file it iy ix iz := by
    intro m
    induction m with
    | zero => intro h; omega
    | succ m ih =>
      intro _ hm
      by_cases h0 : m = 0
      · subst h0
        obtain ⟨o, h1, h2⟩ := combineFile_spec tr dir N nt ny nx nz 0 (file 0) (fun _ => 0) (by omega) py px pz
        refine ⟨o, ?_, fun it iy ix iz a b c d => ?_⟩
        · rw [show List.range (0 + 1) = [0] from rfl, List.foldlM_cons, h1]; rfl
        · rw [h2 it iy ix iz a b c d]
          unfold expected
          rw [show min (along dir iy ix iz) (0 + 1 - 1) = 0 by omega]
          by_cases hc : along dir iy ix iz < along dir ny nx nz
          · rw [if_pos (by omega), if_pos (by omega)]
          · rw [if_neg (by omega), if_neg (by omega)]
      · obtain ⟨o, h1, h2⟩ := ih (by omega) (by omega)
        obtain ⟨o', g1, g2⟩ := combineFile_spec tr dir N nt ny nx nz m (file m) o (by omega) py px pz
        refine ⟨o', ?_, fun it iy ix iz a b c d => ?_⟩
        · rw [List.range_succ, List.foldlM_append, h1]
          show (combineFile tr dir N nt ny nx nz m (file m) o >>= fun s => some s) = _
          rw [g1]; rfl
        · rw [g2 it iy ix iz a b c d, h2 it iy ix iz a b c d]
          have hp : 0 < along dir ny nx nz := by cases dir <;> simp only [along] <;> omega
          unfold expected
          by_cases hc : m ≤ along dir iy ix iz
          · rw [show min (along dir iy ix iz) (m + 1 - 1) = m by omega]
            by_cases hd : along dir iy ix iz < m + along dir ny nx nz
            · rw [if_pos ⟨hc, hd⟩, if_pos (by omega)]
            · rw [if_neg (by omega), if_neg (by omega), if_neg (by omega)]
          · rw [if_neg (by omega), show min (along dir iy ix iz) (m + 1 - 1) = along dir iy ix iz by omega,
              show min (along dir iy ix iz) (m - 1) = along dir iy ix iz by omega, if_pos (by omega), if_pos (by omega)]
  exact key N hN le_rfl

/-- C194: files one sample thick are stacked: plane `k` of the volume is file `k` (stated for the three directions). -/
theorem combine_stacks_partial [Zero K] (tr : Bool) (N nt n2 n1 : Nat) (file : Nat → Nat → K) (hN : 0 < N) (p2 : 0 < n2)
    (p1 : 0 < n1) :
    (∃ o, combine tr .z N nt n2 n1 1 file = some o ∧ ∀ it iy ix k, it < nt → iy < n2 → ix < n1 → k < N →
      o (idx n2 n1 N it iy ix k) = file k (inIdx tr n2 n1 1 it iy ix 0)) ∧
    (∃ o, combine tr .x N nt n2 1 n1 file = some o ∧ ∀ it iy k iz, it < nt → iy < n2 → k < N → iz < n1 →
      o (idx n2 N n1 it iy k iz) = file k (inIdx tr n2 1 n1 it iy 0 iz)) ∧
    (∃ o, combine tr .y N nt 1 n2 n1 file = some o ∧ ∀ it k ix iz, it < nt → k < N → ix < n2 → iz < n1 →
      o (idx N n2 n1 it k ix iz) = file k (inIdx tr 1 n2 n1 it 0 ix iz)) := by
  refine ⟨?_, ?_, ?_⟩
  · obtain ⟨o, h1, h2⟩ := combine_planes tr .z N nt n2 n1 1 file hN p2 p1 (by omega)
    refine ⟨o, h1, fun it iy ix k a b c d => ?_⟩
    have := h2 it iy ix k a b c (by simp only [outSize]; omega)
    unfold expected at this
    rw [if_pos (by simp only [along]; omega)] at this
    simp only [outSize, along, shift, Nat.one_mul, Nat.sub_zero] at this
    rw [show min k (N - 1) = k by omega, Nat.sub_self] at this
    exact this
  · obtain ⟨o, h1, h2⟩ := combine_planes tr .x N nt n2 1 n1 file hN p2 (by omega) p1
    refine ⟨o, h1, fun it iy k iz a b c d => ?_⟩
    have := h2 it iy k iz a b (by simp only [outSize]; omega) d
    unfold expected at this
    rw [if_pos (by simp only [along]; omega)] at this
    simp only [outSize, along, shift, Nat.one_mul, Nat.sub_zero] at this
    rw [show min k (N - 1) = k by omega, Nat.sub_self] at this
    exact this
  · obtain ⟨o, h1, h2⟩ := combine_planes tr .y N nt 1 n2 n1 file hN (by omega) p2 p1
    refine ⟨o, h1, fun it k ix iz a b c d => ?_⟩
    have := h2 it k ix iz a (by simp only [outSize]; omega) c d
    unfold expected at this
    rw [if_pos (by simp only [along]; omega)] at this
    simp only [outSize, along, shift, Nat.one_mul, Nat.sub_zero] at this
    rw [show min k (N - 1) = k by omega, Nat.sub_self] at this
    exact this

/-- C194 (violation): with two or more files of two or more depth samples, depth sample 1 of the volume comes from the second file
and not from the first, and the last depth sample is zero. -/
theorem combine_thick [Zero K] (tr : Bool) (N nt ny nx nz : Nat) (file : Nat → Nat → K) (hN : 2 ≤ N) (py : 0 < ny) (px : 0 < nx)
    (pz : 2 ≤ nz) :
    ∃ o, combine tr .z N nt ny nx nz file = some o ∧ ∀ it iy ix, it < nt → iy < ny → ix < nx →
      o (idx ny nx (nz * N) it iy ix 1) = file 1 (inIdx tr ny nx nz it iy ix 0) ∧
      o (idx ny nx (nz * N) it iy ix (nz * N - 1)) = 0 := by
  obtain ⟨o, h1, h2⟩ := combine_planes tr .z N nt ny nx nz file (by omega) py px (by omega)
  have hb : nz + N ≤ nz * N := by
    obtain ⟨a, rfl⟩ : ∃ a, nz = a + 2 := ⟨nz - 2, by omega⟩
    obtain ⟨b, rfl⟩ : ∃ b, N = b + 2 := ⟨N - 2, by omega⟩
    have : (a + 2) * (b + 2) = a * b + 2 * a + 2 * b + 4 := by ring
    omega
  refine ⟨o, h1, fun it iy ix a b c => ⟨?_, ?_⟩⟩
  · have := h2 it iy ix 1 a b c (by simp only [outSize]; omega)
    unfold expected at this
    rw [if_pos (by simp only [along]; omega)] at this
    simp only [outSize, along, shift, Nat.sub_zero] at this
    rw [show min 1 (N - 1) = 1 by omega] at this
    exact this
  · have := h2 it iy ix (nz * N - 1) a b c (by simp only [outSize]; omega)
    unfold expected at this
    rw [if_neg (by simp only [along]; omega)] at this
    simp only [outSize] at this
    exact this

/-- C195: with a first number of one digit, file `k` differs from the file the user named only in the number. -/
theorem combine_name_partial (file : List Char) (dir : Char) (numb dnumb k : Nat) (h1 : (dec numb).length = 1) (name : List Char)
    (h : combineName file dir numb dnumb k = some name) :
    ∃ a b, file = a ++ (dir :: dec numb) ++ b ∧ name = a ++ (dir :: dec (k * dnumb + numb)) ++ b := by
  unfold combineName at h
  rw [Option.map_eq_some_iff] at h
  obtain ⟨p, hp, e⟩ := h
  obtain ⟨hl, r, hr⟩ := strstr_spec hp
  refine ⟨file.take p, file.drop (p + 2), ?_, e.symm⟩
  have : file.drop (p + 2) = r := by
    rw [← List.drop_drop, hr, show 2 = (dir :: dec numb).length by rw [List.length_cons, h1], List.drop_left]
  rw [this, List.append_assoc, ← hr, List.take_append_drop]

/-- C195 (violation): with a first number of two or more digits the file the user named is not read. -/
theorem combine_name_more (file : List Char) (dir : Char) (numb dnumb : Nat) (h1 : 2 ≤ (dec numb).length) (name : List Char)
    (h : combineName file dir numb dnumb 0 = some name) : name ≠ file := by
  unfold combineName at h
  rw [Option.map_eq_some_iff] at h
  obtain ⟨p, hp, e⟩ := h
  obtain ⟨hl, r, hr⟩ := strstr_spec hp
  have hd := congrArg List.length hr
  rw [List.length_drop, List.length_append, List.length_cons] at hd
  intro q
  have := congrArg List.length e
  rw [q] at this
  simp only [List.length_append, List.length_take, List.length_drop, List.length_cons, Nat.zero_mul, Nat.zero_add] at this
  omega

/-- C195: the position written for a trace is right if it is a whole number of metres. -/
theorem combine_gx_partial (x0 dx : Rat) (ix : Nat) (p : Int) (h : x0 + ix * dx = p) :
    coord (-1000) (gx x0 dx ix) = x0 + ix * dx := by
  unfold gx coord
  rw [h, NINT_int, if_pos (by omega)]
  push_cast
  rw [show |(-1000 : Rat)| = 1000 by rw [abs_neg]; exact abs_of_pos (by linarith)]
  field_simp

/-- C195 (violation): and wrong for every other position. -/
theorem combine_gx_wrong (x0 dx : Rat) (ix : Nat) (h : ∀ p : Int, x0 + ix * dx ≠ p) :
    coord (-1000) (gx x0 dx ix) ≠ x0 + ix * dx := by
  unfold gx coord
  rw [if_pos (by omega)]
  intro e
  apply h (NINT (x0 + ix * dx))
  rw [← e]
  push_cast
  rw [show |(-1000 : Rat)| = 1000 by rw [abs_neg]; exact abs_of_pos (by linarith)]
  field_simp
  rw [NINT_int]

/-! ## The hypotheses are met -/

/-- Three files of one snapshot of 2 × 2 × 1 samples. -/
example : (combine false .z 3 1 2 2 1 (fun k i => (10 * k + i : Int))).map (fun o => (List.range 12).map o) =
    some [0, 10, 20, 1, 11, 21, 2, 12, 22, 3, 13, 23] := by decide +kernel

/-- Two files of two depth samples: four of the eight samples of the files are lost or misplaced. -/
example : (combine false .z 2 1 1 1 2 (fun k i => (10 * k + i + 1 : Int))).map (fun o => (List.range 4).map o) =
    some [1, 11, 12, 0] := by decide +kernel

example : combineName "a_z3.su".toList 'z' 3 2 1 = some "a_z5.su".toList := by decide +kernel
example : combineName "a_z10.su".toList 'z' 10 1 0 = some "a_z100.su".toList := by decide +kernel
example : gx 0 (5/2) 1 = 3000 := by decide +kernel
example : ∀ p : Int, (0 : Rat) + (1 : Nat) * (5/2) ≠ p := by
  intro p e
  have : (5 : Rat) = 2 * p := by push_cast at e; linarith
  have : (5 : Int) = 2 * p := by exact_mod_cast this
  omega

end Verif.Snap

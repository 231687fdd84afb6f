import Verif.Snap.Reshape
import Mathlib.Data.List.Basic
import Mathlib.Tactic.NormNum
import Mathlib.Tactic.FieldSimp

/-!
# What readSnapData3D, reshape_su and snap2shot guarantee

A snapshot file holds, for each moment, line, column and depth, one sample; `Cube n3 n2 n1 a` reads an array that way.
-/

namespace Verif.Snap

universe u
variable {K : Type u}

/-- The sample of a four-dimensional array with the last index running fastest; `n3 n2 n1` are the lengths of the last three
dimensions. -/
def Cube (n3 n2 n1 : Nat) (a : Nat → K) (i4 i3 i2 i1 : Nat) : K := a (((i4 * n3 + i3) * n2 + i2) * n1 + i1)

/-- C182: reading a window of a snapshot file stays inside both arrays when the window lies inside the volume, and delivers
exactly the samples of the window, all of them. -/
theorem window_read (nsnaps nx ny nz sx ex sy ey sz ez : Nat) (tmp data : Nat → K) (hx : ex ≤ nx) (hy : ey ≤ ny) (hz : ez ≤ nz) :
    ∃ o, readSnap nsnaps nx ny nz sx ex sy ey sz ez tmp data = some o ∧
      (∀ it iy ix iz, it < nsnaps → iy < ey - sy → ix < ex - sx → iz < ez - sz →
        Cube (ey - sy) (ex - sx) (ez - sz) o it iy ix iz = Cube ny nx nz tmp it (iy + sy) (ix + sx) (iz + sz)) ∧
      ∀ i, nsnaps * (ey - sy) * (ex - sx) * (ez - sz) ≤ i → o i = data i := by
  obtain ⟨o, h1, h2, h3⟩ := copyM_spec (n := nsnaps * (ey - sy) * (ex - sx) * (ez - sz)) (m := nsnaps * ny * nx * nz)
    (f := fun (iz, iy, ix, it) => idx (ey - sy) (ex - sx) (ez - sz) it iy ix iz)
    (g := fun (iz, iy, ix, it) => idx ny nx nz it (iy + sy) (ix + sx) (iz + sz)) (src := tmp)
    (quads (ez - sz) (ey - sy) (ex - sx) nsnaps) data
    (by
      rintro ⟨iz, iy, ix, it⟩ h
      rw [mem_quads] at h
      exact ⟨idx_lt h.2.2.2 h.2.1 h.2.2.1 h.1, idx_lt h.2.2.2 (by omega) (by omega) (by omega)⟩)
    (by
      rintro ⟨iz, iy, ix, it⟩ h ⟨jz, jy, jx, jt⟩ g e
      rw [mem_quads] at h g
      obtain ⟨rfl, rfl, rfl, rfl⟩ := idx_inj h.2.1 h.2.2.1 h.1 g.2.1 g.2.2.1 g.1 e
      rfl)
  refine ⟨o, h1, ?_, ?_⟩
  · intro it iy ix iz ht hy' hx' hz'
    have := h2 (iz, iy, ix, it) (mem_quads.mpr ⟨hz', hy', hx', ht⟩)
    unfold Cube
    rw [← idx_eq, ← idx_eq]
    exact this
  · intro i hi
    apply h3
    rintro ⟨iz, iy, ix, it⟩ h
    rw [mem_quads] at h
    have := idx_lt h.2.2.2 h.2.1 h.2.2.1 h.1
    dsimp only
    omega

example : (readSnap 2 3 1 4 1 3 0 1 1 3 (fun i => i) (fun _ => 99)).map (fun o => (List.range 9).map o) =
    some [5, 6, 9, 10, 17, 18, 21, 22, 99] := by decide +kernel

/-- A window that sticks out of the volume in depth reads the samples of the next column. -/
theorem window_outside : ∃ o : Nat → Nat, readSnap 1 2 1 2 0 1 0 1 1 3 (fun i => i) (fun _ => 99) = some o ∧
    Cube 1 1 2 o 0 0 0 1 = Cube 1 2 2 (fun i => i) 0 0 1 0 := by
  exact ⟨_, rfl, by decide +kernel⟩

theorem in_idx (n1 n2 n3 i4 i3 i2 i1 : Nat) : i4 * n1 * n2 * n3 + i3 * n1 * n2 + i2 * n1 + i1 = idx n3 n2 n1 i4 i3 i2 i1 := by
  unfold idx; ring

theorem mul4 (a b c d : Nat) : a * b * c * d = d * c * b * a := by ring
theorem mul4' (a b c d : Nat) : a * b * c * d = a * c * b * d := by ring

/-- C183: reshaping stays inside the arrays and exchanges the first and the last dimension of the data. -/
theorem reshape_exchanges (n1 n2 n3 n4 : Nat) (a b : Nat → K) :
    ∃ o, reshape n1 n2 n3 n4 a b = some o ∧
      ∀ i4 i3 i2 i1, i4 < n4 → i3 < n3 → i2 < n2 → i1 < n1 → Cube n3 n2 n4 o i1 i3 i2 i4 = Cube n3 n2 n1 a i4 i3 i2 i1 := by
  obtain ⟨o, h1, h2, -⟩ := copyM_spec (n := n1 * n2 * n3 * n4) (m := n1 * n2 * n3 * n4)
    (f := fun ((i4, i3, i2, i1) : Nat × Nat × Nat × Nat) => i1 * n4 * n2 * n3 + i3 * n4 * n2 + i2 * n4 + i4)
    (g := fun (i4, i3, i2, i1) => i4 * n1 * n2 * n3 + i3 * n1 * n2 + i2 * n1 + i1) (src := a) (quads n4 n3 n2 n1) b
    (by
      rintro ⟨i4, i3, i2, i1⟩ h
      rw [mem_quads] at h
      dsimp only
      rw [in_idx, in_idx]
      constructor
      · rw [mul4' n1]; exact idx_lt h.2.2.2 h.2.1 h.2.2.1 h.1
      · rw [mul4 n1]; exact idx_lt h.1 h.2.1 h.2.2.1 h.2.2.2)
    (by
      rintro ⟨i4, i3, i2, i1⟩ h ⟨j4, j3, j2, j1⟩ g e
      rw [mem_quads] at h g
      dsimp only at e ⊢
      rw [in_idx, in_idx] at e
      obtain ⟨rfl, rfl, rfl, rfl⟩ := idx_inj h.2.1 h.2.2.1 h.1 g.2.1 g.2.2.1 g.1 e
      rfl)
  refine ⟨o, h1, ?_⟩
  intro i4 i3 i2 i1 h4 h3 h2' h1'
  have := h2 (i4, i3, i2, i1) (mem_quads.mpr ⟨h4, h3, h2', h1'⟩)
  dsimp only at this
  rw [in_idx, in_idx] at this
  unfold Cube
  rw [← idx_eq, ← idx_eq]
  exact this

/-- C183: reshaping the reshaped data gives back every sample of the data. -/
theorem reshape_twice (n1 n2 n3 n4 : Nat) (a b c o p : Nat → K) (h : reshape n1 n2 n3 n4 a b = some o)
    (h' : reshape n4 n2 n3 n1 o c = some p) (i : Nat) (hi : i < n1 * n2 * n3 * n4) : p i = a i := by
  obtain ⟨o', e1, s1⟩ := reshape_exchanges n1 n2 n3 n4 a b
  obtain ⟨p', e2, s2⟩ := reshape_exchanges n4 n2 n3 n1 o c
  rw [h, Option.some.injEq] at e1
  rw [h', Option.some.injEq] at e2
  subst e1 e2
  rw [mul4 n1] at hi
  obtain ⟨i4, i3, i2, i1, h4, h3, h2, h1, rfl⟩ := idx_surj hi
  have := (s2 i1 i3 i2 i4 h1 h3 h2 h4).trans (s1 i4 i3 i2 i1 h4 h3 h2 h1)
  unfold Cube at this
  rw [idx_eq]
  exact this

example : ((reshape 3 2 1 2 (fun i => i) (fun _ => 99)).map fun o => (List.range 12).map o) =
    some [0, 6, 3, 9, 1, 7, 4, 10, 2, 8, 5, 11] := by decide +kernel

/-- C184: reshaping twice gives back the depth sampling of a snapshot file, its kind and its time sampling. -/
theorem header_twice (n4 n1 : Int) (h : Hdr) (ht : h.trid = 2) :
    (outHdr n1 (outHdr n4 h)).trid = 2 ∧ (outHdr n1 (outHdr n4 h)).d1 = h.d1 ∧ (outHdr n1 (outHdr n4 h)).f1 = h.f1 ∧
    (outHdr n1 (outHdr n4 h)).dt = h.dt ∧ (outHdr n1 (outHdr n4 h)).sx = h.sx ∧ (outHdr n1 (outHdr n4 h)).gx = h.gx := by
  simp [outHdr, ht]

/-- C184: the reshaped file of snapshots has time samples `dt` (microseconds) apart, and time zero is sample `n4/2-1`. -/
theorem header_time (n4 : Int) (h : Hdr) (ht : h.trid = 2) :
    (outHdr n4 h).d1 = h.dt / 1000000 ∧ (outHdr n4 h).f1 + ((n4 / 2 - 1 : Int) : Rat) * (outHdr n4 h).d1 = 0 := by
  constructor
  · simp [outHdr, ht]
  · simp only [outHdr, ht, if_true]
    ring

/-- C184: the positions of the traces are kept if and only if the input gave them in millimetres: the factor is replaced without
rescaling the positions. -/
theorem header_position_partial (n4 : Int) (h : Hdr) (hx : h.gx ≠ 0) (hs : h.scalco ≤ 0) :
    coord (outHdr n4 h).scalco (outHdr n4 h).gx = coord h.scalco h.gx ↔ h.scalco = -1000 := by
  have hx' : (h.gx : Rat) ≠ 0 := by exact_mod_cast hx
  have e : (outHdr n4 h).scalco = -1000 ∧ (outHdr n4 h).gx = h.gx := by simp [outHdr]
  rw [e.1, e.2]
  unfold coord
  rw [if_pos (by norm_num)]
  constructor
  · intro q
    by_cases h0 : h.scalco = 0
    · rw [if_neg (by omega), if_pos h0] at q
      exfalso
      have : (h.gx : Rat) = 0 := by
        have a : |((-1000 : Int) : Rat)| = 1000 := by norm_num
        rw [a] at q
        linarith
      exact hx' this
    · have hn : h.scalco < 0 := by omega
      rw [if_pos hn] at q
      have hn' : (h.scalco : Rat) < 0 := by exact_mod_cast hn
      rw [abs_of_neg hn'] at q
      have a : |((-1000 : Int) : Rat)| = 1000 := by norm_num
      rw [a, div_eq_div_iff (by norm_num) (by linarith)] at q
      have := mul_left_cancel₀ hx' q
      have w : (h.scalco : Rat) = -1000 := by linarith
      exact_mod_cast w
  · intro q
    rw [q, if_pos (by norm_num)]

/-- With coordinates in metres (factor 1) a receiver at 500 m is written as being at 0.5 m. -/
theorem header_position_metres : ∃ h : Hdr, h.trid = 2 ∧ coord h.scalco h.gx = 500 ∧
    coord (outHdr 4 h).scalco (outHdr 4 h).gx = 1 / 2 :=
  ⟨⟨2, 4000, 10, 0, 0, 0, 1, 0, 500⟩, rfl, by norm_num [coord], by norm_num [coord, outHdr]⟩

example : (outHdr 8 ⟨2, 4000, 10, 30, 0, 0, -1000, 0, 500⟩).f1 = -(3 * (4000 / 1000000)) := by
  norm_num [outHdr]

/-! ## snap2shot -/

theorem out_idx (nxr nts nxs nys iz iy ix ixr it : Nat) :
    iz * nys * nxs * nxr * nts + iy * nxs * nxr * nts + ix * nxr * nts + ixr * nts + it =
      idx nys nxs (nxr * nts) iz iy ix (ixr * nts + it) := by
  unfold idx; ring

/-- One file. -/
theorem oneFile_spec {nxr nts nxs nys dnz ixr : Nat} (hr : ixr < nxr) (snap rcv : Nat → K) :
    ∃ o, oneFile nxr nts nxs nys dnz ixr snap rcv = some o ∧
      (∀ iz iy ix it, iz < dnz → iy < nys → ix < nxs → it < nts →
        o (idx nys nxs (nxr * nts) iz iy ix (ixr * nts + it)) = snap (idx nys nxs dnz it iy ix iz)) ∧
      ∀ iz iy ix it q, iy < nys → ix < nxs → it < nts → q < nxr → q ≠ ixr →
        o (idx nys nxs (nxr * nts) iz iy ix (q * nts + it)) = rcv (idx nys nxs (nxr * nts) iz iy ix (q * nts + it)) := by
  obtain ⟨o, h1, h2, h3⟩ := copyM_spec (n := nxr * dnz * nxs * nys * nts) (m := dnz * nxs * nys * nts)
    (f := fun ((iz, iy, ix, it) : Nat × Nat × Nat × Nat) =>
      iz * nys * nxs * nxr * nts + iy * nxs * nxr * nts + ix * nxr * nts + ixr * nts + it)
    (g := fun (iz, iy, ix, it) => it * nys * nxs * dnz + iy * nxs * dnz + ix * dnz + iz) (src := snap)
    (quads dnz nys nxs nts) rcv
    (by
      rintro ⟨iz, iy, ix, it⟩ h
      rw [mem_quads] at h
      dsimp only
      rw [out_idx]
      constructor
      · rw [show nxr * dnz * nxs * nys * nts = dnz * nys * nxs * (nxr * nts) by ring]
        exact idx_lt h.1 h.2.1 h.2.2.1 (digit_lt hr h.2.2.2)
      · rw [show dnz * nxs * nys * nts = nts * nys * nxs * dnz by ring]
        exact idx_lt h.2.2.2 h.2.1 h.2.2.1 h.1)
    (by
      rintro ⟨iz, iy, ix, it⟩ h ⟨jz, jy, jx, jt⟩ g e
      rw [mem_quads] at h g
      dsimp only at e ⊢
      rw [out_idx, out_idx] at e
      obtain ⟨rfl, rfl, rfl, w⟩ := idx_inj h.2.1 h.2.2.1 (digit_lt hr h.2.2.2) g.2.1 g.2.2.1 (digit_lt hr g.2.2.2) e
      obtain rfl : it = jt := by omega
      rfl)
  refine ⟨o, h1, ?_, ?_⟩
  · intro iz iy ix it hz hy hx ht
    have := h2 (iz, iy, ix, it) (mem_quads.mpr ⟨hz, hy, hx, ht⟩)
    dsimp only at this
    rw [out_idx] at this
    exact this
  · intro iz iy ix it q hy hx ht hq hne
    apply h3
    rintro ⟨jz, jy, jx, jt⟩ g e
    rw [mem_quads] at g
    dsimp only at e
    rw [out_idx] at e
    obtain ⟨-, -, -, w⟩ := idx_inj g.2.1 g.2.2.1 (digit_lt hr g.2.2.2) hy hx (digit_lt hq ht) e
    exact hne (digit_inj g.2.2.2 ht w).1.symm

/-- C185: snap2shot turns the snapshots of many sources into gathers: nothing outside the arrays is touched, and in the gather of a
point (depth, line, column) the trace of source `ixr` is the time series of that point in the snapshot file of `ixr`. -/
theorem shots_transpose (nxr nts nxs nys dnz : Nat) (snap : Nat → Nat → K) (rcv : Nat → K) :
    ∃ o, shots nxr nts nxs nys dnz snap rcv = some o ∧
      ∀ iz iy ix ixr it, iz < dnz → iy < nys → ix < nxs → ixr < nxr → it < nts →
        o ((((iz * nys + iy) * nxs + ix) * nxr + ixr) * nts + it) = Cube nys nxs dnz (snap ixr) it iy ix iz := by
  have key : ∀ n ≤ nxr, ∃ o, (List.range n).foldlM (fun o ixr => oneFile nxr nts nxs nys dnz ixr (snap ixr) o) rcv = some o ∧
      ∀ iz iy ix ixr it, iz < dnz → iy < nys → ix < nxs → ixr < n → it < nts →
        o (idx nys nxs (nxr * nts) iz iy ix (ixr * nts + it)) = snap ixr (idx nys nxs dnz it iy ix iz) := by
    intro n
    induction n with
    | zero => intro _; exact ⟨rcv, rfl, by intros; omega⟩
    | succ n ih =>
      intro hn
      obtain ⟨o, h1, h2⟩ := ih (by omega)
      obtain ⟨p, g1, g2, g3⟩ := oneFile_spec (K := K) (nts := nts) (nxs := nxs) (nys := nys) (dnz := dnz)
        (show n < nxr by omega) (snap n) o
      refine ⟨p, ?_, ?_⟩
      · rw [List.range_succ, List.foldlM_append, h1]
        simp only [Option.bind_eq_bind, Option.bind_some, List.foldlM_cons, List.foldlM_nil, g1, Option.pure_def]
      · intro iz iy ix ixr it hz hy hx hr ht
        by_cases e : ixr = n
        · subst e; exact g2 iz iy ix it hz hy hx ht
        · rw [g3 iz iy ix it ixr hy hx ht (by omega) e]
          exact h2 iz iy ix ixr it hz hy hx (by omega) ht
  obtain ⟨o, h1, h2⟩ := key nxr (Nat.le_refl _)
  refine ⟨o, h1, ?_⟩
  intro iz iy ix ixr it hz hy hx hr ht
  have := h2 iz iy ix ixr it hz hy hx hr ht
  unfold Cube
  rw [← idx_eq nys nxs dnz, ← this, idx_eq]
  congr 1
  ring

example : ((shots 2 2 2 1 2 (fun r i => 100 * r + i) (fun _ => 999)).map fun o => (List.range 16).map o) =
    some [0, 4, 100, 104, 2, 6, 102, 106, 1, 5, 101, 105, 3, 7, 103, 107] := by decide +kernel

/-- Found at a position where it occurs. -/
theorem strstr_spec {s t : List Char} {p : Nat} (h : strstr s t = some p) : p ≤ s.length ∧ ∃ r, s.drop p = t ++ r := by
  unfold strstr at h
  have h1 := List.mem_of_find?_eq_some h
  have h2 := List.find?_some h
  rw [List.mem_range] at h1
  obtain ⟨r, hr⟩ := List.isPrefixOf_iff_prefix.mp h2
  exact ⟨by omega, r, hr.symm⟩

/-- C186: with a first number of one digit, the first file read is the file the user named, and file `k` differs from it only in
the number: some occurrence of the first number is replaced by `numb + k dnumb`. -/
theorem names_one_digit_partial (file : List Char) (numb dnumb k : Nat) (h1 : (dec numb).length = 1) (name : List Char)
    (h : fileName file numb dnumb k = some name) :
    ∃ a b, file = a ++ dec numb ++ b ∧ name = a ++ dec (k * dnumb + numb) ++ b := by
  unfold fileName at h
  rw [Option.map_eq_some_iff] at h
  obtain ⟨p, hp, e⟩ := h
  obtain ⟨hl, r, hr⟩ := strstr_spec hp
  refine ⟨file.take p, file.drop (p + 1), ?_, e.symm⟩
  have : file.drop (p + 1) = r := by
    rw [← List.drop_drop, hr]
    rw [← h1, List.drop_left]
  rw [this, List.append_assoc, ← hr, List.take_append_drop]

/-- C186 (violation): with a first number of two or more digits the file the user named is never read: the name of the first file
is longer. -/
theorem names_more_digits (file : List Char) (numb dnumb : Nat) (h1 : 2 ≤ (dec numb).length) (name : List Char)
    (h : fileName file numb dnumb 0 = some name) : name.length = file.length + ((dec numb).length - 1) ∧ name ≠ file := by
  unfold fileName at h
  rw [Option.map_eq_some_iff] at h
  obtain ⟨p, hp, e⟩ := h
  obtain ⟨hl, r, hr⟩ := strstr_spec hp
  have hd := congrArg List.length hr
  rw [List.length_drop, List.length_append] at hd
  have : name.length = file.length + ((dec numb).length - 1) := by
    rw [← e]
    simp only [List.length_append, List.length_take, List.length_drop, Nat.zero_mul, Nat.zero_add]
    omega
  refine ⟨this, fun q => ?_⟩
  rw [q] at this
  omega

/-- C186 (violation): a name that does not hold the number has no names of files at all (`strstr` returns `NULL`). -/
theorem names_absent (file : List Char) (numb dnumb k : Nat) (h : ¬ ∃ a b, file = a ++ dec numb ++ b) :
    fileName file numb dnumb k = none := by
  unfold fileName
  rw [Option.map_eq_none_iff]
  by_contra hc
  obtain ⟨p, hp⟩ := Option.ne_none_iff_exists'.mp hc
  obtain ⟨-, r, hr⟩ := strstr_spec hp
  apply h
  refine ⟨file.take p, r, ?_⟩
  rw [List.append_assoc, ← hr, List.take_append_drop]

example : fileName "snap1.su".toList 1 5 2 = some "snap11.su".toList := by decide +kernel
/-- `file_snap=snap10.su numb=10` looks for `snap100.su`. -/
example : fileName "snap10.su".toList 10 1 0 = some "snap100.su".toList := by decide +kernel
/-- A digit in the directory is replaced instead of the number of the file. -/
theorem names_wrong_digit : fileName "run1/snap1.su".toList 1 1 1 = some "run2/snap1.su".toList := by decide +kernel

end Verif.Snap

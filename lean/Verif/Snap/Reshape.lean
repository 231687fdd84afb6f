import Mathlib.Tactic.Ring
import Mathlib.Tactic.Linarith
import Mathlib.Algebra.Field.Rat

/-!
# Snapshot files: readSnapData3D, reshape_su, snap2shot

Arrays are functions from indices to values; a store or a load outside an array ends the program (`none`).  Sample values are not
interpreted.  Not modelled: reading and writing of the bytes of the files (a file is the list of its samples, `tmpdata`), files that
are too short (the arrays would keep uninitialised samples), `long` overflow.
-/

namespace Verif.Snap

universe u
variable {K : Type u} {ι : Type}

/-- Nested loops `for a<na; for b<nb; for c<nc; for d<nd`. -/
def quads (na nb nc nd : Nat) : List (Nat × Nat × Nat × Nat) :=
  (List.range na).flatMap fun a => (List.range nb).flatMap fun b => (List.range nc).flatMap fun c =>
    (List.range nd).map fun d => (a, b, c, d)

/-- A store. -/
def store (o : Nat → K) (i : Nat) (v : K) : Nat → K := fun j => if j = i then v else o j

/-- For every iteration: `out[f x] = src[g x]`, with `out` of `n` and `src` of `m` elements. -/
def copyM (n m : Nat) (f g : ι → Nat) (src : Nat → K) (L : List ι) (out : Nat → K) : Option (Nat → K) :=
  L.foldlM (fun o x => if f x < n ∧ g x < m then some (store o (f x) (src (g x))) else none) out

/-- `it*ny*nx*nz+iy*nx*nz+ix*nz+iz`, the index used by all three programs; `d` are the lengths of the last three dimensions. -/
def idx (d3 d2 d1 i4 i3 i2 i1 : Nat) : Nat := i4 * d3 * d2 * d1 + i3 * d2 * d1 + i2 * d1 + i1

/-- The copy of a window out of the samples of a file (utils/readSnapData3D.c:41-52): loops over `iz`, `iy`, `ix`, `it`. -/
def readSnap (nsnaps nx ny nz sx ex sy ey sz ez : Nat) (tmp data : Nat → K) : Option (Nat → K) :=
  copyM (nsnaps * (ey - sy) * (ex - sx) * (ez - sz)) (nsnaps * ny * nx * nz)
    (fun (iz, iy, ix, it) => idx (ey - sy) (ex - sx) (ez - sz) it iy ix iz)
    (fun (iz, iy, ix, it) => idx ny nx nz it (iy + sy) (ix + sx) (iz + sz))
    tmp (quads (ez - sz) (ey - sy) (ex - sx) nsnaps) data

/-- The reshaping loop (utils/reshape_su.c:116-125). -/
def reshape (n1 n2 n3 n4 : Nat) (indata outdata : Nat → K) : Option (Nat → K) :=
  copyM (n1 * n2 * n3 * n4) (n1 * n2 * n3 * n4)
    (fun (i4, i3, i2, i1) => i1 * n4 * n2 * n3 + i3 * n4 * n2 + i2 * n4 + i4)
    (fun (i4, i3, i2, i1) => i4 * n1 * n2 * n3 + i3 * n1 * n2 + i2 * n1 + i1)
    indata (quads n4 n3 n2 n1) outdata

/-- The loops over one file (utils/snap2shot.c:163-171); `snap` is the window read from file `ixr`. -/
def oneFile (nxr nts nxs nys dnz ixr : Nat) (snap rcv : Nat → K) : Option (Nat → K) :=
  copyM (nxr * dnz * nxs * nys * nts) (dnz * nxs * nys * nts)
    (fun (iz, iy, ix, it) => iz * nys * nxs * nxr * nts + iy * nxs * nxr * nts + ix * nxr * nts + ixr * nts + it)
    (fun (iz, iy, ix, it) => it * nys * nxs * dnz + iy * nxs * dnz + ix * dnz + iz)
    snap (quads dnz nys nxs nts) rcv

/-- The loop over the files (utils/snap2shot.c:155-172). -/
def shots (nxr nts nxs nys dnz : Nat) (snap : Nat → Nat → K) (rcv : Nat → K) : Option (Nat → K) :=
  (List.range nxr).foldlM (fun o ixr => oneFile nxr nts nxs nys dnz ixr (snap ixr) o) rcv

/-! ## Header of reshape_su -/

/-- The fields of a trace header that reshape_su uses. -/
structure Hdr where
  trid : Int
  dt : Rat
  d1 : Rat
  f1 : Rat
  ungpow : Rat
  unscale : Rat
  scalco : Int
  sx : Int
  gx : Int

/-- The header written for a trace whose input header is `h` (utils/reshape_su.c:78-86, 132-163).  The output record was
cleared by `calloc`.  `n4` is the number of snapshots.  `trid` is 2 or 3: for any other value the program uses `d4` and `f4`
uninitialised. -/
def outHdr (n4 : Int) (h : Hdr) : Hdr :=
  let d4 := if h.trid = 2 then h.dt / 1000000 else h.ungpow
  let f4 := if h.trid = 2 then -((n4 / 2 - 1 : Int) : Rat) * d4 else h.unscale
  { trid := if h.trid = 2 then 3 else 2
    dt := h.dt
    d1 := d4
    f1 := f4
    ungpow := if h.trid = 2 then h.d1 else 0
    unscale := if h.trid = 2 then h.f1 else 0
    scalco := -1000
    sx := h.sx
    gx := h.gx }

/-- Position a coordinate of a header stands for (SU convention, as in getFileInfo3D.c:53-55). -/
def coord (scalco : Int) (x : Int) : Rat :=
  if scalco < 0 then x / |(scalco : Rat)| else if scalco = 0 then x else x * scalco

/-! ## File names of snap2shot -/

/-- `strstr`: position of the first occurrence. -/
def strstr (s t : List Char) : Option Nat :=
  (List.range (s.length + 1)).find? fun i => t.isPrefixOf (s.drop i)

/-- Decimal representation (`%li` of a number that is not negative). -/
def dec (n : Nat) : List Char := (Nat.repr n).toList

/-- Name of file `k` (utils/snap2shot.c:88-94, 102-103): the part before the first occurrence of the number, the number of the
file, and what follows the first character of the occurrence. -/
def fileName (file : List Char) (numb dnumb k : Nat) : Option (List Char) :=
  (strstr file (dec numb)).map fun p => file.take p ++ dec (k * dnumb + numb) ++ file.drop (p + 1)

/-! ## Lemmas -/

theorem mem_quads {na nb nc nd a b c d : Nat} : (a, b, c, d) ∈ quads na nb nc nd ↔ a < na ∧ b < nb ∧ c < nc ∧ d < nd := by
  unfold quads
  simp only [List.mem_flatMap, List.mem_map, List.mem_range, Prod.mk.injEq]
  constructor
  · rintro ⟨x, hx, y, hy, z, hz, w, hw, rfl, rfl, rfl, rfl⟩; exact ⟨hx, hy, hz, hw⟩
  · rintro ⟨h1, h2, h3, h4⟩; exact ⟨a, h1, b, h2, c, h3, d, h4, rfl, rfl, rfl, rfl⟩

/-- A loop of stores that stays inside the arrays and in which no element gets two different values. -/
theorem copyM_spec {n m : Nat} {f g : ι → Nat} {src : Nat → K} (L : List ι) (out : Nat → K)
    (hb : ∀ x ∈ L, f x < n ∧ g x < m) (hf : ∀ x ∈ L, ∀ y ∈ L, f x = f y → g x = g y) :
    ∃ o, copyM n m f g src L out = some o ∧ (∀ x ∈ L, o (f x) = src (g x)) ∧ ∀ i, (∀ x ∈ L, f x ≠ i) → o i = out i := by
  induction L generalizing out with
  | nil => exact ⟨out, rfl, by simp, fun _ _ => rfl⟩
  | cons x L ih =>
    obtain ⟨o, h1, h2, h3⟩ := ih (store out (f x) (src (g x))) (fun y hy => hb y (by simp [hy]))
      (fun y hy z hz => hf y (by simp [hy]) z (by simp [hz]))
    refine ⟨o, ?_, ?_, ?_⟩
    · unfold copyM at *
      rw [List.foldlM_cons, if_pos (hb x (by simp))]
      exact h1
    · intro y hy
      rcases List.mem_cons.mp hy with rfl | hy'
      · by_cases he : ∃ z ∈ L, f z = f y
        · obtain ⟨z, hz, e⟩ := he
          rw [← e, h2 z hz, hf z (by simp [hz]) y (by simp) e]
        · push Not at he
          rw [h3 _ he]
          unfold store; rw [if_pos rfl]
      · exact h2 y hy'
    · intro i hi
      rw [h3 i fun y hy => hi y (by simp [hy])]
      unfold store; rw [if_neg fun e => hi x (by simp) e.symm]

/-- One digit of a mixed-radix number. -/
theorem digit_lt {n d i j : Nat} (hi : i < n) (hj : j < d) : i * d + j < n * d := by
  have : (i + 1) * d ≤ n * d := Nat.mul_le_mul_right d hi
  rw [Nat.add_mul, Nat.one_mul] at this
  omega

theorem digit_inj {d i j i' j' : Nat} (hj : j < d) (hj' : j' < d) (h : i * d + j = i' * d + j') : i = i' ∧ j = j' := by
  have e1 := congrArg (· / d) h
  have e2 := congrArg (· % d) h
  beta_reduce at e1 e2
  rw [Nat.add_comm, Nat.add_mul_div_right _ _ (by omega), Nat.div_eq_of_lt hj, Nat.add_comm (i' * d),
    Nat.add_mul_div_right _ _ (by omega), Nat.div_eq_of_lt hj'] at e1
  rw [Nat.add_comm, Nat.add_mul_mod_self_right, Nat.mod_eq_of_lt hj, Nat.add_comm (i' * d), Nat.add_mul_mod_self_right,
    Nat.mod_eq_of_lt hj'] at e2
  omega

theorem idx_eq (d3 d2 d1 i4 i3 i2 i1 : Nat) : idx d3 d2 d1 i4 i3 i2 i1 = ((i4 * d3 + i3) * d2 + i2) * d1 + i1 := by
  unfold idx; ring

theorem idx_lt {n d3 d2 d1 i4 i3 i2 i1 : Nat} (h4 : i4 < n) (h3 : i3 < d3) (h2 : i2 < d2) (h1 : i1 < d1) :
    idx d3 d2 d1 i4 i3 i2 i1 < n * d3 * d2 * d1 := by
  rw [idx_eq]; exact digit_lt (digit_lt (digit_lt h4 h3) h2) h1

theorem idx_inj {d3 d2 d1 i4 i3 i2 i1 j4 j3 j2 j1 : Nat} (h3 : i3 < d3) (h2 : i2 < d2) (h1 : i1 < d1) (g3 : j3 < d3)
    (g2 : j2 < d2) (g1 : j1 < d1) (h : idx d3 d2 d1 i4 i3 i2 i1 = idx d3 d2 d1 j4 j3 j2 j1) :
    i4 = j4 ∧ i3 = j3 ∧ i2 = j2 ∧ i1 = j1 := by
  rw [idx_eq, idx_eq] at h
  obtain ⟨h, e1⟩ := digit_inj h1 g1 h
  obtain ⟨h, e2⟩ := digit_inj h2 g2 h
  obtain ⟨e4, e3⟩ := digit_inj h3 g3 h
  exact ⟨e4, e3, e2, e1⟩

/-- Every element is the one of some quadruple. -/
theorem idx_surj {n d3 d2 d1 i : Nat} (h : i < n * d3 * d2 * d1) :
    ∃ i4 i3 i2 i1, i4 < n ∧ i3 < d3 ∧ i2 < d2 ∧ i1 < d1 ∧ i = idx d3 d2 d1 i4 i3 i2 i1 := by
  have p1 : 0 < d1 := Nat.pos_of_ne_zero (by rintro rfl; simp at h)
  have p2 : 0 < d2 := Nat.pos_of_ne_zero (by rintro rfl; simp at h)
  have p3 : 0 < d3 := Nat.pos_of_ne_zero (by rintro rfl; simp at h)
  refine ⟨i / d1 / d2 / d3, i / d1 / d2 % d3, i / d1 % d2, i % d1, ?_, Nat.mod_lt _ p3, Nat.mod_lt _ p2, Nat.mod_lt _ p1, ?_⟩
  · rw [Nat.div_lt_iff_lt_mul p3, Nat.div_lt_iff_lt_mul p2, Nat.div_lt_iff_lt_mul p1]; exact h
  · rw [idx_eq, Nat.div_add_mod', Nat.div_add_mod', Nat.div_add_mod']

theorem isPrefixOf_length {t s : List Char} (h : t.isPrefixOf s = true) : t.length ≤ s.length :=
  (List.isPrefixOf_iff_prefix.mp h).length_le

end Verif.Snap

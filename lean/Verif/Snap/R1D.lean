import Verif.Base.Num
import Mathlib.Tactic.Ring
import Mathlib.Tactic.FieldSimp
import Mathlib.Tactic.Linarith

/-!
# C202: makeR1D, the reflection response of a layered medium (utils/makeR1D.c)

One shot record of `nyin × nxin` traces gives the response for every source and receiver, because in a layered medium only the
offset matters.  Distances are exact rationals.  A load outside the input array ends the program (`none`).  Not modelled: reading,
headers, output; `dxsrc` and `dxrcv` are whole multiples `fs`, `fr` of the spacing (checked up to a tolerance by the program).
-/

namespace Verif.Snap.R1D

universe u
variable {K : Type u}

/-- One of the two horizontal axes. -/
structure Axis where
  /-- number of traces, first position, spacing of the input -/
  n : Nat
  x0 : ℚ
  dx : ℚ
  /-- spacing of sources and receivers in spacings of the input, and their numbers as given (or by default) -/
  fs : Nat
  fr : Nat
  ns : Nat
  nr : Nat

/-- What the program accepts (utils/makeR1D.c:141-160). -/
def Accepted (a : Axis) : Prop := a.ns ≤ ((a.n + 1) / 2 - 1) / a.fs + 1 ∧ a.nr ≤ ((a.n + 1) / 2 - 1) / a.fr + 1

/-- `dxout` (utils/makeR1D.c:135-136): the macro `MINL` makes it a whole number (20). -/
def dout (a : Axis) : Int := ⌊min (a.fr * a.dx) (a.fs * a.dx)⌋

/-- `x0rcv`, `x0src` (utils/makeR1D.c:162-163); the divisions are those of integers. -/
def x0rcv (a : Axis) : ℚ := a.x0 + ((a.n - 1) / 2 : Nat) * a.dx - ((a.nr - 1) / 2 : Nat) * (a.fr * a.dx)
def x0src (a : Axis) : ℚ := a.x0 + ((a.n - 1) / 2 : Nat) * a.dx - ((a.ns - 1) / 2 : Nat) * (a.fs * a.dx)

/-- Numbers of sources and receivers of the output (utils/makeR1D.c:178-181). -/
def nsOut (a : Axis) : Nat := if a.fs ≠ 1 then a.fs * a.ns - 1 else a.ns
def nrOut (a : Axis) : Nat := if a.fr ≠ 1 then a.fr * a.nr - 1 else a.nr

/-- Positions written for source `i` and receiver `i` (utils/makeR1D.c:234-236, 240, 244). -/
def spos (a : Axis) (i : Nat) : ℚ := x0src a + i * dout a
def gpos (a : Axis) (i : Nat) : ℚ := x0rcv a + i * dout a

/-- `ixi` (utils/makeR1D.c:241-242, 245-246). -/
def ixi (a : Axis) (s r : Nat) : Int := NINT ((gpos a r - spos a s - a.x0) / a.dx)

/-- Sample `it` of the response (utils/makeR1D.c:247-258); `t0out` equals `t0in`, so `iti` is `it`. -/
def sample [Zero K] (ax ay : Axis) (nt : Nat) (ind : Nat → K) (sy sx ry rx it : Nat) : Option K :=
  if sx % ax.fs = 0 ∧ sy % ay.fs = 0 ∧ rx % ax.fr = 0 ∧ ry % ay.fr = 0 then
    let i : Int := ixi ay sy ry * ax.n * nt + ixi ax sx rx * nt + it
    if 0 ≤ i ∧ i < (ax.n * ay.n * nt : Nat) then some (ind i.toNat) else none
  else some 0

/-! ## Properties -/

/-- A record around its source, spaced by a whole number of metres, all positions used. -/
structure Regular (a : Axis) : Prop where
  d : ∃ d : Nat, 0 < d ∧ a.dx = d
  centred : a.x0 = -(((a.n - 1) / 2 : Nat) * a.dx)
  one : a.fs = 1 ∧ a.fr = 1
  pos : 0 < a.ns ∧ 0 < a.nr ∧ 0 < a.n
  acc : Accepted a

/-- One axis: the trace exists and its position is the distance from the source to the receiver. -/
theorem axis_right (a : Axis) (h : Regular a) (s r : Nat) (hs : s < a.ns) (hr : r < a.nr) :
    0 ≤ ixi a s r ∧ ixi a s r < a.n ∧ a.x0 + ixi a s r * a.dx = gpos a r - spos a s := by
  obtain ⟨⟨d, hd, ed⟩, hc, ⟨f1, f2⟩, ⟨p1, p2, p3⟩, acc⟩ := h
  unfold Accepted at acc
  rw [f1, f2, Nat.div_one] at acc
  have hdo : dout a = d := by
    unfold dout
    rw [f1, f2, ed, Nat.cast_one, one_mul, min_self]
    exact_mod_cast Int.floor_natCast d
  have hq : (0 : ℚ) < d := by exact_mod_cast hd
  have key : (gpos a r - spos a s - a.x0) / a.dx =
      ((((a.ns - 1) / 2 : Nat) - ((a.nr - 1) / 2 : Nat) + r - s + ((a.n - 1) / 2 : Nat) : Int) : ℚ) := by
    unfold gpos spos x0rcv x0src
    rw [hdo, hc, f1, f2, ed]
    generalize (a.ns - 1) / 2 = A
    generalize (a.nr - 1) / 2 = B
    generalize (a.n - 1) / 2 = C
    push_cast
    field_simp
    ring
  have hi : ixi a s r = ((a.ns - 1) / 2 : Nat) - ((a.nr - 1) / 2 : Nat) + r - s + ((a.n - 1) / 2 : Nat) := by
    unfold ixi
    rw [key, NINT_int]
  refine ⟨by rw [hi]; omega, by rw [hi]; omega, ?_⟩
  have : gpos a r - spos a s - a.x0 = ixi a s r * a.dx := by
    rw [hi, ← key, div_mul_cancel₀]
    rw [ed]; exact hq.ne'
  linarith

/-- C202: for a record centred at its source, with a spacing of whole metres and all positions used, the response from every source
to every receiver is the input trace at the distance between them; no load is outside the input. -/
theorem response_right_partial [Zero K] (ax ay : Axis) (hx : Regular ax) (hy : Regular ay) (nt : Nat) (ind : Nat → K)
    (sy sx ry rx it : Nat) (h1 : sy < ay.ns) (h2 : sx < ax.ns) (h3 : ry < ay.nr) (h4 : rx < ax.nr) (h5 : it < nt) :
    ∃ jy jx : Nat, jy < ay.n ∧ jx < ax.n ∧ ay.x0 + jy * ay.dx = gpos ay ry - spos ay sy ∧
      ax.x0 + jx * ax.dx = gpos ax rx - spos ax sx ∧
      sample ax ay nt ind sy sx ry rx it = some (ind ((jy * ax.n + jx) * nt + it)) := by
  obtain ⟨a1, a2, a3⟩ := axis_right ay hy sy ry h1 h3
  obtain ⟨b1, b2, b3⟩ := axis_right ax hx sx rx h2 h4
  obtain ⟨jy, ey⟩ := Int.eq_ofNat_of_zero_le a1
  obtain ⟨jx, ex⟩ := Int.eq_ofNat_of_zero_le b1
  rw [ey] at a2 a3
  rw [ex] at b2 b3
  refine ⟨jy, jx, by omega, by omega, by exact_mod_cast a3, by exact_mod_cast b3, ?_⟩
  unfold sample
  rw [hx.one.1, hx.one.2, hy.one.1, hy.one.2, if_pos ⟨Nat.mod_one _, Nat.mod_one _, Nat.mod_one _, Nat.mod_one _⟩]
  dsimp only
  rw [ey, ex]
  have e : (jy : Int) * ax.n * nt + jx * nt + it = (((jy * ax.n + jx) * nt + it : Nat) : Int) := by push_cast; ring
  have l1 : (jx + 1) ≤ ax.n := by omega
  have l2 : (jy + 1) * ax.n ≤ ay.n * ax.n := Nat.mul_le_mul_right _ (by omega)
  have l3 : (jy * ax.n + jx + 1) * nt ≤ ay.n * ax.n * nt := by
    apply Nat.mul_le_mul_right
    rw [Nat.add_mul, Nat.one_mul] at l2
    omega
  rw [Nat.add_mul, Nat.one_mul] at l3
  have l4 : (jy * ax.n + jx) * nt + it < ax.n * ay.n * nt := by
    rw [Nat.mul_comm ax.n]; omega
  rw [show ((jy : Nat) : Int) * ax.n * nt + ((jx : Nat) : Int) * nt + it = (((jy * ax.n + jx) * nt + it : Nat) : Int) from e,
    if_pos ⟨by omega, by exact_mod_cast l4⟩, Int.toNat_natCast]

/-- C202 (violation): with a spacing of less than one metre all sources and receivers get the same trace. -/
theorem response_small_spacing (a : Axis) (h0 : 0 < a.dx) (h1 : a.dx < 1) (hf : a.fs = 1 ∧ a.fr = 1) (s r s' r' : Nat) :
    ixi a s r = ixi a s' r' := by
  have : dout a = 0 := by
    unfold dout
    rw [hf.1, hf.2, Nat.cast_one, one_mul, min_self, Int.floor_eq_zero_iff]
    exact ⟨h0.le, h1⟩
  unfold ixi gpos spos
  rw [this]
  simp

/-- C202 (violation): for a record that starts at its source (offsets from zero), or further, the program reads before the
beginning of the input. -/
theorem response_one_sided [Zero K] (ax ay : Axis) (nt : Nat) (ind : Nat → K) (it : Nat) (hd : ∃ d : Nat, 0 < d ∧ ax.dx = d)
    (hx : 0 ≤ ax.x0) (hf : ax.fs = 1 ∧ ax.fr = 1) (hs : 2 ≤ ax.ns) (hy : ixi ay 0 0 = 0) (hit : it < nt) :
    sample ax ay nt ind 0 (ax.ns - 1) 0 0 it = none := by
  obtain ⟨d, hd, ed⟩ := hd
  obtain ⟨f1, f2⟩ := hf
  have hdo : dout ax = d := by
    unfold dout
    rw [f1, f2, ed, Nat.cast_one, one_mul, min_self]
    exact_mod_cast Int.floor_natCast d
  have hq : (0 : ℚ) < d := by exact_mod_cast hd
  have key : (gpos ax 0 - spos ax (ax.ns - 1) - ax.x0) / ax.dx =
      ((((ax.ns - 1) / 2 : Nat) - ((ax.nr - 1) / 2 : Nat) - (ax.ns - 1 : Nat) : Int) : ℚ) - ax.x0 / d := by
    unfold gpos spos x0rcv x0src
    rw [hdo, f1, f2, ed]
    generalize (ax.ns - 1) / 2 = A
    generalize (ax.nr - 1) / 2 = B
    generalize (ax.n - 1) / 2 = C
    generalize ax.ns - 1 = D
    push_cast
    field_simp
    ring
  have hneg : ixi ax (ax.ns - 1) 0 ≤ -1 := by
    unfold ixi
    rw [key]
    have hi : ((((ax.ns - 1) / 2 : Nat) - ((ax.nr - 1) / 2 : Nat) - (ax.ns - 1 : Nat) : Int) : ℚ) ≤ ((-1 : Int) : ℚ) := by
      exact_mod_cast (by omega : ((((ax.ns - 1) / 2 : Nat) - ((ax.nr - 1) / 2 : Nat) - (ax.ns - 1 : Nat) : Int)) ≤ -1)
    have hx' : 0 ≤ ax.x0 / d := div_nonneg hx hq.le
    unfold NINT
    push_cast at hi ⊢
    rw [if_neg (by linarith), Int.ceil_le]
    push_cast
    linarith
  unfold sample
  rw [f1, f2, if_pos ⟨Nat.mod_one _, Nat.zero_mod _, Nat.mod_one _, Nat.zero_mod _⟩]
  dsimp only
  rw [hy, if_neg]
  rintro ⟨h, -⟩
  rw [Int.zero_mul, Int.zero_mul, Int.zero_add] at h
  have : ixi ax (ax.ns - 1) 0 * nt ≤ -1 * nt := Int.mul_le_mul_of_nonneg_right hneg (by omega)
  omega

/-- C202 (violation): with sources on every third position only, the largest numbers the program accepts (its defaults) make it read
before the beginning of the input. -/
theorem response_factor : Accepted ⟨7, -3, 1, 3, 1, 2, 4⟩ ∧ 3 < nsOut ⟨7, -3, 1, 3, 1, 2, 4⟩ ∧
    sample (K := Int) ⟨7, -3, 1, 3, 1, 2, 4⟩ ⟨1, 0, 1, 1, 1, 1, 1⟩ 1 (fun i => i) 0 3 0 0 0 = none := by
  unfold Accepted; decide +kernel

/-- C202 (violation): a spacing of 12.5 m is taken as 12 m: for a record of 101 traces, the positions written for source 0 and
receiver 50 are 600 m apart, not 625 m, and the trace is the one at 600 m. -/
theorem response_fraction : gpos ⟨101, -625, 25/2, 1, 1, 51, 51⟩ 50 - spos ⟨101, -625, 25/2, 1, 1, 51, 51⟩ 0 = 600 ∧
    ixi ⟨101, -625, 25/2, 1, 1, 51, 51⟩ 0 50 = 98 := by decide +kernel

/-! ## The hypotheses are met -/

example : Regular ⟨5, -20, 10, 1, 1, 3, 3⟩ :=
  ⟨⟨10, by omega, by norm_num⟩, by norm_num, ⟨rfl, rfl⟩, by decide, by unfold Accepted; decide⟩
/-- A line of five traces; source 0, receiver 2: the trace at 20 m. -/
example : sample (K := Int) ⟨5, -20, 10, 1, 1, 3, 3⟩ ⟨1, 0, 1, 1, 1, 1, 1⟩ 1 (fun i => 100 + i) 0 0 0 2 0 = some 104 := by
  decide +kernel
example : sample (K := Int) ⟨5, 0, 10, 1, 1, 3, 3⟩ ⟨1, 0, 1, 1, 1, 1, 1⟩ 1 (fun i => 100 + i) 0 2 0 0 0 = none :=
  response_one_sided _ _ 1 _ 0 ⟨10, by omega, by norm_num⟩ (by norm_num) ⟨rfl, rfl⟩ (by decide) (by decide +kernel)
    (by omega)

end Verif.Snap.R1D

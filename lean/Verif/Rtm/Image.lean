import Verif.Rtm.Model
import Mathlib.Algebra.BigOperators.Intervals
import Mathlib.Tactic.Ring
import Mathlib.Tactic.Linarith

/-!
# Lemmas about one imaging step of `fdacrtmc`
-/

namespace Verif.Rtm
open Verif

variable {K : Type} [Field K] [LinearOrder K]

theorem pt_inj {m : Mig K} {ix iz jx jz : ℕ} (hz : iz < m.nz) (hz' : jz < m.nz)
    (h : pt m ix iz = pt m jx jz) : ix = jx ∧ iz = jz := by
  unfold pt at h
  have h : ix * m.nz + iz = jx * m.nz + jz := by exact_mod_cast h
  have h1 : (ix * m.nz + iz) / m.nz = ix := by
    rw [Nat.mul_comm, Nat.mul_add_div (by omega), Nat.div_eq_of_lt hz, Nat.add_zero]
  have h2 : (jx * m.nz + jz) / m.nz = jx := by
    rw [Nat.mul_comm, Nat.mul_add_div (by omega), Nat.div_eq_of_lt hz', Nat.add_zero]
  rw [h] at h1
  have h3 : ix = jx := by omega
  subst h3
  exact ⟨rfl, by omega⟩

theorem pt_ok {m : Mig K} {ix iz : ℕ} (hx : ix < m.nx) (hz : iz < m.nz) :
    0 ≤ pt m ix iz ∧ pt m ix iz < ((m.nx * m.nz : ℕ) : Int) := by
  unfold pt
  have : (ix + 1) * m.nz ≤ m.nx * m.nz := Nat.mul_le_mul_right _ hx
  have : ix * m.nz + iz < m.nx * m.nz := by
    rw [Nat.add_mul] at this; omega
  omega

/-- The double loop over the image points does its work at every point once. -/
theorem overImage_spec {m : Mig K} {body : ℕ → ℕ → Buf K → Option (Buf K)} {u : ℕ → ℕ → K → K}
    (hb : ∀ ix, ix < m.nx → ∀ iz, iz < m.nz →
      PW (m.nx * m.nz) (body ix iz) (fun x v => if x = pt m ix iz then u ix iz v else v))
    (d : Buf K) (hd : d.size = m.nx * m.nz) :
    ∃ d', overImage m body d = some d' ∧ d'.size = m.nx * m.nz ∧
      ∀ ix, ix < m.nx → ∀ iz, iz < m.nz → d'.val (pt m ix iz) = u ix iz (d.val (pt m ix iz)) := by
  have key : PW (m.nx * m.nz) (fun d => overImage m body d) _ :=
    PW.forNM fun ix hx => PW.forNM fun iz hz => hb ix hx iz hz
  obtain ⟨d', h1, h2, h3⟩ := key d hd
  refine ⟨d', h1, h2, fun ix hx iz hz => ?_⟩
  rw [h3]
  rw [forN_single ix hx ?_]
  · rw [forN_single iz hz ?_]
    · simp
    · intro k hk hne v
      have : pt m ix iz ≠ pt m ix k := fun h => hne (pt_inj hz hk h).2.symm
      simp [this]
  · intro k hk hne v
    apply forN_noop
    intro j hj v
    have : pt m ix iz ≠ pt m k j := fun h => hne (pt_inj hz hj h).1.symm
    simp [this]

/-- The places of the image points in the arrays of the model. -/
structure Inside (g : Grid) (m : Mig K) : Prop where
  p : ∀ ix, ix < m.nx → ∀ iz, iz < m.nz → pos g m g.ioPx g.ioPz ix iz + g.naz + 1 < ((g.nax * g.naz : ℕ) : Int)
  x : ∀ ix, ix < m.nx → ∀ iz, iz < m.nz → pos g m g.ioXx g.ioXz ix iz + g.naz < ((g.nax * g.naz : ℕ) : Int)
  z : ∀ ix, ix < m.nx → ∀ iz, iz < m.nz → pos g m g.ioZx g.ioZz ix iz + 1 < ((g.nax * g.naz : ℕ) : Int)

/-- The arrays have the size of the model. -/
structure Sized (g : Grid) (w : Wav K) : Prop where
  p : w.tzz.size = g.nax * g.naz
  x : w.vx.size = g.nax * g.naz
  z : w.vz.size = g.nax * g.naz

theorem pos_nonneg (g : Grid) (m : Mig K) (ox oz ix iz : ℕ) : 0 ≤ pos g m ox oz ix iz := by
  unfold pos; exact Int.natCast_nonneg _

theorem rd_at {b : Buf K} {N : ℕ} (hb : b.size = N) {i : Int} (h0 : 0 ≤ i) (h : i < (N : Int)) :
    b.rd i = some (b.val i) := Buf.rd_ok ⟨h0, by rw [hb]; exact h⟩

section
variable {g : Grid} {m : Mig K} (hin : Inside g m)
include hin

theorem rd_p {b : Buf K} (hb : b.size = g.nax * g.naz) {ix iz : ℕ} (hx : ix < m.nx) (hz : iz < m.nz) :
    b.rd (pos g m g.ioPx g.ioPz ix iz) = some (b.val (pos g m g.ioPx g.ioPz ix iz)) ∧
    b.rd (pos g m g.ioPx g.ioPz ix iz + g.naz) = some (b.val (pos g m g.ioPx g.ioPz ix iz + g.naz)) ∧
    b.rd (pos g m g.ioPx g.ioPz ix iz + 1) = some (b.val (pos g m g.ioPx g.ioPz ix iz + 1)) := by
  have := hin.p ix hx iz hz
  have h0 := pos_nonneg g m g.ioPx g.ioPz ix iz
  refine ⟨rd_at hb h0 (by omega), rd_at hb (by omega) (by omega), rd_at hb (by omega) (by omega)⟩

theorem rd_x {b : Buf K} (hb : b.size = g.nax * g.naz) {ix iz : ℕ} (hx : ix < m.nx) (hz : iz < m.nz) :
    b.rd (pos g m g.ioXx g.ioXz ix iz) = some (b.val (pos g m g.ioXx g.ioXz ix iz)) ∧
    b.rd (pos g m g.ioXx g.ioXz ix iz + g.naz) = some (b.val (pos g m g.ioXx g.ioXz ix iz + g.naz)) := by
  have := hin.x ix hx iz hz
  have h0 := pos_nonneg g m g.ioXx g.ioXz ix iz
  refine ⟨rd_at hb h0 (by omega), rd_at hb (by omega) (by omega)⟩

theorem rd_z {b : Buf K} (hb : b.size = g.nax * g.naz) {ix iz : ℕ} (hx : ix < m.nx) (hz : iz < m.nz) :
    b.rd (pos g m g.ioZx g.ioZz ix iz) = some (b.val (pos g m g.ioZx g.ioZz ix iz)) ∧
    b.rd (pos g m g.ioZx g.ioZz ix iz + 1) = some (b.val (pos g m g.ioZx g.ioZz ix iz + 1)) := by
  have := hin.z ix hx iz hz
  have h0 := pos_nonneg g m g.ioZx g.ioZz ix iz
  refine ⟨rd_at hb h0 (by omega), rd_at hb (by omega) (by omega)⟩

omit hin in
/-- Filling the image points with given values. -/
theorem fill_spec {f : ℕ → ℕ → Buf K → Option (Buf K)} {v : ℕ → ℕ → K}
    (hf : ∀ ix, ix < m.nx → ∀ iz, iz < m.nz → ∀ d, f ix iz d = d.wr (pt m ix iz) (v ix iz)) :
    ∃ b, overImage m f ⟨m.nx * m.nz, fun _ => 0⟩ = some b ∧ b.size = m.nx * m.nz ∧
      ∀ ix, ix < m.nx → ∀ iz, iz < m.nz → b.val (pt m ix iz) = v ix iz := by
  refine overImage_spec (u := fun ix iz _ => v ix iz) (fun ix hx iz hz => ?_) _ rfl
  intro d hd
  rw [hf ix hx iz hz]
  exact PW.set (pt_ok hx hz) (v ix iz) d hd

theorem storeP_spec {w : Wav K} (hw : Sized g w) :
    ∃ b, storeP g m w = some b ∧ b.size = m.nx * m.nz ∧ ∀ ix, ix < m.nx → ∀ iz, iz < m.nz →
      b.val (pt m ix iz) = w.tzz.val (pos g m g.ioPx g.ioPz ix iz) :=
  fill_spec fun ix hx iz hz d => by rw [(rd_p hin hw.p hx hz).1]; rfl

theorem storeVx_spec {w : Wav K} (hw : Sized g w) :
    ∃ b, storeVx g m w = some b ∧ b.size = m.nx * m.nz ∧ ∀ ix, ix < m.nx → ∀ iz, iz < m.nz →
      b.val (pt m ix iz) =
        (w.vx.val (pos g m g.ioXx g.ioXz ix iz) + w.vx.val (pos g m g.ioXx g.ioXz ix iz + g.naz)) / 2 :=
  fill_spec fun ix hx iz hz d => by
    rw [(rd_x hin hw.x hx hz).1, (rd_x hin hw.x hx hz).2]; rfl

theorem storeVz_spec {w : Wav K} (hw : Sized g w) :
    ∃ b, storeVz g m w = some b ∧ b.size = m.nx * m.nz ∧ ∀ ix, ix < m.nx → ∀ iz, iz < m.nz →
      b.val (pt m ix iz) =
        (w.vz.val (pos g m g.ioZx g.ioZz ix iz) + w.vz.val (pos g m g.ioZx g.ioZz ix iz + 1)) / 2 :=
  fill_spec fun ix hx iz hz d => by
    rw [(rd_z hin hw.z hx hz).1, (rd_z hin hw.z hx hz).2]; rfl

/-- What one sample of the image gains when it is imaged. -/
theorem correlate_pw {w : Wav K} (hw : Sized g w) {p : Buf K} (hp : p.size = m.nx * m.nz) {ix iz : ℕ}
    (hx : ix < m.nx) (hz : iz < m.nz) :
    PW (m.nx * m.nz) (correlate g m w p ix iz) (fun x v => if x = pt m ix iz then
      v + m.dt * (w.tzz.val (pos g m g.ioPx g.ioPz ix iz) * p.val (pt m ix iz)) else v) := by
  intro d hd
  unfold correlate
  rw [(rd_p hin hw.p hx hz).1, rd_at hp (pt_ok hx hz).1 (pt_ok hx hz).2]
  exact PW.upd (pt_ok hx hz)
    (fun v => v + m.dt * (w.tzz.val (pos g m g.ioPx g.ioPz ix iz) * p.val (pt m ix iz))) d hd

end

/-- The flux products of a source field and a receiver field at an image point. -/
def fxx (g : Grid) (m : Mig K) (a w : Wav K) (ix iz : ℕ) : K :=
  (a.tzz.val (pos g m g.ioPx g.ioPz ix iz) *
    ((a.vx.val (pos g m g.ioXx g.ioXz ix iz) + a.vx.val (pos g m g.ioXx g.ioXz ix iz + g.naz)) / 2)) *
  (w.tzz.val (pos g m g.ioPx g.ioPz ix iz) *
    (w.vx.val (pos g m g.ioPx g.ioPz ix iz) + w.vx.val (pos g m g.ioPx g.ioPz ix iz + g.naz)) / 2)

/-- The same for the vertical fluxes. -/
def fzz (g : Grid) (m : Mig K) (a w : Wav K) (ix iz : ℕ) : K :=
  (a.tzz.val (pos g m g.ioPx g.ioPz ix iz) *
    ((a.vz.val (pos g m g.ioZx g.ioZz ix iz) + a.vz.val (pos g m g.ioZx g.ioZz ix iz + 1)) / 2)) *
  (w.tzz.val (pos g m g.ioPx g.ioPz ix iz) *
    (w.vz.val (pos g m g.ioPx g.ioPz ix iz) + w.vz.val (pos g m g.ioPx g.ioPz ix iz + 1)) / 2)

/-- Whether a sample is imaged. -/
def passes (m : Mig K) (x z : K) : Prop :=
  m.mode = 1 ∨ m.mode = 2 ∧
    (m.orient = 0 ∧ (if m.backscatter then 0 < x ∧ 0 < z else x < 0 ∨ z < 0) ∨
     m.orient = 1 ∧ 0 < z ∨ m.orient = 2 ∧ x < 0)

open Classical in
/-- What one imaging step adds to one sample. -/
noncomputable def gain (g : Grid) (m : Mig K) (a w : Wav K) (ix iz : ℕ) : K :=
  if passes m (fxx g m a w ix iz) (fzz g m a w ix iz) then
    m.dt * (w.tzz.val (pos g m g.ioPx g.ioPz ix iz) * a.tzz.val (pos g m g.ioPx g.ioPz ix iz)) else 0

section
variable {g : Grid} {m : Mig K} (hin : Inside g m)
include hin

theorem srcX_some {p v : Buf K} (hp : p.size = m.nx * m.nz) (hv : v.size = m.nx * m.nz) {ix iz : ℕ}
    (hx : ix < m.nx) (hz : iz < m.nz) : srcX m p v ix iz = some (p.val (pt m ix iz) * v.val (pt m ix iz)) := by
  unfold srcX
  rw [rd_at hp (pt_ok hx hz).1 (pt_ok hx hz).2, rd_at hv (pt_ok hx hz).1 (pt_ok hx hz).2]; rfl

theorem rcvX_some {w : Wav K} (hw : Sized g w) {ix iz : ℕ} (hx : ix < m.nx) (hz : iz < m.nz) :
    rcvX g m w ix iz = some (w.tzz.val (pos g m g.ioPx g.ioPz ix iz) *
      (w.vx.val (pos g m g.ioPx g.ioPz ix iz) + w.vx.val (pos g m g.ioPx g.ioPz ix iz + g.naz)) / 2) := by
  unfold rcvX
  rw [(rd_p hin hw.p hx hz).1, (rd_p hin hw.x hx hz).1, (rd_p hin hw.x hx hz).2.1]; rfl

theorem rcvZ_some {w : Wav K} (hw : Sized g w) {ix iz : ℕ} (hx : ix < m.nx) (hz : iz < m.nz) :
    rcvZ g m w ix iz = some (w.tzz.val (pos g m g.ioPx g.ioPz ix iz) *
      (w.vz.val (pos g m g.ioPx g.ioPz ix iz) + w.vz.val (pos g m g.ioPx g.ioPz ix iz + 1)) / 2) := by
  unfold rcvZ
  rw [(rd_p hin hw.p hx hz).1, (rd_p hin hw.z hx hz).1, (rd_p hin hw.z hx hz).2.2]; rfl

open Classical in
/-- A conditional imaging of one sample. -/
theorem cond_pw {w : Wav K} (hw : Sized g w) {p : Buf K} (hp : p.size = m.nx * m.nz) {ix iz : ℕ}
    (hx : ix < m.nx) (hz : iz < m.nz) {f : Buf K → Option (Buf K)} {c : Prop}
    (hf : ∀ d, f d = if c then correlate g m w p ix iz d else some d) :
    PW (m.nx * m.nz) f (fun x v => if x = pt m ix iz then
      v + (if c then m.dt * (w.tzz.val (pos g m g.ioPx g.ioPz ix iz) * p.val (pt m ix iz)) else 0) else v) := by
  intro d hd
  rw [hf]
  by_cases hc : c
  · simp only [hc, if_true]
    exact correlate_pw hin hw hp hx hz d hd
  · simp only [hc, if_false, add_zero, ite_self]
    exact ⟨d, rfl, hd, fun _ => rfl⟩

/-- No snapshot. -/
abbrev noSnap : Snap K := ⟨none, none, none⟩

/-- One imaging step: the snapshot of the source field `a` is there, the image gains `gain` at every
sample, and the snapshot is released. -/
theorem condition_spec {a w : Wav K} (ha : Sized g a) (hw : Sized g w) (d : Buf K)
    (hd : d.size = m.nx * m.nz) (hmode : m.mode = 1 ∨ m.mode = 2 ∨ m.mode = 3) :
    ∃ e, snapshot g m a noSnap = some e ∧ ∃ d', condition g m w e d = some (d', noSnap) ∧
      d'.size = m.nx * m.nz ∧
      ∀ ix, ix < m.nx → ∀ iz, iz < m.nz → d'.val (pt m ix iz) = d.val (pt m ix iz) + gain g m a w ix iz := by
  classical
  obtain ⟨p, p1, p2, p3⟩ := storeP_spec hin ha
  obtain ⟨x, x1, x2, x3⟩ := storeVx_spec hin ha
  obtain ⟨z, z1, z2, z3⟩ := storeVz_spec hin ha
  rcases hmode with h | h | h
  · obtain ⟨d', e1, e2, e3⟩ := overImage_spec (fun ix hx iz hz => correlate_pw hin hw p2 hx hz) d hd
    refine ⟨⟨some p, none, none⟩, by simp [snapshot, h, p1], d', by simp [condition, h, e1], e2,
      fun ix hx iz hz => ?_⟩
    rw [e3 ix hx iz hz, p3 ix hx iz hz]
    simp [gain, passes, h]
  · by_cases h0 : m.orient = 0
    · obtain ⟨d', e1, e2, e3⟩ := overImage_spec (body := poyntBoth g m w p x z)
        (fun ix hx iz hz => cond_pw hin hw p2 hx hz
          (c := passes m (fxx g m a w ix iz) (fzz g m a w ix iz)) (fun d => by
            unfold poyntBoth
            rw [srcX_some hin p2 x2 hx hz, srcX_some hin p2 z2 hx hz, rcvX_some hin hw hx hz,
              rcvZ_some hin hw hx hz]
            simp only [Option.bind_some, p3 ix hx iz hz, x3 ix hx iz hz, z3 ix hx iz hz]
            cases hb : m.backscatter <;> simp [passes, h, h0, hb, fxx, fzz])) d hd
      refine ⟨⟨some p, some x, some z⟩, by simp [snapshot, h, h0, p1, x1, z1], d',
        by simp [condition, h, h0, e1], e2, fun ix hx iz hz => ?_⟩
      rw [e3 ix hx iz hz, p3 ix hx iz hz]; rfl
    · by_cases h1 : m.orient = 1
      · obtain ⟨d', e1, e2, e3⟩ := overImage_spec (body := poyntUpDown g m w p z)
          (fun ix hx iz hz => cond_pw hin hw p2 hx hz
            (c := passes m (fxx g m a w ix iz) (fzz g m a w ix iz)) (fun d => by
              unfold poyntUpDown
              rw [srcX_some hin p2 z2 hx hz, rcvZ_some hin hw hx hz]
              simp only [Option.bind_some, p3 ix hx iz hz, z3 ix hx iz hz]
              simp [passes, h, h1, fzz])) d hd
        refine ⟨⟨some p, none, some z⟩, by simp [snapshot, h, h1, p1, z1], d',
          by simp [condition, h, h1, e1], e2, fun ix hx iz hz => ?_⟩
        rw [e3 ix hx iz hz, p3 ix hx iz hz]; rfl
      · by_cases h2 : m.orient = 2
        · obtain ⟨d', e1, e2, e3⟩ := overImage_spec (body := poyntLeftRight g m w p x)
            (fun ix hx iz hz => cond_pw hin hw p2 hx hz
              (c := passes m (fxx g m a w ix iz) (fzz g m a w ix iz)) (fun d => by
                unfold poyntLeftRight
                rw [srcX_some hin p2 x2 hx hz, rcvX_some hin hw hx hz]
                simp only [Option.bind_some, p3 ix hx iz hz, x3 ix hx iz hz]
                simp [passes, h, h2, fxx])) d hd
          refine ⟨⟨some p, some x, none⟩, by simp [snapshot, h, h2, p1, x1], d',
            by simp [condition, h, h2, e1], e2, fun ix hx iz hz => ?_⟩
          rw [e3 ix hx iz hz, p3 ix hx iz hz]; rfl
        · refine ⟨⟨some p, none, none⟩, by simp [snapshot, h, h0, h1, h2, p1], d,
            by simp [condition, h, h0, h1, h2], hd, fun ix hx iz hz => ?_⟩
          simp [gain, passes, h, h0, h1, h2]
  · refine ⟨noSnap, by simp [snapshot, h], d, by simp [condition, h], hd, fun ix hx iz hz => ?_⟩
    simp [gain, passes, h]

end

end Verif.Rtm

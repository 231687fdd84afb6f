import Verif.Base.Loop
import Verif.Zfp.Lift

/-!
# C40: promotion and demotion of small integers (zfp/src/zfp.c:765-840)

A block of `dims` dimensions has `1u << (2*dims)` values.  Arithmetic is on `int32`; `ck (2^31)` is undefined behaviour on overflow.  As in the
transform, `<<` on a negative number is taken as multiplication by the power of two (as compilers do; C leaves it open) and `>>` as rounding down.
-/

namespace Verif.Zfp
open Verif

/-- The four small types: bits and signedness. -/
structure Small where
  bits : Nat
  signed : Bool

/-- Smallest value of the type. -/
def Small.lo (S : Small) : Int := if S.signed then -2 ^ (S.bits - 1) else 0
/-- Largest value of the type. -/
def Small.hi (S : Small) : Int := if S.signed then 2 ^ (S.bits - 1) - 1 else 2 ^ S.bits - 1
/-- int8, uint8, int16 and uint16. -/
def Small.Ok (S : Small) : Prop := S = ⟨8, true⟩ ∨ S = ⟨8, false⟩ ∨ S = ⟨16, true⟩ ∨ S = ⟨16, false⟩

/-- The shift: 23 for 8 bits (zfp.c:768, 776, 801, 811), 15 for 16 bits (zfp.c:784, 792, 821, 831). -/
def Small.shift (S : Small) : Nat := if S.bits = 8 then 23 else 15
/-- The offset of unsigned types: 0x80 and 0x8000 (zfp.c:776, 792, 811, 831). -/
def Small.offset (S : Small) : Int := if S.signed then 0 else if S.bits = 8 then 0x80 else 0x8000

/-- One value of zfp_promote_*_to_int32. -/
def promote1 (S : Small) (v : Int) : Option Int := (ck (2 ^ 31) (v - S.offset)).bind fun a => ck (2 ^ 31) (a * 2 ^ S.shift)

/-- One value of zfp_demote_int32_to_*: MAX(lo, MIN(i, hi)) as written in each function (zfp.c:802, 812, 822, 832). -/
def demote1 (S : Small) (x : Int) : Option Int :=
  (ck (2 ^ 31) (x / 2 ^ S.shift + S.offset)).map fun i =>
    if S.signed then (if S.bits = 8 then max (-0x80) (min i 0x7f) else max (-0x8000) (min i 0x7fff))
    else if S.bits = 8 then max 0 (min i 0xff) else max 0 (min i 0xffff)

/-- The loop over a block (`while (count--)`); input and output arrays are separate. -/
def mapBlock (f : Int → Option Int) (dims : Nat) (inp out : Buf Int) : Option (Buf Int) :=
  forNM (2 ^ (2 * dims)) (fun k (out : Buf Int) => do
    let v ← inp.rd k
    let w ← f v
    out.wr k w) out

/-- zfp_promote_int8_to_int32, zfp_promote_uint8_to_int32, zfp_promote_int16_to_int32, zfp_promote_uint16_to_int32 (zfp.c:765-795). -/
def promote (S : Small) := mapBlock (promote1 S)
/-- zfp_demote_int32_to_int8, zfp_demote_int32_to_uint8, zfp_demote_int32_to_int16, zfp_demote_int32_to_uint16 (zfp.c:797-835). -/
def demote (S : Small) := mapBlock (demote1 S)

private theorem mapBlock_spec {f : Int → Option Int} {g : Int → Int} {dims : Nat} {inp out : Buf Int} (hi : 4 ^ dims ≤ inp.size) (ho : 4 ^ dims ≤ out.size)
    (hf : ∀ k : Nat, k < 4 ^ dims → f (inp.val k) = some (g (inp.val k))) :
    ∃ o, mapBlock f dims inp out = some o ∧ o.size = out.size ∧ (∀ k : Nat, k < 4 ^ dims → o.val k = g (inp.val k)) ∧ ∀ k : Nat, 4 ^ dims ≤ k → o.val k = out.val k := by
  unfold mapBlock
  have h4 : 2 ^ (2 * dims) = 4 ^ dims := by rw [Nat.pow_mul]
  rw [h4]
  obtain ⟨o, e, h1, h2, h3⟩ := forNM_inv (n := 4 ^ dims) (body := fun k (out : Buf Int) => (do
    let v ← inp.rd k
    let w ← f v
    out.wr k w)) (s := out)
    (fun m o => o.size = out.size ∧ (∀ k : Nat, k < m → o.val k = g (inp.val k)) ∧ ∀ k : Nat, m ≤ k → o.val k = out.val k)
    ⟨rfl, fun k hk => by omega, fun k _ => rfl⟩ (by
      rintro m hm o ⟨h1, h2, h3⟩
      simp only [Option.bind_eq_bind]
      rw [Buf.rd_ok ⟨by omega, by omega⟩, Option.bind_some, hf m hm, Option.bind_some, Buf.wr_ok ⟨by omega, by omega⟩]
      refine ⟨_, rfl, h1, fun k hk => ?_, fun k hk => ?_⟩
      · dsimp only
        by_cases e : k = m
        · subst e; rw [if_pos rfl]
        · rw [if_neg (by omega)]; exact h2 k (by omega)
      · dsimp only
        rw [if_neg (by omega)]; exact h3 k (by omega))
  exact ⟨o, e, h1, h2, h3⟩

private theorem promote1_some {S : Small} (hS : S.Ok) {v : Int} (h : S.lo ≤ v ∧ v ≤ S.hi) : promote1 S v = some ((v - S.offset) * 2 ^ S.shift) := by
  rcases hS with rfl | rfl | rfl | rfl <;>
    (simp [Small.lo, Small.hi] at h
     simp only [promote1, Small.offset, Small.shift, ck, Bool.false_eq_true, if_true, if_false, show ((16 : Nat) = 8) = False from by simp]
     rw [if_pos (by omega), Option.bind_some, if_pos (by omega)])

private theorem demote1_some {S : Small} (hS : S.Ok) {x : Int} (h : -2 ^ 31 ≤ x ∧ x < 2 ^ 31) : demote1 S x = some (max S.lo (min (x / 2 ^ S.shift + S.offset) S.hi)) := by
  rcases hS with rfl | rfl | rfl | rfl <;>
    (simp only [demote1, Small.offset, Small.shift, ck, Small.lo, Small.hi, Bool.false_eq_true, if_true, if_false, show ((16 : Nat) = 8) = False from by simp]
     rw [if_pos (by omega), Option.map_some]; rfl)

/-- **C40.** Blocks of int8, uint8, int16 and uint16 in any number of dimensions (the count `1u << 2*dims` needs `dims ≤ 15`): promotion uses only the block, its values
use 31 bits (so leave the two bits that the transform needs), and demotion returns the original values. Nothing else is written. -/
theorem promote_demote {S : Small} (hS : S.Ok) {dims : Nat} (_hd : dims ≤ 15) {a b c : Buf Int} (ha : 4 ^ dims ≤ a.size) (hb : 4 ^ dims ≤ b.size) (hc : 4 ^ dims ≤ c.size)
    (hv : ∀ k : Nat, k < 4 ^ dims → S.lo ≤ a.val k ∧ a.val k ≤ S.hi) :
    ∃ b' c', promote S dims a b = some b' ∧ demote S dims b' c = some c' ∧
      (∀ k : Nat, k < 4 ^ dims → -2 ^ 30 ≤ b'.val k ∧ b'.val k < 2 ^ 30) ∧
      (∀ k : Nat, k < 4 ^ dims → c'.val k = a.val k) ∧
      (∀ k : Nat, 4 ^ dims ≤ k → b'.val k = b.val k ∧ c'.val k = c.val k) := by
  obtain ⟨b', e1, s1, v1, o1⟩ := mapBlock_spec (f := promote1 S) (g := fun v => (v - S.offset) * 2 ^ S.shift) ha hb (fun k hk => promote1_some hS (hv k hk))
  have hr : ∀ k : Nat, k < 4 ^ dims → -2 ^ 30 ≤ b'.val k ∧ b'.val k < 2 ^ 30 := by
    intro k hk
    have h := hv k hk
    rw [v1 k hk]
    rcases hS with rfl | rfl | rfl | rfl <;>
      (simp [Small.lo, Small.hi] at h
       simp only [Small.offset, Small.shift, Bool.false_eq_true, if_true, if_false, show ((16 : Nat) = 8) = False from by simp]
       omega)
  obtain ⟨c', e2, s2, v2, o2⟩ := mapBlock_spec (f := demote1 S) (g := fun x => max S.lo (min (x / 2 ^ S.shift + S.offset) S.hi)) (inp := b') (out := c) (dims := dims) (by omega) hc
    (fun k hk => demote1_some hS (by have := hr k hk; omega))
  refine ⟨b', c', e1, e2, hr, fun k hk => ?_, fun k hk => ⟨o1 k hk, o2 k hk⟩⟩
  rw [v2 k hk, v1 k hk, Int.mul_ediv_cancel _ (by positivity)]
  have h := hv k hk
  omega

/-- **C40.** Demotion of any block of int32 values: scaled down (rounding down), shifted back for the unsigned types and saturated at the ends of the type. -/
theorem demote_saturates {S : Small} (hS : S.Ok) {dims : Nat} (_hd : dims ≤ 15) {a b : Buf Int} (ha : 4 ^ dims ≤ a.size) (hb : 4 ^ dims ≤ b.size)
    (hv : ∀ k : Nat, k < 4 ^ dims → -2 ^ 31 ≤ a.val k ∧ a.val k < 2 ^ 31) :
    ∃ b', demote S dims a b = some b' ∧ ∀ k : Nat, k < 4 ^ dims →
      (S.lo ≤ b'.val k ∧ b'.val k ≤ S.hi) ∧
      (S.hi < a.val k / 2 ^ S.shift + S.offset → b'.val k = S.hi) ∧ (a.val k / 2 ^ S.shift + S.offset < S.lo → b'.val k = S.lo) ∧
      (S.lo ≤ a.val k / 2 ^ S.shift + S.offset → a.val k / 2 ^ S.shift + S.offset ≤ S.hi → b'.val k = a.val k / 2 ^ S.shift + S.offset) := by
  obtain ⟨b', e, s1, v1, o1⟩ := mapBlock_spec (f := demote1 S) (g := fun x => max S.lo (min (x / 2 ^ S.shift + S.offset) S.hi)) ha hb (fun k hk => demote1_some hS (hv k hk))
  refine ⟨b', e, fun k hk => ?_⟩
  have hlh : S.lo ≤ S.hi := by rcases hS with rfl | rfl | rfl | rfl <;> simp [Small.lo, Small.hi]
  have := v1 k hk
  omega

/-- **C40.** A promoted value that comes back from compression too large by less than one unit of the small type is still demoted correctly; one that comes back too
small, by however little, is demoted to the next smaller value, because demotion rounds down. -/
theorem demote_error {S : Small} (hS : S.Ok) {v e : Int} (h : S.lo < v ∧ v ≤ S.hi) (he : -2 ^ S.shift ≤ e ∧ e < 2 ^ S.shift) :
    ∃ p, promote1 S v = some p ∧ demote1 S (p + e) = some (if 0 ≤ e then v else v - 1) := by
  refine ⟨_, promote1_some hS ⟨le_of_lt h.1, h.2⟩, ?_⟩
  have hb : -2 ^ 31 ≤ (v - S.offset) * 2 ^ S.shift + e ∧ (v - S.offset) * 2 ^ S.shift + e < 2 ^ 31 := by
    rcases hS with rfl | rfl | rfl | rfl <;>
      (simp [Small.lo, Small.hi] at h
       simp only [Small.offset, Small.shift, Bool.false_eq_true, if_true, if_false, show ((16 : Nat) = 8) = False from by simp] at he ⊢
       omega)
  rw [demote1_some hS hb]
  refine congrArg some ?_
  have hq : ((v - S.offset) * 2 ^ S.shift + e) / 2 ^ S.shift = (v - S.offset) + (if 0 ≤ e then 0 else -1) := by
    have hp : (0:Int) < 2 ^ S.shift := by positivity
    rw [add_comm, Int.add_mul_ediv_right _ _ (ne_of_gt hp), add_comm]
    congr 1
    by_cases h0 : 0 ≤ e
    · rw [if_pos h0]; exact Int.ediv_eq_zero_of_lt h0 he.2
    · rw [if_neg h0]
      exact Int.ediv_eq_iff_of_pos hp |>.2 ⟨by omega, by omega⟩
  rw [hq]
  by_cases h0 : 0 ≤ e
  · rw [if_pos h0, if_pos h0]; omega
  · rw [if_neg h0, if_neg h0]; omega

/-- Non-vacuity. -/
example : ((promote ⟨8, true⟩ 1 (Buf.ofList [-128, -1, 0, 127]) (Buf.ofList [9, 9, 9, 9])).bind fun b => (demote ⟨8, true⟩ 1 b (Buf.ofList [7, 7, 7, 7])).map fun c =>
    ((List.range 4).map fun i => b.val i, (List.range 4).map fun i => c.val i)) = some ([-1073741824, -8388608, 0, 1065353216], [-128, -1, 0, 127]) := by decide +kernel
example : ((demote ⟨16, false⟩ 1 (Buf.ofList [2 ^ 31 - 1, -2 ^ 31, 5 * 2 ^ 15 + 9, -1]) (Buf.ofList [0, 0, 0, 0])).map fun c => (List.range 4).map fun i => c.val i) =
    some [65535, 0, 32773, 32767] := by decide +kernel

end Verif.Zfp

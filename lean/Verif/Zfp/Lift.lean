import Mathlib.Data.Int.Basic
import Mathlib.Data.List.Basic
import Mathlib.Tactic.Ring
import Mathlib.Tactic.Linarith

/-! # zfp decorrelating transform (zfp/src/template/encode.c:29-56, decode.c:7-34, encode1.c .. encode4.c, decode1.c .. decode4.c) -/

namespace Verif.Zfp

/-- A result of signed arithmetic on words with values from `-B` to `B - 1`; overflow is undefined in C. -/
def ck (B v : Int) : Option Int := if -B ≤ v ∧ v < B then some v else none

/-- fwd_lift (encode.c:29-56) on the values at `p`, `p + s`, `p + 2 s`, `p + 3 s`. `>>= 1` on signed words is the arithmetic shift,
`/ 2` rounding down. -/
def fwdLift (B x y z w : Int) : Option (Int × Int × Int × Int) :=
  (ck B (x + w)).bind fun x => let x := x / 2
  (ck B (w - x)).bind fun w =>
  (ck B (z + y)).bind fun z => let z := z / 2
  (ck B (y - z)).bind fun y =>
  (ck B (x + z)).bind fun x => let x := x / 2
  (ck B (z - x)).bind fun z =>
  (ck B (w + y)).bind fun w => let w := w / 2
  (ck B (y - w)).bind fun y =>
  (ck B (w + y / 2)).bind fun w =>
  (ck B (y - w / 2)).bind fun y => some (x, y, z, w)

/-- What a signed overflow does: the C standard leaves it undefined; compilers in use return the two's complement result. -/
inductive Overflow
  | undefined
  | wraps

/-- A result of signed arithmetic under either reading of overflow. -/
def ar (m : Overflow) (B v : Int) : Option Int :=
  match m with
  | .undefined => ck B v
  | .wraps => some (v.bmod (2 * B).toNat)

/-- inv_lift (decode.c:7-34). `<<= 1` is taken as doubling, so a shift that drops a bit is an overflow; the C standard leaves the shift of a
negative number open. -/
def invLift (m : Overflow) (B x y z w : Int) : Option (Int × Int × Int × Int) :=
  (ar m B (y + w / 2)).bind fun y => (ar m B (w - y / 2)).bind fun w =>
  (ar m B (y + w)).bind fun y => (ar m B (2 * w)).bind fun w => (ar m B (w - y)).bind fun w =>
  (ar m B (z + x)).bind fun z => (ar m B (2 * x)).bind fun x => (ar m B (x - z)).bind fun x =>
  (ar m B (y + z)).bind fun y => (ar m B (2 * z)).bind fun z => (ar m B (z - y)).bind fun z =>
  (ar m B (w + x)).bind fun w => (ar m B (2 * x)).bind fun x => (ar m B (x - w)).bind fun x => some (x, y, z, w)

/-- A lifting step on four values of a block, at `p`, `p + s`, `p + 2 s`, `p + 3 s` with `(p, s) = l`. -/
def liftAt (f : Int → Int → Int → Int → Option (Int × Int × Int × Int)) (v : Nat → Int) (l : Nat × Nat) : Option (Nat → Int) :=
  (f (v l.1) (v (l.1 + l.2)) (v (l.1 + 2 * l.2)) (v (l.1 + 3 * l.2))).map fun (a, b, c, d) => fun i =>
    if i = l.1 then a else if i = l.1 + l.2 then b else if i = l.1 + 2 * l.2 then c else if i = l.1 + 3 * l.2 then d else v i

/-- The loops of one pass. -/
def runLines (f : Int → Int → Int → Int → Option (Int × Int × Int × Int)) : List (Nat × Nat) → (Nat → Int) → Option (Nat → Int)
  | [], v => some v
  | l :: ls, v => (liftAt f v l).bind (runLines f ls)

/-- The loop nests of fwd_xform (encode1.c:21-27, encode2.c:29-40, encode3.c:33-51, encode4.c:39-64): for every pass the offsets and the stride
in the order of the loops. The passes of inv_xform (decode1.c:21-27, decode2.c:23-34, decode3.c:26-44, decode4.c:27-52) are the same in the
opposite order. -/
def passes : Nat → List (List (Nat × Nat))
  | 1 => [[(0, 1)]]
  | 2 => [(List.range 4).map fun y => (4 * y, 1), (List.range 4).map fun x => (x, 4)]
  | 3 => [(List.range 4).flatMap fun z => (List.range 4).map fun y => (4 * y + 16 * z, 1),
          (List.range 4).flatMap fun x => (List.range 4).map fun z => (16 * z + x, 4),
          (List.range 4).flatMap fun y => (List.range 4).map fun x => (x + 4 * y, 16)]
  | 4 => [(List.range 4).flatMap fun w => (List.range 4).flatMap fun z => (List.range 4).map fun y => (4 * y + 16 * z + 64 * w, 1),
          (List.range 4).flatMap fun x => (List.range 4).flatMap fun w => (List.range 4).map fun z => (16 * z + 64 * w + x, 4),
          (List.range 4).flatMap fun y => (List.range 4).flatMap fun x => (List.range 4).map fun w => (64 * w + x + 4 * y, 16),
          (List.range 4).flatMap fun z => (List.range 4).flatMap fun y => (List.range 4).map fun x => (x + 4 * y + 16 * z, 64)]
  | _ => []

/-- Passes in order. -/
def fwdRun (B : Int) : List (List (Nat × Nat)) → (Nat → Int) → Option (Nat → Int)
  | [], v => some v
  | P :: Ps, v => (runLines (fwdLift B) P v).bind (fwdRun B Ps)

/-- Passes in opposite order. -/
def invRun (m : Overflow) (B : Int) : List (List (Nat × Nat)) → (Nat → Int) → Option (Nat → Int)
  | [], v => some v
  | P :: Ps, v => (invRun m B Ps v).bind (runLines (invLift m B) P)

/-- fwd_xform in `d` dimensions. -/
def fwdXform (B : Int) (d : Nat) (v : Nat → Int) : Option (Nat → Int) := fwdRun B (passes d) v

/-- inv_xform in `d` dimensions. -/
def invXform (m : Overflow) (B : Int) (d : Nat) (v : Nat → Int) : Option (Nat → Int) := invRun m B (passes d) v

/-! ## One lifting step -/

theorem ck_some {B v : Int} (h : -B ≤ v ∧ v < B) : ck B v = some v := if_pos h

theorem bmod_range {B v : Int} (h : -B ≤ v ∧ v < B) : v.bmod (2 * B).toNat = v := by
  apply Int.bmod_eq_of_le <;> omega

theorem ar_some {m : Overflow} {B v : Int} (h : -B ≤ v ∧ v < B) : ar m B v = some v := by
  cases m with
  | undefined => exact if_pos h
  | wraps => rw [ar, bmod_range h]

/-- Both outputs of an averaging step stay in the range of the inputs. -/
theorem avg_range {A a b : Int} (ha : -A ≤ a ∧ a ≤ A) (hb : -A ≤ b ∧ b ≤ A) :
    (-(2 * A) ≤ a + b ∧ a + b ≤ 2 * A) ∧ (-A ≤ (a + b) / 2 ∧ (a + b) / 2 ≤ A) ∧ (-A ≤ b - (a + b) / 2 ∧ b - (a + b) / 2 ≤ A) := by omega

/-- The last two steps of the forward transform. -/
theorem last_range {A y w : Int} (hA : 2 ≤ A) (hy : -A ≤ y ∧ y ≤ A) (hw : -A ≤ w ∧ w ≤ A) :
    let w1 := (w + y) / 2; let y1 := y - w1; let w2 := w1 + y1 / 2; let y2 := y1 - w2 / 2
    (-A ≤ w2 ∧ w2 ≤ A) ∧ (-A ≤ y2 ∧ y2 ≤ A) := by
  intro w1 y1 w2 y2
  omega

/-- The forward step on numbers of magnitude at most `A` does not overflow and its results have magnitude at most `A`. The inverse step on
numbers within `δ` of the results does not overflow either and returns the original numbers up to a bounded error. -/
theorem fwd_range {A B x y z w : Int} (hA : 2 ≤ A) (hB : 2 * A < B) (hx : -A ≤ x ∧ x ≤ A) (hy : -A ≤ y ∧ y ≤ A) (hz : -A ≤ z ∧ z ≤ A) (hw : -A ≤ w ∧ w ≤ A) :
    ∃ x' y' z' w', fwdLift B x y z w = some (x', y', z', w') ∧ (-A ≤ x' ∧ x' ≤ A) ∧ (-A ≤ y' ∧ y' ≤ A) ∧ (-A ≤ z' ∧ z' ≤ A) ∧ (-A ≤ w' ∧ w' ≤ A) ∧
      ∃ x1 w1 z1 y1 w2 y2 : Int, x1 = (x + w) / 2 ∧ w1 = w - x1 ∧ z1 = (z + y) / 2 ∧ y1 = y - z1 ∧ x' = (x1 + z1) / 2 ∧ z' = z1 - x' ∧
        w2 = (w1 + y1) / 2 ∧ y2 = y1 - w2 ∧ w' = w2 + y2 / 2 ∧ y' = y2 - w' / 2 ∧
        (-A ≤ x1 ∧ x1 ≤ A) ∧ (-A ≤ w1 ∧ w1 ≤ A) ∧ (-A ≤ z1 ∧ z1 ≤ A) ∧ (-A ≤ y1 ∧ y1 ≤ A) ∧ (-A ≤ w2 ∧ w2 ≤ A) ∧ (-A ≤ y2 ∧ y2 ≤ A) := by
  obtain ⟨a1, a2, a3⟩ := avg_range hx hw
  obtain ⟨b1, b2, b3⟩ := avg_range hz hy
  obtain ⟨c1, c2, c3⟩ := avg_range a2 b2
  obtain ⟨d1, d2, d3⟩ := avg_range b3 a3
  rw [Int.add_comm (y - _)] at d1 d2
  have hl := last_range hA b3 a3
  dsimp only at hl
  refine ⟨_, _, _, _, ?_, c2, hl.2, c3, hl.1, _, _, _, _, _, _, rfl, rfl, rfl, rfl, rfl, rfl, rfl, rfl, rfl, rfl, a2, a3, b2, b3, d2, ?_⟩
  · unfold fwdLift
    rw [ck_some (by omega), Option.bind_some]
    dsimp only
    rw [ck_some (by omega), Option.bind_some]
    rw [ck_some (by omega), Option.bind_some]
    rw [ck_some (by omega), Option.bind_some]
    rw [ck_some (by omega), Option.bind_some]
    rw [ck_some (by omega), Option.bind_some]
    rw [ck_some (by omega), Option.bind_some]
    rw [ck_some (by omega), Option.bind_some]
    rw [ck_some (by omega), Option.bind_some]
    rw [ck_some (by omega), Option.bind_some]
  · omega

/-- How far the inverse step moves its results when its arguments move by `δ`. -/
def gain (δ : Int) : Int := if δ = 0 then 0 else (15 * δ + 5) / 4

/-- The same for its intermediate values. -/
def gainMid (δ : Int) : Int := if δ = 0 then 0 else 4 * δ + 1

/-- The inner two steps of the inverse. -/
theorem inv_inner {δ y w y' w' : Int} (hy : -δ ≤ y' - y ∧ y' - y ≤ δ) (hw : -δ ≤ w' - w ∧ w' - w ≤ δ) :
    ∃ a b a' b' : Int, a = y + w / 2 ∧ b = w - a / 2 ∧ a' = y' + w' / 2 ∧ b' = w' - a' / 2 ∧
      (2 * (a' - a) ≤ 3 * δ + 1 ∧ 2 * (a - a') ≤ 3 * δ + 1) ∧ (4 * (b' - b) ≤ 5 * δ + 3 ∧ 4 * (b - b') ≤ 5 * δ + 3) ∧
      (4 * (a' + b' - (a + b)) ≤ 7 * δ + 3 ∧ 4 * (a + b - (a' + b')) ≤ 7 * δ + 3) ∧
      (4 * (b' - a' - (b - a)) ≤ 7 * δ + 5 ∧ 4 * (b - a - (b' - a')) ≤ 7 * δ + 5) := by
  refine ⟨_, _, _, _, rfl, rfl, rfl, rfl, ?_, ?_, ?_, ?_⟩ <;> omega

/-- Sum and difference of the results of an averaging step. -/
theorem avg_undo (a b : Int) : ∃ e : Int, (e = 0 ∨ e = 1) ∧ (b - (a + b) / 2) + (a + b) / 2 = b ∧ (a + b) / 2 - (b - (a + b) / 2) = a - e :=
  ⟨(a + b) % 2, by omega, by omega, by omega⟩

/-- Effect of a perturbation `dy`, `dw`, `dx`, `dz` of the arguments. -/
theorem perturb {δ a b a' b' : Int} (dx dz : Int) (hδ : 0 ≤ δ) (h0 : δ = 0 → a' = a ∧ b' = b) (hx : -δ ≤ dx ∧ dx ≤ δ) (hz : -δ ≤ dz ∧ dz ≤ δ)
    (d1 : 2 * (a' - a) ≤ 3 * δ + 1 ∧ 2 * (a - a') ≤ 3 * δ + 1) (d2 : 4 * (b' - b) ≤ 5 * δ + 3 ∧ 4 * (b - b') ≤ 5 * δ + 3)
    (d3 : 4 * (a' + b' - (a + b)) ≤ 7 * δ + 3 ∧ 4 * (a + b - (a' + b')) ≤ 7 * δ + 3)
    (d4 : 4 * (b' - a' - (b - a)) ≤ 7 * δ + 5 ∧ 4 * (b - a - (b' - a')) ≤ 7 * δ + 5) :
    (∀ u ∈ [a' - a, b' - b, a' + b' - (a + b), 2 * b' - 2 * b, b' - a' - (b - a), dz + dx, 2 * dx, dx - dz, 2 * (dz + dx), 2 * (dx - dz)],
      -gainMid δ ≤ u ∧ u ≤ gainMid δ) ∧
    (∀ u ∈ [a' + b' - (a + b) + (dz + dx), dz + dx - (a' + b' - (a + b)), b' - a' - (b - a) + (dx - dz), dx - dz - (b' - a' - (b - a))],
      -gain δ ≤ u ∧ u ≤ gain δ) ∧ gain δ ≤ gainMid δ := by
  unfold gain gainMid
  by_cases hd : δ = 0
  · obtain ⟨rfl, rfl⟩ := h0 hd
    subst hd
    have e1 : dx = 0 := by omega
    have e2 : dz = 0 := by omega
    subst e1 e2
    simp
  · simp only [if_neg hd, List.forall_mem_cons, List.not_mem_nil, false_implies, implies_true, and_true]
    have hd : 1 ≤ δ := by omega
    clear h0
    refine ⟨⟨?_, ?_, ?_, ?_, ?_, ?_, ?_, ?_, ?_, ?_⟩, ⟨?_, ?_, ?_, ?_⟩, ?_⟩
    · clear d2 d3 d4; omega
    · clear d1 d3 d4; omega
    · clear d1 d2 d4; omega
    · clear d1 d3 d4; omega
    · clear d1 d2 d3; omega
    · clear d1 d2 d3 d4; omega
    · clear d1 d2 d3 d4; omega
    · clear d1 d2 d3 d4; omega
    · clear d1 d2 d3 d4; omega
    · clear d1 d2 d3 d4; omega
    · clear d1 d2 d4; omega
    · clear d1 d2 d4; omega
    · clear d1 d2 d3; omega
    · clear d1 d2 d3; omega
    · omega

/-- The inverse step in terms of its inner values. -/
theorem invLift_eq {m : Overflow} {B p q r t a b : Int} (ha : a = q + t / 2) (hb : b = t - a / 2)
    (h : ∀ u ∈ [a, b, a + b, 2 * b, b - a, r + p, 2 * p, p - r, a + b + (r + p), 2 * (r + p), r + p - (a + b), b - a + (p - r), 2 * (p - r), p - r - (b - a)],
      -B ≤ u ∧ u < B) : invLift m B p q r t = some (p - r - (b - a), a + b + (r + p), r + p - (a + b), b - a + (p - r)) := by
  simp only [List.forall_mem_cons, List.not_mem_nil, false_implies, implies_true, and_true] at h
  obtain ⟨h1, h2, h3, h4, h5, h6, h7, h8, h9, h10, h11, h12, h13, h14⟩ := h
  unfold invLift
  rw [← ha, ar_some h1, Option.bind_some, ← hb, ar_some h2, Option.bind_some, ar_some h3, Option.bind_some, ar_some h4, Option.bind_some,
    show 2 * b - (a + b) = b - a by ring, ar_some h5, Option.bind_some, ar_some h6, Option.bind_some, ar_some h7, Option.bind_some,
    show 2 * p - (r + p) = p - r by ring, ar_some h8, Option.bind_some, ar_some h9, Option.bind_some, ar_some h10, Option.bind_some,
    show 2 * (r + p) - (a + b + (r + p)) = r + p - (a + b) by ring, ar_some h11, Option.bind_some, ar_some h12, Option.bind_some, ar_some h13, Option.bind_some,
    show 2 * (p - r) - (b - a + (p - r)) = p - r - (b - a) by ring, ar_some h14, Option.bind_some]

/-- With wrapping arithmetic only the two values that are shifted to the right and the results have to be in range. -/
theorem invLift_eq_wraps {B p q r t a b : Int} (ha : a = q + t / 2) (hb : b = t - a / 2)
    (h : ∀ u ∈ [a, b, a + b + (r + p), r + p - (a + b), b - a + (p - r), p - r - (b - a)], -B ≤ u ∧ u < B) :
    invLift .wraps B p q r t = some (p - r - (b - a), a + b + (r + p), r + p - (a + b), b - a + (p - r)) := by
  simp only [List.forall_mem_cons, List.not_mem_nil, false_implies, implies_true, and_true] at h
  obtain ⟨h1, h2, h3, h4, h5, h6⟩ := h
  unfold invLift
  rw [← ha, ar_some h1, Option.bind_some, ← hb, ar_some h2, Option.bind_some]
  simp only [ar, Option.bind_some]
  generalize hN : (2 * B).toNat = N
  have fin : ∀ {u : Int}, -B ≤ u ∧ u < B → u.bmod N = u := fun {u} hu => by subst hN; exact bmod_range hu
  have two : ∀ u : Int, (2 * u.bmod N).bmod N = (2 * u).bmod N := fun u => Int.mul_bmod_bmod ..
  congr 1
  refine Prod.ext ?_ (Prod.ext ?_ (Prod.ext ?_ ?_)) <;> dsimp only
  · rw [← fin h6]
    simp only [Int.bmod_add_bmod, Int.add_bmod_bmod, Int.bmod_sub_bmod, Int.sub_bmod_bmod, two]
    congr 1
    ring
  · rw [← fin h3]
    simp only [Int.bmod_add_bmod, Int.add_bmod_bmod, Int.bmod_sub_bmod, Int.sub_bmod_bmod, two]
  · rw [← fin h4]
    simp only [Int.bmod_add_bmod, Int.add_bmod_bmod, Int.bmod_sub_bmod, Int.sub_bmod_bmod, two]
    congr 1
    ring
  · rw [← fin h5]
    simp only [Int.bmod_add_bmod, Int.add_bmod_bmod, Int.bmod_sub_bmod, Int.sub_bmod_bmod, two]
    congr 1
    ring

/-- The room words of range `-B .. B - 1` leave around numbers of magnitude at most `A` for an inverse step on coefficients off by `δ`. -/
def Room (m : Overflow) (A δ B : Int) : Prop :=
  match m with
  | .undefined => 2 * A + 2 + gainMid δ ≤ B
  | .wraps => 2 * A + 2 ≤ B ∧ A + gain δ + 2 ≤ B

theorem Room.two {m : Overflow} {A δ B : Int} (h : Room m A δ B) (hδ : 0 ≤ δ) : 2 * A + 2 ≤ B := by
  cases m with
  | undefined =>
    have : 0 ≤ gainMid δ := by unfold gainMid; split <;> omega
    simp only [Room] at h; omega
  | wraps => exact h.1

/-- Exact values moved by at most `G`. -/
theorem near_range {A B G e u c : Int} (hB : 2 * A + 2 + G ≤ B) (he : -(2 * A + 2) ≤ e ∧ e ≤ 2 * A) (hu : -G ≤ u ∧ u ≤ G) (hc : c = e + u) : -B ≤ c ∧ c < B := by omega

/-- The two steps applied to numbers of magnitude at most `A`, with the arguments of the second off by at most `δ`. -/
theorem lift_close {m : Overflow} {A B δ x y z w : Int} (hA : 2 ≤ A) (hδ : 0 ≤ δ) (hB : Room m A δ B)
    (hx : -A ≤ x ∧ x ≤ A) (hy : -A ≤ y ∧ y ≤ A) (hz : -A ≤ z ∧ z ≤ A) (hw : -A ≤ w ∧ w ≤ A) {p q r t : Int} (h : fwdLift B x y z w = some (p, q, r, t))
    {p' q' r' t' : Int} (hp : -δ ≤ p' - p ∧ p' - p ≤ δ) (hq : -δ ≤ q' - q ∧ q' - q ≤ δ) (hr : -δ ≤ r' - r ∧ r' - r ≤ δ) (ht : -δ ≤ t' - t ∧ t' - t ≤ δ) :
    ∃ x' y' z' w', invLift m B p' q' r' t' = some (x', y', z', w') ∧ (-(gain δ + 2) ≤ x' - x ∧ x' - x ≤ gain δ + 1) ∧
      (-gain δ ≤ y' - y ∧ y' - y ≤ gain δ) ∧ (-(gain δ + 1) ≤ z' - z ∧ z' - z ≤ gain δ) ∧ (-(gain δ + 2) ≤ w' - w ∧ w' - w ≤ gain δ) := by
  have hm : 0 ≤ gainMid δ := by unfold gainMid; split <;> omega
  obtain ⟨p0, q0, r0, t0, e, -, -, -, -, x1, w1, z1, y1, w2, y2, h1, h2, h3, h4, h5, h6, h7, h8, h9, h10, b1, b2, b3, b4, b5, b6⟩ :=
    fwd_range hA (by have := hB.two hδ; omega : 2 * A < B) hx hy hz hw
  rw [h] at e
  simp only [Option.some.injEq, Prod.mk.injEq] at e
  obtain ⟨rfl, rfl, rfl, rfl⟩ := e
  obtain ⟨a, b, a', b', k1, k2, k3, k4, d1, d2, d3, d4⟩ := inv_inner hq ht
  have ea : a = y2 := by rw [k1, h10]; ring
  have eb : b = w2 := by rw [k2, ea, h9]; ring
  obtain ⟨P, hP, P1, P2⟩ := avg_undo w1 y1
  rw [← h7, ← h8] at P1 P2
  obtain ⟨Q, hQ, Q1, Q2⟩ := avg_undo x1 z1
  rw [← h5, ← h6] at Q1 Q2
  obtain ⟨R, hR, R1, R2⟩ := avg_undo z y
  rw [← h3, ← h4] at R1 R2
  obtain ⟨S, hS, S1, S2⟩ := avg_undo x w
  rw [← h1, ← h2] at S1 S2
  have g0 : δ = 0 → a' = a ∧ b' = b := by
    intro h0
    subst h0
    have e1 : q' = q := by omega
    have e2 : t' = t := by omega
    rw [k3, k1, k4, k2, k3, k1, e1, e2]
    exact ⟨rfl, rfl⟩
  obtain ⟨gm, gg, hg⟩ := perturb (p' - p) (r' - r) hδ g0 hp hr d1 d2 d3 d4
  have gin : -gain δ ≤ a' - a ∧ a' - a ≤ gain δ ∧ -gain δ ≤ b' - b ∧ b' - b ≤ gain δ := by
    by_cases h0 : δ = 0
    · rw [(g0 h0).1, (g0 h0).2]; simp [gain, h0]
    · unfold gain
      rw [if_neg h0]
      clear gm gg hg g0 h hp hq hr ht h1 h2 h3 h4 h5 h6 h7 h8 h9 h10 k1 k2 k3 k4 d3 d4 ea eb
      omega
  unfold Room at hB
  clear h1 h2 h3 h4 h5 h6 h7 h8 h9 h10 d1 d2 d3 d4 g0 k1 k2 hp hq hr ht h
  subst ea eb
  generalize gainMid δ = G at *
  generalize gain δ = g at *
  simp only [List.forall_mem_cons, List.not_mem_nil, false_implies, implies_true, and_true] at gm gg
  obtain ⟨m1, m2, m3, m4, m5, m6, m7, m8, m9, m10⟩ := gm
  obtain ⟨n1, n2, n3, n4⟩ := gg
  have exY : a + b + (r + p) = y := by linarith
  have exZ : r + p - (a + b) = z - R := by linarith
  have exW : b - a + (p - r) = w - P - Q := by linarith
  have exX : p - r - (b - a) = x - S - Q + P := by linarith
  have hP : 0 ≤ P ∧ P ≤ 1 := by omega
  have hQ : 0 ≤ Q ∧ Q ≤ 1 := by omega
  have hR : 0 ≤ R ∧ R ≤ 1 := by omega
  have hS : 0 ≤ S ∧ S ≤ 1 := by omega
  have hpr : r + p = z1 := Q1
  have hab : a + b = y1 := P1
  have up : ∀ {u : Int}, -g ≤ u ∧ u ≤ g → -G ≤ u ∧ u ≤ G := fun {u} hu => ⟨by linarith [hu.1], by linarith [hu.2]⟩
  refine ⟨p' - r' - (b' - a'), a' + b' + (r' + p'), r' + p' - (a' + b'), b' - a' + (p' - r'), ?_, ?_, ?_, ?_, ?_⟩
  rotate_left
  · constructor <;> linarith
  · constructor <;> linarith
  · constructor <;> linarith
  · constructor <;> linarith
  · cases m with
    | undefined =>
      dsimp only at hB
      refine invLift_eq k3 k4 ?_
      simp only [List.forall_mem_cons, List.not_mem_nil, false_implies, implies_true, and_true]
      refine ⟨?_, ?_, ?_, ?_, ?_, ?_, ?_, ?_, ?_, ?_, ?_, ?_, ?_, ?_⟩
      · exact near_range (e := a) hB ⟨by linarith, by linarith⟩ m1 (by ring)
      · exact near_range (e := b) hB ⟨by linarith, by linarith⟩ m2 (by ring)
      · exact near_range (e := a + b) hB ⟨by linarith, by linarith⟩ m3 (by ring)
      · exact near_range (e := 2 * b) hB ⟨by linarith, by linarith⟩ m4 (by ring)
      · exact near_range (e := b - a) hB ⟨by linarith, by linarith⟩ m5 (by ring)
      · exact near_range (e := r + p) hB ⟨by linarith, by linarith⟩ m6 (by ring)
      · exact near_range (e := 2 * p) hB ⟨by linarith, by linarith⟩ m7 (by ring)
      · exact near_range (e := p - r) hB ⟨by linarith, by linarith⟩ m8 (by ring)
      · exact near_range (e := a + b + (r + p)) hB ⟨by linarith, by linarith⟩ (up n1) (by ring)
      · exact near_range (e := 2 * (r + p)) hB ⟨by linarith, by linarith⟩ m9 (by ring)
      · exact near_range (e := r + p - (a + b)) hB ⟨by linarith, by linarith⟩ (up n2) (by ring)
      · exact near_range (e := b - a + (p - r)) hB ⟨by linarith, by linarith⟩ (up n3) (by ring)
      · exact near_range (e := 2 * (p - r)) hB ⟨by linarith, by linarith⟩ m10 (by ring)
      · exact near_range (e := p - r - (b - a)) hB ⟨by linarith, by linarith⟩ (up n4) (by ring)
    | wraps =>
      dsimp only at hB
      refine invLift_eq_wraps k3 k4 ?_
      simp only [List.forall_mem_cons, List.not_mem_nil, false_implies, implies_true, and_true]
      refine ⟨?_, ?_, ?_, ?_, ?_, ?_⟩ <;> constructor <;> linarith

end Verif.Zfp

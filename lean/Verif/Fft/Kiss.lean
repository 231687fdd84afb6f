import Verif.Base.Loop
import Mathlib.Data.Complex.Basic

/-!
# Model of `FFTlib/kiss_fft.c`

Arithmetic is exact (ℂ); a C `complex` is the pair of its real and imaginary part, and the macros
`C_MUL`, `C_ADD`, `C_SUB`, `C_ADDTO`, `S_MUL` of kiss_fft.h:181-231 (not `FIXED_POINT`, so
`C_FIXDIV` is a no-op) are the field operations.  Memory is a function from cell number to value.
-/

noncomputable section
namespace Verif.Fft
open Verif

/-- Memory holding complex samples. -/
abbrev Mem := Nat → ℂ

/-- Store one value. -/
def put (A : Mem) (i : Nat) (v : ℂ) : Mem := fun x => if x = i then v else A x

/-- `struct kiss_fft_state`, kiss_fft.h:127-132. -/
structure Cfg where
  nfft : Nat
  inverse : Bool
  factors : List (Nat × Nat)
  tw : Nat → ℂ

/-- kf_bfly2, kiss_fft.c:22-43. The pointer `tw1` advances by `fstride` per iteration. -/
def bfly2 (st : Cfg) (Fout fstride m : Nat) (A : Mem) : Mem :=
  forN m (fun u A =>
    let t := A (Fout + m + u) * st.tw (u * fstride)
    let A := put A (Fout + m + u) (A (Fout + u) - t)
    put A (Fout + u) (A (Fout + u) + t)) A

/-- kf_bfly4, kiss_fft.c:45-91. -/
def bfly4 (st : Cfg) (Fout fstride m : Nat) (A : Mem) : Mem :=
  forN m (fun u A =>
    let F := Fout + u
    let s0 := A (F + m) * st.tw (u * fstride)
    let s1 := A (F + 2*m) * st.tw (u * (fstride*2))
    let s2 := A (F + 3*m) * st.tw (u * (fstride*3))
    let s5 := A F - s1
    let A := put A F (A F + s1)
    let s3 := s0 + s2
    let s4 := s0 - s2
    let A := put A (F + 2*m) (A F - s3)
    let A := put A F (A F + s3)
    if st.inverse then
      let A := put A (F + m) ⟨s5.re - s4.im, s5.im + s4.re⟩
      put A (F + 3*m) ⟨s5.re + s4.im, s5.im - s4.re⟩
    else
      let A := put A (F + m) ⟨s5.re + s4.im, s5.im - s4.re⟩
      put A (F + 3*m) ⟨s5.re - s4.im, s5.im + s4.re⟩) A

/-- kf_bfly3, kiss_fft.c:93-135. -/
def bfly3 (st : Cfg) (Fout fstride m : Nat) (A : Mem) : Mem :=
  let epi3 := st.tw (fstride * m)
  forN m (fun u A =>
    let F := Fout + u
    let s1 := A (F + m) * st.tw (u * fstride)
    let s2 := A (F + 2*m) * st.tw (u * (fstride*2))
    let s3 := s1 + s2
    let s0 := s1 - s2
    let A := put A (F + m) ⟨(A F).re - s3.re / 2, (A F).im - s3.im / 2⟩
    let s0 : ℂ := ⟨s0.re * epi3.im, s0.im * epi3.im⟩
    let A := put A F (A F + s3)
    let A := put A (F + 2*m) ⟨(A (F + m)).re + s0.im, (A (F + m)).im - s0.re⟩
    put A (F + m) ⟨(A (F + m)).re - s0.im, (A (F + m)).im + s0.re⟩) A

/-- kf_bfly5, kiss_fft.c:137-196. -/
def bfly5 (st : Cfg) (Fout fstride m : Nat) (A : Mem) : Mem :=
  let ya := st.tw (fstride * m)
  let yb := st.tw (fstride * 2 * m)
  forN m (fun u A =>
    let F := Fout + u
    let s0 := A F
    let s1 := A (F + m) * st.tw (u * fstride)
    let s2 := A (F + 2*m) * st.tw (2 * u * fstride)
    let s3 := A (F + 3*m) * st.tw (3 * u * fstride)
    let s4 := A (F + 4*m) * st.tw (4 * u * fstride)
    let s7 := s1 + s4
    let s10 := s1 - s4
    let s8 := s2 + s3
    let s9 := s2 - s3
    let A := put A F ⟨(A F).re + (s7.re + s8.re), (A F).im + (s7.im + s8.im)⟩
    let s5 : ℂ := ⟨s0.re + s7.re * ya.re + s8.re * yb.re, s0.im + s7.im * ya.re + s8.im * yb.re⟩
    let s6 : ℂ := ⟨s10.im * ya.im + s9.im * yb.im, -(s10.re * ya.im) - s9.re * yb.im⟩
    let A := put A (F + m) (s5 - s6)
    let A := put A (F + 4*m) (s5 + s6)
    let s11 : ℂ := ⟨s0.re + s7.re * yb.re + s8.re * ya.re, s0.im + s7.im * yb.re + s8.im * ya.re⟩
    let s12 : ℂ := ⟨-(s10.im * yb.im) + s9.im * ya.im, s10.re * yb.im - s9.re * ya.im⟩
    let A := put A (F + 2*m) (s11 + s12)
    put A (F + 3*m) (s11 - s12)) A

/-- Inner loop of kf_bfly_generic, kiss_fft.c:222-232: for output cell `k` accumulate
`scratch[q]*twiddles[twidx]` with the index `twidx` stepped by `fstride*k` modulo `Norig`.
The state is (`twidx`, value of `Fout[k]`). -/
def genAcc (st : Cfg) (fstride k p : Nat) (scratch : Nat → ℂ) : Nat × ℂ :=
  forN (p - 1) (fun j s =>
    let q := j + 1
    let twidx := s.1 + fstride * k
    let twidx := if twidx ≥ st.nfft then twidx - st.nfft else twidx
    (twidx, s.2 + scratch q * st.tw twidx)) (0, scratch 0)

/-- kf_bfly_generic, kiss_fft.c:199-236.  `scratch` is a copy of the column, kiss_fft.c:214-219. -/
def bflyGeneric (st : Cfg) (Fout fstride m p : Nat) (A : Mem) : Mem :=
  forN m (fun u A =>
    let scratch := fun q1 => A (Fout + (u + q1 * m))
    forN p (fun q1 A =>
      let k := u + q1 * m
      put A (Fout + k) (genAcc st fstride k p scratch).2) A) A

/-- The `switch` of kf_work, kiss_fft.c:297-303. -/
def bfly (st : Cfg) (Fout fstride m p : Nat) (A : Mem) : Mem :=
  match p with
  | 2 => bfly2 st Fout fstride m A
  | 3 => bfly3 st Fout fstride m A
  | 4 => bfly4 st Fout fstride m A
  | 5 => bfly5 st Fout fstride m A
  | p => bflyGeneric st Fout fstride m p A

/-- kf_work, kiss_fft.c:238-304.  `f` is the input array, `fo` the offset of the input pointer,
`Fout` the offset of the output pointer.  With an exhausted factor list and `m ≠ 1` the C code
would read past the list; the model leaves the memory unchanged (excluded by `Plan`). -/
def kfWork (st : Cfg) (f : Nat → ℂ) (inStride : Nat) : List (Nat × Nat) → Nat → Nat → Nat → Mem → Mem
  | [], _, _, _, A => A
  | (p, m) :: rest, Fout, fo, fstride, A =>
    let A := if m = 1 then
        forN p (fun j A => put A (Fout + j) (f (fo + j * (fstride * inStride)))) A
      else
        forN p (fun j A => kfWork st f inStride rest (Fout + j * m) (fo + j * (fstride * inStride))
          (fstride * p) A) A
    bfly st Fout fstride m p A

/-! ## Factorisation -/

/-- The `switch` in kf_factor, kiss_fft.c:319-323. -/
def kfNext (p : Nat) : Nat := if p = 4 then 2 else if p = 2 then 3 else p + 2

/-- The inner `while (n % p)` loop, kiss_fft.c:318-326.  When `p` passes `floor_sqrt` it is set to
`n` and the loop test `n % n` ends the loop. -/
def kfSearch (n fsqrt p : Nat) : Nat :=
  if n % p = 0 then p
  else if fsqrt < kfNext p then n
  else kfSearch n fsqrt (kfNext p)
termination_by if p = 0 then fsqrt + 3 else if p = 4 then fsqrt + 2 else if p = 2 then fsqrt + 1 else fsqrt - p
decreasing_by
  rename_i _ h2
  unfold kfNext at *
  split_ifs at * <;> omega

theorem kfSearch_ge (n fsqrt p : Nat) (hp : 2 ≤ p) (hn : 2 ≤ n) : 2 ≤ kfSearch n fsqrt p := by
  induction p using kfSearch.induct (n := n) (fsqrt := fsqrt) with
  | case1 p h => unfold kfSearch; rw [if_pos h]; exact hp
  | case2 p h1 h2 => unfold kfSearch; rw [if_neg h1, if_pos h2]; exact hn
  | case3 p h1 h2 ih =>
    unfold kfSearch; rw [if_neg h1, if_neg h2]
    exact ih (by unfold kfNext; split_ifs <;> omega)

/-- The outer `do … while (n > 1)` loop of kf_factor, kiss_fft.c:317-330. -/
def kfLoop (fsqrt n p : Nat) (hp : 2 ≤ p) : List (Nat × Nat) :=
  let q := kfSearch n fsqrt p
  if h : n / q > 1 then
    (q, n / q) :: kfLoop fsqrt (n / q) q (kfSearch_ge n fsqrt p hp (le_trans h (Nat.div_le_self _ _)))
  else [(q, n / q)]
termination_by n
decreasing_by
  have hn : 2 ≤ n := le_trans h (Nat.div_le_self _ _)
  exact Nat.div_lt_self (by omega) (kfSearch_ge n fsqrt p hp hn)

/-- kf_factor, kiss_fft.c:310-331 (`floor(sqrt(n))` is exact in double precision for `int` n). -/
def kfFactor (n : Nat) : List (Nat × Nat) := kfLoop (Nat.sqrt n) n 4 (by decide)

end Verif.Fft

import Verif.Fft.KissDft

/-!
# The cached complex transform: `kiss_fft_alloc`, `kiss_fft` and `cc1_fft`

State machine with the file-level static `previous_sign` (kiss_fft.c:14), shared by all threads,
and the per-thread plans `st[id]`, `nprev[id]` of `cc1_fft` (lib_fft.c:228-229).
A call is atomic in the model (the races between unsynchronised threads inside one call are not
modelled); threads are interleaved call by call.
-/

noncomputable section
namespace Verif.Fft
open Verif Finset

/-- Twiddle table of kiss_fft_alloc, kiss_fft.c:358-364: `phase = -2*pi*i/nfft`, negated for the
inverse; `(cos(phase), sin(phase))`. -/
def allocTw (nfft : Nat) (inverse : Bool) (i : Nat) : ℂ :=
  let phase : ℝ := -2 * Real.pi * i / nfft
  let phase := if inverse then phase * -1 else phase
  ⟨Real.cos phase, Real.sin phase⟩

/-- kiss_fft_alloc, kiss_fft.c:340-370 (with `mem = lenmem = NULL`). -/
def kissAlloc (nfft : Nat) (inverse : Bool) : Cfg where
  nfft := nfft
  inverse := inverse
  factors := kfFactor nfft
  tw := allocTw nfft inverse

/-- kiss_fft.c:378-386: set the direction and flip the table if the *last used* sign differs. -/
def setSign (st : Cfg) (prev : Int) (ntfft : Nat) (sign : Int) : Cfg × Int :=
  let st := { st with inverse := decide (sign = 1) }
  if prev ≠ sign then
    ({ st with tw := fun i => if i < ntfft then ⟨(st.tw i).re, (st.tw i).im * -1⟩ else st.tw i }, sign)
  else (st, prev)

/-- kiss_fft.c:387-390: transform into a temporary buffer and copy back.  The temporary buffer is
uninitialised memory `junk`. -/
def kissRun (st : Cfg) (junk : Mem) (x : Nat → ℂ) : Nat → ℂ :=
  let tmp := kfWork st x 1 st.factors 0 0 1 junk
  fun i => if i < st.nfft then tmp i else x i

/-- Global state: `previous_sign` and, per thread, `nprev` and the plan. -/
structure Sys where
  prev : Int
  nprev : Nat → Nat
  plan : Nat → Cfg

/-- Program start: statics are zero; the plans are null pointers (never used while `nprev` is 0). -/
def Sys.init : Sys := ⟨0, fun _ => 0, fun _ => ⟨0, false, [], fun _ => 0⟩⟩

/-- cc1_fft on the kiss_fft path, lib_fft.c:243-257, called by thread `id`. -/
def cc1 (id n : Nat) (sign : Int) (junk : Mem) (x : Nat → ℂ) (s : Sys) : (Nat → ℂ) × Sys :=
  let s := if n ≠ s.nprev id then
      { prev := -1,
        nprev := fun t => if t = id then n else s.nprev t,
        plan := fun t => if t = id then kissAlloc n false else s.plan t }
    else s
  let r := setSign (s.plan id) s.prev n sign
  (kissRun r.1 junk x, { s with prev := r.2, plan := fun t => if t = id then r.1 else s.plan t })

/-- A request: thread, length, sign, data (and the contents of the malloc'ed buffer). -/
structure Call where
  id : Nat
  n : Nat
  sign : Int
  junk : Mem
  x : Nat → ℂ

/-- Run a history of calls. -/
def runCalls : List Call → Sys → List (Nat → ℂ) × Sys
  | [], s => ([], s)
  | c :: cs, s =>
    let r := cc1 c.id c.n c.sign c.junk c.x s
    let rest := runCalls cs r.2
    (r.1 :: rest.1, rest.2)

/-! ## Lemmas -/

theorem allocTw_eq (n i : Nat) (inv : Bool) :
    allocTw n inv i = root (if inv then 1 else -1) n ^ i := by
  rw [root_pow]
  unfold allocTw
  have h : ∀ y : ℝ, (⟨Real.cos y, Real.sin y⟩ : ℂ) = Complex.exp (y * Complex.I) := by
    intro y
    rw [Complex.exp_mul_I]
    apply Complex.ext <;> simp [Complex.cos_ofReal_re, Complex.sin_ofReal_re, Complex.cos_ofReal_im,
      Complex.sin_ofReal_im]
  dsimp only
  rw [h]
  congr 1
  cases inv <;> simp <;> ring

theorem root_neg_im (sgn : Int) (n i : Nat) :
    (⟨(root sgn n ^ i).re, (root sgn n ^ i).im * -1⟩ : ℂ) = root (-sgn) n ^ i := by
  rw [← root_conj, ← map_pow]
  generalize root sgn n ^ i = z
  apply Complex.ext
  · rw [Complex.conj_re]
  · rw [Complex.conj_im]; ring

theorem kissAlloc_ready (n : Nat) (inv : Bool) (hn : 0 < n) : (kissAlloc n inv).Ready where
  pos := hn
  tw := fun i _ => allocTw_eq n i inv
  root := root_pow_n _ _ hn

/-- A plan whose table belongs to the sign `s`. -/
structure PlanFor (st : Cfg) (n : Nat) (s : Int) : Prop where
  nfft : st.nfft = n
  factors : st.factors = kfFactor n
  tw : ∀ i, i < n → st.tw i = root s n ^ i

theorem kissAlloc_planFor (n : Nat) : PlanFor (kissAlloc n false) n (-1) :=
  ⟨rfl, rfl, fun i _ => allocTw_eq n i false⟩

/-- If the table belongs to `previous_sign`, then after the sign handling the plan is right for the
requested sign. -/
theorem setSign_planFor (st : Cfg) (n : Nat) (prev sign : Int) (h : PlanFor st n prev)
    (hp : prev = 1 ∨ prev = -1) (hs : sign = 1 ∨ sign = -1) :
    PlanFor (setSign st prev n sign).1 n sign ∧ (setSign st prev n sign).2 = sign ∧
      (setSign st prev n sign).1.inverse = decide (sign = 1) := by
  unfold setSign
  by_cases hne : prev ≠ sign
  · rw [if_pos hne]
    refine ⟨⟨h.nfft, h.factors, fun i hi => ?_⟩, rfl, rfl⟩
    dsimp only
    rw [if_pos hi, h.tw i hi, root_neg_im]
    congr 2
    rcases hp with rfl | rfl <;> rcases hs with rfl | rfl <;> simp_all
  · have heq : prev = sign := not_not.mp hne
    rw [if_neg hne]
    subst heq
    exact ⟨⟨h.nfft, h.factors, h.tw⟩, rfl, rfl⟩

theorem PlanFor.ready {st : Cfg} {n : Nat} {s : Int} (h : PlanFor st n s) (hn : 0 < n)
    (hs : s = 1 ∨ s = -1) (hi : st.inverse = decide (s = 1)) : st.Ready ∧ st.sgn = s := by
  have hsgn : st.sgn = s := by
    unfold Cfg.sgn
    rw [hi]
    rcases hs with rfl | rfl <;> simp
  refine ⟨⟨by rw [h.nfft]; exact hn, ?_, ?_⟩, hsgn⟩
  · intro i hi'
    rw [hsgn, h.nfft]
    exact h.tw i (by rw [← h.nfft]; exact hi')
  · rw [hsgn, h.nfft]; exact root_pow_n _ _ hn

/-- **C08.** With a plan whose table belongs to its direction, the transform returns the DFT. -/
theorem kissRun_dft (st : Cfg) (hr : st.Ready) (hf : st.factors = kfFactor st.nfft) (junk : Mem)
    (x : Nat → ℂ) (k : Nat) (hk : k < st.nfft) : kissRun st junk x k = dft st.sgn st.nfft x k := by
  unfold kissRun
  rw [if_pos hk, hf]
  have := (kfWork_dft st hr x 1 (kfFactor st.nfft) st.nfft (kfFactor_plan _ hr.pos) 0 0 1
    (Nat.one_mul _) junk).1 k hk
  rw [Nat.zero_add] at this
  rw [this]
  unfold dft
  apply sum_congr rfl
  intro j _
  rw [Nat.zero_add, Nat.one_mul, Nat.mul_one, Nat.one_mul, root_pow_dft]

end Verif.Fft

import Verif.Fft.KissState
import Mathlib.RingTheory.RootsOfUnity.PrimitiveRoots

/-!
# C08, C09, C10: the complex transform
-/

noncomputable section
namespace Verif.Fft
open Verif Finset

/-- **C08.** For every length and input, a fresh plan for `n` points computes the DFT: sign -1 for a
forward plan, sign +1 for an inverse plan. -/
theorem kiss_fft_is_dft (n : Nat) (hn : 0 < n) (inverse : Bool) (junk : Mem) (x : Nat → ℂ) (k : Nat)
    (hk : k < n) :
    kissRun (kissAlloc n inverse) junk x k = dft (if inverse then 1 else -1) n x k :=
  kissRun_dft (kissAlloc n inverse) (kissAlloc_ready n inverse hn) rfl junk x k hk

theorem dft_impulse (sgn : Int) (n k : Nat) (hn : 1 < n) :
    dft sgn n (fun j => if j = 1 then 1 else 0) k = root sgn n ^ k := by
  unfold dft
  rw [sum_eq_single 1]
  · beta_reduce
    rw [if_pos rfl, one_mul, root_pow]
    congr 2
    push_cast
    ring
  · intro b _ hb; beta_reduce; rw [if_neg hb, zero_mul]
  · intro h; exact absurd (mem_range.mpr hn) h

/-- A concrete case: the transform of a unit impulse at sample 1 of 6 samples, bin 3, is -1. -/
example : kissRun (kissAlloc 6 false) (fun _ => 7) (fun j => if j = 1 then 1 else 0) 3 = -1 := by
  rw [kiss_fft_is_dft 6 (by decide) false _ _ 3 (by decide), dft_impulse _ _ _ (by decide),
    root_pow_quot _ 6 2 3 (by decide) (by decide), root_two _ (by decide)]

/-! ### C09: the sign argument and the call history -/

/-- All calls are made by one thread, with a valid length and sign. -/
def Call.Valid (c : Call) : Prop := 0 < c.n ∧ (c.sign = 1 ∨ c.sign = -1)

/-- Invariant of a single-threaded history: the table of the thread's plan belongs to
`previous_sign`. -/
structure Inv (id : Nat) (s : Sys) : Prop where
  prev : s.nprev id ≠ 0 → s.prev = 1 ∨ s.prev = -1
  plan : s.nprev id ≠ 0 → PlanFor (s.plan id) (s.nprev id) s.prev

theorem Inv.init (id : Nat) : Inv id Sys.init := ⟨fun h => absurd rfl h, fun h => absurd rfl h⟩

theorem cc1_spec (id n : Nat) (sign : Int) (junk : Mem) (x : Nat → ℂ) (s : Sys) (h : Inv id s)
    (hn : 0 < n) (hs : sign = 1 ∨ sign = -1) :
    (∀ k, k < n → (cc1 id n sign junk x s).1 k = dft sign n x k) ∧
    (∀ k, n ≤ k → (cc1 id n sign junk x s).1 k = x k) ∧
    Inv id (cc1 id n sign junk x s).2 := by
  have main : ∀ s : Sys, s.nprev id = n → (s.prev = 1 ∨ s.prev = -1) → PlanFor (s.plan id) n s.prev →
      (∀ k, k < n → kissRun (setSign (s.plan id) s.prev n sign).1 junk x k = dft sign n x k) ∧
      (∀ k, n ≤ k → kissRun (setSign (s.plan id) s.prev n sign).1 junk x k = x k) ∧
      Inv id { s with prev := (setSign (s.plan id) s.prev n sign).2,
                      plan := fun t => if t = id then (setSign (s.plan id) s.prev n sign).1 else s.plan t } := by
    intro s h1 h2 h3
    obtain ⟨p1, p2, p3⟩ := setSign_planFor (s.plan id) n s.prev sign h3 h2 hs
    obtain ⟨r1, r2⟩ := p1.ready hn hs p3
    refine ⟨?_, ?_, ?_⟩
    · intro k hk
      rw [kissRun_dft _ r1 (by rw [p1.factors, p1.nfft]) junk x k (by rw [p1.nfft]; exact hk), r2, p1.nfft]
    · intro k hk
      unfold kissRun
      rw [if_neg (by rw [p1.nfft]; omega)]
    · constructor
      · intro _; dsimp only; rw [p2]; exact hs
      · intro _; dsimp only; rw [if_pos rfl, h1, p2]; exact p1
  unfold cc1
  dsimp only
  by_cases hne : n ≠ s.nprev id
  · rw [if_pos hne]
    refine main _ (by simp) (Or.inr rfl) ?_
    dsimp only
    rw [if_pos rfl]
    exact kissAlloc_planFor n
  · rw [if_neg hne]
    have he : s.nprev id = n := (not_not.mp hne).symm
    have h0 : s.nprev id ≠ 0 := by omega
    exact main s he (h.prev h0) (by rw [← he]; exact h.plan h0)

theorem runCalls_spec (id : Nat) (cs : List Call) :
    ∀ s : Sys, Inv id s → (∀ c ∈ cs, c.Valid ∧ c.id = id) →
    List.Forall₂ (fun (c : Call) (y : Nat → ℂ) => ∀ k, k < c.n → y k = dft c.sign c.n c.x k)
      cs (runCalls cs s).1 := by
  induction cs with
  | nil => intro s _ _; exact List.Forall₂.nil
  | cons c cs ih =>
    intro s hI hv
    obtain ⟨⟨hn, hs⟩, hid⟩ := hv c List.mem_cons_self
    subst hid
    obtain ⟨h1, _, h3⟩ := cc1_spec c.id c.n c.sign c.junk c.x s hI hn hs
    exact List.Forall₂.cons h1 (ih _ h3 (fun c' hc' => hv c' (List.mem_cons_of_mem _ hc')))

/-- **C09 (partial).** In every history of calls made by one thread — any lengths, any signs, in
any order — every call returns the transform with the sign it was given.  Missing: histories with
several threads (refuted by `two_threads_wrong_sign`). -/
theorem sign_honoured_partial (id : Nat) (cs : List Call) (h : ∀ c ∈ cs, c.Valid ∧ c.id = id) :
    List.Forall₂ (fun (c : Call) (y : Nat → ℂ) => ∀ k, k < c.n → y k = dft c.sign c.n c.x k)
      cs (runCalls cs Sys.init).1 :=
  runCalls_spec id cs Sys.init (Inv.init id) h

example : ∀ c ∈ [Call.mk 0 6 1 0 (fun j => j), Call.mk 0 6 (-1) 0 (fun j => j), Call.mk 0 35 (-1) 0 (fun _ => 1)],
    c.Valid ∧ c.id = 0 := by
  intro c hc
  simp only [List.mem_cons, List.not_mem_nil, or_false] at hc
  rcases hc with rfl | rfl | rfl <;> refine ⟨⟨by decide, by decide⟩, rfl⟩

/-- Sequential history of two threads: both transform with sign +1, then both with sign -1.
The last call is computed with sign +1: the shared `previous_sign` says that the table was already
flipped, but it was flipped in the plan of the other thread. -/
def twoThreads (x : Nat → ℂ) : List Call :=
  [⟨0, 7, 1, 0, x⟩, ⟨1, 7, 1, 0, x⟩, ⟨0, 7, -1, 0, x⟩, ⟨1, 7, -1, 0, x⟩]

/-- The state after the first three calls: thread 1's table belongs to sign +1 while
`previous_sign` is -1. -/
theorem twoThreads_last (x : Nat → ℂ) :
    ∃ st : Cfg, PlanFor st 7 1 ∧ st.inverse = false ∧
      (runCalls (twoThreads x) Sys.init).1.getLast? = some (kissRun st 0 x) := by
  have a := kissAlloc_planFor 7
  obtain ⟨p1, q1, _⟩ := setSign_planFor _ 7 (-1) 1 a (Or.inr rfl) (Or.inl rfl)
  obtain ⟨p2, q2, _⟩ := setSign_planFor _ 7 1 (-1) p1 (Or.inl rfl) (Or.inr rfl)
  refine ⟨⟨7, false, kfFactor 7, (setSign (kissAlloc 7 false) (-1) 7 1).1.tw⟩, ⟨rfl, rfl, fun i hi => by rw [← p1.tw i hi]⟩, rfl, ?_⟩
  simp [twoThreads, runCalls, cc1, Sys.init, q1, q2]
  congr 1

/-- For 7 points the transform goes through the generic butterfly, which only looks at the table. -/
theorem kissRun_seven (st : Cfg) (h : PlanFor st 7 1) (x : Nat → ℂ) (k : Nat) (hk : k < 7) :
    kissRun st 0 x k = dft 1 7 x k := by
  -- the flag `inverse` is only read by the radix-4 butterfly
  have hf : kfFactor 7 = [(7, 1)] := by
    have h7 : Nat.sqrt 7 = 2 := by decide +kernel
    unfold kfFactor
    rw [h7]
    simp [kfLoop, kfSearch, kfNext]
  have hsame : kissRun st 0 x k = kissRun { st with inverse := true } 0 x k := by
    unfold kissRun
    dsimp only
    rw [h.factors, hf]
    simp only [kfWork, bfly]
    rfl
  rw [hsame]
  have hp : PlanFor { st with inverse := true } 7 1 := ⟨h.nfft, h.factors, h.tw⟩
  obtain ⟨r1, r2⟩ := hp.ready (by decide) (Or.inl rfl) (by simp)
  rw [kissRun_dft _ r1 (by rw [hp.factors, hp.nfft]) 0 x k (by rw [hp.nfft]; exact hk), r2, hp.nfft]

theorem root_primitive (n : Nat) (hn : n ≠ 0) : IsPrimitiveRoot (root 1 n) n := by
  have := Complex.isPrimitiveRoot_exp n hn
  unfold root
  convert this using 2
  push_cast; ring

/-- C09 fails with two threads: a request for sign -1 is answered with the transform of sign +1,
which differs from the requested one. -/
theorem two_threads_wrong_sign :
    ∃ (x : Nat → ℂ) (y : Nat → ℂ), (runCalls (twoThreads x) Sys.init).1.getLast? = some y ∧
      (∀ k, k < 7 → y k = dft 1 7 x k) ∧ y 1 ≠ dft (-1) 7 x 1 := by
  refine ⟨fun j => if j = 1 then 1 else 0, ?_⟩
  obtain ⟨st, h1, _, h3⟩ := twoThreads_last (fun j => if j = 1 then 1 else 0)
  refine ⟨_, h3, fun k hk => kissRun_seven st h1 _ k hk, ?_⟩
  rw [kissRun_seven st h1 _ 1 (by decide), dft_impulse _ _ _ (by decide), dft_impulse _ _ _ (by decide)]
  intro he
  rw [pow_one, pow_one] at he
  have h4 := root_mul_neg 1 7
  rw [← he] at h4
  have h5 := (root_primitive 7 (by decide)).pow_ne_one_of_pos_of_lt (l := 2) (by decide) (by decide)
  rw [pow_two] at h5
  exact h5 h4

/-! ### C10: round trip -/

/-- Orthogonality: the two transforms with opposite sign compose to `n` times the identity. -/
theorem dft_roundtrip (sgn : Int) (hs : sgn = 1 ∨ sgn = -1) (n : Nat) (hn : 0 < n) (x : Nat → ℂ)
    (l : Nat) (hl : l < n) : dft (-sgn) n (fun k => dft sgn n x k) l = n * x l := by
  have hprim : IsPrimitiveRoot (root sgn n) n := by
    rcases hs with rfl | rfl
    · exact root_primitive n (by omega)
    · have := root_mul_neg 1 n
      have h2 : root (-1) n = (root 1 n)⁻¹ := by
        rw [eq_comm]; exact inv_eq_of_mul_eq_one_right this
      rw [h2]; exact (root_primitive n (by omega)).inv
  have hw0 : root sgn n ≠ 0 := hprim.ne_zero (by omega)
  have hneg : root (-sgn) n = (root sgn n)⁻¹ := by
    rw [eq_comm]; exact inv_eq_of_mul_eq_one_right (root_mul_neg sgn n)
  set w := root sgn n with hw
  unfold dft
  simp only [← root_pow_dft, ← hw, hneg]
  -- exchange the sums
  have h1 : ∀ k, (∑ j ∈ range n, x j * w ^ (j * k)) * w⁻¹ ^ (k * l) =
      ∑ j ∈ range n, x j * (w ^ (j * k) * w⁻¹ ^ (k * l)) := by
    intro k; rw [sum_mul]; exact sum_congr rfl (fun j _ => by ring)
  simp only [h1]
  rw [sum_comm]
  simp only [← mul_sum]
  have h2 : ∀ j ∈ range n, ∑ k ∈ range n, w ^ (j * k) * w⁻¹ ^ (k * l) = if j = l then (n:ℂ) else 0 := by
    intro j hj
    have hj' := mem_range.mp hj
    have h3 : ∀ k, w ^ (j * k) * w⁻¹ ^ (k * l) = (w ^ j * w⁻¹ ^ l) ^ k := by
      intro k
      rw [mul_pow, ← pow_mul, ← pow_mul, Nat.mul_comm k l]
    simp only [h3]
    by_cases hjl : j = l
    · subst hjl
      rw [if_pos rfl, ← mul_pow, mul_inv_cancel₀ hw0]
      simp
    · rw [if_neg hjl]
      have hne : w ^ j * w⁻¹ ^ l ≠ 1 := by
        intro h
        rw [inv_pow, ← div_eq_mul_inv, div_eq_one_iff_eq (pow_ne_zero _ hw0)] at h
        exact hjl (hprim.pow_inj hj' hl h)
      have hpow : (w ^ j * w⁻¹ ^ l) ^ n = 1 := by
        rw [mul_pow, ← pow_mul, ← pow_mul, Nat.mul_comm j n, Nat.mul_comm l n, pow_mul, pow_mul, inv_pow,
          hprim.pow_eq_one]
        simp
      have := geom_sum_eq hne n
      rw [this, hpow, sub_self, zero_div]
  rw [sum_congr rfl (fun j hj => by rw [h2 j hj])]
  simp only [mul_ite, mul_zero]
  rw [sum_ite_eq' (range n) l, if_pos (mem_range.mpr hl), mul_comm]

/-- **C10.** Transforming with one sign and then with the other multiplies every sample by `n`:
two consecutive calls of the cached transform by the same thread, after any earlier history of that
thread. -/
theorem cc1_roundtrip (id : Nat) (cs : List Call) (h : ∀ c ∈ cs, c.Valid ∧ c.id = id)
    (n : Nat) (hn : 0 < n) (sign : Int) (hs : sign = 1 ∨ sign = -1) (junk junk' : Mem) (x : Nat → ℂ)
    (l : Nat) (hl : l < n) :
    let s := (runCalls cs Sys.init).2
    let r := cc1 id n sign junk x s
    (cc1 id n (-sign) junk' r.1 r.2).1 l = n * x l := by
  intro s r
  have hInv : Inv id s := by
    have key : ∀ (cs : List Call) (s : Sys), Inv id s → (∀ c ∈ cs, c.Valid ∧ c.id = id) →
        Inv id (runCalls cs s).2 := by
      intro cs
      induction cs with
      | nil => intro s hI _; exact hI
      | cons c cs ih =>
        intro s hI hv
        obtain ⟨⟨hn, hs⟩, hid⟩ := hv c List.mem_cons_self
        subst hid
        exact ih _ (cc1_spec c.id c.n c.sign c.junk c.x s hI hn hs).2.2
          (fun c' hc' => hv c' (List.mem_cons_of_mem _ hc'))
    exact key cs Sys.init (Inv.init id) h
  obtain ⟨h1, _, h3⟩ := cc1_spec id n sign junk x s hInv hn hs
  have hs' : -sign = 1 ∨ -sign = -1 := by rcases hs with rfl | rfl <;> simp
  rw [(cc1_spec id n (-sign) junk' r.1 r.2 h3 hn hs').1 l hl, ← dft_roundtrip sign hs n hn x l hl]
  unfold dft
  apply sum_congr rfl
  intro k hk
  rw [h1 k (mem_range.mp hk)]
  rfl

example : (cc1 3 12 (-1) 0 (cc1 3 12 1 0 (fun j => j) Sys.init).1 (cc1 3 12 1 0 (fun j => j) Sys.init).2).1 5 =
    (12:Nat) * ((5:Nat):ℂ) :=
  cc1_roundtrip 3 [] (by simp) 12 (by decide) 1 (Or.inl rfl) 0 0 (fun j => (j:ℂ)) 5 (by decide)

end Verif.Fft

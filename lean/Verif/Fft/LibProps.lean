import Verif.Fft.Lib
import Verif.Fft.Pfa2Props
import Verif.Fft.KissProps
import Verif.Fft.MayerProps
import Verif.Fft.OptN

/-!
# The transforms of `FFTlib/lib_fft.c` are discrete Fourier transforms, whatever the length and the earlier calls
-/

namespace Verif.Fft.Lib

open Complex Finset Verif Verif.Fft

/-! ### The choice of the algorithm -/

theorem isPow2_iff {n : Nat} : isPow2 n ↔ ∃ m, n = 2 ^ m := by
  constructor
  · intro h; exact ⟨_, h.symm⟩
  · rintro ⟨m, rfl⟩
    unfold isPow2
    have h : Real.logb 2 ((2 ^ m : Nat) : ℝ) = m := by
      push_cast
      rw [Real.logb_pow, Real.logb_self_eq_one (by norm_num), mul_one]
    have h2 : ⌊Real.logb 2 ((2 ^ m : Nat) : ℝ) + 1 / 2⌋ = (m : Int) := by
      rw [h, Int.floor_eq_iff]
      constructor
      · push_cast; linarith
      · push_cast; linarith
    rw [h2, Int.toNat_natCast]

theorem npfa_self {n : Nat} (h : npfa n = n) : ValidLen n := by
  have := npfa_valid n
  rwa [h] at this

theorem npfar_self {n : Nat} (h : npfar n = n) : ∃ N, ValidLen N ∧ n = 2 * N := ⟨_, npfa_valid _, h.symm⟩

theorem npfar_of {N : Nat} (h : ValidLen N) : npfar (2 * N : Nat) = 2 * N := by
  have h1 : (N : Int) ≤ 720720 := by
    obtain ⟨i, hi, e⟩ := valid_in_table h
    rw [← e]
    have h2 : tabN i ≤ tabN (NTAB - 1) := by
      by_cases he : i = NTAB - 1
      · rw [he]
      · exact (tabN_mono (show i < NTAB - 1 by omega) (by omega)).le
    rw [tab_last] at h2
    exact_mod_cast h2
  obtain ⟨h2, h3⟩ := npfar_least (2 * N : Nat) (by omega) (by push_cast; omega)
  apply le_antisymm
  · exact h3 ⟨⟨N, h, rfl⟩, le_rfl⟩
  · exact_mod_cast h2.2

private theorem sgn_of {s : Int} (hs : s = 1 ∨ s = -1) : Pfa.sgn s = s := by rcases hs with rfl | rfl <;> simp [Pfa.sgn]

/-! ### The statics -/

/-- What calls keep. -/
structure Ok (s : St) : Prop where
  kiss : Inv 0 s.kiss
  trig : Mayer.Reach s.trig
  rc : TabInv ncOf id s.rc
  cr : TabInv id ncOf s.cr

private theorem Ok.cc1 {s s' : St} {n len : Nat} {sign : Int} {junk : Junk} {z z' : Nat → ℂ} (h : Ok s) (hn : 0 < n)
    (hs : sign = 1 ∨ sign = -1) (e : cc1Fft n len sign junk z s = some (z', s')) : Ok s' := by
  have k := (cc1_spec 0 n sign junk.kiss z s.kiss h.kiss hn hs).2.2
  unfold cc1Fft at e
  split at e
  · split at e
    · split at e
      · rw [Option.map_eq_some_iff] at e
        obtain ⟨_, _, e⟩ := e
        cases e; exact h
      · cases e; exact ⟨k, h.trig, h.rc, h.cr⟩
    · cases e; exact ⟨k, h.trig, h.rc, h.cr⟩
  · cases e

private theorem Ok.rc1 {s s' : St} {n lenr lenc : Nat} {sign : Int} {junk : Junk} {x : Nat → ℝ} {c c' : Nat → ℂ} (h : Ok s) (hn : 0 < n)
    (e : rc1Fft n lenr lenc sign junk x c s = some (c', s')) : Ok s' := by
  have k := (rcdft_spec n sign junk.tab x s.rc hn h.rc).2
  unfold rc1Fft at e
  split at e
  · split at e
    · split at e
      · rw [Option.map_eq_some_iff] at e
        obtain ⟨_, _, e⟩ := e
        cases e; exact h
      · cases e; exact ⟨h.kiss, h.trig, k, h.cr⟩
    · rw [Option.map_eq_some_iff] at e
      obtain ⟨⟨re, im, t⟩, e1, e2⟩ := e
      cases e2
      refine ⟨h.kiss, ?_, h.rc, h.cr⟩
      unfold Mayer.rc1Pow2 at e1
      rw [Option.map_eq_some_iff] at e1
      obtain ⟨⟨d, t'⟩, e1, e2⟩ := e1
      cases e2
      unfold Mayer.realfft at e1
      rw [Option.map_eq_some_iff] at e1
      obtain ⟨⟨d', t''⟩, e1, e2⟩ := e1
      cases e2
      exact Mayer.Reach.call n _ _ h.trig e1
  · cases e

private theorem Ok.cr1 {s s' : St} {n lenr lenc : Nat} {sign : Int} {junk : Junk} {x x' : Nat → ℝ} {c : Nat → ℂ} (h : Ok s) (hn : 0 < n)
    (e : cr1Fft n lenc lenr sign junk c x s = some (x', s')) : Ok s' := by
  have k := (crdft_spec n sign junk.tab (fun i => (c i).re) (fun i => (c i).im) s.cr hn h.cr).2
  unfold cr1Fft at e
  split at e
  · split at e
    · split at e
      · rw [Option.map_eq_some_iff] at e
        obtain ⟨_, _, e⟩ := e
        cases e; exact h
      · cases e; exact ⟨h.kiss, h.trig, h.rc, k⟩
    · rw [Option.map_eq_some_iff] at e
      obtain ⟨⟨y, t⟩, e1, e2⟩ := e
      cases e2
      refine ⟨h.kiss, ?_, h.rc, h.cr⟩
      unfold Mayer.cr1Pow2 at e1
      rw [Option.map_eq_some_iff] at e1
      obtain ⟨⟨d, t'⟩, e1, e2⟩ := e1
      have e3 : t' = t := by
        dsimp only at e2
        split at e2
        · cases e2; rfl
        · split at e2 <;> (cases e2; rfl)
      subst e3
      unfold Mayer.realifft at e1
      exact Mayer.Reach.call n _ _ h.trig e1
  · cases e

theorem Hist.ok {s : St} (h : Hist s) : Ok s := by
  induction h with
  | start => exact ⟨Inv.init 0, Mayer.Reach.start, fun h => absurd rfl h, fun h => absurd rfl h⟩
  | cc1 n len sign junk z z' _ hn hs e ih => exact ih.cc1 hn hs e
  | rc1 n lenr lenc sign junk x c c' _ hn e ih => exact ih.rc1 hn e
  | cr1 n lenc lenr sign junk c x x' _ hn e ih => exact ih.cr1 hn e

/-! ### Complex transforms -/

/-- **C79 (complex).** `cc1_fft` of any length, after any earlier calls, is the discrete Fourier transform. -/
theorem cc1_fft_dft (n len : Nat) (hn : 0 < n) (hl : n ≤ len) (sign : Int) (hs : sign = 1 ∨ sign = -1) (junk : Junk) (z : Nat → ℂ)
    (s : St) (h : Hist s) :
    ∃ z' s', cc1Fft n len sign junk z s = some (z', s') ∧ Hist s' ∧ (∀ k, k < n → z' k = dft sign n z k) ∧ ∀ k, n ≤ k → z' k = z k := by
  have key : ∃ z' s', cc1Fft n len sign junk z s = some (z', s') ∧ (∀ k, k < n → z' k = dft sign n z k) ∧ ∀ k, n ≤ k → z' k = z k := by
    obtain ⟨a, b, _⟩ := cc1_spec 0 n sign junk.kiss z s.kiss h.ok.kiss hn hs
    unfold cc1Fft
    rw [if_pos hl]
    split
    · split
      · rename_i hp
        obtain ⟨z', e, c, d⟩ := Pfa.pfacc_dft sign n len (npfa_self hp) hl z
        rw [sgn_of hs] at c
        exact ⟨z', s, by rw [e]; rfl, c, d⟩
      · exact ⟨_, _, rfl, a, b⟩
    · exact ⟨_, _, rfl, a, b⟩
  obtain ⟨z', s', e, a, b⟩ := key
  exact ⟨z', s', e, h.cc1 n len sign junk z z' hn hs e, a, b⟩

/-- **C79 (complex, several traces).** `ccm_fft` transforms each trace, for every leading dimension not less than the length. -/
theorem ccm_fft_dft (n1 n2 ld1 len : Nat) (hn : 0 < n1) (hld : n1 ≤ ld1) (hl : ∀ i, i < n2 → i * ld1 + n1 ≤ len) (sign : Int)
    (hs : sign = 1 ∨ sign = -1) (junk : Nat → Junk) (z : Nat → ℂ) (s : St) (h : Hist s) :
    ∃ z' s', ccmFft n1 n2 ld1 len sign junk z s = some (z', s') ∧ Hist s' ∧
      (∀ i, i < n2 → ∀ k, k < n1 → z' (i * ld1 + k) = dft sign n1 (fun j => z (i * ld1 + j)) k) ∧
      ∀ m, (∀ i k, i < n2 → k < n1 → m ≠ i * ld1 + k) → z' m = z m := by
  have rows := rowsM_spec Hist hld (n := n2) (f := fun i z s => cc1Fft n1 (len - i * ld1) sign (junk i) z s)
    (fun _ z k => dft sign n1 z k) (fun i hi a s hs' => cc1_fft_dft n1 _ hn (by have := hl i hi; omega) sign hs (junk i) a s hs')
    (fun i _ a b hab k _ => by
      unfold dft
      exact sum_congr rfl fun j hj => by rw [hab j (mem_range.mp hj)]) z s h
  unfold ccmFft
  split
  · split
    · rename_i hp
      obtain ⟨z', e, a, f⟩ := Pfa.pfamcc_dft sign n1 n2 1 ld1 len (npfa_self hp) (Pfa.lay_rows hld hl) z
      rw [sgn_of hs] at a
      refine ⟨z', s, by rw [e]; rfl, h, fun i hi k hk => ?_, fun m hm => f m fun x t hx ht => ?_⟩
      · rw [show i * ld1 + k = k * 1 + i * ld1 by ring, a i hi k hk]
        unfold dft
        exact sum_congr rfl fun j _ => by dsimp only; rw [show j * 1 + i * ld1 = i * ld1 + j by ring]
      · rw [show x * 1 + t * ld1 = t * ld1 + x by ring]; exact hm t x ht hx
    · exact rows
  · exact rows

/-- **C79 (round trip).** Transform and transform with the opposite sign give the data times the length, also with any other calls
in between. -/
theorem cc1_fft_roundtrip (n len : Nat) (hn : 0 < n) (hl : n ≤ len) (sign : Int) (hs : sign = 1 ∨ sign = -1) (junk junk' : Junk)
    (z : Nat → ℂ) (s t : St) (h : Hist s) (ht : Hist t) :
    ∃ z' s' z'' s'', cc1Fft n len sign junk z s = some (z', s') ∧ cc1Fft n len (-sign) junk' z' t = some (z'', s'') ∧
      (∀ k, k < n → z'' k = n * z k) ∧ ∀ k, n ≤ k → z'' k = z k := by
  have hs' : -sign = 1 ∨ -sign = -1 := by rcases hs with rfl | rfl <;> simp
  obtain ⟨z', s', e1, _, a1, f1⟩ := cc1_fft_dft n len hn hl sign hs junk z s h
  obtain ⟨z'', s'', e2, _, a2, f2⟩ := cc1_fft_dft n len hn hl (-sign) hs' junk' z' t ht
  refine ⟨z', s', z'', s'', e1, e2, fun k hk => ?_, fun k hk => by rw [f2 k hk, f1 k hk]⟩
  rw [a2 k hk, ← dft_roundtrip sign hs n hn z k hk]
  unfold dft
  exact sum_congr rfl fun j hj => by rw [a1 j (mem_range.mp hj)]; rfl

/-! ### Real transforms -/

/-- The forward real transform works for all lengths except the powers of two below 4 or above 2^17. -/
def FwdLen (n : Nat) : Prop := 0 < n ∧ ∀ m, n = 2 ^ m → 2 ≤ m ∧ m ≤ 17

/-- The inverse real transform works for the powers of two from 4 to 2^17, all even lengths with a prime-factor transform, and all
odd lengths from 3. -/
def InvLen (n : Nat) : Prop := FwdLen n ∧ ((∃ m, n = 2 ^ m) ∨ (∃ N, ValidLen N ∧ n = 2 * N) ∨ n % 2 = 1)

private theorem rcdft_dft (n : Nat) (sign : Int) (hs : sign = 1 ∨ sign = -1) (junk x : Nat → ℝ) (t : Tab) (hn : 0 < n)
    (ht : TabInv ncOf id t) (k : Nat) (hk : k < ncOf n) :
    (⟨(rcdft n sign junk x t).1 k, (rcdft n sign junk x t).2.1 k⟩ : ℂ) = dft sign n (fun j => (x j : ℂ)) k := by
  obtain ⟨a, _⟩ := rcdft_spec n sign junk x t hn ht
  obtain ⟨b, c⟩ := a k hk
  rw [b, c, Pfa.dft_tw]
  have hsum : ∀ j, (x j : ℂ) * Pfa.tw sign n (j * k) =
      ⟨x j * Real.cos (2 * Real.pi / n * (k * j : Nat)), sign * (x j * Real.sin (2 * Real.pi / n * (k * j : Nat)))⟩ := by
    intro j
    rw [Pfa.tw_val, Nat.mul_comm j k]
    have e : (sign : ℝ) * (2 * Real.pi / n) * (k * j : Nat) = sign * (2 * Real.pi / n * (k * j : Nat)) := by ring
    rw [e]
    apply Complex.ext
    · rcases hs with rfl | rfl <;> simp
    · rcases hs with rfl | rfl <;> simp
  rw [sum_congr rfl fun j _ => hsum j]
  apply Complex.ext
  · rw [re_sum]
  · rw [im_sum, mul_sum]

/-- **C80 (forward).** `rc1_fft`, after any earlier calls, delivers the first half of the discrete Fourier transform. -/
theorem rc1_fft_dft (n lenr lenc : Nat) (hn : FwdLen n) (hr : n ≤ lenr) (hc : n / 2 < lenc) (sign : Int)
    (hs : sign = 1 ∨ sign = -1) (junk : Junk) (x : Nat → ℝ) (c : Nat → ℂ) (s : St) (h : Hist s) :
    ∃ c' s', rc1Fft n lenr lenc sign junk x c s = some (c', s') ∧ Hist s' ∧
      (∀ k, k ≤ n / 2 → c' k = dft sign n (fun j => (x j : ℂ)) k) ∧ ∀ k, n / 2 < k → c' k = c k := by
  have key : ∃ c' s', rc1Fft n lenr lenc sign junk x c s = some (c', s') ∧
      (∀ k, k ≤ n / 2 → c' k = dft sign n (fun j => (x j : ℂ)) k) ∧ ∀ k, n / 2 < k → c' k = c k := by
    unfold rc1Fft
    rw [if_pos ⟨hr, hc⟩]
    by_cases hp : isPow2 n
    · rw [if_neg (not_not_intro hp)]
      obtain ⟨m, rfl⟩ := isPow2_iff.mp hp
      obtain ⟨m2, m17⟩ := hn.2 m rfl
      obtain ⟨re, im, T, e, _, a, b⟩ := Mayer.rc1_pow2_dft m m2 m17 sign hs x (fun i => (c i).re) (fun i => (c i).im) s.trig h.ok.trig
      refine ⟨fun i => ⟨re i, im i⟩, { s with trig := T }, by rw [e]; rfl, a, fun k hk => ?_⟩
      obtain ⟨b1, b2⟩ := b k hk
      apply Complex.ext
      · exact b1
      · exact b2
    · rw [if_pos hp]
      by_cases hq : npfar n = n
      · rw [if_pos hq]
        obtain ⟨N, hv, rfl⟩ := npfar_self hq
        obtain ⟨z', e, a, b⟩ := Pfa.pfarc_dft sign N lenc hv (by omega) x (Pfa.unview c)
        rw [sgn_of hs] at a
        refine ⟨Pfa.view z', s, by rw [e]; rfl, fun k hk => a k (by omega), fun k hk => ?_⟩
        rw [b k (by omega), Pfa.view_unview]
      · rw [if_neg hq]
        refine ⟨_, _, rfl, fun k hk => ?_, fun k hk => ?_⟩
        · have hk' : k < ncOf n := by unfold ncOf; omega
          rw [if_pos hk', rcdft_dft n sign hs junk.tab x s.rc hn.1 h.ok.rc k hk']
        · rw [if_neg (by unfold ncOf; omega)]
  obtain ⟨c', s', e, a, b⟩ := key
  exact ⟨c', s', e, h.rc1 n lenr lenc sign junk x c c' hn.1 e, a, b⟩

private theorem crdft_congr (n : Nat) (sign : Int) (junk re im re' im' : Nat → ℝ) (t : Tab) (h : ∀ j, j < ncOf n → re j = re' j ∧ im j = im' j)
    (hn : 0 < n) (ht : TabInv id ncOf t) (i : Nat) (hi : i < n) : (crdft n sign junk re im t).1 i = (crdft n sign junk re' im' t).1 i := by
  rw [(crdft_spec n sign junk re im t hn ht).1 i hi, (crdft_spec n sign junk re' im' t hn ht).1 i hi,
    (h 0 (by unfold ncOf; omega)).1]
  congr 3
  exact sum_congr rfl fun j hj => by rw [(h j (mem_range.mp hj)).1, (h j (mem_range.mp hj)).2]

/-- **C80 (inverse).** `cr1_fft`, after any earlier calls, delivers the discrete Fourier transform of the Hermitian spectrum whose
first half it gets. -/
theorem cr1_fft_dft (n lenc lenr : Nat) (hn : InvLen n) (hr : n ≤ lenr) (hc : n / 2 < lenc) (sign : Int)
    (hs : sign = 1 ∨ sign = -1) (junk : Junk) (X c : Nat → ℂ) (h0 : (X 0).im = 0)
    (hX : ∀ k, 0 < k → k < n → X (n - k) = (starRingEnd ℂ) (X k)) (hcX : ∀ k, k ≤ n / 2 → c k = X k)
    (x : Nat → ℝ) (s : St) (h : Hist s) :
    ∃ x' s', cr1Fft n lenc lenr sign junk c x s = some (x', s') ∧ Hist s' ∧ (∀ t, t < n → (x' t : ℂ) = dft sign n X t) ∧
      ∀ t, n ≤ t → x' t = x t := by
  have key : ∃ x' s', cr1Fft n lenc lenr sign junk c x s = some (x', s') ∧ (∀ t, t < n → (x' t : ℂ) = dft sign n X t) ∧
      ∀ t, n ≤ t → x' t = x t := by
    unfold cr1Fft
    rw [if_pos ⟨hr, hc⟩]
    by_cases hp : isPow2 n
    · rw [if_neg (not_not_intro hp)]
      obtain ⟨m, rfl⟩ := isPow2_iff.mp hp
      obtain ⟨m2, m17⟩ := hn.1.2 m rfl
      obtain ⟨y, T, e, _, a, b⟩ := Mayer.cr1_pow2_dft m m2 m17 sign hs X h0 hX (fun i => (c i).re) (fun i => (c i).im)
        (fun k hk => by rw [hcX k hk]) (fun k hk => by rw [hcX k hk]) junk.buf x s.trig h.ok.trig
      exact ⟨y, { s with trig := T }, by rw [e]; rfl, a, b⟩
    · rw [if_pos hp]
      by_cases hq : npfar n = n
      · rw [if_pos hq]
        obtain ⟨N, hv, rfl⟩ := npfar_self hq
        obtain ⟨z', e, a, b⟩ := Pfa.pfacr_dft sign hs N lenc lenr hv (by omega) hr X h0 hX (Pfa.unview c) x
          (fun k hk => by rw [Pfa.view_unview, hcX k (by omega)])
        exact ⟨z', s, by rw [e]; rfl, a, b⟩
      · rw [if_neg hq]
        have hodd : n % 2 = 1 := by
          rcases hn.2 with ⟨m, e⟩ | ⟨N, hv, rfl⟩ | ho
          · exact absurd (isPow2_iff.mpr ⟨m, e⟩) hp
          · exact absurd (npfar_of hv) hq
          · exact ho
        have hn0 := hn.1.1
        have hs' : -sign = 1 ∨ -sign = -1 := by rcases hs with rfl | rfl <;> simp
        have hreal := Pfa.hermitian_real sign hs n hn0 X h0 hX
        -- the trace whose spectrum `X` is
        let y : Nat → ℝ := fun t => (dft sign n X t).re / n
        have hyc : ∀ t, t < n → ((y t : ℝ) : ℂ) = dft sign n X t / n := by
          intro t ht
          have h1 : (((dft sign n X t).re : ℝ) : ℂ) = dft sign n X t := by
            apply Complex.ext
            · exact ofReal_re _
            · rw [ofReal_im, hreal t ht]
          simp only [y]
          push_cast
          rw [h1]
        have hnc : (n : ℂ) ≠ 0 := by exact_mod_cast hn0.ne'
        have hYX : ∀ k, k < n → dft (-sign) n (fun j => (y j : ℂ)) k = X k := by
          intro k hk
          have h2 := dft_roundtrip sign hs n hn0 X k hk
          have h3 : dft (-sign) n (fun j => (y j : ℂ)) k = dft (-sign) n (fun k => dft sign n X k) k / n := by
            unfold dft
            rw [sum_div]
            refine sum_congr rfl fun j hj => ?_
            have := hyc j (mem_range.mp hj)
            unfold dft at this
            dsimp only
            rw [this]; ring
          rw [h3, h2]
          field_simp
        refine ⟨_, _, rfl, fun t ht => ?_, fun t ht => by rw [if_neg (by omega)]⟩
        rw [if_pos ht]
        have e1 := crdft_congr n sign junk.tab (fun i => (c i).re) (fun i => (c i).im) (rcdft n (-sign) (fun _ => 0) y Tab.init).1
          (rcdft n (-sign) (fun _ => 0) y Tab.init).2.1 s.cr (fun j hj => by
            have hj2 : j ≤ n / 2 := by unfold ncOf at hj; omega
            have e2 := rcdft_dft n (-sign) hs' (fun _ => 0) y Tab.init hn0 (fun h => absurd rfl h) j hj
            rw [hYX j (by omega), ← hcX j hj2] at e2
            exact ⟨by rw [← e2], by rw [← e2]⟩) hn0 h.ok.cr t ht
        have e3 := crdft_rcdft_odd_partial n hodd (-sign) hs' (fun _ => 0) junk.tab y Tab.init s.cr (fun h => absurd rfl h) h.ok.cr t ht
        rw [neg_neg] at e3
        rw [e1, e3]
        push_cast
        rw [hyc t ht]
        field_simp
  obtain ⟨x', s', e, a, b⟩ := key
  exact ⟨x', s', e, h.cr1 n lenc lenr sign junk c x x' hn.1.1 e, a, b⟩

/-- **C80 (round trip).** Forward and inverse give the trace times its length, whatever other calls are made before, between and
after. -/
theorem cr1_rc1_fft (n lenr lenc : Nat) (hn : InvLen n) (hr : n ≤ lenr) (hc : n / 2 < lenc) (sign : Int)
    (hs : sign = 1 ∨ sign = -1) (junk junk' : Junk) (x y : Nat → ℝ) (c : Nat → ℂ) (s t : St) (h : Hist s) (ht : Hist t) :
    ∃ c' s' y' t', rc1Fft n lenr lenc sign junk x c s = some (c', s') ∧ cr1Fft n lenc lenr (-sign) junk' c' y t = some (y', t') ∧
      (∀ k, k < n → y' k = n * x k) ∧ ∀ k, n ≤ k → y' k = y k := by
  have hs' : -sign = 1 ∨ -sign = -1 := by rcases hs with rfl | rfl <;> simp
  obtain ⟨c', s', e1, _, a1, _⟩ := rc1_fft_dft n lenr lenc hn.1 hr hc sign hs junk x c s h
  obtain ⟨y', t', e2, _, a2, f2⟩ := cr1_fft_dft n lenc lenr hn hr hc (-sign) hs' junk' (dft sign n fun j => (x j : ℂ)) c'
    (Mayer.dft_zero_im _ _ _) (fun k _ hk => Mayer.dft_hermitian sign _ hn.1.1 x k hk.le) a1 y t ht
  refine ⟨c', s', y', t', e1, e2, fun k hk => ?_, f2⟩
  have e := (a2 k hk).trans (dft_roundtrip sign hs n hn.1.1 (fun j => (x j : ℂ)) k hk)
  have e2 : (y' k : ℂ) = ((n * x k : ℝ) : ℂ) := by rw [e]; push_cast; ring
  exact_mod_cast e2

end Verif.Fft.Lib

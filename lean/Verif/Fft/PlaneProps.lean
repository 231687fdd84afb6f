import Verif.Fft.Plane
import Verif.Fft.LibMany

/-!
# Panels and their spectra: forward, inverse, round trip
-/

namespace Verif.Fft.Lib

open Complex Finset Verif Verif.Fft

/-! ### Specification -/

/-- The spectrum over time of trace `p i`: `∑_t p(i,t) e^{-2πi jt/nt}`. -/
noncomputable def wx (nt : Nat) (p : Nat → Nat → ℝ) (j i : Nat) : ℂ :=
  ∑ t ∈ range nt, (p i t : ℂ) * exp (-(2 * Real.pi * I * (t * j) / nt))

/-- The spectrum over time and place, the place counted from trace `xorig`:
`∑_i ∑_t p(i,t) e^{-2πi jt/nt} e^{2πi k(i-xorig)/nx}`. -/
noncomputable def wkx (nt nx xorig : Nat) (p : Nat → Nat → ℝ) (j k : Nat) : ℂ :=
  ∑ i ∈ range nx, ∑ t ∈ range nt,
    (p i t : ℂ) * exp (-(2 * Real.pi * I * (t * j) / nt)) * exp (2 * Real.pi * I * (((i : ℂ) - xorig) * k) / nx)

/-! ### Sums -/

theorem wx_dft (nt : Nat) (p : Nat → Nat → ℝ) (j i : Nat) : wx nt p j i = dft (-1) nt (fun t => (p i t : ℂ)) j := by
  unfold wx dft
  refine sum_congr rfl fun t _ => ?_
  congr 2
  push_cast
  ring

theorem rot_sum {M : Type*} [AddCommMonoid M] {n o : Nat} (ho : o < n) (f : Nat → M) :
    ∑ i ∈ range n, f ((i + o) % n) = ∑ i ∈ range n, f i := by
  refine sum_nbij' (fun i => (i + o) % n) (fun i => (i + (n - o)) % n) ?_ ?_ ?_ ?_ ?_
  · intro i hi; exact mem_range.mpr (Nat.mod_lt _ (by omega))
  · intro i hi; exact mem_range.mpr (Nat.mod_lt _ (by omega))
  · intro i hi
    have hi := mem_range.mp hi
    rw [Nat.mod_add_mod, show i + o + (n - o) = i + n by omega, Nat.add_mod_right, Nat.mod_eq_of_lt hi]
  · intro i hi
    have hi := mem_range.mp hi
    rw [Nat.mod_add_mod, show i + (n - o) + o = i + n by omega, Nat.add_mod_right, Nat.mod_eq_of_lt hi]
  · intro i _; rfl

/-- Counting from trace `o`: the transform of the traces in the order `o, o+1, …, n-1, 0, …, o-1`. -/
theorem shift_dft {n o : Nat} (ho : o < n) (F : Nat → ℂ) (k : Nat) :
    ∑ i ∈ range n, F i * exp (2 * Real.pi * I * (((i : ℂ) - o) * k) / n) = dft 1 n (fun i => F ((i + o) % n)) k := by
  have hn : (n : ℂ) ≠ 0 := by exact_mod_cast (show n ≠ 0 by omega)
  rw [← rot_sum ho]
  unfold dft
  refine sum_congr rfl fun i _ => ?_
  congr 1
  have h : ((i : ℂ) + o) = (n : ℂ) * ((i + o) / n : Nat) + ((i + o) % n : Nat) := by
    exact_mod_cast (Nat.div_add_mod (i + o) n).symm
  generalize (i + o) % n = r at h
  generalize (i + o) / n = q at h
  have h2 : ((1 : Int) : ℂ) * (2 * Real.pi * I * ((i : ℂ) * k) / n) =
      2 * Real.pi * I * (((r : ℂ) - o) * k) / n + ((q * k : Nat) : ℂ) * (2 * Real.pi * I) := by
    rw [show (i : ℂ) = n * q + r - o by rw [← h]; ring]
    push_cast
    field_simp
    ring
  rw [h2, exp_add, exp_nat_mul_two_pi_mul_I, mul_one]

theorem wkx_dft {nt nx xorig : Nat} (ho : xorig < nx) (p : Nat → Nat → ℝ) (j k : Nat) :
    wkx nt nx xorig p j k = dft 1 nx (fun i => wx nt p j ((i + xorig) % nx)) k := by
  rw [← shift_dft ho]
  unfold wkx wx
  refine sum_congr rfl fun i _ => ?_
  rw [sum_mul]

theorem dft_congr' (s : Int) (n k : Nat) {x y : Nat → ℂ} (h : ∀ j, j < n → x j = y j) : dft s n x k = dft s n y k := by
  unfold dft
  exact sum_congr rfl fun j hj => by rw [h j (mem_range.mp hj)]

theorem dft_smul (s : Int) (n k : Nat) (a : ℂ) (x : Nat → ℂ) : dft s n (fun j => a * x j) k = a * dft s n x k := by
  unfold dft
  rw [mul_sum]
  exact sum_congr rfl fun j _ => by ring

/-! ### Loops -/

theorem scaleRows_val (nx ldr : Nat) (scl : ℝ) (x : Nat → ℝ) (m : Nat) :
    scaleRows nx ldr scl x m = if m < nx * ldr then x m * scl else x m := by
  unfold scaleRows
  refine forN_inv (P := fun i (y : Nat → ℝ) => ∀ m, y m = if m < i * ldr then x m * scl else x m) ?_ ?_ m
  · intro m; simp
  · intro i _ y hy
    have h2 : ∀ n, n ≤ ldr → ∀ m, forN n (fun j x => aset x (i * ldr + j) (x (i * ldr + j) * scl)) y m =
        if m < i * ldr + n then x m * scl else x m := by
      intro n
      induction n with
      | zero => intro _ m; exact hy m
      | succ n ih =>
        intro hn m
        rw [forN_succ]
        have ih := ih (by omega)
        generalize forN n (fun j x => aset x (i * ldr + j) (x (i * ldr + j) * scl)) y = r at ih
        unfold aset
        by_cases hm : m = i * ldr + n
        · rw [if_pos hm, ih, if_neg (by omega), if_pos (by omega), hm]
        · rw [if_neg hm, ih]
          by_cases h3 : m < i * ldr + n
          · rw [if_pos h3, if_pos (by omega)]
          · rw [if_neg h3, if_neg (by omega)]
    intro m
    rw [h2 ldr le_rfl m, Nat.add_mul, Nat.one_mul]

private theorem toFreq_val {n m ld : Nat} (b a : Nat → ℂ) (h : n ≤ ld) :
    (∀ i j, i < n → j < m → toFreq n m ld b a (j * ld + i) = b (i * m + j)) ∧
      ∀ k, (∀ i j, i < n → j < m → k ≠ j * ld + i) → toFreq n m ld b a k = a k := by
  have w := Writes.forN (n := n) (f := fun i c => forN m (fun j c => aset c (j * ld + i) (b (i * m + j))) c)
    (fun i _ => Writes.forN (n := m) (fun j _ => Writes.aset (j * ld + i) (b (i * m + j))))
  refine ⟨fun i j hi hj => w.val a ⟨i, hi, j, hj, rfl, rfl⟩ ?_, fun k hk => w.frame a ?_⟩
  · rintro v ⟨i', hi', j', hj', e, rfl⟩
    obtain ⟨rfl, rfl⟩ := rc_inj h hi hi' e
    rfl
  · rintro v ⟨i, hi, j, hj, e, _⟩
    exact hk i j hi hj e

private theorem fromFreq_val {n m ld : Nat} (b a : Nat → ℂ) :
    ∀ i j, i < n → j < m → fromFreq n m ld b a (i * m + j) = b (j * ld + i) := by
  have w := Writes.forN (n := n) (f := fun i c => forN m (fun j c => aset c (i * m + j) (b (j * ld + i))) c)
    (fun i _ => Writes.forN (n := m) (fun j _ => Writes.aset (i * m + j) (b (j * ld + i))))
  refine fun i j hi hj => w.val a ⟨i, hi, j, hj, rfl, rfl⟩ ?_
  rintro v ⟨i', hi', j', hj', e, rfl⟩
  obtain ⟨rfl, rfl⟩ := rc_inj (le_refl m) hj hj' e
  rfl

theorem half_le (nt : Nat) {j : Nat} : j < (nt + 2) / 2 ↔ j ≤ nt / 2 := by omega

theorem packed_lt {n i j nx : Nat} (hi : i < nx) (hj : j ≤ n / 2) : i * ((n + 2) / 2) + j < (n + 2) / 2 * nx := by
  have h := Nat.mul_le_mul_right ((n + 2) / 2) (show i + 1 ≤ nx from hi)
  rw [Nat.add_mul, Nat.mul_comm nx] at h
  omega

/-! ### Time to frequency -/

/-- **C83 (forward).** `xt2wx` delivers, frequency by frequency, the spectra of all traces, and changes nothing else. -/
theorem xt2wx_spec (nt nx ldr ldc lenr lenc : Nat) (hn : FwdLen nt) (hx : nx ≤ ldc) (hr : ∀ i, i < nx → i * ldr + nt ≤ lenr)
    (hc : ∀ i j, i < nx → j ≤ nt / 2 → j * ldc + i < lenc) (junk : Nat → Junk) (cdum : Nat → ℂ) (x : Nat → ℝ) (c : Nat → ℂ)
    (s : St) (h : Hist s) :
    ∃ c' s', xt2wx nt nx ldr ldc lenr lenc junk cdum x c s = some (c', s') ∧ Hist s' ∧
      (∀ j i, j ≤ nt / 2 → i < nx → c' (j * ldc + i) = wx nt (fun i t => x (i * ldr + t)) j i) ∧
      ∀ m, (∀ j i, j ≤ nt / 2 → i < nx → m ≠ j * ldc + i) → c' m = c m := by
  obtain ⟨d, s1, e1, p1, a1, _⟩ := rcm_fft_dft_partial nt nx ldr ((nt + 2) / 2) lenr ((nt + 2) / 2 * nx) hn (by omega)
    (Or.inl (by omega)) hr (fun i hi => packed_lt hi le_rfl) (-1) (Or.inr rfl) junk x cdum s h
  obtain ⟨t1, t2⟩ := toFreq_val (n := nx) (m := (nt + 2) / 2) d c hx
  unfold xt2wx
  dsimp only
  rw [e1, Option.bind_some]
  dsimp only
  rw [if_pos fun i j hi hj => hc i j hi ((half_le nt).mp hj)]
  refine ⟨_, _, rfl, p1, fun j i hj hi => ?_, fun m hm => t2 m fun i j hi hj => hm j i ((half_le nt).mp hj) hi⟩
  rw [t1 i j hi ((half_le nt).mpr hj), a1 i hi j hj, wx_dft]

private theorem wx_herm (nt : Nat) (hn : 0 < nt) (p : Nat → Nat → ℝ) (a : ℝ) (i : Nat) :
    ((a : ℂ) * wx nt p 0 i).im = 0 ∧ ∀ k, 0 < k → k < nt → (a : ℂ) * wx nt p (nt - k) i = (starRingEnd ℂ) ((a : ℂ) * wx nt p k i) := by
  constructor
  · rw [wx_dft, im_ofReal_mul, Mayer.dft_zero_im, mul_zero]
  · intro k _ hk
    rw [wx_dft, wx_dft, map_mul, conj_ofReal, Mayer.dft_hermitian (-1) nt hn (p i) k hk.le]

/-- Half spectra times `a`, frequencies together in each trace, become the traces times `a` and the scale. -/
theorem back (nt nx ldr lenr : Nat) (hn : InvLen nt) (hld : nt ≤ ldr) (hr : nx * ldr ≤ lenr) (junk : Nat → Junk)
    (p : Nat → Nat → ℝ) (a : ℝ) (d : Nat → ℂ)
    (hd : ∀ i, i < nx → ∀ j, j ≤ nt / 2 → d (i * ((nt + 2) / 2) + j) = a * wx nt p j i) (scl : ℝ) (hs : scl * (nt * a) = 1) (x : Nat → ℝ) (s : St)
    (h : Hist s) :
    ∃ x' s', crmFft nt nx ((nt + 2) / 2) ldr ((nt + 2) / 2 * nx) lenr 1 junk d x s = some (x', s') ∧ Hist s' ∧
      (∀ i t, i < nx → t < nt → scaleRows nx ldr scl x' (i * ldr + t) = p i t) ∧
      (∀ i t, i < nx → nt ≤ t → t < ldr → scaleRows nx ldr scl x' (i * ldr + t) = x (i * ldr + t) * scl) ∧
      ∀ m, nx * ldr ≤ m → scaleRows nx ldr scl x' m = x m := by
  have hr' : ∀ i, i < nx → i * ldr + ldr ≤ lenr := fun i hi => by
    have := Nat.mul_le_mul_right ldr (show i + 1 ≤ nx from hi)
    rw [Nat.add_mul] at this; omega
  have h1 := hn.1.1
  obtain ⟨x', s', e, q, b, f⟩ := crm_fft_dft_partial nt nx ((nt + 2) / 2) ldr ((nt + 2) / 2 * nx) lenr hn hld (Or.inl (by omega))
    (fun i hi => by have := hr' i hi; omega) (fun i hi => packed_lt hi le_rfl) 1 (Or.inl rfl) junk (fun i k => a * wx nt p k i) d
    (fun i _ => (wx_herm nt h1 p a i).1) (fun i _ => (wx_herm nt h1 p a i).2) hd x s h
  refine ⟨x', s', e, q, fun i t hi ht => ?_, fun i t hi ht hl => ?_, fun m hm => ?_⟩
  · have hlt : i * ldr + t < nx * ldr := by
      have := Nat.mul_le_mul_right ldr (show i + 1 ≤ nx from hi)
      rw [Nat.add_mul] at this; omega
    rw [scaleRows_val, if_pos hlt]
    have e2 := b i hi t ht
    rw [dft_smul] at e2
    have e3 := dft_roundtrip (-1) (Or.inr rfl) nt h1 (fun t => (p i t : ℂ)) t ht
    rw [show (-(-1) : Int) = 1 by norm_num] at e3
    have e4 : dft 1 nt (fun k => wx nt p k i) t = dft 1 nt (fun k => dft (-1) nt (fun t => (p i t : ℂ)) k) t :=
      dft_congr' _ _ _ fun j _ => wx_dft _ _ _ _
    rw [e4, e3] at e2
    have e5 : x' (i * ldr + t) = a * (nt * p i t) := by exact_mod_cast e2
    rw [e5]
    linear_combination p i t * hs
  · have hlt : i * ldr + t < nx * ldr := by
      have := Nat.mul_le_mul_right ldr (show i + 1 ≤ nx from hi)
      rw [Nat.add_mul] at this; omega
    rw [scaleRows_val, if_pos hlt, f]
    intro i' t' hi' ht' e
    obtain ⟨_, e⟩ := rc_inj (le_refl ldr) hl (by omega) e
    omega
  · rw [scaleRows_val, if_neg (by omega), f]
    intro i t hi ht e
    have := Nat.mul_le_mul_right ldr (show i + 1 ≤ nx from hi)
    rw [Nat.add_mul] at this; omega

/-- **C83 (inverse).** `wx2xt` makes of the spectra of the traces of a panel the panel.  What stands between the traces is
multiplied by `1/nt`. -/
theorem wx2xt_spec (nt nx ldc ldr lenc lenr : Nat) (hn : InvLen nt) (hld : nt ≤ ldr) (hr : nx * ldr ≤ lenr)
    (hc : ∀ i j, i < nx → j ≤ nt / 2 → j * ldc + i < lenc) (junk : Nat → Junk) (p : Nat → Nat → ℝ) (cdum c : Nat → ℂ)
    (hp : ∀ j i, j ≤ nt / 2 → i < nx → c (j * ldc + i) = wx nt p j i) (x : Nat → ℝ) (s : St) (h : Hist s) :
    ∃ x' s', wx2xt nt nx ldc ldr lenc lenr junk cdum c x s = some (x', s') ∧ Hist s' ∧
      (∀ i t, i < nx → t < nt → x' (i * ldr + t) = p i t) ∧
      (∀ i t, i < nx → nt ≤ t → t < ldr → x' (i * ldr + t) = x (i * ldr + t) / nt) ∧ ∀ m, nx * ldr ≤ m → x' m = x m := by
  have t1 := fromFreq_val (n := nx) (m := (nt + 2) / 2) (ld := ldc) c cdum
  have h1 : (nt : ℝ) ≠ 0 := by exact_mod_cast hn.1.1.ne'
  obtain ⟨x', s', e, q, b, f, g⟩ := back nt nx ldr lenr hn hld hr junk p 1 (fromFreq nx ((nt + 2) / 2) ldc c cdum) (fun i hi j hj => by
    rw [t1 i j hi ((half_le nt).mpr hj), hp j i hj hi, ofReal_one, one_mul]) (1 / nt) (by field_simp) x s h
  unfold wx2xt
  dsimp only
  rw [if_pos (show _ ∧ _ from ⟨fun i j hi hj => hc i j hi ((half_le nt).mp hj), hr⟩), e]
  refine ⟨_, _, rfl, q, b, fun i t hi ht hl => ?_, g⟩
  rw [f i t hi ht hl]; ring

/-! ### Time and place to frequency and wavenumber -/

theorem rot_cases {n o i : Nat} (ho : o < n) (hi : i < n) :
    (i < n - o ∧ (i + o) % n = i + o) ∨ (n - o ≤ i ∧ (i + o) % n = i - (n - o)) := by
  by_cases h : i < n - o
  · left; exact ⟨h, Nat.mod_eq_of_lt (by omega)⟩
  · right
    refine ⟨by omega, ?_⟩
    rw [show i + o = i - (n - o) + n by omega, Nat.add_mod_right, Nat.mod_eq_of_lt (by omega)]

private theorem toFreqRot_val {m nx ld xorig : Nat} (d a : Nat → ℂ) (h : nx ≤ ld) (ho : xorig < nx) :
    (∀ i j, i < nx → j < m → toFreqRot nx m ld xorig d a (j * ld + i) = d ((i + xorig) % nx * m + j)) ∧
      ∀ k, (∀ i j, i < nx → j < m → k ≠ j * ld + i) → toFreqRot nx m ld xorig d a k = a k := by
  have w := Writes.forN (n := m) (f := fun j c =>
        let c := forN (nx - xorig) (fun i c => aset c (j * ld + i) (d ((i + xorig) * m + j))) c
        forN xorig (fun i c => aset c (j * ld + (nx - xorig + i)) (d (i * m + j))) c)
    (fun j _ => (Writes.forN (n := nx - xorig) (fun i _ => Writes.aset (j * ld + i) (d ((i + xorig) * m + j)))).comp
      (Writes.forN (n := xorig) (fun i _ => Writes.aset (j * ld + (nx - xorig + i)) (d (i * m + j)))))
  refine ⟨fun i j hi hj => ?_, fun k hk => w.frame a ?_⟩
  · refine w.val a ⟨j, hj, ?_⟩ ?_
    · rcases rot_cases ho hi with ⟨h1, e⟩ | ⟨h1, e⟩
      · left; exact ⟨i, h1, rfl, by rw [e]⟩
      · right; exact ⟨i - (nx - xorig), by omega, by congr 1; omega, by rw [e]⟩
    · rintro v ⟨j', hj', ⟨i', hi', e, rfl⟩ | ⟨i', hi', e, rfl⟩⟩
      · obtain ⟨rfl, rfl⟩ := rc_inj h hi (by omega) e
        rcases rot_cases ho hi with ⟨h1, e⟩ | ⟨h1, e⟩
        · rw [e]
        · omega
      · obtain ⟨rfl, rfl⟩ := rc_inj h hi (by omega) e
        rcases rot_cases ho hi with ⟨h1, e⟩ | ⟨h1, e⟩
        · omega
        · rw [e]; congr 3; omega
  · rintro v ⟨j, hj, ⟨i, hi, e, _⟩ | ⟨i, hi, e, _⟩⟩
    · exact hk i j (by omega) hj e
    · exact hk (nx - xorig + i) j (by omega) hj e

private theorem fromFreqRot_val {m nx ld xorig : Nat} (c a : Nat → ℂ) (ho : xorig < nx) :
    ∀ i j, i < nx → j < m → fromFreqRot nx m ld xorig c a ((i + xorig) % nx * m + j) = c (j * ld + i) := by
  intro i j hi hj
  have w := Writes.forN (n := m) (f := fun j d =>
        let d := forN (nx - xorig) (fun i d => aset d ((i + xorig) * m + j) (c (j * ld + i))) d
        forN xorig (fun i d => aset d (i * m + j) (c (j * ld + i + (nx - xorig)))) d)
    (fun j _ => (Writes.forN (n := nx - xorig) (fun i _ => Writes.aset ((i + xorig) * m + j) (c (j * ld + i)))).comp
      (Writes.forN (n := xorig) (fun i _ => Writes.aset (i * m + j) (c (j * ld + i + (nx - xorig))))))
  refine w.val a ⟨j, hj, ?_⟩ ?_
  · rcases rot_cases ho hi with ⟨h1, e⟩ | ⟨h1, e⟩
    · left; exact ⟨i, h1, by rw [e], rfl⟩
    · right; exact ⟨i - (nx - xorig), by omega, by rw [e], by congr 1; omega⟩
  · rintro v ⟨j', hj', ⟨i', hi', e, rfl⟩ | ⟨i', hi', e, rfl⟩⟩
    · obtain ⟨e, rfl⟩ := rc_inj (le_refl m) hj hj' e
      rcases rot_cases ho hi with ⟨h1, e'⟩ | ⟨h1, e'⟩ <;> rw [e'] at e
      · congr 2; omega
      · omega
    · obtain ⟨e, rfl⟩ := rc_inj (le_refl m) hj hj' e
      rcases rot_cases ho hi with ⟨h1, e'⟩ | ⟨h1, e'⟩ <;> rw [e'] at e
      · omega
      · congr 1; omega

/-- **C84 (forward).** `xt2wkx` delivers the spectrum over time and place with its origin at trace `xorig`, and changes nothing
else. -/
theorem xt2wkx_spec (nt nx ldr ldc xorig lenr lenc : Nat) (hn : FwdLen nt) (ho : xorig < nx) (hx : nx ≤ ldc)
    (hr : ∀ i, i < nx → i * ldr + nt ≤ lenr) (hc : ∀ j, j ≤ nt / 2 → j * ldc + nx ≤ lenc) (junk junk' : Nat → Junk)
    (cdum : Nat → ℂ) (x : Nat → ℝ) (c : Nat → ℂ) (s : St) (h : Hist s) :
    ∃ c' s', xt2wkx nt nx ldr ldc xorig lenr lenc junk junk' cdum x c s = some (c', s') ∧ Hist s' ∧
      (∀ j k, j ≤ nt / 2 → k < nx → c' (j * ldc + k) = wkx nt nx xorig (fun i t => x (i * ldr + t)) j k) ∧
      ∀ m, (∀ j k, j ≤ nt / 2 → k < nx → m ≠ j * ldc + k) → c' m = c m := by
  obtain ⟨d, s1, e1, p1, a1, _⟩ := rcm_fft_dft_partial nt nx ldr ((nt + 2) / 2) lenr ((nt + 2) / 2 * nx) hn (by omega)
    (Or.inl (by omega)) hr (fun i hi => packed_lt hi le_rfl) (-1) (Or.inr rfl) junk x cdum s h
  obtain ⟨t1, t2⟩ := toFreqRot_val (m := (nt + 2) / 2) d c hx ho
  unfold xt2wkx
  dsimp only
  rw [e1, Option.bind_some]
  dsimp only
  rw [if_pos fun i j hi hj => by have := hc j ((half_le nt).mp hj); omega]
  obtain ⟨z, s2, e2, p2, a2, f2⟩ := ccm_fft_dft nx ((nt + 2) / 2) ldc lenc (by omega) hx
    (fun j hj => hc j ((half_le nt).mp hj)) 1 (Or.inl rfl) junk' _ s1 p1
  refine ⟨z, s2, e2, p2, fun j k hj hk => ?_, fun m hm => ?_⟩
  · rw [a2 j ((half_le nt).mpr hj) k hk, wkx_dft ho]
    refine dft_congr' _ _ _ fun i hi => ?_
    rw [t1 i j hi ((half_le nt).mpr hj), a1 _ (Nat.mod_lt _ (by omega)) j hj, wx_dft]
  · rw [f2 m fun j k hj hk => hm j k ((half_le nt).mp hj) hk, t2 m fun i j hi hj => hm j i ((half_le nt).mp hj) hi]

/-- **C84 (inverse).** `wkx2xt` makes of the spectrum of a panel, counted from the same origin, the panel.  What stands between the
traces is multiplied by `1/(nt nx)`. -/
theorem wkx2xt_spec (nt nx ldc ldr xorig lenc lenr : Nat) (hn : InvLen nt) (ho : xorig < nx) (hx : nx ≤ ldc) (hld : nt ≤ ldr)
    (hr : nx * ldr ≤ lenr) (hc : ∀ j, j ≤ nt / 2 → j * ldc + nx ≤ lenc) (junk junk' : Nat → Junk) (p : Nat → Nat → ℝ)
    (cdum c : Nat → ℂ) (hp : ∀ j k, j ≤ nt / 2 → k < nx → c (j * ldc + k) = wkx nt nx xorig p j k) (x : Nat → ℝ) (s : St) (h : Hist s) :
    ∃ x' c' s', wkx2xt nt nx ldc ldr xorig lenc lenr junk junk' cdum c x s = some (x', c', s') ∧ Hist s' ∧
      (∀ i t, i < nx → t < nt → x' (i * ldr + t) = p i t) ∧
      (∀ i t, i < nx → nt ≤ t → t < ldr → x' (i * ldr + t) = x (i * ldr + t) / (nt * nx)) ∧ ∀ m, nx * ldr ≤ m → x' m = x m := by
  have h0 : 0 < nx := by omega
  obtain ⟨z, s1, e1, p1, a1, _⟩ := ccm_fft_dft nx ((nt + 2) / 2) ldc lenc (by omega) hx
    (fun j hj => hc j ((half_le nt).mp hj)) (-1) (Or.inr rfl) junk c s h
  have hz : ∀ j i, j ≤ nt / 2 → i < nx → z (j * ldc + i) = nx * wx nt p j ((i + xorig) % nx) := by
    intro j i hj hi
    rw [a1 j ((half_le nt).mpr hj) i hi]
    have e := dft_roundtrip 1 (Or.inl rfl) nx h0 (fun i => wx nt p j ((i + xorig) % nx)) i hi
    rw [← e]
    exact dft_congr' _ _ _ fun k hk => by rw [hp j k hj hk, wkx_dft ho]
  have t1 := fromFreqRot_val (m := (nt + 2) / 2) (ld := ldc) z cdum ho
  have h1 : (nt : ℝ) ≠ 0 := by exact_mod_cast hn.1.1.ne'
  have h2 : (nx : ℝ) ≠ 0 := by exact_mod_cast h0.ne'
  obtain ⟨x', s', e, q, b, f, g⟩ := back nt nx ldr lenr hn hld hr junk' p nx (fromFreqRot nx ((nt + 2) / 2) ldc xorig z cdum) (fun i hi j hj => by
    have e := t1 ((i + (nx - xorig)) % nx) j (Nat.mod_lt _ h0) ((half_le nt).mpr hj)
    have e2 : ((i + (nx - xorig)) % nx + xorig) % nx = i := by
      rw [Nat.mod_add_mod, show i + (nx - xorig) + xorig = i + nx by omega, Nat.add_mod_right, Nat.mod_eq_of_lt hi]
    rw [e2] at e
    rw [e, hz j _ hj (Nat.mod_lt _ h0), e2]
    push_cast
    rfl) (1 / (nt * nx : Nat)) (by push_cast; field_simp) x s1 p1
  unfold wkx2xt
  dsimp only
  rw [e1, Option.bind_some]
  dsimp only
  rw [if_pos (show _ ∧ _ from ⟨fun i j hi hj => by have := hc j ((half_le nt).mp hj); omega, hr⟩), e]
  refine ⟨_, _, _, rfl, q, b, fun i t hi ht hl => ?_, g⟩
  rw [f i t hi ht hl]; push_cast; ring

/-- **C83 (round trip).** To the frequency domain and back: the same panel, also with other leading dimensions and with any other
calls in between. -/
theorem wx2xt_xt2wx (nt nx ldr ldr' ldc lenr lenr' lenc : Nat) (hn : InvLen nt) (hx : nx ≤ ldc) (hld : nt ≤ ldr')
    (hr : ∀ i, i < nx → i * ldr + nt ≤ lenr) (hr' : nx * ldr' ≤ lenr') (hc : ∀ i j, i < nx → j ≤ nt / 2 → j * ldc + i < lenc)
    (junk junk' : Nat → Junk) (cdum cdum' c : Nat → ℂ) (x y : Nat → ℝ) (s t : St) (h : Hist s) (ht : Hist t) :
    ∃ c' s' y' t', xt2wx nt nx ldr ldc lenr lenc junk cdum x c s = some (c', s') ∧
      wx2xt nt nx ldc ldr' lenc lenr' junk' cdum' c' y t = some (y', t') ∧
      ∀ i t, i < nx → t < nt → y' (i * ldr' + t) = x (i * ldr + t) := by
  obtain ⟨c', s', e1, _, a1, _⟩ := xt2wx_spec nt nx ldr ldc lenr lenc hn.1 hx hr hc junk cdum x c s h
  obtain ⟨y', t', e2, _, a2, _⟩ := wx2xt_spec nt nx ldc ldr' lenc lenr' hn hld hr' hc junk' _ cdum' c' a1 y t ht
  exact ⟨c', s', y', t', e1, e2, a2⟩

/-- **C84 (round trip).** To the wavenumber domain and back: the same panel. -/
theorem wkx2xt_xt2wkx (nt nx ldr ldr' ldc xorig lenr lenr' lenc : Nat) (hn : InvLen nt) (ho : xorig < nx) (hx : nx ≤ ldc) (hld : nt ≤ ldr')
    (hr : ∀ i, i < nx → i * ldr + nt ≤ lenr) (hr' : nx * ldr' ≤ lenr') (hc : ∀ j, j ≤ nt / 2 → j * ldc + nx ≤ lenc)
    (junk junk1 junk2 junk3 : Nat → Junk) (cdum cdum' c : Nat → ℂ) (x y : Nat → ℝ) (s t : St) (h : Hist s) (ht : Hist t) :
    ∃ c' s' y' c'' t', xt2wkx nt nx ldr ldc xorig lenr lenc junk junk1 cdum x c s = some (c', s') ∧
      wkx2xt nt nx ldc ldr' xorig lenc lenr' junk2 junk3 cdum' c' y t = some (y', c'', t') ∧
      ∀ i t, i < nx → t < nt → y' (i * ldr' + t) = x (i * ldr + t) := by
  obtain ⟨c', s', e1, _, a1, _⟩ := xt2wkx_spec nt nx ldr ldc xorig lenr lenc hn.1 ho hx hr hc junk junk1 cdum x c s h
  obtain ⟨y', c'', t', e2, _, a2, _⟩ := wkx2xt_spec nt nx ldc ldr' xorig lenc lenr' hn ho hx hld hr' hc junk2 junk3 _ cdum' c' a1 y t ht
  exact ⟨c', s', y', c'', t', e1, e2, a2⟩

end Verif.Fft.Lib

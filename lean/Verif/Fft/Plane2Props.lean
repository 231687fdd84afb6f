import Verif.Fft.PlaneProps

/-!
# Two-dimensional transforms: `cc2dfft`, `rc2dfft`, `cr2dfft`
-/

namespace Verif.Fft.Lib

open Complex Finset Verif Verif.Fft

/-! ### Specification -/

/-- `∑_j ∑_i p(j,i) e^{±2πi ik/nx} e^{±2πi jl/ny}`, both with the sign `sgn`. -/
noncomputable def dft2 (sgn : Int) (nx ny : Nat) (p : Nat → Nat → ℂ) (l k : Nat) : ℂ :=
  ∑ j ∈ range ny, ∑ i ∈ range nx,
    p j i * exp (sgn * (2 * Real.pi * I * (i * k) / nx)) * exp (sgn * (2 * Real.pi * I * (j * l) / ny))

theorem dft2_dft (sgn : Int) (nx ny : Nat) (p : Nat → Nat → ℂ) (l k : Nat) :
    dft2 sgn nx ny p l k = dft sgn ny (fun j => dft sgn nx (p j) k) l := by
  unfold dft2 dft
  exact sum_congr rfl fun j _ => by rw [sum_mul]

theorem dft2_roundtrip (sgn : Int) (hs : sgn = 1 ∨ sgn = -1) (nx ny : Nat) (hx : 0 < nx) (hy : 0 < ny) (p : Nat → Nat → ℂ) (l k : Nat)
    (hl : l < ny) (hk : k < nx) : dft2 (-sgn) nx ny (dft2 sgn nx ny p) l k = (nx * ny : Nat) * p l k := by
  rw [dft2_dft]
  have hs' : -sgn = 1 ∨ -sgn = -1 := by rcases hs with rfl | rfl <;> simp
  have e : ∀ j, j < ny → dft (-sgn) nx (dft2 sgn nx ny p j) k = dft sgn ny (fun j => nx * p j k) j := by
    intro j _
    have e1 : dft (-sgn) nx (dft2 sgn nx ny p j) k = dft sgn ny (fun j => dft (-sgn) nx (fun k => dft sgn nx (p j) k) k) j := by
      have : ∀ k, dft2 sgn nx ny p j k = dft sgn ny (fun j => dft sgn nx (p j) k) j := fun k => dft2_dft _ _ _ _ _ _
      rw [dft_congr' (-sgn) nx k fun k _ => this k]
      unfold dft
      simp only [sum_mul]
      rw [sum_comm]
      refine sum_congr rfl fun a _ => sum_congr rfl fun b _ => sum_congr rfl fun c _ => ?_
      ring
    rw [e1]
    exact dft_congr' _ _ _ fun j _ => dft_roundtrip sgn hs nx hx (p j) k hk
  rw [dft_congr' (-sgn) ny l e]
  have := dft_roundtrip sgn hs ny hy (fun j => nx * p j k) l hl
  rw [this]
  push_cast
  ring

/-! ### Complex -/

/-- **C85.** `cc2dfft` is the two-dimensional transform; nothing beyond the panel is changed. -/
theorem cc2dfft_spec (nx ny ldx len : Nat) (hx : 0 < nx) (hy : 0 < ny) (hld : nx ≤ ldx) (hl : ∀ j, j < ny → j * ldx + nx ≤ len)
    (sign : Int) (hs : sign = 1 ∨ sign = -1) (junk junk' : Nat → Junk) (tmp c : Nat → ℂ) (s : St) (h : Hist s) :
    ∃ c' s', cc2dfft nx ny ldx len sign junk junk' tmp c s = some (c', s') ∧ Hist s' ∧
      (∀ l k, l < ny → k < nx → c' (l * ldx + k) = dft2 sign nx ny (fun j i => c (j * ldx + i)) l k) ∧
      ∀ m, (∀ l k, l < ny → k < nx → m ≠ l * ldx + k) → c' m = c m := by
  unfold cc2dfft
  by_cases h1 : ny = 1
  · subst h1
    rw [if_neg (by simp)]
    obtain ⟨z, s1, e, p, a, f⟩ := cc1_fft_dft nx len hx (by have := hl 0 (by omega); omega) sign hs (junk 0) c s h
    refine ⟨z, s1, e, p, fun l k hl hk => ?_, fun m hm => ?_⟩
    · obtain rfl : l = 0 := by omega
      rw [Nat.zero_mul, Nat.zero_add, a k hk, dft2_dft]
      simp [dft]
    · apply f
      by_contra hlt
      exact hm 0 m (by omega) (by omega) (by omega)
  · rw [if_pos h1]
    obtain ⟨z, s1, e1, p1, a1, f1⟩ := ccm_fft_dft nx ny ldx len hx hld hl sign hs junk c s h
    rw [e1, Option.bind_some]
    dsimp only
    rw [if_pos fun i j hi hj => by have := hl j hj; omega]
    have w1 := Writes.forN (n := nx) (f := fun i t => forN ny (fun j t => aset t (j + i * ny) (z (j * ldx + i))) t)
      (fun i _ => Writes.forN (n := ny) (fun j _ => Writes.aset (j + i * ny) (z (j * ldx + i))))
    have t1 : ∀ i j, i < nx → j < ny →
        forN nx (fun i t => forN ny (fun j t => aset t (j + i * ny) (z (j * ldx + i))) t) tmp (i * ny + j) = z (j * ldx + i) := by
      intro i j hi hj
      refine w1.val tmp ⟨i, hi, j, hj, by omega, rfl⟩ ?_
      rintro v ⟨i', hi', j', hj', e, rfl⟩
      obtain ⟨rfl, rfl⟩ := rc_inj (le_refl ny) hj hj' (e.trans (Nat.add_comm _ _))
      rfl
    generalize forN nx (fun i t => forN ny (fun j t => aset t (j + i * ny) (z (j * ldx + i))) t) tmp = d at t1
    obtain ⟨y, s2, e2, p2, a2, _⟩ := ccm_fft_dft ny nx ny (nx * ny) hy le_rfl (fun i hi => by
      have := Nat.mul_le_mul_right ny (show i + 1 ≤ nx from hi)
      rw [Nat.add_mul] at this; omega) sign hs junk' d s1 p1
    rw [e2]
    have w2 := Writes.forN (n := nx) (f := fun i c => forN ny (fun j c => aset c (j * ldx + i) (y (j + i * ny))) c)
      (fun i _ => Writes.forN (n := ny) (fun j _ => Writes.aset (j * ldx + i) (y (j + i * ny))))
    refine ⟨_, _, rfl, p2, fun l k hl hk => ?_, fun m hm => ?_⟩
    · refine (w2.val z ⟨k, hk, l, hl, rfl, rfl⟩ ?_).trans ?_
      · rintro v ⟨i', hi', j', hj', e, rfl⟩
        obtain ⟨rfl, rfl⟩ := rc_inj hld hk hi' e
        rfl
      · rw [Nat.add_comm, a2 k hk l hl, dft2_dft]
        exact dft_congr' _ _ _ fun j hj => by rw [t1 k j hk hj, a1 j hj k hk]
    · refine (w2.frame z ?_).trans (f1 m hm)
      rintro v ⟨i, hi, j, hj, e, _⟩
      exact hm j i hj hi e

/-- **C85 (round trip).** -/
theorem cc2dfft_roundtrip (nx ny ldx len : Nat) (hx : 0 < nx) (hy : 0 < ny) (hld : nx ≤ ldx) (hl : ∀ j, j < ny → j * ldx + nx ≤ len)
    (sign : Int) (hs : sign = 1 ∨ sign = -1) (junk junk1 junk2 junk3 : Nat → Junk) (tmp tmp' c : Nat → ℂ) (s t : St) (h : Hist s)
    (ht : Hist t) :
    ∃ c' s' c'' t', cc2dfft nx ny ldx len sign junk junk1 tmp c s = some (c', s') ∧
      cc2dfft nx ny ldx len (-sign) junk2 junk3 tmp' c' t = some (c'', t') ∧
      (∀ l k, l < ny → k < nx → c'' (l * ldx + k) = (nx * ny : Nat) * c (l * ldx + k)) ∧
      ∀ m, (∀ l k, l < ny → k < nx → m ≠ l * ldx + k) → c'' m = c m := by
  have hs' : -sign = 1 ∨ -sign = -1 := by rcases hs with rfl | rfl <;> simp
  obtain ⟨c', s', e1, _, a1, f1⟩ := cc2dfft_spec nx ny ldx len hx hy hld hl sign hs junk junk1 tmp c s h
  obtain ⟨c'', t', e2, _, a2, f2⟩ := cc2dfft_spec nx ny ldx len hx hy hld hl (-sign) hs' junk2 junk3 tmp' c' t ht
  refine ⟨c', s', c'', t', e1, e2, fun l k hl hk => ?_, fun m hm => by rw [f2 m hm, f1 m hm]⟩
  rw [a2 l k hl hk, ← dft2_roundtrip sign hs nx ny hx hy (fun j i => c (j * ldx + i)) l k hl hk]
  unfold dft2
  refine sum_congr rfl fun j hj => sum_congr rfl fun i hi => ?_
  dsimp only
  rw [a1 j i (mem_range.mp hj) (mem_range.mp hi)]
  rfl

/-! ### Real -/

private theorem column_spec (nc ldc i w : Nat) (hi : i < w) (hw : w ≤ ldc) (hn : 0 < nc) (sign : Int) (hs : sign = 1 ∨ sign = -1)
    (junk : Junk) (c tmp : Nat → ℂ) (s : St) (h : Hist s) :
    ∃ c' tmp' s', column nc ldc i sign junk (c, tmp, s) = some (c', tmp', s') ∧ Hist s' ∧
      (∀ l, l < nc → c' (l * ldc + i) = dft sign nc (fun j => c (j * ldc + i)) l) ∧
      ∀ m, (∀ l, l < nc → m ≠ l * ldc + i) → c' m = c m := by
  have w1 := Writes.forN (n := nc) (f := fun j t => aset t j (c (j * ldc + i))) (fun j _ => Writes.aset j (c (j * ldc + i)))
  have t1 : ∀ j, j < nc → forN nc (fun j t => aset t j (c (j * ldc + i))) tmp j = c (j * ldc + i) := by
    intro j hj
    refine w1.val tmp ⟨j, hj, rfl, rfl⟩ ?_
    rintro v ⟨j', _, rfl, rfl⟩
    rfl
  obtain ⟨z, s1, e, p, a, _⟩ := cc1_fft_dft nc nc hn le_rfl sign hs junk
    (forN nc (fun j t => aset t j (c (j * ldc + i))) tmp) s h
  have w2 := Writes.forN (n := nc) (f := fun j c => aset c (j * ldc + i) (z j)) (fun j _ => Writes.aset (j * ldc + i) (z j))
  unfold column
  dsimp only
  rw [e]
  refine ⟨_, _, _, rfl, p, fun l hl => ?_, fun m hm => ?_⟩
  · refine (w2.val c ⟨l, hl, rfl, rfl⟩ ?_).trans ?_
    · rintro v ⟨j, hj, e, rfl⟩
      obtain ⟨rfl, _⟩ := rc_inj hw hi hi e
      rfl
    · rw [a l hl]
      exact dft_congr' _ _ _ t1
  · refine w2.frame c ?_
    rintro v ⟨j, hj, e, _⟩
    exact hm j hj e

private theorem columns_spec (nc ldc w : Nat) (hw : w ≤ ldc) (hn : 0 < nc) (sign : Int) (hs : sign = 1 ∨ sign = -1)
    (junk : Nat → Junk) (c tmp : Nat → ℂ) (s : St) (h : Hist s) :
    ∃ c' tmp' s', forNM w (fun i => column nc ldc i sign (junk i)) (c, tmp, s) = some (c', tmp', s') ∧ Hist s' ∧
      (∀ l k, l < nc → k < w → c' (l * ldc + k) = dft sign nc (fun j => c (j * ldc + k)) l) ∧
      ∀ m, (∀ l k, l < nc → k < w → m ≠ l * ldc + k) → c' m = c m := by
  obtain ⟨⟨c', tmp', s'⟩, e, p, a, f⟩ := forNM_inv (n := w) (body := fun i => column nc ldc i sign (junk i)) (s := (c, tmp, s))
    (P := fun i (st : (Nat → ℂ) × (Nat → ℂ) × St) => Hist st.2.2 ∧
      (∀ l k, l < nc → k < i → st.1 (l * ldc + k) = dft sign nc (fun j => c (j * ldc + k)) l) ∧
      ∀ m, (∀ l k, l < nc → k < i → m ≠ l * ldc + k) → st.1 m = c m)
    ⟨h, fun l k _ hk => by omega, fun _ _ => rfl⟩ (by
      rintro i hi ⟨c1, t1, s1⟩ ⟨p, a, f⟩
      dsimp only at p a f
      obtain ⟨c2, t2, s2, e2, p2, a2, f2⟩ := column_spec nc ldc i w hi hw hn sign hs (junk i) c1 t1 s1 p
      refine ⟨(c2, t2, s2), e2, p2, fun l k hl hk => ?_, fun m hm => ?_⟩
      · dsimp only
        by_cases hki : k = i
        · subst hki
          rw [a2 l hl]
          refine dft_congr' _ _ _ fun j hj => f _ fun l' k' hl' hk' e => ?_
          have := (rc_inj hw hi (by omega) e).2
          omega
        · rw [f2 _ fun l' hl' e => hki (rc_inj hw (by omega) hi e).2, a l k hl (by omega)]
      · dsimp only
        rw [f2 m fun l hl => hm l i hl (by omega), f m fun l k hl hk => hm l k hl (by omega)])
  exact ⟨c', tmp', s', e, p, a, f⟩

/-- **C85 (real, forward; partial as `rcm_fft` is).** `rc2dfft` delivers the half of the two-dimensional transform with `k ≤ nr/2`. -/
theorem rc2dfft_spec_partial (nr nc ldr ldc lenr lenc : Nat) (hn : FwdLen nr) (hc0 : 0 < nc) (hld : nr / 2 < ldc)
    (hlay : ldc = nr / 2 + 1 ∨ ldr ≠ nr ∨ ldc ≠ nc) (hr : ∀ i, i < nc → i * ldr + nr ≤ lenr)
    (hc : ∀ i, i < nc → i * ldc + nr / 2 < lenc) (sign : Int) (hs : sign = 1 ∨ sign = -1) (junk junk' : Nat → Junk) (tmp : Nat → ℂ)
    (x : Nat → ℝ) (c : Nat → ℂ) (s : St) (h : Hist s) :
    ∃ c' s', rc2dfft nr nc ldr ldc lenr lenc sign junk junk' tmp x c s = some (c', s') ∧ Hist s' ∧
      (∀ l k, l < nc → k ≤ nr / 2 → c' (l * ldc + k) = dft2 sign nr nc (fun j t => (x (j * ldr + t) : ℂ)) l k) ∧
      ∀ m, (∀ l k, l < nc → k ≤ nr / 2 → m ≠ l * ldc + k) → c' m = c m := by
  obtain ⟨d, s1, e1, p1, a1, f1⟩ := rcm_fft_dft_partial nr nc ldr ldc lenr lenc hn hld hlay hr hc sign hs junk x c s h
  obtain ⟨c', tmp', s2, e2, p2, a2, f2⟩ := columns_spec nc ldc ((nr + 2) / 2) (by omega) hc0 sign hs junk' d tmp s1 p1
  unfold rc2dfft
  rw [e1, Option.bind_some]
  dsimp only
  rw [if_pos fun i j hi hj => by have := hc j hj; omega, e2]
  refine ⟨c', s2, rfl, p2, fun l k hl hk => ?_, fun m hm => ?_⟩
  · rw [a2 l k hl (by omega), dft2_dft]
    exact dft_congr' _ _ _ fun j hj => a1 j hj k hk
  · rw [f2 m fun l k hl hk => hm l k hl (by omega), f1 m hm]

/-- **C85 (real, inverse; partial as `crm_fft` is).** `cr2dfft` with the opposite sign makes of the half transform of a real panel
the panel, times the number of its samples. -/
theorem cr2dfft_spec_partial (nr nc ldc ldr lenc lenr : Nat) (hn : InvLen nr) (hc0 : 0 < nc) (hld : nr / 2 < ldc) (hldr : nr ≤ ldr)
    (hlay : ldc = nr / 2 + 1 ∨ ldr ≠ nr ∨ ldc ≠ nc) (hr : ∀ i, i < nc → i * ldr + nr ≤ lenr)
    (hc : ∀ i, i < nc → i * ldc + nr / 2 < lenc) (sign : Int) (hs : sign = 1 ∨ sign = -1) (junk junk' : Nat → Junk)
    (p : Nat → Nat → ℝ) (tmp c : Nat → ℂ)
    (hp : ∀ l k, l < nc → k ≤ nr / 2 → c (l * ldc + k) = dft2 sign nr nc (fun j t => (p j t : ℂ)) l k) (x : Nat → ℝ) (s : St) (h : Hist s) :
    ∃ x' c' s', cr2dfft nr nc ldc ldr lenc lenr (-sign) junk junk' tmp c x s = some (x', c', s') ∧ Hist s' ∧
      (∀ j t, j < nc → t < nr → x' (j * ldr + t) = (nr * nc : Nat) * p j t) ∧
      ∀ m, (∀ j t, j < nc → t < nr → m ≠ j * ldr + t) → x' m = x m := by
  have hs' : -sign = 1 ∨ -sign = -1 := by rcases hs with rfl | rfl <;> simp
  have h1 := hn.1.1
  obtain ⟨c', tmp', s1, e1, p1, a1, _⟩ := columns_spec nc ldc ((nr + 2) / 2) (by omega) hc0 (-sign) hs' junk c tmp s h
  have hz : ∀ j, j < nc → ∀ k, k ≤ nr / 2 → c' (j * ldc + k) = ((nc : ℝ) : ℂ) * dft sign nr (fun t => (p j t : ℂ)) k := by
    intro j hj k hk
    rw [a1 j k hj (by omega)]
    have e := dft_roundtrip sign hs nc hc0 (fun j => dft sign nr (fun t => (p j t : ℂ)) k) j hj
    push_cast
    rw [← e]
    exact dft_congr' _ _ _ fun l hl => by rw [hp l k hl hk, dft2_dft]
  obtain ⟨x', s2, e2, p2, a2, f2⟩ := crm_fft_dft_partial nr nc ldc ldr lenc lenr hn hldr hlay hr hc (-sign) hs' junk'
    (fun j k => ((nc : ℝ) : ℂ) * dft sign nr (fun t => (p j t : ℂ)) k) c'
    (fun j _ => by rw [im_ofReal_mul, Mayer.dft_zero_im, mul_zero])
    (fun j _ k _ hk => by rw [map_mul, conj_ofReal, Mayer.dft_hermitian sign nr h1 (p j) k hk.le]) hz x s1 p1
  unfold cr2dfft
  rw [if_pos fun i j hi hj => by have := hc j hj; omega, e1, Option.bind_some]
  dsimp only
  rw [e2]
  refine ⟨x', c', s2, rfl, p2, fun j t hj ht => ?_, f2⟩
  have e := a2 j hj t ht
  rw [dft_smul] at e
  have e3 := dft_roundtrip sign hs nr h1 (fun t => (p j t : ℂ)) t ht
  rw [e3] at e
  have e5 : x' (j * ldr + t) = nc * (nr * p j t) := by exact_mod_cast e
  rw [e5]; push_cast; ring

/-- **C85 (real, round trip).** -/
theorem cr2dfft_rc2dfft (nr nc ldr ldr' ldc lenr lenr' lenc : Nat) (hn : InvLen nr) (hc0 : 0 < nc) (hld : nr / 2 < ldc) (hldr : nr ≤ ldr')
    (hlay : ldc = nr / 2 + 1 ∨ ldr ≠ nr ∧ ldr' ≠ nr ∨ ldc ≠ nc) (hr : ∀ i, i < nc → i * ldr + nr ≤ lenr)
    (hr' : ∀ i, i < nc → i * ldr' + nr ≤ lenr') (hc : ∀ i, i < nc → i * ldc + nr / 2 < lenc) (sign : Int) (hs : sign = 1 ∨ sign = -1)
    (junk junk1 junk2 junk3 : Nat → Junk) (tmp tmp' c : Nat → ℂ) (x y : Nat → ℝ) (s t : St) (h : Hist s) (ht : Hist t) :
    ∃ c' s' y' c'' t', rc2dfft nr nc ldr ldc lenr lenc sign junk junk1 tmp x c s = some (c', s') ∧
      cr2dfft nr nc ldc ldr' lenc lenr' (-sign) junk2 junk3 tmp' c' y t = some (y', c'', t') ∧
      ∀ j t, j < nc → t < nr → y' (j * ldr' + t) = (nr * nc : Nat) * x (j * ldr + t) := by
  obtain ⟨c', s', e1, _, a1, _⟩ := rc2dfft_spec_partial nr nc ldr ldc lenr lenc hn.1 hc0 hld (by tauto) hr hc sign hs junk junk1 tmp x c s h
  obtain ⟨y', c'', t', e2, _, a2, _⟩ := cr2dfft_spec_partial nr nc ldc ldr' lenc lenr' hn hc0 hld hldr (by tauto) hr' hc sign hs junk2 junk3
    (fun j t => x (j * ldr + t)) tmp' c' a1 y t ht
  exact ⟨c', s', y', c'', t', e1, e2, a2⟩

end Verif.Fft.Lib

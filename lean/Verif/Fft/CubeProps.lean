import Verif.Fft.Cube
import Verif.Fft.PlaneProps

/-!
# Volumes and their spectra: forward, inverse, round trip
-/

namespace Verif.Fft.Lib

open Complex Finset Verif Verif.Fft

/-! ### Specification -/

/-- The spectrum over time and both places, the places counted from trace `(yorig, xorig)`:
`∑_y ∑_x ∑_t p(y,x,t) e^{-2πi jt/nt} e^{2πi i(x-xorig)/nx} e^{2πi k(y-yorig)/ny}`. -/
noncomputable def wkykx (nt nx ny xorig yorig : Nat) (p : Nat → Nat → Nat → ℝ) (j k i : Nat) : ℂ :=
  ∑ y ∈ range ny, ∑ x ∈ range nx, ∑ t ∈ range nt,
    (p y x t : ℂ) * exp (-(2 * Real.pi * I * (t * j) / nt)) * exp (2 * Real.pi * I * (((x : ℂ) - xorig) * i) / nx) *
      exp (2 * Real.pi * I * (((y : ℂ) - yorig) * k) / ny)

theorem wkykx_dft {nt nx ny xorig yorig : Nat} (hy : yorig < ny) (p : Nat → Nat → Nat → ℝ) (j k i : Nat) :
    wkykx nt nx ny xorig yorig p j k i = dft 1 ny (fun y => wkx nt nx xorig (p ((y + yorig) % ny)) j i) k := by
  rw [← shift_dft hy (fun y => wkx nt nx xorig (p y) j i)]
  unfold wkykx wkx
  refine sum_congr rfl fun y _ => ?_
  rw [sum_mul]
  exact sum_congr rfl fun x _ => by rw [sum_mul]

/-! ### Places -/

theorem rc3_inj {m ld w a b c a' b' c' : Nat} (hw : w ≤ ld) (hb : b < m) (hc : c < w) (hb' : b' < m) (hc' : c' < w)
    (e : a * m * ld + b * ld + c = a' * m * ld + b' * ld + c') : a = a' ∧ b = b' ∧ c = c' := by
  rw [← Nat.add_mul, ← Nat.add_mul] at e
  obtain ⟨e1, rfl⟩ := rc_inj hw hc hc' e
  obtain ⟨rfl, rfl⟩ := rc_inj (le_refl m) hb hb' e1
  exact ⟨rfl, rfl, rfl⟩

private theorem slab_end {m ld Q q len : Nat} (hq : q < Q) (hl : m * ld * Q ≤ len) : q * m * ld + m * ld ≤ len := by
  have h := Nat.mul_le_mul_right (m * ld) (show q + 1 ≤ Q from hq)
  rw [Nat.add_mul, Nat.one_mul, Nat.mul_comm Q] at h
  rw [Nat.mul_assoc]
  omega

private theorem in_slab {m ld j l : Nat} (hj : j < m) (hl : l < ld) : j * ld + l < m * ld := by
  have h := Nat.mul_le_mul_right ld (show j + 1 ≤ m from hj)
  rw [Nat.add_mul] at h
  omega

private theorem toFreqRot3_val {nx ny m ld xorig yorig : Nat} (hx : nx ≤ ld) (hxo : xorig < nx) (hyo : yorig < ny) (d a : Nat → ℂ) :
    (∀ k j i, k < ny → j < m → i < nx → toFreqRot3 nx ny m ld xorig yorig d a (k * m * ld + j * ld + i) =
      d ((k + yorig) % ny * nx * m + (i + xorig) % nx * m + j)) ∧
      ∀ q, m * ld * ny ≤ q → toFreqRot3 nx ny m ld xorig yorig d a q = a q := by
  have w := Writes.forN (n := m) (f := fun j c =>
    let c := forN (ny - yorig) (fun k c =>
      let c := forN (nx - xorig) (fun i c =>
        aset c (k * m * ld + j * ld + i) (d ((k + yorig) * nx * m + (i + xorig) * m + j))) c
      forN xorig (fun i c => aset c (k * m * ld + j * ld + (nx - xorig + i)) (d ((k + yorig) * nx * m + i * m + j))) c) c
    forN yorig (fun k c =>
      let c := forN (nx - xorig) (fun i c =>
        aset c ((ny - yorig + k) * m * ld + j * ld + i) (d (k * nx * m + (i + xorig) * m + j))) c
      forN xorig (fun i c => aset c ((ny - yorig + k) * m * ld + j * ld + (nx - xorig + i)) (d (k * nx * m + i * m + j))) c) c)
    (fun j _ => (Writes.forN (n := ny - yorig) (fun k _ =>
        (Writes.forN (n := nx - xorig) (fun i _ => Writes.aset (k * m * ld + j * ld + i) (d ((k + yorig) * nx * m + (i + xorig) * m + j)))).comp
        (Writes.forN (n := xorig) (fun i _ => Writes.aset (k * m * ld + j * ld + (nx - xorig + i)) (d ((k + yorig) * nx * m + i * m + j)))))).comp
      (Writes.forN (n := yorig) (fun k _ =>
        (Writes.forN (n := nx - xorig) (fun i _ => Writes.aset ((ny - yorig + k) * m * ld + j * ld + i) (d (k * nx * m + (i + xorig) * m + j)))).comp
        (Writes.forN (n := xorig) (fun i _ => Writes.aset ((ny - yorig + k) * m * ld + j * ld + (nx - xorig + i)) (d (k * nx * m + i * m + j)))))))
  refine ⟨fun k j i hk hj hi => ?_, fun q hq => w.frame a ?_⟩
  · refine w.val a ⟨j, hj, ?_⟩ ?_
    · rcases rot_cases hyo hk with ⟨h1, e1⟩ | ⟨h1, e1⟩ <;> rcases rot_cases hxo hi with ⟨h2, e2⟩ | ⟨h2, e2⟩
      · left; exact ⟨k, h1, Or.inl ⟨i, h2, rfl, by rw [e1, e2]⟩⟩
      · left; exact ⟨k, h1, Or.inr ⟨i - (nx - xorig), by omega, by omega, by rw [e1, e2]⟩⟩
      · right; exact ⟨k - (ny - yorig), by omega, Or.inl ⟨i, h2, by congr 4; omega, by rw [e1, e2]⟩⟩
      · right
        refine ⟨k - (ny - yorig), by omega, Or.inr ⟨i - (nx - xorig), by omega, ?_, by rw [e1, e2]⟩⟩
        rw [show ny - yorig + (k - (ny - yorig)) = k by omega]
        omega
    · rintro v ⟨j', hj', ⟨k', hk', ⟨i', hi', e, rfl⟩ | ⟨i', hi', e, rfl⟩⟩ | ⟨k', hk', ⟨i', hi', e, rfl⟩ | ⟨i', hi', e, rfl⟩⟩⟩ <;>
      · obtain ⟨rfl, rfl, rfl⟩ := rc3_inj hx hj hi hj' (by omega) e
        rcases rot_cases hyo hk with ⟨h1, e1⟩ | ⟨h1, e1⟩ <;> rcases rot_cases hxo hi with ⟨h2, e2⟩ | ⟨h2, e2⟩ <;>
          first
          | omega
          | (rw [e1, e2]; try simp only [Nat.add_sub_cancel_left])
  · have key : ∀ k j i, k < ny → j < m → i < nx → q ≠ k * m * ld + j * ld + i := by
      intro k j i hk hj hi e
      have h1 := slab_end (ld := ld) (m := m) hk (le_refl _)
      have h2 := in_slab (ld := ld) hj (show i < ld by omega)
      omega
    rintro v ⟨j', hj', ⟨k', hk', ⟨i', hi', e, rfl⟩ | ⟨i', hi', e, rfl⟩⟩ | ⟨k', hk', ⟨i', hi', e, rfl⟩ | ⟨i', hi', e, rfl⟩⟩⟩ <;>
      exact key _ _ _ (by omega) hj' (by omega) e

private theorem fromFreqRot3_val {nx ny m ld xorig yorig : Nat} (hxo : xorig < nx) (hyo : yorig < ny) (c a : Nat → ℂ) :
    ∀ k j i, k < ny → j < m → i < nx →
      fromFreqRot3 nx ny m ld xorig yorig c a ((k + yorig) % ny * nx * m + (i + xorig) % nx * m + j) = c (k * m * ld + j * ld + i) := by
  have w := Writes.forN (n := m) (f := fun j d =>
    let d := forN (ny - yorig) (fun k d =>
      let d := forN (nx - xorig) (fun i d =>
        aset d ((k + yorig) * nx * m + (i + xorig) * m + j) (c (k * m * ld + j * ld + i))) d
      forN xorig (fun i d => aset d ((k + yorig) * nx * m + i * m + j) (c (k * m * ld + j * ld + i + (nx - xorig)))) d) d
    forN yorig (fun k d =>
      let d := forN (nx - xorig) (fun i d =>
        aset d (k * nx * m + (i + xorig) * m + j) (c ((k + (ny - yorig)) * m * ld + j * ld + i))) d
      forN xorig (fun i d => aset d (k * nx * m + i * m + j) (c ((k + (ny - yorig)) * m * ld + j * ld + i + (nx - xorig)))) d) d)
    (fun j _ => (Writes.forN (n := ny - yorig) (fun k _ =>
        (Writes.forN (n := nx - xorig) (fun i _ => Writes.aset ((k + yorig) * nx * m + (i + xorig) * m + j) (c (k * m * ld + j * ld + i)))).comp
        (Writes.forN (n := xorig) (fun i _ => Writes.aset ((k + yorig) * nx * m + i * m + j) (c (k * m * ld + j * ld + i + (nx - xorig))))))).comp
      (Writes.forN (n := yorig) (fun k _ =>
        (Writes.forN (n := nx - xorig) (fun i _ => Writes.aset (k * nx * m + (i + xorig) * m + j) (c ((k + (ny - yorig)) * m * ld + j * ld + i)))).comp
        (Writes.forN (n := xorig) (fun i _ => Writes.aset (k * nx * m + i * m + j) (c ((k + (ny - yorig)) * m * ld + j * ld + i + (nx - xorig))))))))
  intro k j i hk hj hi
  have hx0 : (i + xorig) % nx < nx := Nat.mod_lt _ (by omega)
  refine w.val a ⟨j, hj, ?_⟩ ?_
  · rcases rot_cases hyo hk with ⟨h1, e1⟩ | ⟨h1, e1⟩ <;> rcases rot_cases hxo hi with ⟨h2, e2⟩ | ⟨h2, e2⟩
    · left; exact ⟨k, h1, Or.inl ⟨i, h2, by rw [e1, e2], rfl⟩⟩
    · left; exact ⟨k, h1, Or.inr ⟨i - (nx - xorig), by omega, by rw [e1, e2], by congr 1; omega⟩⟩
    · right; exact ⟨k - (ny - yorig), by omega, Or.inl ⟨i, h2, by rw [e1, e2], by congr 5; omega⟩⟩
    · right
      refine ⟨k - (ny - yorig), by omega, Or.inr ⟨i - (nx - xorig), by omega, by rw [e1, e2], ?_⟩⟩
      rw [show k - (ny - yorig) + (ny - yorig) = k by omega]
      congr 1; omega
  · rintro v ⟨j', hj', ⟨k', hk', ⟨i', hi', e, rfl⟩ | ⟨i', hi', e, rfl⟩⟩ | ⟨k', hk', ⟨i', hi', e, rfl⟩ | ⟨i', hi', e, rfl⟩⟩⟩
    · obtain ⟨e1, e2, rfl⟩ := rc3_inj (le_refl m) hx0 hj (by omega) hj' e
      have hkk : k = k' := by
        rcases rot_cases hyo hk with ⟨h1, e3⟩ | ⟨h1, e3⟩ <;> rw [e3] at e1 <;> omega
      have hii : i = i' := by
        rcases rot_cases hxo hi with ⟨h1, e3⟩ | ⟨h1, e3⟩ <;> rw [e3] at e2 <;> omega
      rw [hkk, hii]
    · obtain ⟨e1, e2, rfl⟩ := rc3_inj (le_refl m) hx0 hj (by omega) hj' e
      have hkk : k = k' := by
        rcases rot_cases hyo hk with ⟨h1, e3⟩ | ⟨h1, e3⟩ <;> rw [e3] at e1 <;> omega
      have hii : i = i' + (nx - xorig) := by
        rcases rot_cases hxo hi with ⟨h1, e3⟩ | ⟨h1, e3⟩ <;> rw [e3] at e2 <;> omega
      rw [hkk, hii, ← Nat.add_assoc]
    · obtain ⟨e1, e2, rfl⟩ := rc3_inj (le_refl m) hx0 hj (by omega) hj' e
      have hkk : k = k' + (ny - yorig) := by
        rcases rot_cases hyo hk with ⟨h1, e3⟩ | ⟨h1, e3⟩ <;> rw [e3] at e1 <;> omega
      have hii : i = i' := by
        rcases rot_cases hxo hi with ⟨h1, e3⟩ | ⟨h1, e3⟩ <;> rw [e3] at e2 <;> omega
      rw [hkk, hii]
    · obtain ⟨e1, e2, rfl⟩ := rc3_inj (le_refl m) hx0 hj (by omega) hj' e
      have hkk : k = k' + (ny - yorig) := by
        rcases rot_cases hyo hk with ⟨h1, e3⟩ | ⟨h1, e3⟩ <;> rw [e3] at e1 <;> omega
      have hii : i = i' + (nx - xorig) := by
        rcases rot_cases hxo hi with ⟨h1, e3⟩ | ⟨h1, e3⟩ <;> rw [e3] at e2 <;> omega
      rw [hkk, hii, ← Nat.add_assoc]

/-! ### Passes over slabs -/

/-- Transform slab after slab of `A` and copy each to its places in `B`. -/
private noncomputable def slabFwd (n m L Q len : Nat) (sign : Int) (dst : Nat → Nat → Nat → Nat) (junk : Nat → Nat → Junk) (A B : Nat → ℂ) (s : St) :
    Option ((Nat → ℂ) × (Nat → ℂ) × St) :=
  forNM Q (fun q (A, B, s) =>
    (ccmFft n m L (len - q * m * L) sign (junk q) (row (q * m * L) A) s).map fun (r, s) =>
      let A := onRow (q * m * L) A r
      (A, forN m (fun j B => forN L (fun l B => aset B (dst q j l) (A (q * m * L + j * L + l))) B) B, s))
    (A, B, s)

private theorem slabFwd_spec (n m L Q len : Nat) (hn : 0 < n) (hL : n ≤ L) (hl : m * L * Q ≤ len) (sign : Int)
    (hs : sign = 1 ∨ sign = -1) (dst : Nat → Nat → Nat → Nat)
    (hd : ∀ q j l q' j' l', q < Q → j < m → l < L → q' < Q → j' < m → l' < L → dst q j l = dst q' j' l' → q = q' ∧ j = j' ∧ l = l')
    (junk : Nat → Nat → Junk) (A B : Nat → ℂ) (s : St) (h : Hist s) :
    ∃ A' B' s', slabFwd n m L Q len sign dst junk A B s = some (A', B', s') ∧ Hist s' ∧
      (∀ q j l, q < Q → j < m → l < n → B' (dst q j l) = dft sign n (fun l => A (q * m * L + j * L + l)) l) ∧
      (∀ k, m * L * Q ≤ k → A' k = A k) ∧
      ∀ k, (∀ q j l, q < Q → j < m → l < L → k ≠ dst q j l) → B' k = B k := by
  unfold slabFwd
  obtain ⟨⟨A', B', s'⟩, e, p, a, fA, fB⟩ := forNM_inv (n := Q) (s := (A, B, s)) (body := fun q (A, B, s) =>
    (ccmFft n m L (len - q * m * L) sign (junk q) (row (q * m * L) A) s).map fun (r, s) =>
      let A := onRow (q * m * L) A r
      (A, forN m (fun j B => forN L (fun l B => aset B (dst q j l) (A (q * m * L + j * L + l))) B) B, s))
    (P := fun q (st : (Nat → ℂ) × (Nat → ℂ) × St) => Hist st.2.2 ∧
      (∀ q' j l, q' < q → j < m → l < n → st.2.1 (dst q' j l) = dft sign n (fun l => A (q' * m * L + j * L + l)) l) ∧
      (∀ k, q * m * L ≤ k → st.1 k = A k) ∧
      ∀ k, (∀ q j l, q < Q → j < m → l < L → k ≠ dst q j l) → st.2.1 k = B k)
    ⟨h, fun _ _ _ hq => by omega, fun _ _ => rfl, fun _ _ => rfl⟩ (by
      rintro q hq ⟨A1, B1, s1⟩ ⟨p1, a1, fA1, fB1⟩
      dsimp only at p1 a1 fA1 fB1
      have hend := slab_end hq hl
      obtain ⟨r, s2, e2, p2, a2, f2⟩ := ccm_fft_dft n m L (len - q * m * L) hn hL (fun j hj => by
        have := in_slab hj (show n - 1 < L by omega)
        omega) sign hs (junk q) (row (q * m * L) A1) s1 p1
      dsimp only
      rw [e2]
      refine ⟨_, rfl, p2, ?_⟩
      have w := Writes.forN (n := m)
        (f := fun j B => forN L (fun l B => aset B (dst q j l) (onRow (q * m * L) A1 r (q * m * L + j * L + l))) B)
        (fun j _ => Writes.forN (n := L) (fun l _ => Writes.aset (dst q j l) (onRow (q * m * L) A1 r (q * m * L + j * L + l))))
      refine ⟨fun q' j l hq' hj hl' => ?_, fun k hk => ?_, fun k hk => ?_⟩
      · by_cases hqq : q' = q
        · subst hqq
          refine (w.val B1 ⟨j, hj, l, by omega, rfl, rfl⟩ ?_).trans ?_
          · rintro v ⟨j', hj', l', hl'', e, rfl⟩
            obtain ⟨_, rfl, rfl⟩ := hd q' j l q' j' l' hq hj (by omega) hq hj' hl'' e
            rfl
          · rw [Nat.add_assoc, onRow_at, a2 j hj l hl']
            refine dft_congr' _ _ _ fun l _ => ?_
            rw [Nat.add_assoc]
            exact fA1 _ (by omega)
        · refine (w.frame B1 ?_).trans (a1 q' j l (by omega) hj hl')
          rintro v ⟨j', hj', l', hl'', e, _⟩
          exact hqq (hd q' j l q j' l' (by omega) hj (by omega) hq hj' hl'' e).1
      · have hk' : q * m * L + m * L ≤ k := by rw [← Nat.add_mul, ← Nat.succ_mul]; exact hk
        have hfr : ∀ k, m * L ≤ k → r k = A1 (q * m * L + k) := fun k hk => f2 k fun j l hj hl e => by
          have := in_slab hj (show l < L by omega)
          omega
        exact (onRow_frame (w := m * L) hfr k (Or.inr hk')).trans (fA1 k (by omega))
      · refine (w.frame B1 ?_).trans (fB1 k hk)
        rintro v ⟨j', hj', l', hl'', e, _⟩
        exact hk q j' l' hq hj' hl'' e)
  refine ⟨A', B', s', e, p, a, fun k hk => fA k ?_, fB⟩
  rw [Nat.mul_assoc, Nat.mul_comm]; exact hk

/-- Fill slab after slab of `A` and transform it. -/
private noncomputable def slabBwd (n m L Q len : Nat) (sign : Int) (v : Nat → Nat → Nat → ℂ) (junk : Nat → Nat → Junk) (A : Nat → ℂ) (s : St) :
    Option ((Nat → ℂ) × St) :=
  forNM Q (fun q (A, s) =>
    let A := forN m (fun j A => forN L (fun l A => aset A (q * m * L + j * L + l) (v q j l)) A) A
    (ccmFft n m L (len - q * m * L) sign (junk q) (row (q * m * L) A) s).map fun (r, s) => (onRow (q * m * L) A r, s)) (A, s)

private theorem slabBwd_spec (n m L Q len : Nat) (hn : 0 < n) (hL : n ≤ L) (hl : m * L * Q ≤ len) (sign : Int)
    (hs : sign = 1 ∨ sign = -1) (v : Nat → Nat → Nat → ℂ) (junk : Nat → Nat → Junk) (A : Nat → ℂ) (s : St) (h : Hist s) :
    ∃ A' s', slabBwd n m L Q len sign v junk A s = some (A', s') ∧ Hist s' ∧
      ∀ q j l, q < Q → j < m → l < n → A' (q * m * L + j * L + l) = dft sign n (v q j) l := by
  unfold slabBwd
  obtain ⟨⟨A', s'⟩, e, p, a⟩ := forNM_inv (n := Q) (s := (A, s)) (body := fun q (A, s) =>
    let A := forN m (fun j A => forN L (fun l A => aset A (q * m * L + j * L + l) (v q j l)) A) A
    (ccmFft n m L (len - q * m * L) sign (junk q) (row (q * m * L) A) s).map fun (r, s) => (onRow (q * m * L) A r, s))
    (P := fun q (st : (Nat → ℂ) × St) => Hist st.2 ∧
      ∀ q' j l, q' < q → j < m → l < n → st.1 (q' * m * L + j * L + l) = dft sign n (v q' j) l)
    ⟨h, fun _ _ _ hq => by omega⟩ (by
      rintro q hq ⟨A1, s1⟩ ⟨p1, a1⟩
      dsimp only at p1 a1
      have hend := slab_end hq hl
      have w := Writes.forN (n := m) (f := fun j A => forN L (fun l A => aset A (q * m * L + j * L + l) (v q j l)) A)
        (fun j _ => Writes.forN (n := L) (fun l _ => Writes.aset (q * m * L + j * L + l) (v q j l)))
      have t1 : ∀ j l, j < m → l < L →
          forN m (fun j A => forN L (fun l A => aset A (q * m * L + j * L + l) (v q j l)) A) A1 (q * m * L + j * L + l) = v q j l := by
        intro j l hj hl
        refine w.val A1 ⟨j, hj, l, hl, rfl, rfl⟩ ?_
        rintro u ⟨j', hj', l', hl', e, rfl⟩
        obtain ⟨_, rfl, rfl⟩ := rc3_inj (le_refl L) hj hl hj' hl' e
        rfl
      have t2 : ∀ q' j l, q' ≠ q → j < m → l < L →
          forN m (fun j A => forN L (fun l A => aset A (q * m * L + j * L + l) (v q j l)) A) A1 (q' * m * L + j * L + l) =
            A1 (q' * m * L + j * L + l) := by
        intro q' j l hne hj hl
        refine w.frame A1 ?_
        rintro u ⟨j', hj', l', hl', e, _⟩
        exact hne (rc3_inj (le_refl L) hj hl hj' hl' e).1
      dsimp only
      generalize forN m (fun j A => forN L (fun l A => aset A (q * m * L + j * L + l) (v q j l)) A) A1 = A2 at t1 t2
      obtain ⟨r, s2, e2, p2, a2, f2⟩ := ccm_fft_dft n m L (len - q * m * L) hn hL (fun j hj => by
        have := in_slab hj (show n - 1 < L by omega)
        omega) sign hs (junk q) (row (q * m * L) A2) s1 p1
      rw [e2]
      refine ⟨_, rfl, p2, fun q' j l hq' hj hl' => ?_⟩
      dsimp only
      by_cases hqq : q' = q
      · subst hqq
        rw [Nat.add_assoc, onRow_at, a2 j hj l hl']
        refine dft_congr' _ _ _ fun l hl => ?_
        rw [← t1 j l hj (by omega), Nat.add_assoc]
        rfl
      · have hfr : ∀ k, m * L ≤ k → r k = A2 (q * m * L + k) := fun k hk => f2 k fun j l hj hl e => by
          have := in_slab hj (show l < L by omega)
          omega
        rw [onRow_frame (w := m * L) hfr _ ?_, t2 q' j l hqq hj (by omega), a1 q' j l (by omega) hj hl']
        left
        have h1 := in_slab hj (show l < L by omega)
        have h2 := Nat.mul_le_mul_right (m * L) (show q' + 1 ≤ q by omega)
        rw [Nat.add_mul, Nat.one_mul, ← Nat.mul_assoc, ← Nat.mul_assoc] at h2
        omega)
  exact ⟨A', s', e, p, a⟩

/-! ### Forward -/

/-- The traces of a volume in one row. -/
private theorem trace_lt {nx ny x y : Nat} (hx : x < nx) (hy : y < ny) : y * nx + x < nx * ny := by
  have := in_slab hy hx
  rwa [Nat.mul_comm ny] at this

/-- **C86 (forward).** `yxt2wkykx` delivers the spectrum over time and both places with its origin at trace `(yorig, xorig)`, and
changes nothing beyond the `nf × ldy × ldx` elements. -/
theorem yxt2wkykx_spec (nt nx ny ldt ldx ldy xorig yorig lenr lenc : Nat) (hn : FwdLen nt) (hxo : xorig < nx) (hyo : yorig < ny)
    (hx : nx ≤ ldx) (hy : ny ≤ ldy) (hr : ∀ i, i < nx * ny → i * ldt + nt ≤ lenr) (hc : (nt / 2 + 1) * ldx * ldy ≤ lenc)
    (junk : Nat → Junk) (junkX junkY : Nat → Nat → Junk) (cdum cdum' : Nat → ℂ) (x : Nat → ℝ) (c : Nat → ℂ) (s : St) (h : Hist s) :
    ∃ c' s', yxt2wkykx nt nx ny ldt ldx ldy xorig yorig lenr lenc junk junkX junkY cdum cdum' x c s = some (c', s') ∧ Hist s' ∧
      (∀ j k i, j ≤ nt / 2 → k < ny → i < nx → c' (j * ldy * ldx + k * ldx + i) =
        wkykx nt nx ny xorig yorig (fun y i t => x ((y * nx + i) * ldt + t)) j k i) ∧
      ∀ m, (nt / 2 + 1) * ldx * ldy ≤ m → c' m = c m := by
  have hm : (nt + 2) / 2 = nt / 2 + 1 := by omega
  obtain ⟨d, s1, e1, p1, a1, _⟩ := rcm_fft_dft_partial nt (nx * ny) ldt (nt / 2 + 1) lenr ((nt / 2 + 1) * nx * ny) hn (by omega)
    (Or.inl rfl) hr (fun i hi => by
      have := packed_lt (n := nt) hi le_rfl
      rwa [hm, ← Nat.mul_assoc] at this) (-1) (Or.inr rfl) junk x cdum s h
  obtain ⟨t1, t2⟩ := toFreqRot3_val (m := nt / 2 + 1) hx hxo hyo d c
  obtain ⟨c2, d2, s2, e2, p2, a2, f2, _⟩ := slabFwd_spec nx (nt / 2 + 1) ldx ldy lenc (by omega) hx hc 1 (Or.inl rfl)
    (fun k j i => i * (nt / 2 + 1) * ldy + j * ldy + k)
    (fun q j l q' j' l' hq hj hl hq' hj' hl' e => by
      obtain ⟨a, b, c⟩ := rc3_inj (le_refl ldy) hj hq hj' hq' e
      exact ⟨c, b, a⟩) junkX (toFreqRot3 nx ny (nt / 2 + 1) ldx xorig yorig d c) cdum' s1 p1
  obtain ⟨d3, c3, s3, e3, p3, a3, _, f3⟩ := slabFwd_spec ny (nt / 2 + 1) ldy ldx ((nt / 2 + 1) * ldx * ldy) (by omega) hy
    (by rw [Nat.mul_right_comm]) 1 (Or.inl rfl) (fun i j k => j * ldy * ldx + k * ldx + i)
    (fun q j l q' j' l' hq hj hl hq' hj' hl' e => by
      obtain ⟨a, b, c⟩ := rc3_inj (le_refl ldx) hl hq hl' hq' e
      exact ⟨c, a, b⟩) junkY d2 c2 s2 p2
  have hX : passX nx (nt / 2 + 1) ldx ldy lenc junkX (toFreqRot3 nx ny (nt / 2 + 1) ldx xorig yorig d c) cdum' s1 = some (c2, d2, s2) := e2
  have hY : passY ny (nt / 2 + 1) ldx ldy junkY d2 c2 s2 = some (d3, c3, s3) := e3
  unfold yxt2wkykx
  dsimp only
  rw [hm, e1, Option.bind_some]
  dsimp only
  rw [if_pos ⟨hx, hy, hc⟩, hX, Option.bind_some]
  dsimp only
  rw [hY]
  refine ⟨c3, s3, rfl, p3, fun j k i hj hk hi => ?_, fun q hq => ?_⟩
  · rw [a3 i j k (by omega) (by omega) hk, wkykx_dft hyo]
    refine dft_congr' _ _ _ fun y hy' => ?_
    have e := a2 y j i (by omega) (by omega) hi
    rw [e, wkx_dft hxo]
    refine dft_congr' _ _ _ fun i hi => ?_
    have hy0 : (y + yorig) % ny < ny := Nat.mod_lt _ (by omega)
    have hx0 : (i + xorig) % nx < nx := Nat.mod_lt _ (by omega)
    rw [t1 y j i hy' (by omega) hi, ← Nat.add_mul, a1 _ (trace_lt hx0 hy0) j hj, wx_dft]
  · have hnot : ∀ i j k, i < ldx → j < nt / 2 + 1 → k < ldy → q ≠ j * ldy * ldx + k * ldx + i := by
      intro i j k hi hj hk e
      have h1 := slab_end (m := ldy) (ld := ldx) hj (le_refl _)
      have h2 := in_slab hk hi
      rw [show ldy * ldx * (nt / 2 + 1) = (nt / 2 + 1) * ldx * ldy by ring] at h1
      omega
    have hle : (nt / 2 + 1) * ldx * ny ≤ (nt / 2 + 1) * ldx * ldy := Nat.mul_le_mul_left _ hy
    rw [f3 q hnot, f2 q hq, t2 q (by omega)]

/-! ### Inverse -/

private theorem scaleAll_eq (n ldr : Nat) (scl : ℝ) (x : Nat → ℝ) : scaleAll (n * ldr) scl x = scaleRows n ldr scl x := by
  funext m
  rw [scaleRows_val]
  unfold scaleAll
  generalize n * ldr = N
  induction N generalizing m with
  | zero => simp
  | succ N ih =>
    rw [forN_succ]
    generalize forN N (fun i x => aset x i (x i * scl)) x = r at ih
    unfold aset
    by_cases hm : m = N
    · subst hm
      rw [if_pos rfl, ih, if_neg (by omega), if_pos (by omega)]
    · rw [if_neg hm, ih]
      by_cases h3 : m < N
      · rw [if_pos h3, if_pos (by omega)]
      · rw [if_neg h3, if_neg (by omega)]

/-- **C86 (inverse).** `wkykx2yxt` makes of the spectrum of a volume, counted from the same origin, the volume.  What stands between
the traces is multiplied by `1/(nt nx ny)`. -/
theorem wkykx2yxt_spec (nt nx ny ldt ldx ldy xorig yorig lenc lenr : Nat) (hn : InvLen nt) (hxo : xorig < nx) (hyo : yorig < ny)
    (hx : nx ≤ ldx) (hy : ny ≤ ldy) (hld : nt ≤ ldt) (hr : nx * ny * ldt ≤ lenr) (hc : (nt / 2 + 1) * ldx * ldy ≤ lenc)
    (junk : Nat → Junk) (junkX junkY : Nat → Nat → Junk) (p : Nat → Nat → Nat → ℝ) (cdum cdum' c : Nat → ℂ)
    (hp : ∀ j k i, j ≤ nt / 2 → k < ny → i < nx → c (j * ldy * ldx + k * ldx + i) = wkykx nt nx ny xorig yorig p j k i)
    (x : Nat → ℝ) (s : St) (h : Hist s) :
    ∃ x' c' s', wkykx2yxt nt nx ny ldt ldx ldy xorig yorig lenc lenr junk junkX junkY cdum cdum' c x s = some (x', c', s') ∧ Hist s' ∧
      (∀ y i t, y < ny → i < nx → t < nt → x' ((y * nx + i) * ldt + t) = p y i t) ∧
      (∀ y i t, y < ny → i < nx → nt ≤ t → t < ldt → x' ((y * nx + i) * ldt + t) = x ((y * nx + i) * ldt + t) / (nt * nx * ny)) ∧
      ∀ m, nx * ny * ldt ≤ m → x' m = x m := by
  have hm : (nt + 2) / 2 = nt / 2 + 1 := by omega
  have hx0 : 0 < nx := by omega
  have hy0 : 0 < ny := by omega
  obtain ⟨d, s1, e1, p1, a1⟩ := slabBwd_spec ny (nt / 2 + 1) ldy ldx ((nt / 2 + 1) * ldx * ldy) hy0 hy
    (by rw [Nat.mul_right_comm]) (-1) (Or.inr rfl) (fun i j k => c (j * ldy * ldx + k * ldx + i)) junkY cdum s h
  obtain ⟨z, s2, e2, p2, a2⟩ := slabBwd_spec nx (nt / 2 + 1) ldx ldy lenc hx0 hx hc (-1) (Or.inr rfl)
    (fun k j i => d (i * (nt / 2 + 1) * ldy + j * ldy + k)) junkX c s1 p1
  have hd : ∀ i j k, i < nx → j ≤ nt / 2 → k < ny →
      d (i * (nt / 2 + 1) * ldy + j * ldy + k) = ny * wkx nt nx xorig (p ((k + yorig) % ny)) j i := by
    intro i j k hi hj hk
    rw [a1 i j k (by omega) (by omega) hk]
    have e := dft_roundtrip 1 (Or.inl rfl) ny hy0 (fun y => wkx nt nx xorig (p ((y + yorig) % ny)) j i) k hk
    rw [← e]
    exact dft_congr' _ _ _ fun k hk => by rw [hp j k i hj hk hi, wkykx_dft hyo]
  have hz : ∀ k j i, k < ny → j ≤ nt / 2 → i < nx →
      z (k * (nt / 2 + 1) * ldx + j * ldx + i) = ny * (nx * wx nt (p ((k + yorig) % ny)) j ((i + xorig) % nx)) := by
    intro k j i hk hj hi
    rw [a2 k j i (by omega) (by omega) hi]
    have e := dft_roundtrip 1 (Or.inl rfl) nx hx0 (fun i => wx nt (p ((k + yorig) % ny)) j ((i + xorig) % nx)) i hi
    rw [← e, ← dft_smul]
    exact dft_congr' _ _ _ fun i hi => by rw [hd i j k hi hj hk, wkx_dft hxo]
  have t1 := fromFreqRot3_val (m := nt / 2 + 1) (ld := ldx) hxo hyo z cdum'
  have h1 : (nt : ℝ) ≠ 0 := by exact_mod_cast hn.1.1.ne'
  have h2 : (nx : ℝ) ≠ 0 := by exact_mod_cast hx0.ne'
  have h3 : (ny : ℝ) ≠ 0 := by exact_mod_cast hy0.ne'
  have hinv : ∀ n o i : Nat, o < n → i < n → ((i + (n - o)) % n + o) % n = i := fun n o i ho hi => by
    rw [Nat.mod_add_mod, show i + (n - o) + o = i + n by omega, Nat.add_mod_right, Nat.mod_eq_of_lt hi]
  obtain ⟨x', s', e, q, b, f, g⟩ := back nt (nx * ny) ldt lenr hn hld hr junk (fun m t => p (m / nx) (m % nx) t) (nx * ny : Nat)
    (fromFreqRot3 nx ny (nt / 2 + 1) ldx xorig yorig z cdum') (fun i hi j hj => by
      have hq : i / nx < ny := Nat.div_lt_of_lt_mul hi
      have hq2 : i % nx < nx := Nat.mod_lt _ hx0
      have e := t1 ((i / nx + (ny - yorig)) % ny) j ((i % nx + (nx - xorig)) % nx) (Nat.mod_lt _ hy0) (by omega) (Nat.mod_lt _ hx0)
      rw [hz _ j _ (Nat.mod_lt _ hy0) hj (Nat.mod_lt _ hx0), hinv ny yorig _ hyo hq, hinv nx xorig _ hxo hq2, ← Nat.add_mul,
        Nat.mul_comm (i / nx), Nat.div_add_mod] at e
      rw [hm, e]
      unfold wx
      push_cast
      ring) (1 / (nt * nx * ny : Nat)) (by push_cast; field_simp) x s2 p2
  have hY : backY ny (nt / 2 + 1) ldx ldy junkY c cdum s = some (d, s1) := e1
  have hX : backX nx (nt / 2 + 1) ldx ldy lenc junkX d c s1 = some (z, s2) := e2
  unfold wkykx2yxt
  dsimp only
  rw [hm] at e ⊢
  rw [if_pos ⟨hx, hy, hc, hr⟩, hY, Option.bind_some]
  dsimp only
  rw [hX, Option.bind_some]
  dsimp only
  rw [Nat.mul_assoc (nt / 2 + 1) nx ny, e]
  refine ⟨_, z, s', rfl, q, fun y i t hy' hi ht => ?_, fun y i t hy' hi ht hl => ?_, fun m hm => ?_⟩
  · dsimp only
    rw [scaleAll_eq, b _ t (trace_lt hi hy') ht]
    rw [show y * nx + i = i + nx * y by ring, Nat.add_mul_div_left _ _ hx0, Nat.add_mul_mod_self_left, Nat.mod_eq_of_lt hi,
      Nat.div_eq_of_lt hi, Nat.zero_add]
  · dsimp only
    rw [scaleAll_eq, f _ t (trace_lt hi hy') ht hl]
    push_cast; ring
  · dsimp only
    rw [scaleAll_eq, g m hm]

/-- **C86 (round trip).** To the wavenumber domain and back: the same volume, also with any other calls in between. -/
theorem wkykx2yxt_yxt2wkykx (nt nx ny ldt ldt' ldx ldy xorig yorig lenr lenr' lenc : Nat) (hn : InvLen nt) (hxo : xorig < nx)
    (hyo : yorig < ny) (hx : nx ≤ ldx) (hy : ny ≤ ldy) (hld : nt ≤ ldt') (hr : ∀ i, i < nx * ny → i * ldt + nt ≤ lenr)
    (hr' : nx * ny * ldt' ≤ lenr') (hc : (nt / 2 + 1) * ldx * ldy ≤ lenc) (junk junk' : Nat → Junk)
    (junkX junkY junkX' junkY' : Nat → Nat → Junk) (cdum cdum' cdum2 cdum3 : Nat → ℂ) (x y : Nat → ℝ) (c : Nat → ℂ) (s t : St)
    (h : Hist s) (ht : Hist t) :
    ∃ c' s' y' c'' t', yxt2wkykx nt nx ny ldt ldx ldy xorig yorig lenr lenc junk junkX junkY cdum cdum' x c s = some (c', s') ∧
      wkykx2yxt nt nx ny ldt' ldx ldy xorig yorig lenc lenr' junk' junkX' junkY' cdum2 cdum3 c' y t = some (y', c'', t') ∧
      ∀ k i t, k < ny → i < nx → t < nt → y' ((k * nx + i) * ldt' + t) = x ((k * nx + i) * ldt + t) := by
  obtain ⟨c', s', e1, _, a1, _⟩ := yxt2wkykx_spec nt nx ny ldt ldx ldy xorig yorig lenr lenc hn.1 hxo hyo hx hy hr hc junk junkX junkY
    cdum cdum' x c s h
  obtain ⟨y', c'', t', e2, _, a2, _⟩ := wkykx2yxt_spec nt nx ny ldt' ldx ldy xorig yorig lenc lenr' hn hxo hyo hx hy hld hr' hc junk'
    junkX' junkY' _ cdum2 cdum3 c' a1 y t ht
  exact ⟨c', s', y', c'', t', e1, e2, a2⟩

/-! ### The hypotheses can be met -/

/-- 12 samples, 5 by 4 traces in an array for 6 by 4, origin at trace (1, 2). -/
example : InvLen 12 ∧ (2 : Nat) < 5 ∧ (1 : Nat) < 4 ∧ (∀ i, i < 5 * 4 → i * 13 + 12 ≤ 260) ∧ (12 / 2 + 1) * 6 * 4 ≤ 168 := by
  refine ⟨⟨⟨by norm_num, fun m e => ?_⟩, Or.inr (Or.inl ⟨6, ⟨[3, 2], by decide, by decide, by norm_num⟩, by norm_num⟩)⟩, by norm_num,
    by norm_num, fun i hi => by omega, by norm_num⟩
  have h1 : m < 4 := by
    by_contra hlt
    have : 2 ^ 4 ≤ 2 ^ m := Nat.pow_le_pow_right (by norm_num) (by omega)
    omega
  interval_cases m <;> omega

end Verif.Fft.Lib

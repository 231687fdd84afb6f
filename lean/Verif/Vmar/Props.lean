import Verif.Vmar.Model

/-!
# The focusing and Green's functions of `vmar`

C162 the update equations and the series; C163 the Green's functions; C164 independence of the threads;
C165 the single-shot version.
-/

namespace Verif.Vmar
open Verif Conv Fft Finset

noncomputable section

/-! ## Specification -/

namespace Spec

/-- Multi-dimensional convolution: shots integrated, `∑_k r(iA,k) * x(k)`. -/
def mdc (n nt : ℕ) (r : ℕ → ℕ → ℕ → ℝ) (x : ℕ → ℕ → ℝ) (iA t : ℕ) : ℝ := ∑ k ∈ range n, cconv nt (r iA k) (x k) t

/-- The same with correlation. -/
def mdcorr (n nt : ℕ) (r : ℕ → ℕ → ℕ → ℝ) (x : ℕ → ℕ → ℝ) (iA t : ℕ) : ℝ := ∑ k ∈ range n, ccorr nt (x k) (r iA k) t

/-- `∑_{j≤m} T^j f`. -/
def series (T : Data → Data) (f : Data) (m : ℕ) : Data := fun a b c => ∑ j ∈ range (m + 1), (T^[j] f) a b c

end Spec

/-- The frequency is one that the program uses. -/
def Par.inBand (p : Par) (f : ℕ) : Prop := p.low ≤ f ∧ f < p.low + p.nw

/-- The trace whose spectrum is left over for shot `iB` has no energy outside the band. -/
def Par.Quiet (p : Par) (x : Data) (iB : ℕ) : Prop :=
  ∀ f, f ≤ p.nt / 2 → ¬ p.inBand f → spectrum p.nt (x (p.last iB) (p.n - 1)) f = 0

/-- The matrices are the spectra of a reflection response without energy outside the band, and
their conjugates (readReflData.c:99-106 with `cjRefl=1`). -/
structure Par.Of (p : Par) (r : ℕ → ℕ → ℕ → ℝ) : Prop where
  band : ∀ i, i < p.n → ∀ k, k < p.n → ∀ f, f ≤ p.nt / 2 → ¬ p.inBand f → spectrum p.nt (r i k) f = 0
  refl : ∀ iw, iw < p.nw → ∀ i, i < p.n → ∀ k, k < p.n → p.refl iw i k = spectrum p.nt (r i k) (p.low + iw)
  cj : ∀ iw, iw < p.nw → ∀ i, i < p.n → ∀ k, k < p.n →
    p.cj iw i k = (starRingEnd ℂ) (spectrum p.nt (r i k) (p.low + iw))

/-! ## One update -/

theorem spectrum_sum (N n : ℕ) (x : ℕ → ℕ → ℝ) (k : ℕ) :
    spectrum N (fun t => ∑ i ∈ range n, x i t) k = ∑ i ∈ range n, spectrum N (x i) k := by
  induction n with
  | zero => simp [Conv.spectrum]
  | succ n ih => simp only [sum_range_succ]; rw [spectrum_add, ih]

/-- A half spectrum of a real trace is transformed back to the trace. -/
theorem herm_trace {N : ℕ} (hN : 0 < N) (c : ℕ → ℂ) (g : ℕ → ℝ) (h : ∀ f, f ≤ N / 2 → c f = spectrum N g f) (t : ℕ)
    (ht : t < N) : (dft 1 N (herm N c) t).re = N * g t := by
  have e : dft 1 N (herm N c) t = dft 1 N (spectrum N g) t := by
    unfold dft
    refine sum_congr rfl fun f hf => ?_
    have hf := mem_range.mp hf
    congr 1
    unfold herm
    split_ifs with h1
    · exact h f h1
    · rw [h _ (by omega), ← spectrum_herm N hN g _ (by omega), show N - (N - f) = f by omega]
  rw [e, spectrum_inv N hN g t ht, ← Complex.ofReal_natCast, ← Complex.ofReal_mul, Complex.ofReal_re]

theorem back_mdc {p : Par} {r : ℕ → ℕ → ℕ → ℝ} (hr : p.Of r) (x : Data) {iB iA t : ℕ} (hA : iA < p.n) (ht : t < p.nt)
    (hq : p.Quiet x iB) : back p p.refl x iB iA t = p.nt * Spec.mdc p.n p.nt r (x iB) iA t := by
  unfold back
  refine herm_trace (by omega) _ (Spec.mdc p.n p.nt r (x iB) iA) (fun f hf => ?_) t ht
  unfold Spec.mdc
  rw [spectrum_sum]
  unfold ctrace
  by_cases hb : p.low ≤ f ∧ f < p.low + p.nw
  · rw [if_pos hb]
    refine sum_congr rfl fun k hk => ?_
    rw [hr.refl _ (by omega) iA hA k (mem_range.mp hk), show p.low + (f - p.low) = f by omega,
      spectrum_cconv _ (by omega)]
  · rw [if_neg hb, hq f hf hb]
    symm
    refine sum_eq_zero fun k hk => ?_
    rw [spectrum_cconv _ (by omega), hr.band iA hA k (mem_range.mp hk) f hf hb, zero_mul]

theorem back_mdcorr {p : Par} {r : ℕ → ℕ → ℕ → ℝ} (hr : p.Of r) (x : Data) {iB iA t : ℕ} (hA : iA < p.n) (ht : t < p.nt)
    (hq : p.Quiet x iB) : back p p.cj x iB iA t = p.nt * Spec.mdcorr p.n p.nt r (x iB) iA t := by
  unfold back
  refine herm_trace (by omega) _ (Spec.mdcorr p.n p.nt r (x iB) iA) (fun f hf => ?_) t ht
  unfold Spec.mdcorr
  rw [spectrum_sum]
  unfold ctrace
  by_cases hb : p.low ≤ f ∧ f < p.low + p.nw
  · rw [if_pos hb]
    refine sum_congr rfl fun k hk => ?_
    rw [hr.cj _ (by omega) iA hA k (mem_range.mp hk), show p.low + (f - p.low) = f by omega,
      spectrum_ccorr _ (by omega), mul_comm]
  · rw [if_neg hb, hq f hf hb]
    symm
    refine sum_eq_zero fun k hk => ?_
    rw [spectrum_ccorr _ (by omega), hr.band iA hA k (mem_range.mp hk) f hf hb, map_zero, mul_zero]

theorem up_spec (p : Par) (s : St) (iB iA t : ℕ) (ht : t < p.nt) :
    (up p s).vm iB iA t = back p p.refl s.vp iB iA t * (p.winB iB iA t * p.scl) ∧
    (up p s).gm iB iA t = back p p.refl s.vp iB iA t * p.scl - (up p s).vm iB iA t := by
  unfold up
  dsimp only
  have := forN_inv (n := p.nt) (fun k (v : (ℕ → ℝ) × (ℕ → ℝ)) => ∀ t, t < k →
      v.1 t = back p p.refl s.vp iB iA t * (p.winB iB iA t * p.scl) ∧
      v.2 t = back p p.refl s.vp iB iA t * p.scl - v.1 t)
    (body := fun it (t : (ℕ → ℝ) × (ℕ → ℝ)) =>
      let vm := aset t.1 it (back p p.refl s.vp iB iA it * (p.winB iB iA it * p.scl))
      (vm, aset t.2 it (back p p.refl s.vp iB iA it * p.scl - vm it))) (s := (s.vm iB iA, s.gm iB iA))
    (fun t ht => by omega)
    (by
      intro k hk v hv t ht
      dsimp only
      by_cases h : t = k
      · subst h; simp [aset]
      · have := hv t (by omega)
        simp only [aset, if_neg h]
        exact this)
  exact this t ht

theorem down_spec (p : Par) (s : St) (iB iA t : ℕ) (ht : t < p.nt) :
    (down p s).vp iB iA t = back p p.cj s.vm iB iA t * (p.winA iB iA t * p.scl) + p.inif iB iA t ∧
    (down p s).gp iB iA t = -1 * (back p p.cj s.vm iB iA (p.nt - 1 - t) * p.scl -
      if p.nt - 1 - t ≤ t then (down p s).vp iB iA (p.nt - 1 - t) else s.vp iB iA (p.nt - 1 - t)) := by
  unfold down
  dsimp only
  set D := back p p.cj s.vm iB iA with hD
  have := forN_inv (n := p.nt) (fun k (v : (ℕ → ℝ) × (ℕ → ℝ)) =>
      (∀ t, v.1 t = if t < k then D t * (p.winA iB iA t * p.scl) + p.inif iB iA t else s.vp iB iA t) ∧
      ∀ t, t < k → v.2 t = -1 * (D (p.nt - 1 - t) * p.scl - if p.nt - 1 - t ≤ t then
        D (p.nt - 1 - t) * (p.winA iB iA (p.nt - 1 - t) * p.scl) + p.inif iB iA (p.nt - 1 - t) else s.vp iB iA (p.nt - 1 - t)))
    (body := downSample p.nt p.scl (p.winA iB iA) (p.inif iB iA) D) (s := (s.vp iB iA, s.gp iB iA))
    ⟨fun t => by simp, fun t ht => by omega⟩
    (by
      intro k hk v hv
      obtain ⟨h1, h2⟩ := hv
      unfold downSample
      dsimp only
      have hv1 : ∀ t, aset v.1 k (D k * (p.winA iB iA k * p.scl) + p.inif iB iA k) t =
          if t < k + 1 then D t * (p.winA iB iA t * p.scl) + p.inif iB iA t else s.vp iB iA t := by
        intro t
        by_cases h : t = k
        · subst h; simp [aset]
        · simp only [aset, if_neg h, h1]
          exact if_congr (by omega) rfl rfl
      refine ⟨hv1, fun t ht => ?_⟩
      by_cases h : t = k
      · subst h
        rw [show ∀ (f : ℕ → ℝ) i v, aset f i v i = v from fun f i v => by simp [aset], hv1]
        congr 2
        exact if_congr (by omega) rfl rfl
      · rw [show ∀ (f : ℕ → ℝ) i v, aset f i v t = if t = i then v else f t from fun f i v => rfl, if_neg h]
        exact h2 t (by omega))
  obtain ⟨h1, h2⟩ := this
  refine ⟨by rw [h1, if_pos ht], ?_⟩
  rw [h2 t ht, h1 (p.nt - 1 - t), if_pos (show p.nt - 1 - t < p.nt by omega)]

/-! ## C162: the update equations and the series -/

/-- **C162.** The up-going update, from any state: where the left-over trace is quiet, the up-going focusing
function is the window times the convolution of the reflection response with the down-going one, and it and
the up-going Green's function add up to that convolution. -/
theorem vmar_up {p : Par} {r : ℕ → ℕ → ℕ → ℝ} (hr : p.Of r) (s : St) {iB iA t : ℕ} (hA : iA < p.n) (ht : t < p.nt)
    (hq : p.Quiet s.vp iB) :
    (up p s).vm iB iA t = p.winB iB iA t * (p.scl * p.nt * Spec.mdc p.n p.nt r (s.vp iB) iA t) ∧
    (up p s).vm iB iA t + (up p s).gm iB iA t = p.scl * p.nt * Spec.mdc p.n p.nt r (s.vp iB) iA t ∧
    (up p s).vp = s.vp ∧ (up p s).gp = s.gp := by
  obtain ⟨h1, h2⟩ := up_spec p s iB iA t ht
  rw [back_mdc hr s.vp hA ht hq] at h1 h2
  exact ⟨by rw [h1]; ring, by rw [h2]; ring, rfl, rfl⟩

/-- **C162.** The down-going update: the initial focusing function plus the window times the correlation
with the reflection response. -/
theorem vmar_down {p : Par} {r : ℕ → ℕ → ℕ → ℝ} (hr : p.Of r) (s : St) {iB iA t : ℕ} (hA : iA < p.n) (ht : t < p.nt)
    (hq : p.Quiet s.vm iB) :
    (down p s).vp iB iA t = p.inif iB iA t +
      p.winA iB iA t * (p.scl * p.nt * Spec.mdcorr p.n p.nt r (s.vm iB) iA t) ∧
    (down p s).vm = s.vm ∧ (down p s).gm = s.gm := by
  obtain ⟨h1, -⟩ := down_spec p s iB iA t ht
  rw [back_mdcorr hr s.vm hA ht hq] at h1
  exact ⟨by rw [h1]; ring, rfl, rfl⟩

namespace Spec

/-- Window times convolution, and window times correlation, on all traces of all shots. -/
def upOp (p : Par) (r : ℕ → ℕ → ℕ → ℝ) (x : Data) : Data := fun iB iA t =>
  p.winB iB iA t * (p.scl * p.nt * mdc p.n p.nt r (x iB) iA t)
def downOp (p : Par) (r : ℕ → ℕ → ℕ → ℝ) (x : Data) : Data := fun iB iA t =>
  p.winA iB iA t * (p.scl * p.nt * mdcorr p.n p.nt r (x iB) iA t)

end Spec

theorem upOp_add (p : Par) (r : ℕ → ℕ → ℕ → ℝ) (x y : Data) : Spec.upOp p r (x + y) = Spec.upOp p r x + Spec.upOp p r y := by
  funext a b c
  have : ∀ k, cconv p.nt (r b k) ((x + y) a k) c = cconv p.nt (r b k) (x a k) c + cconv p.nt (r b k) (y a k) c := by
    intro k
    unfold cconv
    rw [← sum_add_distrib]
    refine sum_congr rfl fun s _ => ?_
    rw [← sum_add_distrib]
    refine sum_congr rfl fun u _ => ?_
    split_ifs
    · simp only [Pi.add_apply]; ring
    · simp
  simp only [Spec.upOp, Spec.mdc, Pi.add_apply] at *
  simp only [this, sum_add_distrib]
  ring

theorem downOp_add (p : Par) (r : ℕ → ℕ → ℕ → ℝ) (x y : Data) :
    Spec.downOp p r (x + y) = Spec.downOp p r x + Spec.downOp p r y := by
  funext a b c
  have : ∀ k, ccorr p.nt ((x + y) a k) (r b k) c = ccorr p.nt (x a k) (r b k) c + ccorr p.nt (y a k) (r b k) c := by
    intro k
    unfold ccorr
    rw [← sum_add_distrib]
    refine sum_congr rfl fun s _ => ?_
    simp only [Pi.add_apply]; ring
  simp only [Spec.downOp, Spec.mdcorr, Pi.add_apply] at *
  simp only [this, sum_add_distrib]
  ring

theorem series_zero (T : Data → Data) (f : Data) : Spec.series T f 0 = f := by
  funext a b c; simp [Spec.series]

theorem series_succ (T : Data → Data) (f : Data) (m : ℕ) : Spec.series T f (m + 1) = Spec.series T f m + T^[m + 1] f := by
  funext a b c; simp only [Spec.series, Pi.add_apply]; rw [sum_range_succ]

theorem add_series {U T : Data → Data} (hU : ∀ x y, U (x + y) = U x + U y) (f : Data) (m : ℕ) :
    U (Spec.series T f m) = fun a b c => ∑ j ∈ range (m + 1), U (T^[j] f) a b c := by
  induction m with
  | zero => rw [series_zero]; funext a b c; simp
  | succ m ih =>
    rw [series_succ, hU, ih]
    funext a b c
    simp only [Pi.add_apply]
    rw [sum_range_succ _ (m + 1)]

theorem series_rec {T : Data → Data} (hT : ∀ x y, T (x + y) = T x + T y) (f : Data) (m : ℕ) :
    Spec.series T f (m + 1) = f + T (Spec.series T f m) := by
  rw [add_series hT f m]
  funext a b c
  simp only [Spec.series, Pi.add_apply]
  rw [sum_range_succ', add_comm]
  congr 1
  refine sum_congr rfl fun j _ => ?_
  rw [Function.iterate_succ_apply']

theorem mdc_congr {n nt : ℕ} (r : ℕ → ℕ → ℕ → ℝ) {x y : ℕ → ℕ → ℝ} (h : ∀ k, k < n → ∀ t, t < nt → x k t = y k t) (iA t : ℕ) :
    Spec.mdc n nt r x iA t = Spec.mdc n nt r y iA t := by
  unfold Spec.mdc cconv
  refine sum_congr rfl fun k hk => sum_congr rfl fun s _ => sum_congr rfl fun u hu => ?_
  rw [h k (mem_range.mp hk) u (mem_range.mp hu)]

theorem mdcorr_congr {n nt : ℕ} (r : ℕ → ℕ → ℕ → ℝ) {x y : ℕ → ℕ → ℝ} (h : ∀ k, k < n → ∀ t, t < nt → x k t = y k t) (iA t : ℕ) :
    Spec.mdcorr n nt r x iA t = Spec.mdcorr n nt r y iA t := by
  unfold Spec.mdcorr ccorr
  refine sum_congr rfl fun k hk => sum_congr rfl fun u hu => ?_
  have hu := mem_range.mp hu
  rw [h k (mem_range.mp hk) _ (Nat.mod_lt _ (by omega))]

theorem quiet_series {p : Par} {y : ℕ → Data} {x : Data} {iB m : ℕ} (hn : 0 < p.n) (hl : p.last iB < p.n)
    (hx : ∀ iB, iB < p.n → ∀ iA, iA < p.n → ∀ t, t < p.nt → x iB iA t = ∑ j ∈ range (m + 1), y j iB iA t)
    (hy : ∀ j, j ≤ m → p.Quiet (y j) iB) : p.Quiet x iB := by
  intro f hf hb
  rw [spectrum_congr p.nt (y := fun t => ∑ j ∈ range (m + 1), y j (p.last iB) (p.n - 1) t)
    (fun t ht => hx _ hl _ (by omega) t ht), spectrum_sum]
  refine sum_eq_zero fun j hj => hy j ?_ f hf hb
  have := mem_range.mp hj
  omega

/-- **C162 (part).** The result of `vmar` is the truncated series of the Marchenko equations: after
`niter` iterations the down-going focusing function is `∑_{j≤m} (θA R* θB R)^j f0` with `m = ⌈niter/2⌉`, and
for even `niter` the up-going one is `θB R` of it.  What is missing: the terms must have no energy
outside the frequency band in the traces that are left over, see `threads_matter`. -/
theorem vmar_series_partial {p : Par} {r : ℕ → ℕ → ℕ → ℝ} (hr : p.Of r) (hl : ∀ iB, iB < p.n → p.last iB < p.n)
    (T : Data → Data) (hT : T = fun x => Spec.downOp p r (Spec.upOp p r x))
    (hq : ∀ j iB, iB < p.n → p.Quiet (T^[j] p.inif) iB ∧ p.Quiet (Spec.upOp p r (T^[j] p.inif)) iB) (niter : ℕ)
    {iB iA t : ℕ} (hB : iB < p.n) (hA : iA < p.n) (ht : t < p.nt) :
    (iterations p niter (start p)).vp iB iA t = Spec.series T p.inif ((niter + 1) / 2) iB iA t ∧
    (niter % 2 = 0 → (iterations p niter (start p)).vm iB iA t =
      Spec.upOp p r (Spec.series T p.inif (niter / 2)) iB iA t) := by
  have hTadd : ∀ x y, T (x + y) = T x + T y := by intro x y; subst hT; dsimp only; rw [upOp_add, downOp_add]
  have key := forN_inv (n := niter + 1) (body := fun iter s => if iter % 2 = 1 then down p s else up p s) (s := start p)
    (fun k s => (∀ iB, iB < p.n → ∀ iA, iA < p.n → ∀ t, t < p.nt → s.vp iB iA t = Spec.series T p.inif (k / 2) iB iA t) ∧
      (k % 2 = 1 → ∀ iB, iB < p.n → ∀ iA, iA < p.n → ∀ t, t < p.nt →
        s.vm iB iA t = Spec.upOp p r (Spec.series T p.inif (k / 2)) iB iA t))
    ⟨fun iB _ iA _ t _ => by rw [Nat.zero_div, series_zero]; rfl, fun h => by omega⟩
    (by
      intro k hk s ⟨h1, h2⟩
      by_cases hk2 : k % 2 = 1
      · rw [if_pos hk2]
        refine ⟨fun iB hB iA hA t ht => ?_, fun h => by omega⟩
        have hqq : p.Quiet s.vm iB := quiet_series (y := fun j => Spec.upOp p r (T^[j] p.inif)) (m := k / 2) (by omega) (hl iB hB)
          (fun a ha b hb c hc => by rw [h2 hk2 a ha b hb c hc, add_series (upOp_add p r)])
          (fun j _ => (hq j iB hB).2)
        rw [(vmar_down hr s hA ht hqq).1, show (k + 1) / 2 = k / 2 + 1 by omega, series_rec hTadd]
        simp only [Pi.add_apply]
        congr 1
        subst hT
        simp only [Spec.downOp]
        rw [mdcorr_congr r (fun k hk t ht => h2 hk2 iB hB k hk t ht)]
      · rw [if_neg hk2]
        have e : (k + 1) / 2 = k / 2 := by omega
        refine ⟨fun iB hB iA hA t ht => by rw [e]; exact h1 iB hB iA hA t ht, fun _ iB hB iA hA t ht => ?_⟩
        have hqq : p.Quiet s.vp iB := quiet_series (y := fun j => T^[j] p.inif) (m := k / 2) (by omega) (hl iB hB)
          (fun a ha b hb c hc => h1 a ha b hb c hc) (fun j _ => (hq j iB hB).1)
        rw [(vmar_up hr s hA ht hqq).1, e]
        simp only [Spec.upOp]
        rw [mdc_congr r (fun k hk t ht => h1 iB hB k hk t ht)])
  refine ⟨key.1 iB hB iA hA t ht, fun h => ?_⟩
  have := key.2 (by omega) iB hB iA hA t ht
  rwa [show (niter + 1) / 2 = niter / 2 by omega] at this

/-! ## C163: the Green's functions -/

/-- **C163 (part).** The down-going Green's function of an update is, in reversed time, the new down-going
focusing function minus the back-transformed correlation — for the second half of the samples.  What is
missing: the first half, see `green_plus_stale`. -/
theorem green_plus_partial (p : Par) (s : St) (iB iA t : ℕ) (ht : t < p.nt) (h : p.nt - 1 ≤ 2 * t) :
    (down p s).gp iB iA t =
      (down p s).vp iB iA (p.nt - 1 - t) - p.scl * back p p.cj s.vm iB iA (p.nt - 1 - t) := by
  rw [(down_spec p s iB iA t ht).2, if_pos (by omega)]
  ring

/-- **C163 (defect).** In the first half of the samples, which holds the causal times, the program uses the
focusing function of *before* the update: the result is wrong by exactly the change of the last update. -/
theorem green_plus_stale (p : Par) (s : St) (iB iA t : ℕ) (ht : t < p.nt) (h : 2 * t < p.nt - 1) :
    (down p s).gp iB iA t =
      (down p s).vp iB iA (p.nt - 1 - t) - p.scl * back p p.cj s.vm iB iA (p.nt - 1 - t) -
      ((down p s).vp iB iA (p.nt - 1 - t) - s.vp iB iA (p.nt - 1 - t)) := by
  rw [(down_spec p s iB iA t ht).2, if_neg (by omega)]
  ring

/-- **C163.** The single-shot version writes the reversed sample instead and is right everywhere. -/
theorem green_plus_single (nt : ℕ) (scl : ℝ) (win inif D vp gp : ℕ → ℝ) (t : ℕ) (ht : t < nt) :
    let r := forN nt (downSample0 nt scl win inif D) (vp, gp)
    r.1 t = inif t + win t * (scl * D t) ∧ r.2 t = r.1 (nt - 1 - t) - scl * D (nt - 1 - t) := by
  have := forN_inv (n := nt) (body := downSample0 nt scl win inif D) (s := (vp, gp))
    (fun k (v : (ℕ → ℝ) × (ℕ → ℝ)) => ∀ t, t < k → v.1 t = inif t + win t * (scl * D t) ∧
      v.2 (nt - 1 - t) = v.1 t - scl * D t) (fun t ht => by omega)
    (by
      intro k hk v hv t ht
      unfold downSample0
      dsimp only
      by_cases h : t = k
      · subst h
        simp only [aset, if_true]
        constructor <;> ring
      · have := hv t (by omega)
        simp only [aset, if_neg h, if_neg (show ¬ nt - 1 - t = nt - 1 - k by omega)]
        exact this)
  dsimp only
  refine ⟨(this t ht).1, ?_⟩
  have h2 := (this (nt - 1 - t) (by omega)).2
  rwa [show nt - 1 - (nt - 1 - t) = t by omega] at h2

/-! ## C164: the threads -/

/-- **C164 (part).** Two distributions of the shots over threads give the same up-going update at a shot, if the
left-over traces of both are quiet. -/
theorem threads_partial (p q : Par) (hpq : q = { p with last := q.last }) (s : St) (iB iA t : ℕ) (ht : t < p.nt)
    (hp : p.Quiet s.vp iB) (hq : q.Quiet s.vp iB) : (up p s).vm iB iA t = (up q s).vm iB iA t := by
  have hnt : q.nt = p.nt := by rw [hpq]
  rw [(up_spec p s iB iA t ht).1, (up_spec q s iB iA t (by omega)).1]
  have : back p p.refl s.vp iB iA t = back q q.refl s.vp iB iA t := by
    unfold back
    rw [hnt]
    congr 1
    unfold dft
    refine sum_congr rfl fun f hf => ?_
    congr 1
    have e : ∀ f, f ≤ p.nt / 2 → ctrace p p.refl s.vp iB iA f = ctrace q q.refl s.vp iB iA f := by
      intro f hf
      unfold ctrace
      by_cases hb : p.low ≤ f ∧ f < p.low + p.nw
      · rw [if_pos hb, if_pos (by rw [hpq]; exact hb), hpq]
      · rw [if_neg hb, if_neg (by rw [hpq]; exact hb), hp f hf hb]
        have := hq f (by rw [hnt]; exact hf) (by rw [hpq]; exact hb)
        rw [hpq] at this ⊢
        exact this.symm
    unfold herm
    have hf := mem_range.mp hf
    split_ifs with h
    · exact e f h
    · rw [e _ (by omega)]
  rw [this, hpq]

/-- Two shots, two samples, the band is the highest frequency; the reflection response is zero.  With one
thread the last shot is left over, with two threads each thread's own. -/
def twoShots (last : ℕ → ℕ) : Par :=
  ⟨2, 2, 1, 1, 1, fun _ _ _ => 0, fun _ _ _ => 0, fun _ _ _ => 1, fun _ _ _ => 1,
    fun iB iA _ => if iB = 1 ∧ iA = 1 then 1 else 0, last⟩

theorem twoShots_back (last : ℕ → ℕ) (t : ℕ) (ht : t < 2) :
    back (twoShots last) (twoShots last).refl (twoShots last).inif 0 0 t =
      2 * (if last 0 = 1 then 1 else 0) := by
  unfold back
  refine herm_trace (N := 2) (by norm_num) _ (fun _ => if last 0 = 1 then 1 else 0) (fun f hf => ?_) t ht
  unfold ctrace twoShots
  dsimp only
  by_cases hb : 1 ≤ f ∧ f < 1 + 1
  · rw [if_pos hb]
    obtain rfl : f = 1 := by omega
    simp only [zero_mul, sum_const_zero]
    rw [spectrum_root]
    rw [sum_range_succ, sum_range_one]
    have : root (-1) 2 = -1 := by
      unfold root
      rw [show ((-1 : ℤ) : ℂ) * (2 * Real.pi * Complex.I / (2 : ℕ)) = -(Real.pi * Complex.I) by push_cast; ring, Complex.exp_neg,
        Complex.exp_pi_mul_I]
      norm_num
    rw [this]
    simp
  · rw [if_neg hb]
    simp

/-- **C164 (defect).** The result depends on the number of threads: the frequencies outside the band come
from the last trace that the same thread transformed.  Two shots, zero reflection response: with two threads
the up-going focusing function of the first shot is zero, with one it is not. -/
theorem threads_matter :
    (up (twoShots fun iB => iB) (start (twoShots fun iB => iB))).vm 0 0 0 = 0 ∧
    (up (twoShots fun _ => 1) (start (twoShots fun _ => 1))).vm 0 0 0 = 2 := by
  constructor
  · rw [(up_spec _ _ 0 0 0 (by simp [twoShots])).1]
    show back _ _ (twoShots fun iB => iB).inif 0 0 0 * _ = 0
    rw [twoShots_back _ 0 (by norm_num)]
    simp
  · rw [(up_spec _ _ 0 0 0 (by simp [twoShots])).1]
    show back _ _ (twoShots fun _ => 1).inif 0 0 0 * _ = 2
    rw [twoShots_back _ 0 (by norm_num)]
    simp [twoShots]

/-! ## C165: the single-shot version -/

/-- **C165.** The version for a single shot multiplies `nshots` elements of a vector that has one element
per station and frequency: it stays inside the array exactly if there are at most as many shots as
stations. -/
theorem single_bounds (nst nw nshots : ℕ) (hw : 0 < nw) :
    (∀ iw, iw < nw → ∀ k, k < nshots → (gemvAt nst nw iw k).isSome = true) ↔ nshots ≤ nst := by
  constructor
  · intro h
    by_contra hc
    have := h (nw - 1) (by omega) nst (by omega)
    unfold gemvAt at this
    rw [if_neg] at this
    · simp at this
    · obtain ⟨w, rfl⟩ : ∃ w, nw = w + 1 := ⟨nw - 1, by omega⟩
      simp only [Nat.add_sub_cancel, Nat.mul_add, Nat.mul_one, Nat.mul_comm nst w]
      omega
  · intro h iw hiw k hk
    unfold gemvAt
    rw [if_pos]
    · rfl
    · have : (iw + 1) * nst ≤ nw * nst := Nat.mul_le_mul_right _ hiw
      rw [Nat.add_mul] at this
      rw [Nat.mul_comm nst nw]
      omega

/-- And with more shots than stations it takes, already inside the array, elements of the next frequency. -/
theorem single_mixes (nst nw iw k : ℕ) (h1 : nst ≤ k) :
    gemvAt nst nw iw k = gemvAt nst nw (iw + 1) (k - nst) := by
  unfold gemvAt
  have : (iw + 1) * nst + (k - nst) = iw * nst + k := by rw [Nat.add_mul]; omega
  rw [this]

/-! ## Cases -/

/-- One shot, one station, two samples, band the highest frequency, reflection response `(1/2,-1/2)`. -/
def tiny : Par :=
  ⟨1, 2, 1, 1, 1, fun _ _ _ => 1, fun _ _ _ => 1, fun _ _ t => if t = 0 then 1 / 2 else 0, fun _ _ t => if t = 0 then 1 else 1 / 3,
    fun _ _ t => if t = 0 then 1 else -1, fun iB => iB⟩

def tinyR : ℕ → ℕ → ℕ → ℝ := fun _ _ t => if t = 0 then 1 / 2 else -(1 / 2)

theorem spectrum2 (x : ℕ → ℝ) : spectrum 2 x 0 = ((x 0 + x 1 : ℝ) : ℂ) ∧ spectrum 2 x 1 = ((x 0 - x 1 : ℝ) : ℂ) := by
  have : root (-1) 2 = -1 := by
    unfold root
    rw [show ((-1 : ℤ) : ℂ) * (2 * Real.pi * Complex.I / (2 : ℕ)) = -(Real.pi * Complex.I) by push_cast; ring, Complex.exp_neg,
      Complex.exp_pi_mul_I]
    norm_num
  constructor <;> rw [spectrum_root, sum_range_succ, sum_range_one, this] <;> simp <;> ring

theorem tiny_of : tiny.Of tinyR := by
  refine ⟨?_, ?_, ?_⟩
  · intro i _ k _ f hf hb
    obtain rfl : f = 0 := by
      have hf : f ≤ 1 := hf
      by_contra h
      exact hb ⟨show 1 ≤ f by omega, show f < 1 + 1 by omega⟩
    show spectrum 2 _ 0 = 0
    rw [(spectrum2 _).1]; norm_num [tinyR]
  · intro iw hw i _ k _
    obtain rfl : iw = 0 := by have h : iw < 1 := hw
                              omega
    show (1 : ℂ) = spectrum 2 _ 1
    rw [(spectrum2 _).2]; norm_num [tinyR]
  · intro iw hw i _ k _
    obtain rfl : iw = 0 := by have h : iw < 1 := hw
                              omega
    show (1 : ℂ) = (starRingEnd ℂ) (spectrum 2 _ 1)
    rw [(spectrum2 _).2, Complex.conj_ofReal]; norm_num [tinyR]

theorem tiny_quiet (x : Data) (h : x 0 0 0 + x 0 0 1 = 0) : tiny.Quiet x 0 := by
  intro f hf hb
  obtain rfl : f = 0 := by
    have hf : f ≤ 1 := hf
    by_contra h
    exact hb ⟨show 1 ≤ f by omega, show f < 1 + 1 by omega⟩
  show spectrum 2 (x 0 0) 0 = 0
  rw [(spectrum2 _).1, h]; simp

example := vmar_up tiny_of (start tiny) (iB := 0) (iA := 0) (t := 1) (show 0 < 1 by norm_num) (show 1 < 2 by norm_num)
  (tiny_quiet _ (by norm_num [start, tiny]))

example := vmar_down tiny_of (start tiny) (iB := 0) (iA := 0) (t := 1) (show 0 < 1 by norm_num) (show 1 < 2 by norm_num)
  (tiny_quiet _ (by norm_num [start]))

/-- Windows that keep the symmetry of the terms, so that all of them are quiet. -/
def sym : Par := { tiny with winA := fun _ _ _ => 1 / 2, winB := fun _ _ _ => 1 / 3 }

theorem sym_quiet (x : Data) (h : x 0 0 0 + x 0 0 1 = 0) : sym.Quiet x 0 := tiny_quiet x h

theorem sym_up (x : Data) : Spec.upOp sym tinyR x 0 0 0 + Spec.upOp sym tinyR x 0 0 1 = 0 := by
  simp [Spec.upOp, Spec.mdc, cconv, sym, tiny, tinyR, sum_range_succ]
  ring

theorem sym_down (x : Data) : Spec.downOp sym tinyR x 0 0 0 + Spec.downOp sym tinyR x 0 0 1 = 0 := by
  simp [Spec.downOp, Spec.mdcorr, ccorr, sym, tiny, tinyR, sum_range_succ]

example := vmar_series_partial (p := sym) (r := tinyR) ⟨tiny_of.band, tiny_of.refl, tiny_of.cj⟩ (fun iB h => h) _ rfl
  (by
    intro j iB hB
    obtain rfl : iB = 0 := by have h : iB < 1 := hB
                              omega
    refine ⟨sym_quiet _ ?_, sym_quiet _ (sym_up _)⟩
    cases j with
    | zero => norm_num [sym, tiny]
    | succ j => rw [Function.iterate_succ_apply']; exact sym_down _)
  4 (iB := 0) (iA := 0) (t := 1) (show 0 < 1 by norm_num) (show 0 < 1 by norm_num) (show 1 < 2 by norm_num)

/-- The first half is really wrong: the causal sample of the Green's function of one update. -/
theorem green_plus_wrong : ∃ s, (down tiny s).gp 0 0 0 ≠
    (down tiny s).vp 0 0 1 - tiny.scl * back tiny tiny.cj s.vm 0 0 1 := by
  let s : St := ⟨fun _ _ _ => 0, fun _ _ t => if t = 0 then 1 else -1, fun _ _ _ => 0, fun _ _ _ => 0⟩
  refine ⟨s, ?_⟩
  rw [green_plus_stale tiny s 0 0 0 (by simp [tiny]) (by simp [tiny])]
  have hb := (vmar_down tiny_of s (iB := 0) (iA := 0) (t := 1) (show 0 < 1 by norm_num) (show 1 < 2 by norm_num)
    (tiny_quiet _ (by norm_num [s]))).1
  have hb' : (down tiny s).vp 0 0 1 = -1 := by
    rw [hb]
    norm_num [tiny]
  have e : tiny.nt - 1 - 0 = 1 := rfl
  rw [e, hb']
  norm_num [s]

example : (∀ iw, iw < 3 → ∀ k, k < 5 → (gemvAt 5 3 iw k).isSome = true) := (single_bounds 5 3 5 (by norm_num)).mpr le_rfl

example : gemvAt 2 3 0 3 = gemvAt 2 3 1 1 := single_mixes 2 3 0 3 (by norm_num)

end

end Verif.Vmar

import Verif.Extrap.KwProps

/-! # Phase-shift extrapolation of whole data sets -/

namespace Verif.Extrap

open Verif Verif.Toep Finset Complex

noncomputable section

/-- The model lies in the transformed range, the receivers lie in the model, velocities are positive. -/
structure KwPar.Ok (p : KwPar) : Prop where
  nx : 0 < p.nxm
  room : p.ntap + p.nxm ≤ p.nkx
  recv : ∀ j < p.nrec, p.xi j < p.nxm
  vel : ∀ i, 0 < p.velmod i

/-- Wavenumber of layer `d` at frequency number `iom`: angular frequency over mean velocity. -/
def KwPar.k (p : KwPar) (iom d : ℕ) : ℝ := iom * p.dom / ((∑ ix ∈ range p.nxm, p.velmod (d * p.nxm + ix)) / p.nxm)

theorem freqStep_gen {p : KwPar} (hp : p.Ok) (cdata : ℕ → ℕ → ℂ) (iom : ℕ) {st : KwSt} (hs : Fft.Lib.Hist st.fft)
    (F : ℕ → (ℕ → ℂ) → Prop)
    (h0 : ∀ z, (∀ i, z i = if p.ntap ≤ i ∧ i < p.ntap + p.nxm then cdata iom (i - p.ntap) else st.tmp1 i) → F 0 z)
    (hstep : ∀ d < p.ndepth, ∀ z s, Fft.Lib.Hist s → F d z → ∃ z' s',
      depthStep p.nkx (p.k iom d) p.dkx p.dz p.tap (p.buf iom d).1 (p.buf iom d).2 z s = some (z', s') ∧ Fft.Lib.Hist s' ∧ F (d + 1) z') :
    ∃ st', freqStep p cdata iom st = some st' ∧ Fft.Lib.Hist st'.fft ∧ F p.ndepth st'.tmp1 ∧
      (∀ j < p.nrec, p.zi j ≤ p.ndepth → ∃ z, F (p.zi j) z ∧ st'.cextr iom j = z (p.ntap + p.xi j)) ∧
      ∀ a b, a ≠ iom ∨ p.nrec ≤ b ∨ p.ndepth < p.zi b → st'.cextr a b = st.cextr a b := by
  have hrec : ∀ j < p.nrec, p.ntap + p.xi j < p.nkx := fun j hj => by have := hp.recv j hj; have := hp.room; omega
  obtain ⟨z0, e0, hz0⟩ := place_spec hp.room (cdata iom) st.tmp1
  obtain ⟨c0, ec0, hc0⟩ := record_spec hrec iom 0 z0 st.cextr
  unfold freqStep
  simp only [Option.bind_eq_bind]
  rw [e0, Option.bind_some, ec0, Option.bind_some]
  refine Exists.elim (forNM_inv (n := p.ndepth) (s := (⟨z0, c0, st.fft⟩ : KwSt)) (body := fun d st =>
      (layerK p.nxm p.velmod d (iom * p.dom)).bind fun k =>
        (depthStep p.nkx k p.dkx p.dz p.tap (p.buf iom d).1 (p.buf iom d).2 st.tmp1 st.fft).bind fun x =>
          (record p iom (d + 1) x.1 st.cextr).bind fun c => some ⟨x.1, c, x.2⟩)
    (P := fun d (w : KwSt) => Fft.Lib.Hist w.fft ∧ F d w.tmp1 ∧
      (∀ j < p.nrec, p.zi j ≤ d → ∃ z, F (p.zi j) z ∧ w.cextr iom j = z (p.ntap + p.xi j)) ∧
      ∀ a b, a ≠ iom ∨ p.nrec ≤ b ∨ d < p.zi b → w.cextr a b = st.cextr a b) ?_ ?_) ?_
  · refine ⟨hs, h0 z0 hz0, fun j hj hd => ⟨z0, ?_, ?_⟩, fun a b h => ?_⟩
    · rw [show p.zi j = 0 by omega]; exact h0 z0 hz0
    · dsimp only
      rw [hc0, if_pos ⟨rfl, hj, by omega⟩]
    · dsimp only
      rw [hc0, if_neg (by omega)]
  · intro d hd w ⟨p1, p2, p3, p4⟩
    obtain ⟨z', s', e, H, hF⟩ := hstep d hd w.tmp1 w.fft p1 p2
    obtain ⟨c', ec, hc⟩ := record_spec hrec iom (d + 1) z' w.cextr
    rw [(layerK_spec hp.nx hp.vel d).1, Option.bind_some]
    refine ⟨⟨z', c', s'⟩, ?_, H, hF, fun j hj hz => ?_, fun a b h => ?_⟩
    · rw [show depthStep p.nkx (iom * p.dom / ((∑ ix ∈ range p.nxm, p.velmod (d * p.nxm + ix)) / p.nxm)) p.dkx p.dz p.tap
        (p.buf iom d).1 (p.buf iom d).2 w.tmp1 w.fft = some (z', s') from e, Option.bind_some, ec, Option.bind_some]
    · by_cases h : p.zi j = d + 1
      · refine ⟨z', by rw [h]; exact hF, ?_⟩
        dsimp only
        rw [hc, if_pos ⟨rfl, hj, h⟩]
      · obtain ⟨z, hz1, hz2⟩ := p3 j hj (by omega)
        refine ⟨z, hz1, ?_⟩
        dsimp only
        rw [hc, if_neg (fun c => h c.2.2), hz2]
    · dsimp only
      rw [hc, if_neg (fun c => by omega), p4 a b (by omega)]
  · intro w ⟨h1, h2, h3, h4, h5⟩
    exact ⟨w, h1, h2, h3, h4, h5⟩

theorem energy_nonneg (n : ℕ) (z : ℕ → ℂ) : 0 ≤ energy n z := sum_nonneg fun _ _ => normSq_nonneg _

theorem normSq_le_energy {n j : ℕ} (hj : j < n) (z : ℕ → ℂ) : normSq (z j) ≤ energy n z :=
  single_le_sum (f := fun j => normSq (z j)) (fun _ _ => normSq_nonneg _) (mem_range.2 hj)

theorem energy_place {p : KwPar} (hp : p.Ok) (f : ℕ → ℂ) (z z' : ℕ → ℂ)
    (h : ∀ i, z' i = if p.ntap ≤ i ∧ i < p.ntap + p.nxm then f (i - p.ntap) else z i) :
    energy p.nkx z' ≤ energy p.nkx z + energy p.nxm f := by
  have e : energy p.nxm f = ∑ i ∈ range p.nkx, if p.ntap ≤ i ∧ i < p.ntap + p.nxm then normSq (f (i - p.ntap)) else 0 := by
    rw [← sum_filter]
    unfold energy
    refine sum_bij (fun j _ => p.ntap + j) ?_ ?_ ?_ ?_
    · intro j hj
      have := mem_range.1 hj
      have := hp.room
      rw [mem_filter, mem_range]
      omega
    · intro a _ b _ h; omega
    · intro i hi
      rw [mem_filter, mem_range] at hi
      exact ⟨i - p.ntap, mem_range.2 (by omega), by omega⟩
    · intro j _
      rw [Nat.add_sub_cancel_left]
  rw [e]
  unfold energy
  rw [← sum_add_distrib]
  apply sum_le_sum
  intro i _
  rw [h i]
  have := normSq_nonneg (z i)
  split
  · linarith
  · linarith

/-- **C106**: nothing that is recorded, at any depth and for any velocities, is larger than the data: the squared modulus of a
recorded sample is at most the energy of the data up to its frequency. -/
theorem kwExtr_bounded {p : KwPar} (hp : p.Ok) (ht : ∀ j < p.nkx, 0 ≤ p.tap j ∧ p.tap j ≤ 1) (cdata : ℕ → ℕ → ℂ) (iomin cnt : ℕ)
    {s : Fft.Lib.St} (hs : Fft.Lib.Hist s) :
    ∃ st, kwExtr p cdata iomin cnt s = some st ∧ ∀ i < cnt, ∀ j < p.nrec,
      normSq (st.cextr (iomin + i) j) ≤ ∑ i' ∈ range (i + 1), energy p.nxm (cdata (iomin + i')) := by
  have hnkx : 0 < p.nkx := by have := hp.nx; have := hp.room; omega
  unfold kwExtr
  refine Exists.elim (forNM_inv (n := cnt) (s := (⟨fun _ => 0, fun _ _ => 0, s⟩ : KwSt))
    (body := fun i st => freqStep p cdata (iomin + i) st)
    (P := fun i (w : KwSt) => Fft.Lib.Hist w.fft ∧ energy p.nkx w.tmp1 ≤ ∑ i' ∈ range i, energy p.nxm (cdata (iomin + i')) ∧
      (∀ i0 < i, ∀ j < p.nrec, normSq (w.cextr (iomin + i0) j) ≤ ∑ i' ∈ range (i0 + 1), energy p.nxm (cdata (iomin + i'))) ∧
      ∀ i0, i ≤ i0 → ∀ j, w.cextr (iomin + i0) j = 0) ?_ ?_) ?_
  · exact ⟨hs, by simp [energy], fun i0 h => by omega, fun _ _ _ => rfl⟩
  · intro i hi w ⟨p1, p2, p3, p4⟩
    obtain ⟨st', e, H, hF, hr, ho⟩ := freqStep_gen hp cdata (iomin + i) p1
      (F := fun _ z => energy p.nkx z ≤ ∑ i' ∈ range (i + 1), energy p.nxm (cdata (iomin + i')))
      (fun z hz => by
        have := energy_place hp _ _ _ hz
        rw [sum_range_succ]; linarith)
      (fun d _ z s hs hz => by
        obtain ⟨z', s', e, H, he, -⟩ := depthStep_energy hnkx (p.k (iomin + i) d) p.dkx p.dz ht (p.buf (iomin + i) d).1 (p.buf (iomin + i) d).2 z hs
        exact ⟨z', s', e, H, he.trans hz⟩)
    refine ⟨st', e, H, hF, fun i0 h0 j hj => ?_, fun i0 h0 j => ?_⟩
    · by_cases hc : i0 = i
      · subst hc
        by_cases hz : p.zi j ≤ p.ndepth
        · obtain ⟨z, hz1, hz2⟩ := hr j hj hz
          rw [hz2]
          exact (normSq_le_energy (by have := hp.recv j hj; have := hp.room; omega) z).trans hz1
        · rw [ho _ _ (Or.inr (Or.inr (by omega))), p4 i0 (le_refl _) j, normSq_zero]
          exact sum_nonneg fun _ _ => energy_nonneg _ _
      · rw [ho _ _ (Or.inl (by omega))]
        exact p3 i0 (by omega) j hj
    · rw [ho _ _ (Or.inl (by omega))]
      exact p4 i0 (by omega) j
  · intro w ⟨h1, h2, h3, h4, h5⟩
    exact ⟨w, h1, fun i hi j hj => h4 i hi j hj⟩

/-- Specification: the wave field at depth `d`: every wavenumber of the data multiplied by the factors of the layers above. -/
def kwField (p : KwPar) (cdata : ℕ → ℕ → ℂ) (iom d x : ℕ) : ℂ :=
  Fft.dft (-1) p.nkx (fun q => (∏ l ∈ range d, factor p.nkx (p.k iom l) p.dkx p.dz q) * Fft.dft 1 p.nkx (cdata iom) q) x / p.nkx

/-- One layer in the program: as `factor`, but the Nyquist wavenumber, which is its own mirror image, is multiplied twice. -/
def stepFactor (nkx : ℕ) (k dkx dz : ℝ) (q : ℕ) : ℂ := (if 2 * q = nkx then factor nkx k dkx dz q else 1) * factor nkx k dkx dz q

/-- The wave field of the program, without padding and taper. -/
theorem kwExtr_steps {p : KwPar} (hp : p.Ok) (hpad : p.nkx = p.nxm ∧ p.ntap = 0) (ht : ∀ j < p.nkx, p.tap j = 1) (hd : 0 < p.dkx)
    (hom : 0 ≤ p.dom) (hz : ∀ j < p.nrec, p.zi j ≤ p.ndepth) (cdata : ℕ → ℕ → ℂ) (iomin cnt : ℕ) {s : Fft.Lib.St} (hs : Fft.Lib.Hist s) :
    ∃ st, kwExtr p cdata iomin cnt s = some st ∧ ∀ i < cnt, ∀ j < p.nrec, st.cextr (iomin + i) j =
      Fft.dft (-1) p.nkx (fun q => (∏ l ∈ range (p.zi j), stepFactor p.nkx (p.k (iomin + i) l) p.dkx p.dz q) *
        Fft.dft 1 p.nkx (cdata (iomin + i)) q) (p.xi j) / p.nkx := by
  have hnkx : 0 < p.nkx := by have := hp.nx; have := hp.room; omega
  have hk : ∀ iom d, 0 ≤ p.k iom d := fun iom d => by
    have := (layerK_spec hp.nx hp.vel d (om := 0)).2
    unfold KwPar.k
    exact div_nonneg (mul_nonneg (Nat.cast_nonneg _) hom) this.le
  unfold kwExtr
  refine Exists.elim (forNM_inv (n := cnt) (s := (⟨fun _ => 0, fun _ _ => 0, s⟩ : KwSt))
    (body := fun i st => freqStep p cdata (iomin + i) st)
    (P := fun i (w : KwSt) => Fft.Lib.Hist w.fft ∧
      ∀ i0 < i, ∀ j < p.nrec, w.cextr (iomin + i0) j =
      Fft.dft (-1) p.nkx (fun q => (∏ l ∈ range (p.zi j), stepFactor p.nkx (p.k (iomin + i0) l) p.dkx p.dz q) *
        Fft.dft 1 p.nkx (cdata (iomin + i0)) q) (p.xi j) / p.nkx) ?_ ?_) ?_
  · exact ⟨hs, fun i0 h => by omega⟩
  · intro i hi w ⟨p1, p3⟩
    obtain ⟨st', e, H, -, hr, ho⟩ := freqStep_gen hp cdata (iomin + i) p1
      (F := fun d z => ∀ q < p.nkx, Fft.dft 1 p.nkx z q =
        (∏ l ∈ range d, stepFactor p.nkx (p.k (iomin + i) l) p.dkx p.dz q) * Fft.dft 1 p.nkx (cdata (iomin + i)) q)
      (fun z hz q _ => by
        rw [range_zero, prod_empty, one_mul]
        unfold Fft.dft
        apply sum_congr rfl
        intro j hj
        have := mem_range.1 hj
        rw [hz j, if_pos (by omega), hpad.2, Nat.sub_zero])
      (fun d hdd z s hs hz => by
        obtain ⟨z', s', e, H, he⟩ := depthStep_phase hnkx (hk (iomin + i) d) hd p.dz ht (p.buf (iomin + i) d).1 (p.buf (iomin + i) d).2 z hs
        refine ⟨z', s', e, H, fun q hq => ?_⟩
        rw [he q hq, hz q hq, prod_range_succ]
        unfold stepFactor
        ring)
    refine ⟨st', e, H, fun i0 h0 j hj => ?_⟩
    by_cases hc : i0 = i
    · subst hc
      obtain ⟨z, hz1, hz2⟩ := hr j hj (hz j hj)
      have hxj : p.xi j < p.nkx := by have := hp.recv j hj; have := hp.room; omega
      rw [hz2, hpad.2, Nat.zero_add]
      have rt := Fft.dft_roundtrip 1 (Or.inl rfl) p.nkx hnkx z (p.xi j) hxj
      have hn' : (p.nkx : ℂ) ≠ 0 := by exact_mod_cast hnkx.ne'
      rw [eq_div_iff hn', mul_comm, ← rt]
      exact sum_congr rfl fun q hq => by dsimp only; rw [hz1 q (mem_range.1 hq)]
    · rw [ho _ _ (Or.inl (by omega))]
      exact p3 i0 (by omega) j hj
  · intro w ⟨h1, h2, h3⟩
    exact ⟨w, h1, h3⟩

/-- **C107**: without padding and taper, and if the sampling of the model carries all propagating waves, every receiver gets the wave
field of its depth; each frequency depends on the data of that frequency only. -/
theorem kwExtr_exact {p : KwPar} (hp : p.Ok) (hpad : p.nkx = p.nxm ∧ p.ntap = 0) (ht : ∀ j < p.nkx, p.tap j = 1) (hd : 0 < p.dkx)
    (hom : 0 ≤ p.dom) (hz : ∀ j < p.nrec, p.zi j ≤ p.ndepth) (cdata : ℕ → ℕ → ℂ) (iomin cnt : ℕ)
    (hny : p.nkx % 2 = 1 ∨ ∀ i < cnt, ∀ d < p.ndepth, p.k (iomin + i) d < p.nkx / 2 * p.dkx) {s : Fft.Lib.St} (hs : Fft.Lib.Hist s) :
    ∃ st, kwExtr p cdata iomin cnt s = some st ∧
      ∀ i < cnt, ∀ j < p.nrec, st.cextr (iomin + i) j = kwField p cdata (iomin + i) (p.zi j) (p.xi j) := by
  obtain ⟨st, e, h⟩ := kwExtr_steps hp hpad ht hd hom hz cdata iomin cnt hs
  refine ⟨st, e, fun i hi j hj => ?_⟩
  rw [h i hi j hj]
  unfold kwField
  congr 2
  funext q
  congr 1
  refine prod_congr rfl fun l hl => ?_
  have hl' : l < p.ndepth := lt_of_lt_of_le (mem_range.1 hl) (hz j hj)
  unfold stepFactor
  split
  · rename_i h2
    rcases hny with h | h
    · omega
    · have : factor p.nkx (p.k (iomin + i) l) p.dkx p.dz q = 1 := by
        unfold factor
        rw [if_neg]
        have h3 := h i hi l hl'
        have h4 : (absNo p.nkx q : ℝ) = p.nkx / 2 := by
          have : absNo p.nkx q = q := by unfold absNo; omega
          rw [this, ← h2]; push_cast; ring
        rw [h4]; linarith
      rw [this, one_mul]
  · rw [one_mul]

theorem factor_normSq (nkx : ℕ) (k dkx dz : ℝ) (q : ℕ) : normSq (factor nkx k dkx dz q) = 1 := by
  unfold factor
  split
  · rw [normSq_eq_norm_sq, Complex.norm_exp_ofReal_mul_I, one_pow]
  · exact normSq_one

/-- **C107**: the wave field has at every depth the energy of the data: no wave is attenuated, evanescent ones neither. -/
theorem kwField_energy (p : KwPar) (hn : 0 < p.nkx) (cdata : ℕ → ℕ → ℂ) (iom d : ℕ) :
    energy p.nkx (kwField p cdata iom d) = energy p.nkx (cdata iom) := by
  have hn' : (p.nkx : ℝ) ≠ 0 := by exact_mod_cast hn.ne'
  have h1 : energy p.nkx (kwField p cdata iom d) = (1 / (p.nkx : ℝ)) ^ 2 * energy p.nkx (Fft.dft (-1) p.nkx
      (fun q => (∏ l ∈ range d, factor p.nkx (p.k iom l) p.dkx p.dz q) * Fft.dft 1 p.nkx (cdata iom) q)) := by
    unfold energy kwField
    rw [mul_sum]
    refine sum_congr rfl fun j _ => ?_
    rw [normSq_div, normSq_natCast]
    field_simp
  have h2 : energy p.nkx (fun q => (∏ l ∈ range d, factor p.nkx (p.k iom l) p.dkx p.dz q) * Fft.dft 1 p.nkx (cdata iom) q) =
      energy p.nkx (Fft.dft 1 p.nkx (cdata iom)) := by
    unfold energy
    refine sum_congr rfl fun q _ => ?_
    rw [normSq_mul, map_prod, prod_congr rfl fun l _ => factor_normSq _ _ _ _ q, prod_const_one, one_mul]
  rw [h1, energy_dft hn (Or.inr rfl), h2, energy_dft hn (Or.inl rfl)]
  field_simp

/-- **C107**, depth zero: the wave field is the data. -/
theorem kwField_zero (p : KwPar) (hn : 0 < p.nkx) (cdata : ℕ → ℕ → ℂ) (iom : ℕ) {x : ℕ} (hx : x < p.nkx) :
    kwField p cdata iom 0 x = cdata iom x := by
  have rt := Fft.dft_roundtrip 1 (Or.inl rfl) p.nkx hn (cdata iom) x hx
  have hn' : (p.nkx : ℂ) ≠ 0 := by exact_mod_cast hn.ne'
  unfold kwField
  rw [div_eq_iff hn', mul_comm, ← rt]
  unfold Fft.dft
  exact sum_congr rfl fun q _ => by dsimp only; rw [range_zero, prod_empty, one_mul]

/-! ## The taper -/

/-- **C106**: the values of the taper lie in `(0,1]`. -/
theorem taper_bounds {lenx ntap : ℕ} (h : ntap ≤ lenx) :
    ∃ t, taper lenx ntap = some t ∧ ∀ k, 0 < t k ∧ t k ≤ 1 := by
  unfold taper
  refine Exists.elim (forNM_inv (n := ntap) (s := fun _ => (1 : ℝ)) (body := fun ix t =>
    if ix < lenx then some (fun k => if k = lenx - 1 - ix then Real.exp (-1 * (4 / 10 * ((ntap : ℝ) - ix) / ntap) ^ 2)
      else if k = ix then Real.exp (-1 * (4 / 10 * ((ntap : ℝ) - ix) / ntap) ^ 2) else t k) else none)
    (P := fun _ (t : ℕ → ℝ) => ∀ k, 0 < t k ∧ t k ≤ 1) (fun k => by norm_num) ?_) (fun t ht => ⟨t, ht.1, ht.2⟩)
  intro ix hix t ht
  rw [if_pos (by omega)]
  refine ⟨_, rfl, fun k => ?_⟩
  have hv : 0 < Real.exp (-1 * (4 / 10 * ((ntap : ℝ) - ix) / ntap) ^ 2) ∧ Real.exp (-1 * (4 / 10 * ((ntap : ℝ) - ix) / ntap) ^ 2) ≤ 1 := by
    refine ⟨Real.exp_pos _, ?_⟩
    rw [Real.exp_le_one_iff]
    nlinarith [sq_nonneg (4 / 10 * ((ntap : ℝ) - ix) / ntap)]
  split
  · exact hv
  · split
    · exact hv
    · exact ht k

/-! ## Defects -/

theorem dft_at_zero (sg : ℤ) (n : ℕ) (f : ℕ → ℂ) : Fft.dft sg n f 0 = ∑ q ∈ range n, f q := by
  unfold Fft.dft
  exact sum_congr rfl fun q _ => by simp

/-- When only the wavenumber zero propagates, a step adds a constant. -/
theorem depthStep_dc {nkx : ℕ} (hn : 1 < nkx) {k dkx : ℝ} (hk : 0 ≤ k) (hd : k < dkx) (dz : ℝ) (tap : ℕ → ℝ) (j1 j2 : Fft.Lib.Junk)
    (z : ℕ → ℂ) {s : Fft.Lib.St} (hs : Fft.Lib.Hist s) :
    ∃ z' s', depthStep nkx k dkx dz tap j1 j2 z s = some (z', s') ∧ Fft.Lib.Hist s' ∧ ∀ j < nkx,
      z' j = (z j + (Complex.exp ((k * dz : ℝ) * I) - 1) * (∑ i ∈ range nkx, z i) / nkx) * tap j := by
  have h0 : 0 < nkx := by omega
  have hn' : (nkx : ℂ) ≠ 0 := by exact_mod_cast h0.ne'
  obtain ⟨z', s', e, H, hz⟩ := depthStep_spec h0 k dkx dz tap j1 j2 z hs
  refine ⟨z', s', e, H, fun j hj => ?_⟩
  rw [hz j hj]
  have ht : toInt (k / dkx) = 0 := by
    unfold toInt
    have hdp : 0 < dkx := lt_of_le_of_lt hk hd
    rw [if_pos (div_nonneg hk hdp.le), Int.floor_eq_iff]
    constructor
    · push_cast; exact div_nonneg hk hdp.le
    · push_cast; rw [zero_add, div_lt_one hdp]; exact hd
  have hr : ∀ q ∈ range nkx, rotated nkx k dkx dz (min (toInt (k / dkx)) ((nkx / 2 : ℕ) : ℤ)) (Fft.dft 1 nkx z) q =
      Fft.dft 1 nkx z q + if q = 0 then (Complex.exp ((k * dz : ℝ) * I) - 1) * Fft.dft 1 nkx z 0 else 0 := by
    intro q hq
    have hq' := mem_range.1 hq
    unfold rotated
    by_cases hc : q = 0
    · rw [if_pos hc, if_pos hc, rot_eq, hc]; ring
    · rw [if_neg hc, if_neg hc, if_neg, add_zero]
      rw [ht]
      unfold absNo
      omega
  have hsum : Fft.dft (-1) nkx (rotated nkx k dkx dz (min (toInt (k / dkx)) ((nkx / 2 : ℕ) : ℤ)) (Fft.dft 1 nkx z)) j =
      nkx * z j + (Complex.exp ((k * dz : ℝ) * I) - 1) * ∑ i ∈ range nkx, z i := by
    have rt := Fft.dft_roundtrip 1 (Or.inl rfl) nkx h0 z j hj
    have d0 : Fft.dft 1 nkx z 0 = ∑ i ∈ range nkx, z i := by
      unfold Fft.dft
      exact sum_congr rfl fun i _ => by simp
    rw [← rt, ← d0]
    unfold Fft.dft at hr ⊢
    rw [sum_congr rfl fun q hq => by rw [hr q hq, add_mul], sum_add_distrib]
    congr 1
    rw [sum_eq_single 0]
    · simp
    · intro q _ hq; rw [if_neg hq, zero_mul]
    · intro h; exact absurd (mem_range.2 h0) h
  rw [hsum]
  push_cast
  field_simp

/-- A model of one trace and one layer, with one tapered sample on either side. -/
def leakPar (t : ℕ → ℝ) (buf : ℕ → ℕ → Fft.Lib.Junk × Fft.Lib.Junk) : KwPar where
  nxm := 1
  nkx := 3
  ntap := 1
  ndepth := 1
  nrec := 1
  dom := Real.pi / 4
  dkx := 2 * Real.pi / 3
  dz := 2
  velmod := fun _ => 1
  xi := fun _ => 0
  zi := fun _ => 1
  tap := t
  buf := buf

theorem leakPar_ok (t : ℕ → ℝ) (buf : ℕ → ℕ → Fft.Lib.Junk × Fft.Lib.Junk) : (leakPar t buf).Ok :=
  ⟨by simp [leakPar], by simp [leakPar], fun j _ => by simp [leakPar], fun _ => by simp [leakPar]⟩

theorem leakPar_k (t : ℕ → ℝ) (buf : ℕ → ℕ → Fft.Lib.Junk × Fft.Lib.Junk) (iom : ℕ) : (leakPar t buf).k iom 0 = iom * (Real.pi / 4) := by
  simp [KwPar.k, leakPar]

/-- **C107**: the padded samples are not cleared between frequencies.  With data at frequency 1 only, what is recorded at frequency 2 is
not zero. -/
theorem kwExtr_leak (buf : ℕ → ℕ → Fft.Lib.Junk × Fft.Lib.Junk) {s : Fft.Lib.St} (hs : Fft.Lib.Hist s) :
    ∃ t, taper 3 1 = some t ∧ ∃ st, kwExtr (leakPar t buf) (fun iom _ => if iom = 1 then 1 else 0) 1 2 s = some st ∧ st.cextr 2 0 ≠ 0 := by
  obtain ⟨t, et, ht⟩ := taper_bounds (lenx := 3) (ntap := 1) (by norm_num)
  refine ⟨t, et, ?_⟩
  have hpi := Real.pi_pos
  have c1 : Complex.exp ((((leakPar t buf).k 1 0 * 2 : ℝ) : ℂ) * I) = I := by
    rw [leakPar_k]
    push_cast
    rw [show (1 : ℂ) * (Real.pi / 4) * 2 * I = Real.pi / 2 * I by ring]
    exact Complex.exp_pi_div_two_mul_I
  have c2 : Complex.exp ((((leakPar t buf).k 2 0 * 2 : ℝ) : ℂ) * I) = -1 := by
    rw [leakPar_k]
    push_cast
    rw [show (2 : ℂ) * (Real.pi / 4) * 2 * I = Real.pi * I by ring]
    exact Complex.exp_pi_mul_I
  set cd : ℕ → ℕ → ℂ := fun iom _ => if iom = 1 then 1 else 0
  obtain ⟨st1, e1, H1, F1, -, -⟩ := freqStep_gen (leakPar_ok t buf) cd 1 (st := ⟨fun _ => 0, fun _ _ => 0, s⟩) hs
    (F := fun d z => (d = 0 → z 0 = 0 ∧ z 1 = 1 ∧ z 2 = 0) ∧ (d = 1 → z 0 = ((I - 1) / 3) * t 0 ∧ z 2 = ((I - 1) / 3) * t 2))
    (fun z hz => ⟨fun _ => ⟨by rw [hz]; simp [leakPar], by rw [hz]; simp [leakPar, cd], by rw [hz]; simp [leakPar]⟩, fun h => by omega⟩)
    (fun d hd z s hs hz => by
      have hd' : d = 0 := by simp [leakPar] at hd; exact hd
      subst hd'
      obtain ⟨z', s', e, H, h⟩ := depthStep_dc (nkx := 3) (by norm_num) (k := (leakPar t buf).k 1 0) (dkx := 2 * Real.pi / 3)
        (by rw [leakPar_k]; positivity) (by rw [leakPar_k]; push_cast; linarith) 2 t (buf 1 0).1 (buf 1 0).2 z hs
      refine ⟨z', s', e, H, fun h => by omega, fun _ => ?_⟩
      obtain ⟨a0, a1, a2⟩ := hz.1 rfl
      have h0 := h 0 (by norm_num)
      have h2 := h 2 (by norm_num)
      rw [c1] at h0 h2
      simp only [sum_range_succ, range_zero, sum_empty, a0, a1, a2] at h0 h2
      constructor
      · rw [h0]; push_cast; ring
      · rw [h2]; push_cast; ring)
  obtain ⟨b0, b2⟩ := F1.2 rfl
  obtain ⟨st2, e2, H2, -, hr, -⟩ := freqStep_gen (leakPar_ok t buf) cd 2 H1
    (F := fun d z => (d = 0 → z 0 = ((I - 1) / 3) * t 0 ∧ z 1 = 0 ∧ z 2 = ((I - 1) / 3) * t 2) ∧
      (d = 1 → z 1 = -2 * (I - 1) / 9 * (t 0 + t 2) * t 1))
    (fun z hz => ⟨fun _ => ⟨by rw [hz]; simp [leakPar]; exact b0, by rw [hz]; simp [leakPar, cd], by rw [hz]; simp [leakPar]; exact b2⟩,
      fun h => by omega⟩)
    (fun d hd z s hs hz => by
      have hd' : d = 0 := by simp [leakPar] at hd; exact hd
      subst hd'
      obtain ⟨z', s', e, H, h⟩ := depthStep_dc (nkx := 3) (by norm_num) (k := (leakPar t buf).k 2 0) (dkx := 2 * Real.pi / 3)
        (by rw [leakPar_k]; positivity) (by rw [leakPar_k]; push_cast; linarith) 2 t (buf 2 0).1 (buf 2 0).2 z hs
      refine ⟨z', s', e, H, fun h => by omega, fun _ => ?_⟩
      obtain ⟨a0, a1, a2⟩ := hz.1 rfl
      have h1 := h 1 (by norm_num)
      rw [c2] at h1
      simp only [sum_range_succ, range_zero, sum_empty, a0, a1, a2] at h1
      rw [h1]; push_cast; ring)
  obtain ⟨z, hz, hc⟩ := hr 0 (by simp [leakPar]) (by simp [leakPar])
  refine ⟨st2, ?_, ?_⟩
  · change ((some (⟨fun _ => 0, fun _ _ => 0, s⟩ : KwSt)).bind fun st => freqStep (leakPar t buf) cd 1 st).bind
      (fun st => freqStep (leakPar t buf) cd 2 st) = some st2
    rw [Option.bind_some, e1, Option.bind_some, e2]
  · rw [hc]
    show z 1 ≠ 0
    rw [hz.2 rfl]
    have hI : (I - 1 : ℂ) ≠ 0 := fun h => by have := congrArg Complex.re h; norm_num at this
    have h3 : ((t 0 + t 2 : ℝ) : ℂ) ≠ 0 := by exact_mod_cast (by linarith [ht 0, ht 2] : (0 : ℝ) < t 0 + t 2).ne'
    have h4 : ((t 1 : ℝ) : ℂ) ≠ 0 := by exact_mod_cast (ht 1).1.ne'
    push_cast at h3
    exact mul_ne_zero (mul_ne_zero (div_ne_zero (mul_ne_zero (by norm_num) hI) (by norm_num)) h3) h4

/-- A model of two traces and one layer. -/
def nyPar (buf : ℕ → ℕ → Fft.Lib.Junk × Fft.Lib.Junk) : KwPar where
  nxm := 2
  nkx := 2
  ntap := 0
  ndepth := 1
  nrec := 1
  dom := Real.sqrt 2
  dkx := 1
  dz := Real.pi
  velmod := fun _ => 1
  xi := fun _ => 0
  zi := fun _ => 1
  tap := fun _ => 1
  buf := buf

/-- **C107**: with an even number of wavenumbers a propagating wave of the Nyquist wavenumber is shifted twice: here it should have
changed its sign, and it is recorded as it was. -/
theorem kwExtr_nyquist (buf : ℕ → ℕ → Fft.Lib.Junk × Fft.Lib.Junk) {s : Fft.Lib.St} (hs : Fft.Lib.Hist s) :
    ∃ st, kwExtr (nyPar buf) (fun _ x => (-1) ^ x) 1 1 s = some st ∧ st.cextr 1 0 = 1 ∧
      kwField (nyPar buf) (fun _ x => (-1) ^ x) 1 1 0 = -1 := by
  have ok : (nyPar buf).Ok := ⟨by simp [nyPar], by simp [nyPar], fun j _ => by simp [nyPar], fun _ => by simp [nyPar]⟩
  obtain ⟨st, e, h⟩ := kwExtr_steps ok ⟨rfl, rfl⟩ (fun _ _ => rfl) (by simp [nyPar]) (Real.sqrt_nonneg _) (fun j _ => by simp [nyPar])
    (fun _ x => (-1) ^ x) 1 1 hs
  have hk : (nyPar buf).k 1 0 = Real.sqrt 2 := by simp [KwPar.k, nyPar]
  have hs2 : Real.sqrt 2 ^ 2 = 2 := Real.sq_sqrt (by norm_num)
  have hf : factor 2 (Real.sqrt 2) 1 Real.pi 1 = -1 := by
    unfold factor
    have ha : absNo 2 1 = 1 := rfl
    rw [ha, if_pos (by rw [Nat.cast_one, one_mul]; exact Real.one_le_sqrt.2 (by norm_num))]
    unfold phase
    rw [hs2, show (2 : ℝ) - ((1 : ℕ) * 1) ^ 2 = 1 by norm_num, Real.sqrt_one, one_mul]
    exact Complex.exp_pi_mul_I
  have d0 : Fft.dft 1 2 (fun x => (-1) ^ x) 0 = 0 := by simp [Fft.dft, sum_range_succ]
  have d1 : Fft.dft 1 2 (fun x => (-1) ^ x) 1 = 2 := by
    simp only [Fft.dft, sum_range_succ, range_zero, sum_empty]
    have : Complex.exp (((1 : ℤ) : ℂ) * (2 * Real.pi * I * (((1 : ℕ) : ℂ) * ((1 : ℕ) : ℂ)) / ((2 : ℕ) : ℂ))) = -1 := by
      push_cast
      rw [show (1 : ℂ) * (2 * Real.pi * I * (1 * 1) / 2) = Real.pi * I by ring]
      exact Complex.exp_pi_mul_I
    rw [this]
    simp
    norm_num
  have key : ∀ c : ℕ → ℂ, Fft.dft (-1) 2 (fun q => c q * Fft.dft 1 2 (fun x => (-1) ^ x) q) 0 / (2 : ℕ) = c 1 := by
    intro c
    have : Fft.dft (-1) 2 (fun q => c q * Fft.dft 1 2 (fun x => (-1) ^ x) q) 0 = c 1 * 2 := by
      have e : Fft.dft (-1) 2 (fun q => c q * Fft.dft 1 2 (fun x => (-1) ^ x) q) 0 =
          ∑ q ∈ range 2, c q * Fft.dft 1 2 (fun x => (-1) ^ x) q :=
        dft_at_zero _ _ _
      rw [e, sum_range_succ, sum_range_one, d0, d1, mul_zero, zero_add]
    rw [this]; push_cast; ring
  refine ⟨st, e, ?_, ?_⟩
  · have := h 0 (by norm_num) 0 (by simp [nyPar])
    refine this.trans ?_
    show Fft.dft (-1) 2 (fun q => (∏ l ∈ range 1, stepFactor 2 ((nyPar buf).k 1 l) 1 Real.pi q) * Fft.dft 1 2 (fun x => (-1) ^ x) q) 0 / (2 : ℕ) = 1
    rw [key, prod_range_one, hk]
    unfold stepFactor
    rw [if_pos rfl, hf]
    norm_num
  · show Fft.dft (-1) 2 (fun q => (∏ l ∈ range 1, factor 2 ((nyPar buf).k 1 l) 1 Real.pi q) * Fft.dft 1 2 (fun x => (-1) ^ x) q) 0 / (2 : ℕ) = -1
    rw [key, prod_range_one, hk, hf]

/-! ## Non-vacuity -/

/-- Five traces, two layers, a receiver at each depth: `kwExtr_bounded` and `kwExtr_exact` apply. -/
example (j : Fft.Lib.Junk) : (⟨5, 5, 0, 2, 3, 1, 1, 1, fun _ => 1500, fun j => j, fun j => j, fun _ => 1, fun _ _ => (j, j)⟩ : KwPar).Ok :=
  ⟨by norm_num, by norm_num, fun j hj => by dsimp only at hj ⊢; omega, fun _ => by norm_num⟩

end

end Verif.Extrap

import Verif.Rtm.Props
import Verif.Extrap.Lsq

/-!
# Hilbert imaging (mode 5) and plane-wave imaging (mode 4) of `fdacrtmc`

Model of rtmImagingCondition.c:236-327 and of the places of the snapshots in mode 4
(extractMigrationSnapshots.c, PlaneWaveDecomposition.c).  The Fourier transforms of FFTW are exact
sums without normalisation, as its manual defines them.

C160 what the Hilbert image contains; C161 the plane-wave image and its snapshots.
-/

namespace Verif.Rtm
open Verif Extrap Finset

noncomputable section

/-! ## Model -/

/-- The taper array of rtmImagingCondition.c:246-253. -/
def tapArr (tap i : ℕ) : ℝ := if i = 0 then 0 else Real.sin (Real.pi / 2 * (i / tap)) ^ 2

/-- The filled work array, rtmImagingCondition.c:265-268 (and 272-275, 293-296, 300-303): three loops
over `[0,tap-1)`, `[tap-1,n-tap+1)` and the rest, or the plain copy. -/
def workArr (n tap : ℕ) (f : ℕ → ℝ) (i : ℕ) : ℝ :=
  if 1 < tap then
    (if i < tap - 1 then tapArr tap i * f i
     else if i < n - tap + 1 then f i else tapArr tap (n - 1 - i) * f i)
  else f i

/-- `fftw_execute_dft` forward, negative exponent, then `memset(&tmp[n/2+1],0,..)`:
rtmImagingCondition.c:269-270. -/
def fftMute (n : ℕ) (s : ℕ → ℝ) (k : ℕ) : ℂ :=
  if n / 2 + 1 ≤ k then 0 else ∑ i ∈ range n, (s i : ℂ) * ex n (-(k : ℤ)) i

/-- The backward transform, rtmImagingCondition.c:271. -/
def ifft (n : ℕ) (t : ℕ → ℂ) (j : ℕ) : ℂ := ∑ k ∈ range n, t k * ex n k j

/-- The work array after the three steps. -/
def hilb (n tap : ℕ) (f : ℕ → ℝ) : ℕ → ℂ := ifft n (fftMute n (workArr n tap f))

/-- Up-down imaging, rtmImagingCondition.c:256-286: one transform per column.  Simplification: the reads
of `farr` and `wav->tzz` are those of mode 1 (in bounds by C157) and not checked again. -/
def hilbertUpDown (g : Grid) (m : Mig ℝ) (tap : ℕ) (w : Wav ℝ) (p : Buf ℝ) (d : Buf ℝ) : Option (Buf ℝ) :=
  overImage m (fun ix iz d => (d.rd (pt m ix iz)).bind fun v =>
    d.wr (pt m ix iz) (v +
      (hilb m.nz tap (fun j => p.val (pt m ix j)) iz *
       hilb m.nz tap (fun j => w.tzz.val (pos g m g.ioPx g.ioPz ix j)) iz).re)) d

/-- Left-right imaging, rtmImagingCondition.c:287-323: one transform per row; the arrays `S` and `R` have
`nx` elements and are read at `iz` (line 319). -/
def hilbertLeftRight (g : Grid) (m : Mig ℝ) (tap : ℕ) (w : Wav ℝ) (p : Buf ℝ) (d : Buf ℝ) : Option (Buf ℝ) :=
  forNM m.nz (fun iz d => forNM m.nx (fun ix d =>
    if iz < m.nx then (d.rd (pt m ix iz)).bind fun v =>
      d.wr (pt m ix iz) (v +
        (hilb m.nx tap (fun j => p.val (pt m j iz)) iz *
         hilb m.nx tap (fun j => w.tzz.val (pos g m g.ioPx g.ioPz j iz)) iz).re)
    else none) d) d

/-- The imaged steps of a run in their order: source field and receiver field of each.  As in mode 1
the snapshot that `mig->it--` finds is the one of the same step. -/
def hilbertRun (g : Grid) (m : Mig ℝ) (tap : ℕ) (l : List (Wav ℝ × Wav ℝ)) (d : Buf ℝ) : Option (Buf ℝ) :=
  l.foldlM (fun d sr => (storeP g m sr.1).bind fun p =>
    if m.orient = 2 then hilbertLeftRight g m tap sr.2 p d else hilbertUpDown g m tap sr.2 p d) d

/-- writeMigImage.c:31: the factor of the written image. -/
def written (m : Mig ℝ) (v : ℝ) : ℝ := v * (2 * m.dt / (m.nz * m.nz))

/-! ## C160: the Hilbert image -/

namespace Spec

/-- A superposition of cosines along an axis of `n` samples: (amplitude, wavenumber, phase). -/
def waves (n : ℕ) (l : List (ℝ × ℕ × ℝ)) (j : ℕ) : ℝ :=
  (l.map fun c => c.1 * Real.cos (2 * Real.pi * c.2.1 * j / n + c.2.2)).sum

end Spec

theorem ex_cos {n : ℕ} (a : ℤ) (φ : ℝ) (j : ℕ) :
    ((Real.cos (2 * Real.pi * a * j / n + φ) : ℝ) : ℂ) =
      (Complex.exp (φ * Complex.I) * ex n a j + Complex.exp (-φ * Complex.I) * ex n (-a) j) / 2 := by
  rw [Complex.ofReal_cos, Complex.cos]
  unfold ex
  rw [← Complex.exp_add, ← Complex.exp_add]
  congr 3
  · push_cast; ring
  · push_cast; ring

theorem fftMute_cos {n : ℕ} {a : ℕ} (h0 : 0 < a) (h1 : 2 * a < n) (A φ : ℝ) (k : ℕ) (hk : k < n / 2 + 1) :
    ∑ i ∈ range n, ((A * Real.cos (2 * Real.pi * a * i / n + φ) : ℝ) : ℂ) * ex n (-(k : ℤ)) i =
      if k = a then n * (A / 2 * Complex.exp (φ * Complex.I)) else 0 := by
  have e : ∀ i ∈ range n, ((A * Real.cos (2 * Real.pi * a * i / n + φ) : ℝ) : ℂ) * ex n (-(k : ℤ)) i =
      A / 2 * Complex.exp (φ * Complex.I) * ex n ((a : ℤ) + -(k : ℤ)) i +
      A / 2 * Complex.exp (-φ * Complex.I) * ex n (-(a : ℤ) + -(k : ℤ)) i := by
    intro i _
    have := ex_cos (n := n) (a : ℤ) φ i
    rw [show ((a : ℤ) : ℝ) = (a : ℝ) by push_cast; rfl] at this
    rw [Complex.ofReal_mul, this, ex_add, ex_add]; ring
  rw [sum_congr rfl e, sum_add_distrib, ← mul_sum, ← mul_sum]
  rw [ex_orth (-(a : ℤ) + -(k : ℤ)) (by omega) (by omega) (by omega), mul_zero, add_zero]
  split_ifs with h
  · subst h
    rw [add_neg_cancel]
    simp [ex_zero]; ring
  · rw [ex_orth ((a : ℤ) + -(k : ℤ)) (by omega) (by omega) (by omega), mul_zero]

/-- Without taper the transform of a superposition of cosines is the analytic signal times `n/2`. -/
theorem hilb_waves {n tap : ℕ} (ht : tap ≤ 1) (l : List (ℝ × ℕ × ℝ)) (hl : ∀ c ∈ l, 0 < c.2.1 ∧ 2 * c.2.1 < n)
    (f : ℕ → ℝ) (hf : ∀ j, j < n → f j = Spec.waves n l j) (j : ℕ) :
    hilb n tap f j = (l.map fun c => (n : ℂ) * (c.1 / 2) *
      Complex.exp ((2 * Real.pi * c.2.1 * j / n + c.2.2 : ℝ) * Complex.I)).sum := by
  have hw : ∀ k, fftMute n (workArr n tap f) k =
      (l.map fun c => if k = c.2.1 then (n : ℂ) * (c.1 / 2 * Complex.exp (c.2.2 * Complex.I)) else 0).sum := by
    intro k
    unfold fftMute
    split_ifs with hk
    · symm
      apply List.sum_eq_zero
      intro x hx
      rw [List.mem_map] at hx
      obtain ⟨c, hc, rfl⟩ := hx
      have := hl c hc
      rw [if_neg (by omega)]
    · have e : ∀ i ∈ range n, ((workArr n tap f i : ℝ) : ℂ) * ex n (-(k : ℤ)) i =
          (l.map fun c => ((c.1 * Real.cos (2 * Real.pi * c.2.1 * i / n + c.2.2) : ℝ) : ℂ) * ex n (-(k : ℤ)) i).sum := by
        intro i hi
        have h1 : workArr n tap f i = f i := by unfold workArr; rw [if_neg (by omega)]
        rw [h1, hf i (mem_range.mp hi)]
        unfold Spec.waves
        rw [List.sum_map_mul_right]
        congr 1
        rw [← Complex.ofRealHom_eq_coe, map_list_sum, List.map_map]; rfl
      rw [sum_congr rfl e]
      clear e hf
      induction l with
      | nil => simp
      | cons c l ih =>
        simp only [List.map_cons, List.sum_cons, sum_add_distrib]
        rw [ih (fun c hc => hl c (by simp [hc])),
          fftMute_cos (hl c (by simp)).1 (hl c (by simp)).2 c.1 c.2.2 k (by omega)]
  unfold hilb ifft
  rw [sum_congr rfl (fun k _ => by rw [hw k])]
  clear hw hf
  induction l with
  | nil => simp
  | cons c l ih =>
    simp only [List.map_cons, List.sum_cons, add_mul, sum_add_distrib]
    rw [ih (fun c hc => hl c (by simp [hc]))]
    congr 1
    have hc := hl c (by simp)
    rw [sum_eq_single c.2.1 (fun b _ hb => by rw [if_neg hb, zero_mul])
      (fun h => absurd (mem_range.mpr (by omega)) h), if_pos rfl]
    unfold ex
    rw [mul_assoc, mul_assoc, ← Complex.exp_add, ← mul_assoc]
    rw [mul_assoc (n : ℂ), mul_assoc (n : ℂ)]
    congr 3
    push_cast; ring

theorem re_list_sum (l : List ℂ) : l.sum.re = (l.map Complex.re).sum := by
  induction l with
  | nil => simp
  | cons a l ih => simp [ih]

section
variable {nx nz iorder ntap : ℕ} {top bot lef rig : Bool}

/-- A sample of one up-down step. -/
theorem hilbertUpDown_spec {g : Grid} {m : Mig ℝ} (tap : ℕ) (w : Wav ℝ) (p d : Buf ℝ) (hd : d.size = m.nx * m.nz) :
    ∃ d', hilbertUpDown g m tap w p d = some d' ∧ d'.size = m.nx * m.nz ∧
      ∀ ix, ix < m.nx → ∀ iz, iz < m.nz → d'.val (pt m ix iz) = d.val (pt m ix iz) +
      (hilb m.nz tap (fun j => p.val (pt m ix j)) iz *
       hilb m.nz tap (fun j => w.tzz.val (pos g m g.ioPx g.ioPz ix j)) iz).re :=
  overImage_spec (u := fun ix iz v => v + (hilb m.nz tap (fun j => p.val (pt m ix j)) iz *
       hilb m.nz tap (fun j => w.tzz.val (pos g m g.ioPx g.ioPz ix j)) iz).re)
    (fun ix hx iz hz => PW.upd (pt_ok hx hz) _) d hd

/-- **C160.** Hilbert imaging, up-down, no taper.  For any model, image grid and sequence of imaged
steps whose wavefields are, along the columns of the image, arbitrary superpositions of cosines with
wavenumbers strictly between zero and Nyquist, the written image holds for every pair of a source
and a receiver wavenumber `a`, `b` exactly the part with wavenumber `a+b`, with half the product of the
amplitudes; the other half of the conventional image, the low wavenumbers `a-b`
(`conventional_cosines`), is removed. -/
theorem hilbert_updown (ho : 2 ≤ iorder) (m : Mig ℝ) (hori : m.orient = 1) (hon : m.On nx nz) {tap : ℕ} (ht : tap ≤ 1)
    (l : List ((Wav ℝ × Wav ℝ) × (ℕ → List (ℝ × ℕ × ℝ)) × (ℕ → List (ℝ × ℕ × ℝ))))
    (hsz : ∀ e ∈ l, Sized (grid nx nz iorder ntap top bot lef rig) e.1.1)
    (hS : ∀ e ∈ l, ∀ ix, ix < m.nx → (∀ c ∈ e.2.1 ix, 0 < c.2.1 ∧ 2 * c.2.1 < m.nz) ∧ ∀ j, j < m.nz →
      Spec.p (grid nx nz iorder ntap top bot lef rig) e.1.1 (m.x1 + ix * m.skipdx) (m.z1 + j * m.skipdz) =
        Spec.waves m.nz (e.2.1 ix) j)
    (hR : ∀ e ∈ l, ∀ ix, ix < m.nx → (∀ c ∈ e.2.2 ix, 0 < c.2.1 ∧ 2 * c.2.1 < m.nz) ∧ ∀ j, j < m.nz →
      Spec.p (grid nx nz iorder ntap top bot lef rig) e.1.2 (m.x1 + ix * m.skipdx) (m.z1 + j * m.skipdz) =
        Spec.waves m.nz (e.2.2 ix) j) :
    ∃ d, hilbertRun (grid nx nz iorder ntap top bot lef rig) m tap (l.map (·.1)) ⟨m.nx * m.nz, fun _ => 0⟩ = some d ∧
      ∀ ix, ix < m.nx → ∀ iz, iz < m.nz → written m (d.val ((ix * m.nz + iz : ℕ) : Int)) =
        (l.map fun e => ((e.2.1 ix).map fun s => ((e.2.2 ix).map fun r =>
          m.dt * (s.1 * r.1 / 2 * Real.cos (2 * Real.pi * ((s.2.1 + r.2.1 : ℕ) : ℝ) * iz / m.nz + (s.2.2 + r.2.2)))).sum).sum).sum := by
  set g := grid nx nz iorder ntap top bot lef rig with hg
  have hin : Inside g m := inside_grid ho hon
  have hpos : ∀ (w : Wav ℝ) ix j, w.tzz.val (pos g m g.ioPx g.ioPz ix j) =
      Spec.p g w (m.x1 + ix * m.skipdx) (m.z1 + j * m.skipdz) :=
    fun w ix j => (gain_values (m := m) w w ix j (io_grid ho)).2.2.1
  have key : ∀ (d0 : Buf ℝ), d0.size = m.nx * m.nz →
      ∃ d, hilbertRun g m tap (l.map (·.1)) d0 = some d ∧ ∀ ix, ix < m.nx → ∀ iz, iz < m.nz →
        d.val (pt m ix iz) = d0.val (pt m ix iz) + (l.map fun e => (hilb m.nz tap
          (fun j => Spec.p g e.1.1 (m.x1 + ix * m.skipdx) (m.z1 + j * m.skipdz)) iz *
          hilb m.nz tap (fun j => Spec.p g e.1.2 (m.x1 + ix * m.skipdx) (m.z1 + j * m.skipdz)) iz).re).sum := by
    clear hS hR
    induction l with
    | nil => intro d0 _; exact ⟨d0, rfl, fun _ _ _ _ => by simp⟩
    | cons e l ih =>
      intro d0 hd0
      obtain ⟨p, p1, p2, p3⟩ := storeP_spec hin (hsz e (by simp))
      obtain ⟨d1, e1, e2, e3⟩ := hilbertUpDown_spec (g := g) (m := m) tap e.1.2 p d0 hd0
      obtain ⟨d, f1, f2⟩ := ih (fun x hx => hsz x (by simp [hx])) d1 e2
      refine ⟨d, ?_, fun ix hx iz hz => ?_⟩
      · unfold hilbertRun at f1 ⊢
        have hne : ¬ m.orient = 2 := by omega
        rw [List.map_cons, List.foldlM_cons, p1]
        simp only [Option.bind_some, if_neg hne] at f1 ⊢
        rw [e1]
        exact f1
      · rw [f2 ix hx iz hz, e3 ix hx iz hz, List.map_cons, List.sum_cons, add_assoc]
        congr 3
        · congr 1
          · unfold hilb ifft
            apply sum_congr rfl
            intro k _
            congr 1
            unfold fftMute
            split_ifs
            · rfl
            · apply sum_congr rfl
              intro i hi
              have hi := mem_range.mp hi
              congr 2
              unfold workArr
              dsimp only
              rw [p3 ix hx i hi, hpos]
          · congr 1
            funext j; rw [hpos]
  obtain ⟨d, e1, e2⟩ := key ⟨m.nx * m.nz, fun _ => 0⟩ rfl
  refine ⟨d, e1, fun ix hx iz hz => ?_⟩
  rw [show (((ix * m.nz + iz : ℕ)) : Int) = pt m ix iz from rfl, e2 ix hx iz hz, zero_add]
  unfold written
  rw [← List.sum_map_mul_right]
  congr 1
  apply List.map_congr_left
  intro e he
  have hnz : (m.nz : ℝ) ≠ 0 := by have : 0 < m.nz := by omega
                                  exact_mod_cast this.ne'
  rw [hilb_waves ht (e.2.1 ix) (hS e he ix hx).1 _ (fun j hj => (hS e he ix hx).2 j hj),
    hilb_waves ht (e.2.2 ix) (hR e he ix hx).1 _ (fun j hj => (hR e he ix hx).2 j hj)]
  rw [← List.sum_map_mul_right, re_list_sum, List.map_map, ← List.sum_map_mul_right]
  congr 1
  apply List.map_congr_left
  intro s _
  simp only [Function.comp]
  rw [← List.sum_map_mul_left, re_list_sum, List.map_map, ← List.sum_map_mul_right]
  congr 1
  apply List.map_congr_left
  intro r _
  simp only [Function.comp]
  rw [show (m.nz : ℂ) * ((s.1 : ℂ) / 2) * Complex.exp ((2 * Real.pi * s.2.1 * iz / m.nz + s.2.2 : ℝ) * Complex.I) *
      ((m.nz : ℂ) * ((r.1 : ℂ) / 2) * Complex.exp ((2 * Real.pi * r.2.1 * iz / m.nz + r.2.2 : ℝ) * Complex.I)) =
      ((m.nz * m.nz * (s.1 * r.1 / 4) : ℝ) : ℂ) *
        Complex.exp ((2 * Real.pi * ((s.2.1 + r.2.1 : ℕ) : ℝ) * iz / m.nz + (s.2.2 + r.2.2) : ℝ) * Complex.I) by
    rw [show ∀ a b c d : ℂ, a * b * (c * d) = a * c * (b * d) by intros; ring, ← Complex.exp_add]
    congr 1
    · push_cast; ring
    · congr 1; push_cast; ring]
  rw [Complex.re_ofReal_mul, Complex.exp_ofReal_mul_I_re]
  field_simp
  ring

/-- The conventional product of two cosines: the half that Hilbert imaging keeps and the half it removes. -/
theorem conventional_cosines (A B φ ψ : ℝ) (a b n j : ℕ) :
    Spec.waves n [(A, a, φ)] j * Spec.waves n [(B, b, ψ)] j =
      A * B / 2 * Real.cos (2 * Real.pi * ((a + b : ℕ) : ℝ) * j / n + (φ + ψ)) +
      A * B / 2 * Real.cos (2 * Real.pi * ((a : ℝ) - b) * j / n + (φ - ψ)) := by
  simp only [Spec.waves, List.map_cons, List.map_nil, List.sum_cons, List.sum_nil, add_zero]
  rw [show 2 * Real.pi * ((a + b : ℕ) : ℝ) * j / n + (φ + ψ) =
      (2 * Real.pi * a * j / n + φ) + (2 * Real.pi * b * j / n + ψ) by push_cast; ring,
    show 2 * Real.pi * ((a : ℝ) - b) * j / n + (φ - ψ) =
      (2 * Real.pi * a * j / n + φ) - (2 * Real.pi * b * j / n + ψ) by ring]
  generalize 2 * Real.pi * a * j / n + φ = x
  generalize 2 * Real.pi * b * j / n + ψ = y
  rw [Real.cos_add, Real.cos_sub]
  ring

/-- **C160 (defect).** Left-right Hilbert imaging reads its row arrays at the depth index: with more
depth points than lateral points it reads outside them, for every input. -/
theorem hilbert_leftright_overrun (g : Grid) (m : Mig ℝ) (tap : ℕ) (w : Wav ℝ) (p d : Buf ℝ) (h0 : 0 < m.nx)
    (h : m.nx < m.nz) : hilbertLeftRight g m tap w p d = none := by
  unfold hilbertLeftRight
  have key : ∀ n, m.nx < n → forNM n (fun iz d => forNM m.nx (fun ix d =>
    if iz < m.nx then (d.rd (pt m ix iz)).bind fun v =>
      d.wr (pt m ix iz) (v +
        (hilb m.nx tap (fun j => p.val (pt m j iz)) iz *
         hilb m.nx tap (fun j => w.tzz.val (pos g m g.ioPx g.ioPz j iz)) iz).re)
    else none) d) d = none := by
    intro n hn
    induction n with
    | zero => omega
    | succ n ih =>
      rw [forNM_succ]
      by_cases h1 : m.nx < n
      · rw [ih h1]; rfl
      · obtain rfl : n = m.nx := by omega
        cases hq : forNM m.nx _ d with
        | none => rfl
        | some q =>
          obtain ⟨k, hk⟩ : ∃ k, m.nx = k + 1 := ⟨m.nx - 1, by omega⟩
          simp only [Option.bind_some]
          have : ∀ k, forNM (k + 1) (fun ix d => if m.nx < m.nx then (d.rd (pt m ix m.nx)).bind fun v =>
              d.wr (pt m ix m.nx) (v +
              (hilb m.nx tap (fun j => p.val (pt m j m.nx)) m.nx *
              hilb m.nx tap (fun j => w.tzz.val (pos g m g.ioPx g.ioPz j m.nx)) m.nx).re) else none) q = none := by
            intro k
            induction k with
            | zero => simp [forNM_succ]
            | succ k ih => rw [forNM_succ, ih]; rfl
          have h2 := this k
          rw [← hk] at h2
          exact h2
  exact key m.nz h

/-- **C160 (defect).** And when it stays inside them, what it adds to the image is the same at every
lateral position: the image of left-right Hilbert imaging does not depend on `x`, for any wavefields. -/
theorem hilbert_leftright_flat (g : Grid) (m : Mig ℝ) (tap : ℕ) (w : Wav ℝ) (p d : Buf ℝ) (h : m.nz ≤ m.nx)
    (hd : d.size = m.nx * m.nz) :
    ∃ d', hilbertLeftRight g m tap w p d = some d' ∧ ∀ ix, ix < m.nx → ∀ ix', ix' < m.nx → ∀ iz, iz < m.nz →
      d'.val (pt m ix iz) - d.val (pt m ix iz) = d'.val (pt m ix' iz) - d.val (pt m ix' iz) := by
  let c : ℕ → ℝ := fun iz => (hilb m.nx tap (fun j => p.val (pt m j iz)) iz *
         hilb m.nx tap (fun j => w.tzz.val (pos g m g.ioPx g.ioPz j iz)) iz).re
  have key : PW (m.nx * m.nz) (fun d => hilbertLeftRight g m tap w p d)
      (fun x v => forN m.nz (fun iz v => forN m.nx (fun ix v => if x = pt m ix iz then v + c iz else v) v) v) := by
    refine PW.forNM (g := fun iz x v => forN m.nx (fun ix v => if x = pt m ix iz then v + c iz else v) v)
      fun iz hz => PW.forNM (g := fun ix x v => if x = pt m ix iz then v + c iz else v) fun ix hx => ?_
    intro d hd
    dsimp only
    rw [if_pos (by omega)]
    exact PW.upd (pt_ok hx hz) (fun v => v + c iz) d hd
  obtain ⟨d', e1, -, e3⟩ := key d hd
  have hv : ∀ ix, ix < m.nx → ∀ iz, iz < m.nz → d'.val (pt m ix iz) = d.val (pt m ix iz) + c iz := by
    intro ix hx iz hz
    rw [e3]
    show forN _ _ _ = _
    rw [forN_single iz hz, forN_single ix hx]
    · simp
    · intro k hk hne v
      have : pt m ix iz ≠ pt m k iz := fun h => hne (pt_inj hz hz h).1.symm
      simp [this]
    · intro k hk hne v
      apply forN_noop
      intro j hj v
      have : pt m ix iz ≠ pt m j k := fun h => hne (pt_inj hz hk h).2.symm
      simp [this]
  refine ⟨d', e1, fun ix hx ix' hx' iz hz => ?_⟩
  rw [hv ix hx iz hz, hv ix' hx' iz hz]
  ring

end

end

/-! ## C161: the snapshots of plane-wave imaging (mode 4) -/

section
variable {K : Type} [Field K] [LinearOrder K]

/-- Both loops of a shot in mode 4: the forward loop (fdacrtmc.c:401-477) and the backward loop
(fdacrtmc.c:542-609), whose "imaging" only stores the receiver field (rtmImagingCondition.c:231-235);
`mig.wav` has `2*mig.nt` entries (fdacrtmc.c:332). -/
def planeStore (g : Grid) (m : Mig K) (h : Shot K) (s : St K) : Option (St K) :=
  (forNM h.nt (fun it s => if it % m.skipdt = 0 then extract g m (2 * migNt h.nt m.skipdt) (h.fw it) s else some s)
    { s with it := 0 }).bind fun s =>
  forNM h.nt (fun j s => if (h.nt - 1 - j) % m.skipdt = 0 then
    extract g m (2 * migNt h.nt m.skipdt) (h.bw (h.nt - 1 - j)) s else some s) s

/-- PlaneWaveDecomposition.c:161: the entry that is used as receiver field of sample `it`. -/
def backSlot (nt skipdt it : ℕ) : ℕ := 2 * migNt nt skipdt - 1 - it

/-- PlaneWaveDecomposition.c:28-33 and 190-191: the rows `[first, first+count)` of the `nt` rows of
`Back` that `memset` clears, `none` outside the array.  `if(!mig->nt%2)` is `(!mig->nt)%2`, true for
`mig->nt=0` only. -/
def muteRows (nt : ℕ) : Option (ℕ × ℕ) :=
  let first := if nt = 0 then nt / 2 else nt / 2 + 1
  let count := if nt = 0 then nt / 2 + 1 else nt / 2
  if first + count ≤ nt then some (first, count) else none

theorem store_step {g : Grid} {m : Mig K} (hin : Inside g m) (hmode : m.mode = 4) {a : Wav K} (ha : Sized g a) :
    ∃ e, snapshot g m a noSnap = some e ∧ e.vx = none ∧ e.vz = none ∧ ∃ b, e.tzz = some b ∧
      ∀ ix, ix < m.nx → ∀ iz, iz < m.nz → b.val (pt m ix iz) = a.tzz.val (pos g m g.ioPx g.ioPz ix iz) := by
  obtain ⟨b, b1, -, b3⟩ := storeP_spec hin ha
  exact ⟨⟨some b, none, none⟩, by simp [snapshot, hmode, b1], rfl, rfl, b, rfl, b3⟩

theorem extract_ok {g : Grid} {m : Mig K} {cap : ℕ} {a : Wav K} {s : St K} {e : Snap K}
    (hc : s.it < cap) (hw : s.wav s.it = noSnap) (he : snapshot g m a noSnap = some e) :
    extract g m cap a s = some { s with it := s.it + 1, wav := fun k => if k = s.it then e else s.wav k } := by
  unfold extract
  rw [if_neg (by simp [hc]), hw, he]; rfl

section
variable {g : Grid} {m : Mig K} (hin : Inside g m) (hmode : m.mode = 4) (hs : 0 < m.skipdt)
include hin hmode hs

theorem plane_forward {h : Shot K} (hh : h.Sized g) (s : St K) (h0 : s.it = 0) (hw : ∀ k, s.wav k = noSnap)
    (n : ℕ) (hn : n ≤ h.nt) :
    ∃ s', forNM n (fun it s => if it % m.skipdt = 0 then extract g m (2 * migNt h.nt m.skipdt) (h.fw it) s else some s) s
      = some s' ∧ s'.it = cnt m.skipdt n ∧
      (∀ k, k < cnt m.skipdt n → snapshot g m (h.fw (k * m.skipdt)) noSnap = some (s'.wav k)) ∧
      ∀ k, cnt m.skipdt n ≤ k → s'.wav k = noSnap := by
  induction n with
  | zero =>
    refine ⟨s, rfl, by rw [cnt_zero hs, h0], fun k hk => ?_, fun k _ => hw k⟩
    rw [cnt_zero hs] at hk; omega
  | succ n ih =>
    obtain ⟨s', e1, e4, e5, e6⟩ := ih (by omega)
    rw [forNM_succ, e1]
    have hcap := le_trans (cnt_mono (s := m.skipdt) (show n + 1 ≤ h.nt by omega)) (cnt_le_migNt hs h.nt)
    by_cases hm : n % m.skipdt = 0
    · obtain ⟨c1, c2⟩ := cnt_hit hs hm
      obtain ⟨e, f1, -⟩ := store_step hin hmode (hh n (by omega)).1
      refine ⟨{ s' with it := s'.it + 1, wav := fun k => if k = s'.it then e else s'.wav k }, ?_, ?_, ?_, ?_⟩
      · simp only [Option.bind_some, hm, if_true]
        exact extract_ok (by omega) (e6 _ (by omega)) f1
      · simp only [e4, c1]
      · intro k hk
        by_cases hk' : k = s'.it
        · subst hk'
          simp only [if_true]
          rw [e4, c2, f1]
        · simp only [if_neg hk']
          exact e5 k (by omega)
      · intro k hk
        simp only
        rw [if_neg (by omega)]
        exact e6 k (by omega)
    · have c := cnt_miss hs hm
      refine ⟨s', by simp [hm], by rw [c, e4], fun k hk => e5 k (by omega), fun k hk => e6 k (by omega)⟩

theorem plane_backward {h : Shot K} (hh : h.Sized g) (s : St K) (h0 : s.it = cnt m.skipdt h.nt)
    (hw : ∀ k, s.it ≤ k → s.wav k = noSnap) (n : ℕ) (hn : n ≤ h.nt) :
    ∃ s', forNM n (fun j s => if (h.nt - 1 - j) % m.skipdt = 0 then
        extract g m (2 * migNt h.nt m.skipdt) (h.bw (h.nt - 1 - j)) s else some s) s = some s' ∧
      s'.it + cnt m.skipdt (h.nt - n) = 2 * cnt m.skipdt h.nt ∧
      (∀ k, k < cnt m.skipdt h.nt → s'.wav k = s.wav k) ∧
      (∀ k, cnt m.skipdt (h.nt - n) ≤ k → k < cnt m.skipdt h.nt →
        snapshot g m (h.bw (k * m.skipdt)) noSnap = some (s'.wav (2 * cnt m.skipdt h.nt - 1 - k))) ∧
      ∀ k, s'.it ≤ k → s'.wav k = noSnap := by
  induction n with
  | zero => exact ⟨s, rfl, by rw [h0, Nat.sub_zero]; omega, fun _ _ => rfl, fun k h1 h2 => by rw [Nat.sub_zero] at h1; omega, hw⟩
  | succ n ih =>
    obtain ⟨s', e1, e2, e3, e4, e5⟩ := ih (by omega)
    rw [forNM_succ, e1]
    obtain ⟨t, ht⟩ : ∃ t, h.nt - n = t + 1 := ⟨h.nt - n - 1, by omega⟩
    have ht' : h.nt - 1 - n = t := by omega
    have ht'' : h.nt - (n + 1) = t := by omega
    have hmo := cnt_mono (s := m.skipdt) (show t + 1 ≤ h.nt by omega)
    have hle := cnt_le_migNt hs h.nt
    rw [ht] at e2 e4
    rw [ht'']
    simp only [Option.bind_some, ht']
    by_cases hm : t % m.skipdt = 0
    · obtain ⟨c1, c2⟩ := cnt_hit hs hm
      obtain ⟨e, f1, -⟩ := store_step hin hmode (hh t (by omega)).2
      refine ⟨{ s' with it := s'.it + 1, wav := fun k => if k = s'.it then e else s'.wav k }, ?_, ?_, ?_, ?_, ?_⟩
      · rw [if_pos hm]
        exact extract_ok (by omega) (e5 _ le_rfl) f1
      · simp only; omega
      · intro k hk
        simp only
        rw [if_neg (by omega)]
        exact e3 k hk
      · intro k hk1 hk2
        simp only
        by_cases hk : k = cnt m.skipdt t
        · rw [if_pos (by omega), hk, c2, f1]
        · rw [if_neg (by omega)]
          exact e4 k (by omega) hk2
      · intro k hk
        simp only at hk ⊢
        rw [if_neg (by omega)]
        exact e5 k (by omega)
    · have c := cnt_miss hs hm
      rw [c] at e2 e4
      exact ⟨s', by rw [if_neg hm], e2, e3, e4, e5⟩

end

variable {nx nz iorder ntap : ℕ} {top bot lef rig : Bool}

/-- Where the snapshots of a shot in mode 4 are: the `k`-th source snapshot at `k`, the receiver snapshot
of the same step at the mirrored place, nothing elsewhere. -/
theorem plane_snapshots {g : Grid} {m : Mig K} (hin : Inside g m) (hmode : m.mode = 4) (hs : 0 < m.skipdt) {h : Shot K}
    (hh : h.Sized g) (s : St K) (hw : ∀ k, s.wav k = noSnap) :
    ∃ s', planeStore g m h s = some s' ∧
      (∀ k, k < cnt m.skipdt h.nt → snapshot g m (h.fw (k * m.skipdt)) noSnap = some (s'.wav k) ∧
        snapshot g m (h.bw (k * m.skipdt)) noSnap = some (s'.wav (2 * cnt m.skipdt h.nt - 1 - k))) ∧
      ∀ k, 2 * cnt m.skipdt h.nt ≤ k → s'.wav k = noSnap := by
  obtain ⟨a, a1, a2, a3, a4⟩ := plane_forward hin hmode hs hh { s with it := 0 } rfl hw h.nt le_rfl
  obtain ⟨b, b1, b2, b3, b4, b5⟩ := plane_backward hin hmode hs hh a a2 (fun k hk => a4 k (by omega)) h.nt le_rfl
  rw [Nat.sub_self, cnt_zero hs] at b2 b4
  refine ⟨b, by simp [planeStore, a1, b1], fun k hk => ⟨?_, b4 k (Nat.zero_le _) hk⟩, fun k hk => b5 k (by omega)⟩
  rw [b3 k hk]; exact a3 k hk

/-- **C161 (part).** Plane-wave imaging, the snapshots.  If the image step is the modelling step or does not
divide the number of steps, then for every sample the entries of `mig.wav` that are used as source and as
receiver field hold the two pressures of the same time step at the image points.  What is missing: the
remaining case, `plane_misaligned`. -/
theorem plane_aligned_partial (ho : 2 ≤ iorder) (m : Mig K) (hmode : m.mode = 4) (hon : m.On nx nz) (hs : 0 < m.skipdt)
    (h : Shot K) (hh : h.Sized (grid nx nz iorder ntap top bot lef rig)) (hd : m.skipdt = 1 ∨ ¬ m.skipdt ∣ h.nt) :
    ∃ s, planeStore (grid nx nz iorder ntap top bot lef rig) m h (start m) = some s ∧
      ∀ it, it < migNt h.nt m.skipdt → it * m.skipdt < h.nt ∧
        ∃ F B, (s.wav it).tzz = some F ∧ (s.wav (backSlot h.nt m.skipdt it)).tzz = some B ∧
          ∀ ix, ix < m.nx → ∀ iz, iz < m.nz →
            F.val ((ix * m.nz + iz : ℕ) : Int) = Spec.p (grid nx nz iorder ntap top bot lef rig) (h.fw (it * m.skipdt))
              (m.x1 + ix * m.skipdx) (m.z1 + iz * m.skipdz) ∧
            B.val ((ix * m.nz + iz : ℕ) : Int) = Spec.p (grid nx nz iorder ntap top bot lef rig) (h.bw (it * m.skipdt))
              (m.x1 + ix * m.skipdx) (m.z1 + iz * m.skipdz) := by
  have hin : Inside (grid nx nz iorder ntap top bot lef rig) m := inside_grid ho hon
  obtain ⟨s, s1, s2, s3⟩ := plane_snapshots hin hmode hs hh (start m) (fun _ => rfl)
  have hK : migNt h.nt m.skipdt = cnt m.skipdt h.nt := by
    apply le_antisymm _ (cnt_le_migNt hs h.nt)
    unfold migNt
    split_ifs with h1
    · have hnd : ¬ m.skipdt ∣ h.nt := by rcases hd with h2 | h2; · omega
                                         · exact h2
      have hr : 0 < h.nt % m.skipdt := Nat.pos_of_ne_zero fun h2 => hnd (Nat.dvd_of_mod_eq_zero h2)
      have hdm := Nat.div_add_mod h.nt m.skipdt
      unfold cnt
      rw [Nat.le_div_iff_mul_le hs, Nat.add_mul, Nat.mul_comm]
      omega
    · obtain h2 : m.skipdt = 1 := by omega
      unfold cnt; rw [h2]; simp
  refine ⟨s, s1, fun it hit => ?_⟩
  rw [hK] at hit
  have hlt : it * m.skipdt < h.nt := by
    unfold cnt at hit
    have h1 : (it + 1) * m.skipdt ≤ h.nt + m.skipdt - 1 :=
      le_trans (Nat.mul_le_mul_right _ hit) (Nat.div_mul_le_self _ _)
    rw [Nat.add_mul] at h1
    omega
  obtain ⟨f1, f2⟩ := s2 it hit
  obtain ⟨e, e1, -, -, F, e2, e3⟩ := store_step hin hmode (hh _ hlt).1
  obtain ⟨e', e1', -, -, B, e2', e3'⟩ := store_step hin hmode (hh _ hlt).2
  have he : s.wav it = e := by rw [e1] at f1; exact (Option.some_injective _ f1).symm
  have he' : s.wav (backSlot h.nt m.skipdt it) = e' := by
    unfold backSlot; rw [hK]
    rw [e1'] at f2; exact (Option.some_injective _ f2).symm
  refine ⟨hlt, F, B, by rw [he, e2], by rw [he', e2'], fun ix hx iz hz => ?_⟩
  have g1 := (gain_values (m := m) (h.fw (it * m.skipdt)) (h.fw (it * m.skipdt)) ix iz
    (io_grid (nx := nx) (nz := nz) (ntap := ntap) (top := top) (bot := bot) (lef := lef) (rig := rig) ho)).2.2.1
  have g2 := (gain_values (m := m) (h.bw (it * m.skipdt)) (h.bw (it * m.skipdt)) ix iz
    (io_grid (nx := nx) (nz := nz) (ntap := ntap) (top := top) (bot := bot) (lef := lef) (rig := rig) ho)).2.2.1
  exact ⟨(e3 ix hx iz hz).trans g1, (e3' ix hx iz hz).trans g2⟩

/-- **C161 (defect).** If the image step is larger than the modelling step and divides the number of
steps, `mig.nt` is one more than the number of snapshots.  The receiver entries of samples 0 and 1 were
never stored, and every later sample `it` uses the receiver field of sample `it-2`. -/
theorem plane_misaligned (ho : 2 ≤ iorder) (m : Mig K) (hmode : m.mode = 4) (hon : m.On nx nz) (hs : 1 < m.skipdt)
    (h : Shot K) (hh : h.Sized (grid nx nz iorder ntap top bot lef rig)) (hd : m.skipdt ∣ h.nt) :
    ∃ s, planeStore (grid nx nz iorder ntap top bot lef rig) m h (start m) = some s ∧
      (s.wav (backSlot h.nt m.skipdt 0)).tzz = none ∧ (s.wav (backSlot h.nt m.skipdt 1)).tzz = none ∧
      ∀ it, 2 ≤ it → it < migNt h.nt m.skipdt →
        snapshot (grid nx nz iorder ntap top bot lef rig) m (h.bw ((it - 2) * m.skipdt)) ⟨none, none, none⟩ =
          some (s.wav (backSlot h.nt m.skipdt it)) := by
  have hin : Inside (grid nx nz iorder ntap top bot lef rig) m := inside_grid ho hon
  obtain ⟨s, s1, s2, s3⟩ := plane_snapshots hin hmode (by omega) hh (start m) (fun _ => rfl)
  have hK : migNt h.nt m.skipdt = cnt m.skipdt h.nt + 1 := by
    obtain ⟨q, hq⟩ := hd
    unfold migNt cnt
    rw [if_pos hs, hq, Nat.mul_div_cancel_left _ (by omega), Nat.add_sub_assoc (by omega), Nat.mul_add_div (by omega),
      Nat.div_eq_of_lt (by omega), Nat.add_zero]
  refine ⟨s, s1, ?_, ?_, fun it h2 hit => ?_⟩
  · rw [s3 _ (by unfold backSlot; omega)]
  · rw [s3 _ (by unfold backSlot; omega)]
  · have := (s2 (it - 2) (by omega)).2
    rw [this]
    congr 2
    unfold backSlot
    omega

/-- **C161 (defect).** The muting of the down-going receiver field clears rows inside the array only for an
odd number of snapshots; for every even number it writes one row beyond the end, because the test for an
even number is written `!mig->nt%2`. -/
theorem plane_mute_overrun (nt : ℕ) (h : 0 < nt) : (muteRows nt).isSome = true ↔ nt % 2 = 1 := by
  unfold muteRows
  simp only [if_neg (show ¬ nt = 0 by omega)]
  split_ifs with h1
  · simp only [Option.isSome_some, true_iff]; omega
  · simp only [Option.isSome_none, Bool.false_eq_true, false_iff]; omega

example : muteRows 7 = some (4, 3) ∧ muteRows 8 = none := by decide

/-- A shot of four steps, imaged at every second. -/
def h4 : Shot ℚ := ⟨4, fun it => w3 it, fun it => w3 (10 + it)⟩

theorem h4_sized : h4.Sized g3 := fun _ _ => ⟨⟨rfl, rfl, rfl⟩, ⟨rfl, rfl, rfl⟩⟩

example := plane_aligned_partial (nx := 3) (nz := 3) (ntap := 0) (top := false) (bot := false) (lef := false)
  (rig := false) (iorder := 4) (by norm_num) (m3 4 1) rfl (m3_on 4 1) (by simp [m3]) h3 h3_sized
  (Or.inr (by decide +kernel))

example := plane_misaligned (nx := 3) (nz := 3) (ntap := 0) (top := false) (bot := false) (lef := false)
  (rig := false) (iorder := 4) (by norm_num) (m3 4 1) rfl (m3_on 4 1) (by simp [m3]) h4 h4_sized
  (by decide +kernel)

end

/-- An image column of eight points in a model of one by eight; the two fields are cosines of wavenumber
1 and 2 along it. -/
noncomputable def gH : Grid := grid 1 8 4 0 false false false false
noncomputable def wH (a : ℕ) : Wav ℝ where
  tzz := ⟨44, fun i => Real.cos (2 * Real.pi * a * ((i : ℝ) - 12) / 8 + 0)⟩
  vx := ⟨44, fun _ => 0⟩
  vz := ⟨44, fun _ => 0⟩
noncomputable def mH : Mig ℝ := ⟨5, 1, false, 0, 0, 1, 8, 1, 1, 1, 1⟩

example := hilbert_updown (nx := 1) (nz := 8) (ntap := 0) (top := false) (bot := false) (lef := false)
  (rig := false) (iorder := 4) (by norm_num) mH rfl
  ⟨fun i hi => by have h : i < 1 := hi
                  show 0 + i * 1 < 1
                  omega,
   fun i hi => by have h : i < 8 := hi
                  show 0 + i * 1 < 8
                  omega⟩ (tap := 1) le_rfl
  [((wH 1, wH 2), fun _ => [(1, 1, 0)], fun _ => [(1, 2, 0)])]
  (by intro e he; simp only [List.mem_singleton] at he; subst he; exact ⟨rfl, rfl, rfl⟩)
  (by
    intro e he ix hx; simp only [List.mem_singleton] at he; subst he
    have hx : ix < 1 := hx
    obtain rfl : ix = 0 := by omega
    refine ⟨by intro c hc; simp only [List.mem_singleton] at hc; subst hc; simp [mH], fun j hj => ?_⟩
    simp only [Spec.p, Spec.waves, wH, mH, grid, List.map_cons, List.map_nil, List.sum_cons, List.sum_nil]
    push_cast; norm_num
    congr 1; ring)
  (by
    intro e he ix hx; simp only [List.mem_singleton] at he; subst he
    have hx : ix < 1 := hx
    obtain rfl : ix = 0 := by omega
    refine ⟨by intro c hc; simp only [List.mem_singleton] at hc; subst hc; simp [mH], fun j hj => ?_⟩
    simp only [Spec.p, Spec.waves, wH, mH, grid, List.map_cons, List.map_nil, List.sum_cons, List.sum_nil]
    push_cast; norm_num
    congr 1; ring)

example := hilbert_leftright_flat gH { mH with nx := 8 } 1 (wH 1) ⟨64, fun i => i⟩ ⟨64, fun _ => 0⟩ (le_refl 8) rfl

example := hilbert_leftright_overrun gH mH 1 (wH 1) ⟨8, fun i => i⟩ ⟨8, fun _ => 0⟩ (show 0 < 1 by norm_num)
  (show 1 < 8 by norm_num)

end Verif.Rtm

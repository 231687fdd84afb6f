import Verif.Marchenko.Synth
import Verif.Conv.Props
import Verif.Conv.Examples

/-!
# Imaging, amplitudes and the scale of the reflection data in the 3D program

marchenko3D/imaging3D.c, Cost3D.c, ampest3D.c and the parts of marchenko3D.c that use them.  Numbers are exact
(`ℝ`, `ℂ` for `float`, `complex`).  `convol` and `corr` of ampest3D.c are those of `fconv` without the factor `dt`
(`scl = 1.0/optn`), so they are `Conv.convol` and `Conv.corr` with 1 for `dt`; the shift is never used.
-/

namespace Verif.M3D
open Verif Verif.Marchenko Verif.Par Verif.Fft Verif.Fft.Lib Finset

noncomputable section

/-- Trace `i` of focal point `l` in a cube with `n` traces of `nt` samples. -/
def Spec.trc (n nt : ℕ) (d : ℕ → ℝ) (l i t : ℕ) : ℝ := d (l * (n * nt) + i * nt + t)

/-- The circular convolution of two traces at time zero: `∑ x(t) y(-t)`. -/
def Spec.lag0 (N : ℕ) (x y : ℕ → ℝ) : ℝ := ∑ t ∈ range N, x t * y ((N - t) % N)

theorem cconv_lag0 (N : ℕ) (x y : ℕ → ℝ) : Conv.cconv N x y 0 = Spec.lag0 N x y := by
  unfold Conv.cconv Spec.lag0
  refine sum_congr rfl fun s hs => ?_
  have hs := mem_range.mp hs
  rw [sum_eq_single ((N - s) % N)]
  · rw [if_pos]
    rcases Nat.eq_zero_or_pos s with rfl | h
    · simp
    · rw [Nat.mod_eq_of_lt (show N - s < N by omega), show s + (N - s) = N by omega, Nat.mod_self]
  · intro u hu hne
    have hu := mem_range.mp hu
    rw [if_neg]
    intro h
    apply hne
    rcases Nat.lt_or_ge (s + u) N with h1 | h1
    · rw [Nat.mod_eq_of_lt h1] at h
      rw [show s = 0 by omega, show u = 0 by omega]; simp
    · rw [Nat.mod_eq_sub_mod h1, Nat.mod_eq_of_lt (by omega)] at h
      rw [Nat.mod_eq_of_lt (by omega)]; omega
  · intro h
    exact absurd (mem_range.mpr (Nat.mod_lt _ (by omega))) h

/-- The energy of a trace. -/
def Spec.energy (N : ℕ) (x : ℕ → ℝ) : ℝ := ∑ t ∈ range N, x t * x t

theorem ccorr_energy (N : ℕ) (x : ℕ → ℝ) : Conv.ccorr N x x 0 = Spec.energy N x := by
  unfold Conv.ccorr Spec.energy
  refine sum_congr rfl fun u hu => ?_
  rw [Nat.add_zero, Nat.mod_eq_of_lt (mem_range.mp hu)]

/-! ## C169: the image -/

/-- Body of the loop over focal points, imaging3D.c:38-46; `conv` belongs to the thread and is reused.  `n` is
`nx*ny`.  `count` only appears in messages and is not modelled. -/
def imgBody (n nt Nfoc : ℕ) (dx dy dt : ℝ) (w : ℕ → Conv.Work) (Gmin f1plus : ℕ → ℝ) (l : ℕ)
    (s : (ℕ → ℝ) × (ℕ → ℝ) × St) : Option ((ℕ → ℝ) × (ℕ → ℝ) × St) :=
  (Conv.convol n nt (Nfoc * (n * nt) - l * (n * nt)) (n * nt) 1 false (w l) (fun m => Gmin (l * (n * nt) + m))
    (fun m => f1plus (l * (n * nt) + m)) s.2.1 s.2.2).map fun r =>
  (forN n (fun i im => aset im l (im l + r.1 (i * nt) * dx * dy * dt)) s.1, r.1, r.2)

/-- `imaging3D`, imaging3D.c:25-58, the focal points in any order `ls` (each writes only its own element of `Image`). -/
def imaging (n nt Nfoc : ℕ) (dx dy dt : ℝ) (w : ℕ → Conv.Work) (Gmin f1plus : ℕ → ℝ) (ls : List ℕ)
    (s : (ℕ → ℝ) × (ℕ → ℝ) × St) : Option ((ℕ → ℝ) × (ℕ → ℝ) × St) :=
  ls.foldlM (fun s l => imgBody n nt Nfoc dx dy dt w Gmin f1plus l s) s

theorem forN_addAt (n l : ℕ) (c : ℕ → ℝ) (im : ℕ → ℝ) :
    forN n (fun i im => aset im l (im l + c i)) im = aset im l (im l + ∑ i ∈ range n, c i) := by
  induction n with
  | zero => funext k; unfold aset; by_cases h : k = l <;> simp [h]
  | succ n ih =>
    rw [forN_succ, ih]
    funext k; unfold aset
    by_cases h : k = l
    · simp only [h, if_true, sum_range_succ]; ring
    · simp only [h, if_false]

theorem imgBody_spec {n nt Nfoc : ℕ} (h3 : 3 ≤ nt) (h16 : nt ≤ 16384) (dx dy dt : ℝ) (w : ℕ → Conv.Work)
    (Gmin f1plus : ℕ → ℝ) {l : ℕ} (hl : l < Nfoc) (s : (ℕ → ℝ) × (ℕ → ℝ) × St) (hs : Hist s.2.2) :
    ∃ s', imgBody n nt Nfoc dx dy dt w Gmin f1plus l s = some s' ∧ Hist s'.2.2 ∧ s'.1 = aset s.1 l (s.1 l +
      ∑ i ∈ range n, Spec.lag0 (optncr nt) (Conv.pad nt (Spec.trc n nt Gmin l i))
        (Conv.pad nt (Spec.trc n nt f1plus l i)) * dx * dy * dt) := by
  have hle : (l + 1) * (n * nt) ≤ Nfoc * (n * nt) := Nat.mul_le_mul_right _ hl
  rw [add_mul, one_mul] at hle
  obtain ⟨cov, st, e, hst, hv, -⟩ := Conv.convol_spec n nt (Nfoc * (n * nt) - l * (n * nt)) (n * nt) h3 h16 (by omega) le_rfl 1 false
    (by simp) (w l) (fun m => Gmin (l * (n * nt) + m)) (fun m => f1plus (l * (n * nt) + m)) s.2.1 s.2.2 hs
  refine ⟨_, by unfold imgBody; rw [e]; rfl, hst, ?_⟩
  dsimp only
  rw [forN_addAt n l (fun i => cov (i * nt) * dx * dy * dt)]
  congr 2
  refine sum_congr rfl fun i hi => ?_
  have := hv i 0 (mem_range.mp hi) (by omega)
  rw [Nat.add_zero] at this
  rw [this]
  unfold Conv.placed
  rw [if_neg (by decide), cconv_lag0, one_mul]
  have tr : ∀ d : ℕ → ℝ, Conv.trace nt (fun m => d (l * (n * nt) + m)) i = Spec.trc n nt d l i := fun d => by
    funext t; unfold Conv.trace Spec.trc; rw [Nat.add_assoc]
  rw [tr, tr]

/-- **C169.** Whatever the order in which the focal points are taken, the image at focal point `l` becomes what it was
plus `dx*dy*dt` times the sum over all traces of the circular convolution of `Gmin` with `f1plus` at time zero (with
the transform length as period), and nothing else changes. -/
theorem imaging_spec {n nt Nfoc : ℕ} (h3 : 3 ≤ nt) (h16 : nt ≤ 16384) (dx dy dt : ℝ) (w : ℕ → Conv.Work)
    (Gmin f1plus : ℕ → ℝ) (ls : List ℕ) (hls : ls.Perm (List.range Nfoc)) (s : (ℕ → ℝ) × (ℕ → ℝ) × St) (hs : Hist s.2.2) :
    ∃ s', imaging n nt Nfoc dx dy dt w Gmin f1plus ls s = some s' ∧
      (∀ l, l < Nfoc → s'.1 l = s.1 l + dx * dy * dt * ∑ i ∈ range n, Spec.lag0 (optncr nt)
        (Conv.pad nt (Spec.trc n nt Gmin l i)) (Conv.pad nt (Spec.trc n nt f1plus l i))) ∧
      ∀ l, Nfoc ≤ l → s'.1 l = s.1 l := by
  have key : ∀ (ls : List ℕ), ls.Nodup → (∀ l ∈ ls, l < Nfoc) → ∀ s : (ℕ → ℝ) × (ℕ → ℝ) × St, Hist s.2.2 →
      ∃ s', imaging n nt Nfoc dx dy dt w Gmin f1plus ls s = some s' ∧
      (∀ l, l ∈ ls → s'.1 l = s.1 l + dx * dy * dt * ∑ i ∈ range n, Spec.lag0 (optncr nt)
        (Conv.pad nt (Spec.trc n nt Gmin l i)) (Conv.pad nt (Spec.trc n nt f1plus l i))) ∧
      ∀ l, l ∉ ls → s'.1 l = s.1 l := by
    intro ls
    induction ls with
    | nil => intro _ _ s _; exact ⟨s, rfl, by simp, fun _ _ => rfl⟩
    | cons a ls ih =>
      intro hnd hlt s hs
      obtain ⟨s1, e1, hs1, hv⟩ := imgBody_spec (n := n) h3 h16 dx dy dt w Gmin f1plus (hlt a (by simp)) s hs
      obtain ⟨s2, e2, h1, h2⟩ := ih (List.nodup_cons.mp hnd).2 (fun l hl => hlt l (by simp [hl])) s1 hs1
      have hna := (List.nodup_cons.mp hnd).1
      refine ⟨s2, ?_, ?_, ?_⟩
      · unfold imaging at e2 ⊢; rw [List.foldlM_cons, e1]; exact e2
      · intro l hl
        rcases List.mem_cons.mp hl with rfl | hl
        · rw [h2 l hna, hv]; unfold aset; rw [if_pos rfl, mul_sum]
          congr 1
          exact sum_congr rfl fun i _ => by ring
        · rw [h1 l hl, hv]; unfold aset; rw [if_neg (fun h : l = a => hna (h ▸ hl))]
      · intro l hl
        rw [List.mem_cons, not_or] at hl
        rw [h2 l hl.2, hv]; unfold aset; rw [if_neg hl.1]
  obtain ⟨s', e, h1, h2⟩ := key ls (hls.nodup_iff.mpr List.nodup_range) (fun l hl => List.mem_range.mp (hls.mem_iff.mp hl)) s hs
  exact ⟨s', e, fun l hl => h1 l (hls.mem_iff.mpr (List.mem_range.mpr hl)),
    fun l hl => h2 l fun h => by have := List.mem_range.mp (hls.mem_iff.mp h); omega⟩

/-- One focal point, one trace of four samples, two impulses at time zero: the image is the product of their amplitudes. -/
example (w : ℕ → Conv.Work) : ∃ s', imaging 1 4 1 1 1 1 w (fun m => if m = 0 then 2 else 0) (fun m => if m = 0 then 3 else 0) [0]
    (fun _ => 0, fun _ => 0, St.init) = some s' ∧ s'.1 0 = 6 := by
  obtain ⟨s', e, h, -⟩ := imaging_spec (n := 1) (nt := 4) (Nfoc := 1) (by norm_num) (by norm_num) 1 1 1 w
    (fun m => if m = 0 then 2 else 0) (fun m => if m = 0 then 3 else 0) [0] (by decide) (fun _ => 0, fun _ => 0, St.init) .start
  refine ⟨s', e, ?_⟩
  rw [h 0 (by norm_num), show optncr 4 = 4 from Conv.optncr_pow2 2]
  simp [Spec.lag0, Conv.pad, Spec.trc, sum_range_succ]
  norm_num

/-! ## C170: the cost function -/

/-- The loop over focal points of `Cost3D`, Cost3D.c:40-50, as threads that share `Cost` (address 0), one thread per
focal point; `conv l` is the convolution of focal point `l`. -/
def costProg (m Nfoc : ℕ) (conv : ℕ → ℕ → ℝ) (l : ℕ) : List (Instr Int ℝ) :=
  if l < Nfoc then (List.range m).map fun i => addTo 0 (conv l i * conv l i) else []

/-- The cost that should come out. -/
def Spec.cost (m Nfoc : ℕ) (conv : ℕ → ℕ → ℝ) : ℝ := ∑ l ∈ range Nfoc, ∑ i ∈ range m, conv l i * conv l i

theorem seq_cost (m l Nfoc : ℕ) (hl : l < Nfoc) (conv : ℕ → ℕ → ℝ) (μ : Int → ℝ) :
    seqProg (costProg m Nfoc conv l) μ 0 = μ 0 + ∑ i ∈ range m, conv l i * conv l i := by
  unfold costProg
  rw [if_pos hl]
  unfold seqProg
  induction m with
  | zero => simp
  | succ m ih =>
    rw [List.range_succ, List.map_append, List.foldl_append, List.map_cons, List.map_nil, List.foldl_cons, List.foldl_nil,
      seqInstr_addTo, if_pos rfl, ih, sum_range_succ]; ring

/-- **C170 (part).** With one focal point the cost is the energy of the convolution of `Gmin` and `f1plus`, on every
schedule. -/
theorem cost_partial (m : ℕ) (conv : ℕ → ℕ → ℝ) (sched : List ℕ)
    (hdone : Done (progSys (costProg m 1 conv)) (exec (progSys (costProg m 1 conv)) sched (start fun _ => 0))) :
    (exec (progSys (costProg m 1 conv)) sched (start fun _ => 0)).mem 0 = Spec.cost m 1 conv := by
  have hempty : ∀ t, t ≠ 0 → costProg m 1 conv t = [] := fun t ht => by unfold costProg; rw [if_neg (by omega)]
  rw [par_eq_seq (prog := costProg m 1 conv) (by
    intro t t' a hne hw
    have ht : t = 0 := by
      by_contra h
      obtain ⟨i, hi, -⟩ := hw
      rw [hempty t h] at hi; exact absurd hi (by simp)
    have ht' : t' ≠ 0 := fun h => hne (by rw [ht, h])
    refine ⟨?_, ?_⟩ <;> rintro ⟨i, hi, -⟩ <;> rw [hempty t' ht'] at hi <;> exact absurd hi (by simp)) (fun _ => 0) [0] (by simp)
    (fun t ht => hempty t (by simpa using ht)) sched hdone]
  simp only [List.foldl_cons, List.foldl_nil]
  rw [seq_cost m 0 1 (by omega)]
  simp [Spec.cost]

/-- **C170, part that fails.** `Cost` is shared by the threads and nothing orders the additions: with two focal points
there is a complete schedule that loses the contribution of one of them. -/
theorem cost_lost_update (conv : ℕ → ℕ → ℝ) (h : conv 0 0 ≠ 0) :
    ∃ sched : List ℕ, Done (progSys (costProg 1 2 conv)) (exec (progSys (costProg 1 2 conv)) sched (start fun _ => 0)) ∧
      (exec (progSys (costProg 1 2 conv)) sched (start fun _ => 0)).mem 0 = conv 1 0 * conv 1 0 ∧
      conv 1 0 * conv 1 0 ≠ Spec.cost 1 2 conv := by
  set prog := costProg 1 2 conv with hprog
  have hp : ∀ k, k < 2 → prog k = [addTo 0 (conv k 0 * conv k 0)] := by
    intro k hk; rw [hprog]; unfold costProg; rw [if_pos hk]; rfl
  have hp2 : ∀ k, ¬ k < 2 → prog k = [] := by
    intro k hk; rw [hprog]; unfold costProg; rw [if_neg hk]
  have s0 : ∀ m, progSys prog 0 (0, []) m = some ((0, [m 0]), m) := by
    intro m; unfold progSys; rw [hp 0 (by omega)]; rfl
  have s1 : ∀ m, progSys prog 1 (0, []) m = some ((0, [m 0]), m) := by
    intro m; unfold progSys; rw [hp 1 (by omega)]; rfl
  have t0 : ∀ m v, progSys prog 0 (0, [v]) m = some ((1, []), store m 0 (v + conv 0 0 * conv 0 0)) := by
    intro m v; unfold progSys; rw [hp 0 (by omega)]; rfl
  have t1 : ∀ m v, progSys prog 1 (0, [v]) m = some ((1, []), store m 0 (v + conv 1 0 * conv 1 0)) := by
    intro m v; unfold progSys; rw [hp 1 (by omega)]; rfl
  have hex : exec (progSys prog) [0, 1, 0, 1] (start fun _ => 0) =
      ⟨fun u => if u = 1 then (1, []) else if u = 0 then (1, []) else (0, []),
        store (store (fun _ => 0) 0 (0 + conv 0 0 * conv 0 0)) 0 (0 + conv 1 0 * conv 1 0)⟩ := by
    unfold exec start
    simp only [List.foldl_cons, List.foldl_nil]
    simp only [step, s0, s1, t0, t1, if_true, if_false, Nat.one_ne_zero, Nat.zero_ne_one]
    congr 1
    funext u
    split
    · rfl
    · split
      · rfl
      · rfl
  refine ⟨[0, 1, 0, 1], ?_, ?_, ?_⟩
  · rw [hex]
    intro t
    apply progSys_end
    dsimp only
    by_cases h2 : t < 2
    · rw [hp t h2]
      interval_cases t <;> simp
    · rw [hp2 t h2]; simp
  · rw [hex]; simp [store]
  · unfold Spec.cost
    rw [sum_range_succ, sum_range_succ, sum_range_zero]
    simp only [sum_range_one, zero_add]
    intro he
    have : conv 0 0 * conv 0 0 = 0 := by linarith
    exact h (mul_self_eq_zero.mp this)

/-! ## C171: the amplitude of the focal points -/

/-- The gather loop, ampest3D.c:66-72: the traces at the listed positions, in the order of the list; the rest of
`f1dsamp` keeps what it was (zero from `calloc`). -/
def gather (n nt npos l : ℕ) (pos : ℕ → ℕ) (f1d : ℕ → ℝ) (a : ℕ → ℝ) : ℕ → ℝ :=
  forN npos (fun i a => forN nt (fun iw a => aset a (i * nt + iw) (f1d (l * (n * nt) + pos i * nt + iw))) a) a

/-- `for (i..n) for (iw..nt) a[iw] += dt*scl*conv[i*nt+iw]`, ampest3D.c:75-79 and 83-87. -/
def stack (n nt : ℕ) (c : ℝ) (conv a : ℕ → ℝ) : ℕ → ℝ :=
  forN n (fun i a => forN nt (fun iw a => aset a iw (a iw + c * conv (i * nt + iw))) a) a

/-- What `AmpEst3D` keeps between the focal points. -/
structure AmpSt where
  f1dsamp : ℕ → ℝ
  wavelet : ℕ → ℝ
  conv : ℕ → ℝ
  ampest : ℕ → ℝ
  st : St

/-- Body of the loop over focal points, ampest3D.c:65-91; `scaled` is zero at the start of each.  `n` is `nxs*nys`,
`pos i` is `iypos[i]*nxs+ixpos[i]`.  The result is `none` when the quotient under the root is not a number or
negative. -/
def ampBody (n nt Nfoc npos : ℕ) (dx dy dt : ℝ) (pos : ℕ → ℕ) (file : Bool) (w w' : ℕ → Conv.Work) (f1d Gd : ℕ → ℝ)
    (l : ℕ) (a : AmpSt) : Option AmpSt :=
  let f1dsamp := gather n nt npos l pos f1d a.f1dsamp
  (if file then some (a.wavelet, a.conv, a.st) else
    (Conv.corr n nt (n * nt) (n * nt) 1 false (w l) f1dsamp f1dsamp a.conv a.st).map fun r =>
      (stack n nt (dt * (dx * dy)) r.1 a.wavelet, r.1, r.2)).bind fun (wavelet, _, st) =>
  (Conv.convol n nt (min (n * nt) (Nfoc * (n * nt) - l * (n * nt))) (n * nt) 1 false (w' l) f1dsamp (fun m => Gd (l * (n * nt) + m))
    (fun _ => 0) st).bind fun r =>
  let scaled := stack n nt (dt * (dx * dy)) r.1 fun _ => 0
  if scaled 0 = 0 ∨ wavelet 0 / scaled 0 < 0 then none else
  some ⟨f1dsamp, wavelet, fun _ => 0, aset a.ampest l (Real.sqrt (wavelet 0 / scaled 0)), r.2⟩

open Classical in
/-- `AmpEst3D`, ampest3D.c:28-96, from the loop over focal points on; `wavelet` is the autocorrelation of the wavelet in
`file_wav`, or zero when there is no such file.  `none` when a listed position is not on the grid or the list is too long. -/
def ampEst (n nt Nfoc npos : ℕ) (dx dy dt : ℝ) (pos : ℕ → ℕ) (file : Bool) (w w' : ℕ → Conv.Work) (f1d Gd : ℕ → ℝ)
    (a : AmpSt) : Option AmpSt :=
  if npos ≤ n ∧ ∀ i, i < npos → pos i < n then
    forNM Nfoc (fun l a => ampBody n nt Nfoc npos dx dy dt pos file w w' f1d Gd l a) a
  else none

/-- The direct field of focal point `l` at listed position `i`, zero beyond the list. -/
def Spec.direct (n nt npos : ℕ) (pos : ℕ → ℕ) (f1d : ℕ → ℝ) (l i t : ℕ) : ℝ :=
  if i < npos then Spec.trc n nt f1d l (pos i) t else 0

/-- The energy of the direct field of focal point `l`. -/
def Spec.down (n nt npos : ℕ) (dx dy dt : ℝ) (pos : ℕ → ℕ) (f1d : ℕ → ℝ) (l : ℕ) : ℝ :=
  dt * (dx * dy) * ∑ i ∈ range n, Spec.energy (optncr nt) (Conv.pad nt (Spec.direct n nt npos pos f1d l i))

/-- The direct field back-propagated through the Green's function. -/
def Spec.through (n nt npos : ℕ) (dx dy dt : ℝ) (pos : ℕ → ℕ) (f1d Gd : ℕ → ℝ) (l : ℕ) : ℝ :=
  dt * (dx * dy) * ∑ i ∈ range n, Spec.lag0 (optncr nt) (Conv.pad nt (Spec.direct n nt npos pos f1d l i))
    (Conv.pad nt (Spec.trc n nt Gd l i))

theorem stack_zero (n nt : ℕ) (hnt : 0 < nt) (c : ℝ) (conv a : ℕ → ℝ) :
    stack n nt c conv a 0 = a 0 + c * ∑ i ∈ range n, conv (i * nt) := by
  unfold stack
  have inner : ∀ (i m : ℕ) (b : ℕ → ℝ), forN m (fun iw a => aset a iw (a iw + c * conv (i * nt + iw))) b 0 =
      if 0 < m then b 0 + c * conv (i * nt) else b 0 := by
    intro i m b
    have h := forN_inv (n := m) (body := fun iw a => aset a iw (a iw + c * conv (i * nt + iw))) (s := b)
      (fun k (v : ℕ → ℝ) => v 0 = if 0 < k then b 0 + c * conv (i * nt) else b 0) rfl (by
      intro k hk v hv
      unfold aset
      rw [if_pos (Nat.succ_pos k)]
      rcases Nat.eq_zero_or_pos k with rfl | h
      · rw [if_pos rfl, hv, if_neg (lt_irrefl 0), Nat.add_zero]
      · rw [if_neg (by omega), hv, if_pos h])
    exact h
  induction n with
  | zero => simp
  | succ n ih => rw [forN_succ, inner, if_pos hnt, ih, sum_range_succ]; ring

theorem gather_val (n nt npos l : ℕ) (pos : ℕ → ℕ) (f1d a : ℕ → ℝ) (i t : ℕ) (ht : t < nt) :
    gather n nt npos l pos f1d a (i * nt + t) = if i < npos then f1d (l * (n * nt) + pos i * nt + t) else a (i * nt + t) := by
  unfold gather
  have inner : ∀ (k m : ℕ) (b : ℕ → ℝ) (x : ℕ), m ≤ nt →
      forN m (fun iw a => aset a (k * nt + iw) (f1d (l * (n * nt) + pos k * nt + iw))) b x =
      if k * nt ≤ x ∧ x < k * nt + m then f1d (l * (n * nt) + pos k * nt + (x - k * nt)) else b x := by
    intro k m b x
    induction m with
    | zero => intro _; rw [if_neg (by omega)]; rfl
    | succ m ih =>
      intro hm
      rw [forN_succ]
      unfold aset at ih ⊢
      by_cases hx : x = k * nt + m
      · rw [if_pos hx, if_pos (by omega), hx, Nat.add_sub_cancel_left]
      · rw [if_neg hx, ih (by omega)]
        exact if_congr (by omega) rfl rfl
  induction npos with
  | zero => rw [if_neg (by omega)]; rfl
  | succ m ih =>
    rw [forN_succ, inner m nt _ _ le_rfl, ih]
    rcases lt_trichotomy i m with h | h | h
    · have : (i + 1) * nt ≤ m * nt := Nat.mul_le_mul_right _ h
      rw [add_mul, one_mul] at this
      rw [if_neg (by omega), if_pos h, if_pos (by omega)]
    · subst h
      rw [if_pos (by omega), if_pos (by omega), Nat.add_sub_cancel_left]
    · have : (m + 1) * nt ≤ i * nt := Nat.mul_le_mul_right _ h
      rw [add_mul, one_mul] at this
      rw [if_neg (by omega), if_neg (by omega), if_neg (by omega)]

/-- The state is that of `calloc` beyond the listed positions. -/
def AmpSt.Fresh (nt npos : ℕ) (a : AmpSt) : Prop :=
  Hist a.st ∧ ∀ i t, npos ≤ i → t < nt → a.f1dsamp (i * nt + t) = 0

theorem ampBody_spec {n nt Nfoc npos : ℕ} (h3 : 3 ≤ nt) (h16 : nt ≤ 16384) (dx dy dt : ℝ) (pos : ℕ → ℕ) (file : Bool)
    (w w' : ℕ → Conv.Work) (f1d Gd : ℕ → ℝ) {l : ℕ} (hl : l < Nfoc) (a : AmpSt) (ha : a.Fresh nt npos) (W : ℝ)
    (hW : W = a.wavelet 0 + if file then 0 else Spec.down n nt npos dx dy dt pos f1d l) :
    (¬ (Spec.through n nt npos dx dy dt pos f1d Gd l = 0 ∨ W / Spec.through n nt npos dx dy dt pos f1d Gd l < 0) →
      ∃ a', ampBody n nt Nfoc npos dx dy dt pos file w w' f1d Gd l a = some a' ∧ a'.Fresh nt npos ∧ a'.wavelet 0 = W ∧
        a'.ampest = aset a.ampest l (Real.sqrt (W / Spec.through n nt npos dx dy dt pos f1d Gd l))) ∧
    ((Spec.through n nt npos dx dy dt pos f1d Gd l = 0 ∨ W / Spec.through n nt npos dx dy dt pos f1d Gd l < 0) →
      ampBody n nt Nfoc npos dx dy dt pos file w w' f1d Gd l a = none) := by
  have hle : (l + 1) * (n * nt) ≤ Nfoc * (n * nt) := Nat.mul_le_mul_right _ hl
  rw [add_mul, one_mul] at hle
  set g := gather n nt npos l pos f1d a.f1dsamp with hg
  have hpad : ∀ i, Conv.pad nt (Conv.trace nt g i) = Conv.pad nt (Spec.direct n nt npos pos f1d l i) := by
    intro i; funext t; unfold Conv.pad
    split
    · next ht =>
      unfold Conv.trace Spec.direct Spec.trc
      rw [hg, gather_val n nt npos l pos f1d a.f1dsamp i t ht]
      split
      · rfl
      · exact ha.2 i t (by omega) ht
    · rfl
  obtain ⟨wv, cv, st, e1, hst, hwv⟩ : ∃ wv cv st, (if file then some (a.wavelet, a.conv, a.st) else
      (Conv.corr n nt (n * nt) (n * nt) 1 false (w l) g g a.conv a.st).map fun r =>
      (stack n nt (dt * (dx * dy)) r.1 a.wavelet, r.1, r.2)) = some (wv, cv, st) ∧ Hist st ∧ wv 0 = W := by
    cases file with
    | true => exact ⟨_, _, _, rfl, ha.1, by rw [hW]; simp⟩
    | false =>
      obtain ⟨cov, st, e, hst, hv, -⟩ := Conv.corr_spec n nt (n * nt) (n * nt) h3 h16 le_rfl le_rfl 1 false (by simp) (w l) g g a.conv a.st ha.1
      refine ⟨_, _, _, by rw [if_neg (by decide), e]; rfl, hst, ?_⟩
      rw [stack_zero n nt (by omega), hW, if_neg (by decide)]
      unfold Spec.down
      congr 2
      refine sum_congr rfl fun i hi => ?_
      have := hv i 0 (mem_range.mp hi) (by omega)
      rw [Nat.add_zero] at this
      change cov (i * nt) = _
      rw [this, hpad]
      unfold Conv.placed
      rw [if_neg (by decide), ccorr_energy, one_mul]
  obtain ⟨cov, st', e2, hst', hv, -⟩ := Conv.convol_spec n nt (min (n * nt) (Nfoc * (n * nt) - l * (n * nt))) (n * nt) h3 h16 (by omega) le_rfl 1 false
    (by simp) (w' l) g (fun m => Gd (l * (n * nt) + m)) (fun _ => 0) st hst
  have hsc : stack n nt (dt * (dx * dy)) cov (fun _ => 0) 0 = Spec.through n nt npos dx dy dt pos f1d Gd l := by
    rw [stack_zero n nt (by omega), zero_add]
    unfold Spec.through
    congr 1
    refine sum_congr rfl fun i hi => ?_
    have := hv i 0 (mem_range.mp hi) (by omega)
    rw [Nat.add_zero] at this
    rw [this, hpad]
    unfold Conv.placed
    rw [if_neg (by decide), cconv_lag0, one_mul]
    congr 2
    funext t; unfold Conv.trace Spec.trc; rw [Nat.add_assoc]
  have hb : ampBody n nt Nfoc npos dx dy dt pos file w w' f1d Gd l a =
      if Spec.through n nt npos dx dy dt pos f1d Gd l = 0 ∨ W / Spec.through n nt npos dx dy dt pos f1d Gd l < 0 then none else
      some ⟨g, wv, fun _ => 0, aset a.ampest l (Real.sqrt (W / Spec.through n nt npos dx dy dt pos f1d Gd l)), st'⟩ := by
    unfold ampBody
    simp only [← hg, e1, Option.bind_some, e2, hsc, hwv]
  refine ⟨fun h => ⟨_, by rw [hb, if_neg h], ⟨hst', fun i t hi ht => ?_⟩, hwv, rfl⟩, fun h => by rw [hb, if_pos h]⟩
  change g (i * nt + t) = 0
  rw [hg, gather_val n nt npos l pos f1d a.f1dsamp i t ht, if_neg (by omega)]
  exact ha.2 i t hi ht

/-- What the amplitude of focal point `l` is computed from: the energy of the direct fields of *all focal points up to
`l`*, as `wavelet` is not cleared, over the back-propagated field of `l`. -/
theorem ampEst_value {n nt Nfoc npos : ℕ} (h3 : 3 ≤ nt) (h16 : nt ≤ 16384) (dx dy dt : ℝ) (pos : ℕ → ℕ)
    (file : Bool) (w w' : ℕ → Conv.Work) (f1d Gd : ℕ → ℝ) (a : AmpSt) (ha : a.Fresh nt npos) (hp : npos ≤ n ∧ ∀ i, i < npos → pos i < n) (W : ℕ → ℝ)
    (hW : ∀ l, W l = a.wavelet 0 + if file then 0 else ∑ k ∈ range (l + 1), Spec.down n nt npos dx dy dt pos f1d k)
    (hok : ∀ l, l < Nfoc → 0 < Spec.through n nt npos dx dy dt pos f1d Gd l ∧ 0 ≤ W l) :
    ∃ a', ampEst n nt Nfoc npos dx dy dt pos file w w' f1d Gd a = some a' ∧
      ∀ l, l < Nfoc → a'.ampest l = Real.sqrt (W l / Spec.through n nt npos dx dy dt pos f1d Gd l) := by
  have key : ∀ m, m ≤ Nfoc → ∃ a', forNM m (fun l a => ampBody n nt Nfoc npos dx dy dt pos file w w' f1d Gd l a) a = some a' ∧
      a'.Fresh nt npos ∧ a'.wavelet 0 = (a.wavelet 0 + if file then 0 else ∑ k ∈ range m, Spec.down n nt npos dx dy dt pos f1d k) ∧
      ∀ l, l < m → a'.ampest l = Real.sqrt (W l / Spec.through n nt npos dx dy dt pos f1d Gd l) := by
    intro m
    induction m with
    | zero => intro _; exact ⟨a, rfl, ha, by cases file <;> simp, fun l hl => by omega⟩
    | succ m ih =>
      intro hm
      obtain ⟨a1, e1, f1, v1, q1⟩ := ih (by omega)
      have hWm : W m = a1.wavelet 0 + if file then 0 else Spec.down n nt npos dx dy dt pos f1d m := by
        rw [v1, hW m]; cases file
        · rw [if_neg (by decide), if_neg (by decide), if_neg (by decide), sum_range_succ]; ring
        · simp
      obtain ⟨b1, b2⟩ := hok m (by omega)
      obtain ⟨a2, e2, f2, v2, q2⟩ := (ampBody_spec h3 h16 dx dy dt pos file w w' f1d Gd (show m < Nfoc by omega) a1 f1 (W m) hWm).1 (by
        rintro (h | h)
        · exact b1.ne' h
        · exact absurd (div_nonneg b2 b1.le) (not_le.mpr h))
      refine ⟨a2, ?_, f2, ?_, ?_⟩
      · rw [forNM_succ, e1]; exact e2
      · rw [v2, hW m]
      · intro l hl
        rw [q2]; unfold aset
        rcases Nat.lt_or_ge l m with h | h
        · rw [if_neg (by omega), q1 l h]
        · rw [if_pos (by omega), show l = m by omega]
  obtain ⟨a', e, -, -, q⟩ := key Nfoc le_rfl
  exact ⟨a', by unfold ampEst; rw [if_pos hp, e], q⟩

/-- **C171 (part).** With a wavelet file, or for the first focal point, the amplitude is the root of the energy of the
wavelet (or of the direct field of the focal point) over the field that comes back. -/
theorem ampEst_partial {n nt Nfoc npos : ℕ} (h3 : 3 ≤ nt) (h16 : nt ≤ 16384) (dx dy dt : ℝ) (pos : ℕ → ℕ)
    (file : Bool) (w w' : ℕ → Conv.Work) (f1d Gd : ℕ → ℝ) (a : AmpSt) (ha : a.Fresh nt npos) (hp : npos ≤ n ∧ ∀ i, i < npos → pos i < n)
    (h0 : file = false → a.wavelet 0 = 0 ∧ Nfoc ≤ 1)
    (hok : ∀ l, l < Nfoc → 0 < Spec.through n nt npos dx dy dt pos f1d Gd l ∧
      0 ≤ if file then a.wavelet 0 else Spec.down n nt npos dx dy dt pos f1d l) :
    ∃ a', ampEst n nt Nfoc npos dx dy dt pos file w w' f1d Gd a = some a' ∧
      ∀ l, l < Nfoc → a'.ampest l = Real.sqrt ((if file then a.wavelet 0 else Spec.down n nt npos dx dy dt pos f1d l) /
        Spec.through n nt npos dx dy dt pos f1d Gd l) := by
  have hWe : ∀ l, l < Nfoc → (a.wavelet 0 + if file then 0 else ∑ k ∈ range (l + 1), Spec.down n nt npos dx dy dt pos f1d k) =
      if file then a.wavelet 0 else Spec.down n nt npos dx dy dt pos f1d l := by
    intro l hl
    cases file with
    | true => simp
    | false =>
      obtain ⟨h1, h2⟩ := h0 rfl
      have : l = 0 := by omega
      subst this
      simp [h1]
  obtain ⟨a', e, q⟩ := ampEst_value h3 h16 dx dy dt pos file w w' f1d Gd a ha hp _ (fun _ => rfl) (fun l hl => by rw [hWe l hl]; exact hok l hl)
  exact ⟨a', e, fun l hl => by rw [q l hl, hWe l hl]⟩

/-- **C171, part that fails.** Without a wavelet file the energy of the earlier focal points is still in `wavelet`: for
two focal points with the same fields the second amplitude is `√2` times the first. -/
theorem ampEst_accumulates {n nt npos : ℕ} (h3 : 3 ≤ nt) (h16 : nt ≤ 16384) (dx dy dt : ℝ) (pos : ℕ → ℕ)
    (w w' : ℕ → Conv.Work) (f1d Gd : ℕ → ℝ) (a : AmpSt) (ha : a.Fresh nt npos) (hp : npos ≤ n ∧ ∀ i, i < npos → pos i < n)
    (h0 : a.wavelet 0 = 0) (E S : ℝ)
    (hE : ∀ l, l < 2 → Spec.down n nt npos dx dy dt pos f1d l = E) (hS : ∀ l, l < 2 → Spec.through n nt npos dx dy dt pos f1d Gd l = S)
    (hE0 : 0 < E) (hS0 : 0 < S) :
    ∃ a', ampEst n nt 2 npos dx dy dt pos false w w' f1d Gd a = some a' ∧
      a'.ampest 0 = Real.sqrt (E / S) ∧ a'.ampest 1 = Real.sqrt 2 * Real.sqrt (E / S) := by
  have e1 : ∑ k ∈ range 1, Spec.down n nt npos dx dy dt pos f1d k = E := by rw [sum_range_one, hE 0 (by omega)]
  have e2 : ∑ k ∈ range 2, Spec.down n nt npos dx dy dt pos f1d k = 2 * E := by
    rw [sum_range_succ, e1, hE 1 (by omega)]; ring
  obtain ⟨a', e, q⟩ := ampEst_value (Nfoc := 2) h3 h16 dx dy dt pos false w w' f1d Gd a ha hp _ (fun _ => rfl) (fun l hl => by
    rw [hS l hl, h0, if_neg (by decide), zero_add]
    refine ⟨hS0, ?_⟩
    interval_cases l
    · rw [e1]; exact hE0.le
    · rw [e2]; linarith)
  refine ⟨a', e, ?_, ?_⟩
  · rw [q 0 (by omega), hS 0 (by omega), h0, if_neg (by decide), zero_add, e1]
  · rw [q 1 (by omega), hS 1 (by omega), h0, if_neg (by decide), zero_add, e2, ← Real.sqrt_mul (by norm_num), mul_div_assoc]

/-- Two focal points with an impulse of amplitude two as direct field, and an impulse of amplitude one coming back. -/
example (w w' : ℕ → Conv.Work) : ∃ a', ampEst 1 4 2 1 1 1 1 (fun _ => 0) false w w' (fun m => if m % 4 = 0 then 2 else 0)
    (fun m => if m % 4 = 0 then 1 else 0) ⟨fun _ => 0, fun _ => 0, fun _ => 0, fun _ => 0, St.init⟩ = some a' ∧
      a'.ampest 0 = Real.sqrt 2 ∧ a'.ampest 1 = Real.sqrt 2 * Real.sqrt 2 := by
  have h4 : optncr 4 = 4 := Conv.optncr_pow2 2
  obtain ⟨a', e, q1, q2⟩ := ampEst_accumulates (n := 1) (nt := 4) (npos := 1) (by norm_num) (by norm_num) 1 1 1 (fun _ => 0) w w'
    (fun m => if m % 4 = 0 then 2 else 0) (fun m => if m % 4 = 0 then 1 else 0)
    ⟨fun _ => 0, fun _ => 0, fun _ => 0, fun _ => 0, St.init⟩ ⟨.start, fun _ _ _ _ => rfl⟩ ⟨le_rfl, fun _ _ => by norm_num⟩ rfl 4 2
    (by intro l hl; interval_cases l <;>
        (unfold Spec.down; rw [h4]; simp [Spec.energy, Conv.pad, Spec.direct, Spec.trc, sum_range_succ]; norm_num))
    (by intro l hl; interval_cases l <;>
        (unfold Spec.through; rw [h4]; simp [Spec.lag0, Conv.pad, Spec.direct, Spec.trc, sum_range_succ]))
    (by norm_num) (by norm_num)
  refine ⟨a', e, ?_, ?_⟩
  · rw [q1]; norm_num
  · rw [q2]; norm_num

/-! ## C172: the amplitude applied -/

/-- The scaling loops, marchenko3D.c:1071-1079, of one array with `stride` samples between focal points and `len` samples
multiplied: for `f2p`, `f1plus`, ... both are `nxs*nys*nts`, for `green` the stride is `nxs*nts`. -/
def scaleArr (stride len Nfoc : ℕ) (amp : ℕ → ℝ) (d : ℕ → ℝ) : ℕ → ℝ :=
  forN Nfoc (fun l d => forN len (fun j d => aset d (l * stride + j) (d (l * stride + j) * amp l)) d) d

/-- The factor a sample is multiplied with. -/
def Spec.factor (stride len Nfoc : ℕ) (amp : ℕ → ℝ) (m : ℕ) : ℝ :=
  ∏ l ∈ range Nfoc, if l * stride ≤ m ∧ m < l * stride + len then amp l else 1

theorem scaleArr_val (stride len Nfoc : ℕ) (amp d : ℕ → ℝ) (m : ℕ) :
    scaleArr stride len Nfoc amp d m = d m * Spec.factor stride len Nfoc amp m := by
  unfold scaleArr Spec.factor
  have inner : ∀ (l k : ℕ) (b : ℕ → ℝ), forN k (fun j d => aset d (l * stride + j) (d (l * stride + j) * amp l)) b m =
      b m * if l * stride ≤ m ∧ m < l * stride + k then amp l else 1 := by
    intro l k b
    induction k with
    | zero => rw [if_neg (by omega), mul_one]; rfl
    | succ k ih =>
      rw [forN_succ]
      unfold aset at ih ⊢
      by_cases hx : m = l * stride + k
      · rw [if_pos hx, if_pos (by omega), ← hx, ih, if_neg (by omega), mul_one]
      · rw [if_neg hx, ih]
        congr 1
        exact if_congr (by omega) rfl rfl
  induction Nfoc with
  | zero => simp
  | succ n ih => rw [forN_succ, inner, ih, prod_range_succ]; ring

/-- **C172.** The focusing functions: every sample of focal point `l` is multiplied with the amplitude of `l`. -/
theorem amp_applied (nxs nys nts Nfoc : ℕ) (amp d : ℕ → ℝ) (l j : ℕ) (hl : l < Nfoc) (hj : j < nxs * nys * nts) :
    scaleArr (nxs * nys * nts) (nxs * nys * nts) Nfoc amp d (l * (nxs * nys * nts) + j) = d (l * (nxs * nys * nts) + j) * amp l := by
  rw [scaleArr_val]
  congr 1
  unfold Spec.factor
  rw [prod_eq_single l]
  · rw [if_pos (by omega)]
  · intro k _ hk
    rw [if_neg]
    rcases Nat.lt_or_ge k l with h | h
    · have : (k + 1) * (nxs * nys * nts) ≤ l * (nxs * nys * nts) := Nat.mul_le_mul_right _ h
      rw [add_mul, one_mul] at this; omega
    · have : (l + 1) * (nxs * nys * nts) ≤ k * (nxs * nys * nts) := Nat.mul_le_mul_right _ (by omega)
      rw [add_mul, one_mul] at this; omega
  · exact fun h => absurd (mem_range.mpr hl) h

/-- **C172 (part).** The Green's function too, when there is one line of positions (`nys=1`) or one focal point. -/
theorem amp_green_partial (nxs nys nts Nfoc : ℕ) (h : nys = 1 ∨ Nfoc = 1) (amp d : ℕ → ℝ) (l j : ℕ) (hl : l < Nfoc)
    (hj : j < nxs * nys * nts) :
    scaleArr (nxs * nts) (nxs * nys * nts) Nfoc amp d (l * (nxs * nys * nts) + j) = d (l * (nxs * nys * nts) + j) * amp l := by
  rcases h with rfl | rfl
  · have := amp_applied nxs 1 nts Nfoc amp d l j hl hj
    rw [mul_one] at this ⊢; exact this
  · have : l = 0 := by omega
    subst this
    rw [scaleArr_val]
    congr 1
    unfold Spec.factor
    rw [prod_range_one, if_pos (by omega)]

/-- **C172, part that fails.** With two lines and two focal points the second line of the Green's function of the first
focal point is multiplied with both amplitudes, and that of the second focal point with none. -/
theorem amp_green_wrong (nxs nts : ℕ) (amp d : ℕ → ℝ) (j : ℕ) (hj : j < nxs * nts) :
    scaleArr (nxs * nts) (nxs * 2 * nts) 2 amp d (nxs * nts + j) = d (nxs * nts + j) * (amp 0 * amp 1) ∧
    scaleArr (nxs * nts) (nxs * 2 * nts) 2 amp d (1 * (nxs * 2 * nts) + nxs * nts + j) = d (1 * (nxs * 2 * nts) + nxs * nts + j) := by
  have e : nxs * 2 * nts = 2 * (nxs * nts) := by ring
  rw [scaleArr_val, scaleArr_val, e]
  generalize nxs * nts = M at *
  unfold Spec.factor
  refine ⟨?_, ?_⟩
  · rw [prod_range_succ, prod_range_one, if_pos (by omega), if_pos (by omega)]
  · rw [prod_range_succ, prod_range_one, if_neg (by omega), if_neg (by omega), mul_one, mul_one]

example : scaleArr 1 2 2 (fun l => if l = 0 then 2 else 5) (fun _ => 1) 1 = 10 := by
  rw [scaleArr_val]; unfold Spec.factor; simp [prod_range_succ]; norm_num

/-! ## C173: the scale of the reflection data -/

/-- What the loop over test factors keeps: the reflection data, `sclfac0`, and `corfac` with `costmin` once they are set. -/
structure SclSt where
  refl : ℕ → ℂ
  sclfac0 : ℝ
  best : Option (ℝ × ℝ)

/-- The arguments: `sclcor` (0 or 1), `verbose`, the number of iterations, the range of factors, and the relative cost
that run number `k` finds with given reflection data. -/
structure Scl where
  sclcor : Bool
  verbose : Bool
  niter : ℕ
  nscl : ℕ
  scl0 : ℝ
  scl1 : ℝ
  cost : ℕ → (ℕ → ℂ) → ℝ

/-- `dscl`, marchenko3D.c:626: set inside `if (verbose)`; not a number for `nscl=1`. -/
def Scl.dscl (p : Scl) : Option ℝ := if p.verbose ∧ p.nscl ≠ 1 then some ((p.scl1 - p.scl0) / (p.nscl - 1)) else none

/-- `Refl[i] *= f`, lines 751-754 and 759-762. -/
def times (f : ℝ) (r : ℕ → ℂ) : ℕ → ℂ := fun i => ⟨(r i).re * f, (r i).im * f⟩

/-- One test, lines 757-763 and 916-931: the cost is only determined when the last iteration is not the first. -/
def Scl.test (p : Scl) (k : ℕ) (s : SclSt) : Option SclSt :=
  p.dscl.bind fun dscl =>
  let f := k * dscl + p.scl0
  if s.sclfac0 = 0 then none else
  let refl := times (f / s.sclfac0) s.refl
  if p.niter ≤ 1 then some ⟨refl, f, s.best⟩ else
  let c := p.cost k refl
  if k = 0 then some ⟨refl, f, some (f, c)⟩ else
  s.best.bind fun b => some ⟨refl, f, if b.2 > c then some (f, c) else some b⟩

/-- The loop, lines 735-765, up to the point where the reflection data have got their final scale; an uninitialised
`corfac` is `none`. -/
def Scl.run (p : Scl) (refl : ℕ → ℂ) : Option (ℕ → ℂ) :=
  if p.sclcor then
    (forNM p.nscl (fun k s => p.test k s) ⟨refl, 1, none⟩).bind fun s =>
    s.best.bind fun b => if s.sclfac0 = 0 then none else some (times (b.1 / s.sclfac0) s.refl)
  else some (times (1 / 1) refl)

/-- The factors to be tested. -/
def Scl.fac (p : Scl) (k : ℕ) : ℝ := p.scl0 + k * ((p.scl1 - p.scl0) / (p.nscl - 1))

theorem times_times (f g : ℝ) (r : ℕ → ℂ) : times f (times g r) = times (g * f) r := by
  funext i; unfold times; apply Complex.ext <;> simp <;> ring

/-- **C173 (part).** With `verbose`, at least two iterations, at least two factors and none of them zero: the reflection
data end up multiplied with the tested factor of the smallest relative cost (the first one of them), each factor being
tested on the original data times that factor. -/
theorem scale_partial (p : Scl) (hs : p.sclcor = true) (hv : p.verbose = true) (hi : 2 ≤ p.niter) (hn : 2 ≤ p.nscl)
    (hf : ∀ k, k < p.nscl → p.fac k ≠ 0) (refl : ℕ → ℂ) :
    ∃ k, k < p.nscl ∧ p.run refl = some (fun i => (p.fac k : ℂ) * refl i) ∧
      (∀ j, j < p.nscl → p.cost k (fun i => (p.fac k : ℂ) * refl i) ≤ p.cost j (fun i => (p.fac j : ℂ) * refl i)) ∧
      ∀ j, j < k → p.cost k (fun i => (p.fac k : ℂ) * refl i) < p.cost j (fun i => (p.fac j : ℂ) * refl i) := by
  have tm : ∀ f : ℝ, times f refl = fun i => (f : ℂ) * refl i := by
    intro f; funext i; unfold times; apply Complex.ext <;> simp <;> ring
  have hd : p.dscl = some ((p.scl1 - p.scl0) / (p.nscl - 1)) := by unfold Scl.dscl; rw [if_pos ⟨hv, by omega⟩]
  have hfac : ∀ k : ℕ, k * ((p.scl1 - p.scl0) / (p.nscl - 1)) + p.scl0 = p.fac k := fun k => by unfold Scl.fac; ring
  set C := fun k => p.cost k (fun i => (p.fac k : ℂ) * refl i) with hC
  have key : ∀ m, 1 ≤ m → m ≤ p.nscl → ∃ k, k < m ∧ forNM m (fun k s => p.test k s) ⟨refl, 1, none⟩ =
      some ⟨times (p.fac (m - 1)) refl, p.fac (m - 1), some (p.fac k, C k)⟩ ∧ (∀ j, j < m → C k ≤ C j) ∧ ∀ j, j < k → C k < C j := by
    intro m hm
    induction m, hm using Nat.le_induction with
    | base =>
      intro _
      refine ⟨0, by omega, ?_, fun j hj => by rw [show j = 0 by omega], fun j hj => by omega⟩
      rw [forNM_succ, show forNM 0 (fun k s => p.test k s) ⟨refl, 1, none⟩ = some ⟨refl, 1, none⟩ from rfl]
      change p.test 0 _ = _
      unfold Scl.test
      rw [hd, Option.bind_some]
      dsimp only
      rw [if_neg one_ne_zero, if_neg (by omega), if_pos rfl, hfac, div_one, tm]
    | succ m hm ih =>
      intro hle
      obtain ⟨k, h1, h2, h3, h4⟩ := ih (by omega)
      rw [forNM_succ, h2]
      have hstep : p.test m ⟨times (p.fac (m - 1)) refl, p.fac (m - 1), some (p.fac k, C k)⟩ =
          some ⟨times (p.fac m) refl, p.fac m, if C k > C m then some (p.fac m, C m) else some (p.fac k, C k)⟩ := by
        unfold Scl.test
        rw [hd, Option.bind_some]
        dsimp only
        rw [if_neg (hf (m - 1) (by omega)), if_neg (by omega), if_neg (by omega), hfac, times_times,
          mul_div_cancel₀ _ (hf (m - 1) (by omega)), tm (p.fac m), Option.bind_some]
      change ∃ k', _ ∧ p.test m _ = _ ∧ _
      rw [hstep, Nat.add_sub_cancel]
      by_cases hc : C k > C m
      · refine ⟨m, by omega, by rw [if_pos hc], fun j hj => ?_, fun j hj => lt_of_lt_of_le hc (h3 j hj)⟩
        rcases Nat.lt_or_ge j m with h | h
        · exact (lt_of_lt_of_le hc (h3 j h)).le
        · rw [show j = m by omega]
      · refine ⟨k, by omega, by rw [if_neg hc], fun j hj => ?_, h4⟩
        rcases Nat.lt_or_ge j m with h | h
        · exact h3 j h
        · rw [show j = m by omega]; exact not_lt.mp hc
  obtain ⟨k, h1, h2, h3, h4⟩ := key p.nscl (by omega) le_rfl
  refine ⟨k, h1, ?_, h3, h4⟩
  unfold Scl.run
  rw [if_pos hs, h2, Option.bind_some]
  dsimp only
  rw [Option.bind_some, if_neg (hf _ (by omega)), times_times]
  dsimp only
  rw [mul_div_cancel₀ _ (hf _ (by omega)), tm]

/-- Without `sclcor` the reflection data are left as they are. -/
theorem scale_off (p : Scl) (hs : p.sclcor = false) (refl : ℕ → ℂ) : p.run refl = some refl := by
  unfold Scl.run times
  rw [hs, if_neg (by decide)]
  simp

/-- **C173, part that fails.** Without `verbose` (the default) the step between the factors is never set, ... -/
theorem scale_quiet (p : Scl) (hs : p.sclcor = true) (hv : p.verbose = false) (refl : ℕ → ℂ) : p.run refl = none := by
  have hd : p.dscl = none := by unfold Scl.dscl; rw [hv]; simp
  unfold Scl.run
  rw [if_pos hs]
  cases h : p.nscl with
  | zero => rfl
  | succ m =>
    have : ∀ k, forNM (k + 1) (fun k s => p.test k s) ⟨refl, 1, none⟩ = none := by
      intro k
      induction k with
      | zero => rw [forNM_succ]; change p.test 0 _ = none; unfold Scl.test; rw [hd]; rfl
      | succ k ih => rw [forNM_succ, ih]; rfl
    rw [this]; rfl

/-- ... and with one iteration no cost is determined, so that the factor is never set. -/
theorem scale_one_iteration (p : Scl) (hs : p.sclcor = true) (hi : p.niter = 1) (refl : ℕ → ℂ) : p.run refl = none := by
  unfold Scl.run
  rw [if_pos hs]
  have : ∀ m s, forNM m (fun k s => p.test k s) ⟨refl, 1, none⟩ = some s → s.best = none := by
    intro m
    induction m with
    | zero => intro s h; rw [← Option.some_inj.mp h]
    | succ m ih =>
      intro s h
      rw [forNM_succ] at h
      cases h1 : forNM m (fun k s => p.test k s) ⟨refl, 1, none⟩ with
      | none => rw [h1] at h; exact absurd h (by simp)
      | some s1 =>
        rw [h1] at h
        have hb := ih s1 h1
        change p.test m s1 = some s at h
        unfold Scl.test at h
        cases hd : p.dscl with
        | none => rw [hd] at h; exact absurd h (by simp)
        | some d =>
          rw [hd, Option.bind_some] at h
          dsimp only at h
          split at h
          · exact absurd h (by simp)
          · rw [if_pos (by omega)] at h
            rw [← Option.some_inj.mp h]; exact hb
  cases h : forNM p.nscl (fun k s => p.test k s) ⟨refl, 1, none⟩ with
  | none => rfl
  | some s => rw [Option.bind_some, this _ s h]; rfl

/-- Factors 1, 2 and 3, with the smallest cost at 2. -/
def threeFactors : Scl := ⟨true, true, 4, 3, 1, 3, fun k _ => if k = 1 then 1 else 2⟩

example : threeFactors.run (fun _ => 5) = some (fun _ => 10) := by
  obtain ⟨k, hk, e, hmin, -⟩ := scale_partial threeFactors rfl rfl (by decide) (by decide) (by
    intro k _; unfold Scl.fac threeFactors; norm_num; positivity) (fun _ => 5)
  have : k = 1 := by
    by_contra h
    have := hmin 1 (by decide)
    simp only [threeFactors] at this
    rw [if_neg h] at this
    norm_num at this
  subst this
  rw [e]
  unfold Scl.fac threeFactors
  norm_num

end

end Verif.M3D

import Verif.Fd.AcouLinear

/-!
# Model of the acoustic time step with sources (fdelmodc/acoustic4.c, applySource.c, sourceOnSurface.c)

Arithmetic is exact.  The constants `0.5`, `1/dx`, `1/(2*dt)`, `src.wx`, `src.wz` are parameters, and division by `l2m` is
multiplication with the array `il2m` of reciprocals.  The interpolated and windowed amplitude of source `isrc` at the time
step (applySource.c:101-141, modelled in `Verif.Fd.Source`) is the array element `amp[isrc]`; a silent source has amplitude
zero, so that the `continue` for silent sources is an addition of zero.  The statics `ibndx`, `ibndz` of applySource.c:27,
32-56 are computed from values that do not change during a run.  Verbose output is left out, and so is the moving
surface (`bnd.top==5`).
-/

namespace Verif.Fd.Acou

open Verif.Sten

/-- The sources (`srcPar`, fdelmodc.h; `ixsrc`, `izsrc` is the position of the shot). -/
structure Srcs (K : Type) where
  type : Int
  orient : Int
  n : Nat
  /-- `src.random || src.multiwav` -/
  random : Bool
  plane : Bool
  x : Nat → Int
  z : Nat → Int
  ixsrc : Int
  izsrc : Int
  half : K
  idx : K
  i2dt : K
  wx : K
  wz : K

section Model
variable {K : Type} (g : Cfg) (s : Srcs K)

/-- `ibndx` of applySource.c:33-56 (the source types of the acoustic schemes; 2 is not one of them). -/
def Srcs.bx : Int := if s.type = 6 then g.ioXx else if s.type = 7 then g.ioZx else g.ioPx + g.pad g.lef

/-- `ibndz` of applySource.c:33-56. -/
def Srcs.bz : Int := if s.type = 6 then g.ioXz else if s.type = 7 then g.ioZz else g.ioPz + g.pad g.top

/-- `ibndz` of sourceOnSurface.c:47-63: the layer at the top is not added. -/
def Srcs.bzS : Int := if s.type = 6 then g.ioXz else if s.type = 7 then g.ioZz else g.ioPz

/-- `is0 = -1*floor((src.n-1)/2)` (applySource.c:85). -/
def Srcs.is0 : Int := -(((s.n - 1) / 2 : Nat) : Int)

/-- `ix` (applySource.c:90-101). -/
def Srcs.ix (i : Nat) : Int :=
  if s.random then s.x i + s.bx g else if s.plane then s.ixsrc + s.bx g + s.x i else s.ixsrc + s.bx g + s.is0 + i

/-- `iz` (applySource.c:90-101). -/
def Srcs.iz (i : Nat) : Int :=
  if s.random then s.z i + s.bz g else if s.plane then s.izsrc + s.bz g + s.z i else s.izsrc + s.bz g

/-- `ixs` (sourceOnSurface.c:70-77): plane waves are taken for point sources. -/
def Srcs.ixs (i : Nat) : Int := if s.random then s.x i + s.bx g else s.ixsrc + s.bx g + s.is0 + i

/-- `izs` (sourceOnSurface.c:70-77). -/
def Srcs.izs (i : Nat) : Int := if s.random then s.z i + s.bzS g else s.izsrc + s.bzS g

/-- `src_ampl` after applySource.c:151. -/
def Srcs.ampl (i : Nat) : Expr Cell K :=
  rd .amp i * (.c s.idx * rd .l2m (s.ix g i * g.naz + s.iz g i))

/-- `src_ampl` after applySource.c:186. -/
def Srcs.ampl' (i : Nat) : Expr Cell K := s.ampl g i * .c s.idx

/-- `a[i] += e` and `a[i] -= e`. -/
def addS (a : Arr) (i : Int) (e : Expr Cell K) : Stmt Cell K := ⟨(a, i), rd a i + e⟩
def subS (a : Arr) (i : Int) (e : Expr Cell K) : Stmt Cell K := ⟨(a, i), rd a i - e⟩

/-- The compressional source (applySource.c:185-212). -/
def Srcs.pressure (i : Nat) (ix iz : Int) : List (Stmt Cell K) :=
  if s.orient = 1 then [addS .p (ix * g.naz + iz) (s.ampl g i)]
  else if s.orient = 2 then
    [addS .p (ix * g.naz + iz) (s.ampl' g i), subS .p (ix * g.naz + iz + 1) (s.ampl' g i)]
  else if s.orient = 3 then
    [addS .p (ix * g.naz + iz) (s.ampl' g i), subS .p ((ix - 1) * g.naz + iz) (s.ampl' g i)]
  else if s.orient = 4 then
    (if iz > s.bz g then [addS .p (ix * g.naz + iz - 1) (.c s.half * s.ampl' g i)] else []) ++
    (if iz < g.nz + s.bz g - 1 then [subS .p (ix * g.naz + iz + 1) (.c s.half * s.ampl' g i)] else [])
  else if s.orient = 5 then
    [addS .p (ix * g.naz + iz) (s.ampl' g i), subS .p ((ix + 1) * g.naz + iz) (s.ampl' g i)]
  else []

/-- One iteration of `applySource` (applySource.c:87-212), with the updates inside the critical section. -/
def Srcs.inject (i : Nat) : List (Stmt Cell K) :=
  let ix := s.ix g i
  let iz := s.iz g i
  if ix - s.bx g < 0 ∨ ix - s.bx g > g.nx then []
  else if s.type = 6 then
    [addS .vx (ix * g.naz + iz) (.c s.half * s.ampl g i * rd .rox (ix * g.naz + iz) * rd .il2m (ix * g.naz + iz))]
  else if s.type = 7 then
    [addS .vz (ix * g.naz + iz) (s.ampl g i * rd .roz (ix * g.naz + iz) * rd .il2m (ix * g.naz + iz))]
  else if s.type = 10 then
    [subS .p (ix * g.naz + iz - 1) (s.ampl g i * rd .roz (ix * g.naz + iz) * .c s.i2dt),
     addS .p (ix * g.naz + iz + 1) (s.ampl g i * rd .roz (ix * g.naz + iz) * .c s.i2dt)]
  else if s.type = 12 then
    [addS .vx (ix * g.naz + iz) (.c s.wx * s.ampl g i * rd .rox (ix * g.naz + iz) * rd .il2m (ix * g.naz + iz)),
     addS .vx ((ix + 1) * g.naz + iz)
      (.c s.wx * s.ampl g i * rd .rox ((ix + 1) * g.naz + iz) * rd .il2m ((ix + 1) * g.naz + iz)),
     addS .vz (ix * g.naz + iz) (.c s.wz * s.ampl g i * rd .roz (ix * g.naz + iz) * rd .il2m (ix * g.naz + iz)),
     addS .vz (ix * g.naz + iz + 1)
      (.c s.wz * s.ampl g i * rd .roz (ix * g.naz + iz + 1) * rd .il2m (ix * g.naz + iz + 1))]
  else if s.type = 1 then s.pressure g i ix iz
  else []

/-- The source loop (applySource.c:86-349). -/
def Srcs.injectAll : List (Stmt Cell K) := (List.range s.n).flatMap (s.inject g)

/-- `store` (sourceOnSurface.c:86-90). -/
def Srcs.stored (i : Nat) : Bool :=
  (s.ixs g i ≤ s.bx g + 1 && g.lef % 2 == 1) || (s.ixs g i ≥ g.nx + s.bx g && g.rig % 2 == 1) ||
  (s.izs g i ≤ s.bzS g + 1 && g.top % 2 == 1) || (s.izs g i ≥ g.nz + s.bzS g && g.bot % 2 == 1)

/-- The saved elements, and the array of sourceOnSurface.c:6 that holds each of them (sourceOnSurface.c:97-133 for saving,
329-363 for writing back). -/
def Srcs.saves (i : Nat) : List (Arr × Cell) :=
  let ix := s.ixs g i
  let iz := s.izs g i
  if s.stored g i = false then []
  else if s.type = 1 then
    if s.orient = 1 then [(.s1z, (.p, ix * g.naz + iz))]
    else if s.orient = 2 then [(.s1z, (.p, ix * g.naz + iz)), (.s2z, (.p, ix * g.naz + iz + 1))]
    else if s.orient = 3 then [(.s1z, (.p, ix * g.naz + iz)), (.s2z, (.p, (ix - 1) * g.naz + iz))]
    else if s.orient = 4 then
      (if iz > s.bzS g then [(.s1z, (.p, ix * g.naz + iz - 1))] else []) ++
      (if iz < g.nz + s.bzS g - 1 then [(.s2z, (.p, ix * g.naz + iz + 1))] else [])
    else if s.orient = 5 then [(.s1z, (.p, ix * g.naz + iz)), (.s2z, (.p, (ix + 1) * g.naz + iz))]
    else []
  else if s.type = 6 then [(.s1x, (.vx, ix * g.naz + iz))]
  else if s.type = 7 then [(.s1z, (.vz, ix * g.naz + iz))]
  else []

/-- `storeSourceOnSurface` (sourceOnSurface.c:32-270), one thread per source. -/
def Srcs.storePhase : List (List (Stmt Cell K)) :=
  (List.range s.n).map fun i => (s.saves g i).map fun q => ⟨(q.1, (i : Int)), .rd q.2⟩

/-- `reStoreSourceOnSurface` (sourceOnSurface.c:271-500). -/
def Srcs.restoreAll : List (Stmt Cell K) :=
  (List.range s.n).flatMap fun i => (s.saves g i).map fun q => ⟨q.2, .rd (q.1, (i : Int))⟩

/-- The phases of `acoustic4` before the sources of force type (acoustic4.c:91-112). -/
def preP (k : Coef K) (first : Bool) : List (List (List (Stmt Cell K))) :=
  [velPhase g k, wallPhase g] ++ pmlP g k first ++ taperTop g k ++ taperBot g k ++ taperLef g k ++ taperRig g k

/-- Force sources act before the pressure loop (acoustic4.c:114-117), pressure sources after it (acoustic4.c:142-145). -/
def Srcs.early : List (Stmt Cell K) := if s.type > 5 then s.injectAll g else []
def Srcs.late : List (Stmt Cell K) := if s.type < 6 then s.injectAll g else []

/-- One time step of `acoustic4` (acoustic4.c:20-159). -/
def stepS (k : Coef K) (first : Bool) : List (Stmt Cell K) :=
  seqOf (preP g k first) ++ (s.early g ++ ((pPhase g k).flatten ++ (s.late g ++ ((s.storePhase g).flatten ++
    (seqOf (pmlV g k first) ++ ((freePhase g).flatten ++ s.restoreAll g))))))

/-- The amplitudes of this time step. -/
def setAmp (a : Nat → K) (m : Cell → K) : Cell → K
  | (.amp, i) => a i.toNat
  | c => m c

/-- `n` time steps with the amplitude `a j i` of source `i` at step `j`. -/
def stepsS [CommRing K] (k : Coef K) (a : Nat → Nat → K) : Nat → (Cell → K) → (Cell → K)
  | 0, m => m
  | n + 1, m => run (stepS g s k (n = 0)) (setAmp (a n) (stepsS k a n m))

end Model

section
variable {K : Type} {g : Cfg} {s : Srcs K}

theorem phases_eq (k : Coef K) (first : Bool) :
    phases g k first = preP g k first ++ [pPhase g k] ++ pmlV g k first ++ [freePhase g] := rfl

theorem preP_lin (k : Coef K) (first : Bool) : AllQP Lin (preP g k first) := by
  unfold preP
  refine allQP_append (allQP_append (allQP_append (allQP_append
    (allQP_append ?_ (pmlP_lin k first)) (taperTop_lin k)) (taperBot_lin k)) (taperLef_lin k)) (taperRig_lin k)
  refine allQP_cons ?_ (allQP_single wallPhase_lin)
  unfold velPhase
  rw [List.flatten_append]
  exact allQ_append (allQ_sweep fun _ _ _ _ _ _ => allQ_one (vxS_lin _ _ _ _))
    (allQ_sweep fun _ _ _ _ _ _ => allQ_one (vzS_lin _ _ _ _))

theorem pPhase_lin (k : Coef K) : AllQ Lin (pPhase g k).flatten :=
  allQ_sweep fun _ _ _ _ _ _ => allQ_one (pS_lin _ _ _ _)

theorem pressure_lin (i : Nat) (ix iz : Int) : AllQ Lin (s.pressure g i ix iz) := by
  unfold Srcs.pressure
  refine allQ_ite (fun _ => allQ_one ⟨rfl, rfl⟩) fun _ => ?_
  refine allQ_ite (fun _ => allQ_cons ⟨rfl, rfl⟩ (allQ_one ⟨rfl, rfl⟩)) fun _ => ?_
  refine allQ_ite (fun _ => allQ_cons ⟨rfl, rfl⟩ (allQ_one ⟨rfl, rfl⟩)) fun _ => ?_
  refine allQ_ite (fun _ => allQ_append ?_ ?_) fun _ => ?_
  · exact allQ_ite (fun _ => allQ_one ⟨rfl, rfl⟩) fun _ => allQ_nil
  · exact allQ_ite (fun _ => allQ_one ⟨rfl, rfl⟩) fun _ => allQ_nil
  · exact allQ_ite (fun _ => allQ_cons ⟨rfl, rfl⟩ (allQ_one ⟨rfl, rfl⟩)) fun _ => allQ_nil

theorem inject_lin (i : Nat) : AllQ Lin (s.inject g i) := by
  unfold Srcs.inject
  refine allQ_ite (fun _ => allQ_nil) fun _ => ?_
  refine allQ_ite (fun _ => allQ_one ⟨rfl, rfl⟩) fun _ => ?_
  refine allQ_ite (fun _ => allQ_one ⟨rfl, rfl⟩) fun _ => ?_
  refine allQ_ite (fun _ => allQ_cons ⟨rfl, rfl⟩ (allQ_one ⟨rfl, rfl⟩)) fun _ => ?_
  refine allQ_ite (fun _ => allQ_cons ⟨rfl, rfl⟩ (allQ_cons ⟨rfl, rfl⟩ (allQ_cons ⟨rfl, rfl⟩ (allQ_one ⟨rfl, rfl⟩))))
    fun _ => ?_
  exact allQ_ite (fun _ => pressure_lin _ _ _) fun _ => allQ_nil

theorem injectAll_lin : AllQ Lin (s.injectAll g) := by
  intro t ht
  obtain ⟨i, _, h⟩ := List.mem_flatMap.mp ht
  exact inject_lin i t h

theorem early_lin : AllQ Lin (s.early g) := allQ_ite (fun _ => injectAll_lin) fun _ => allQ_nil
theorem late_lin : AllQ Lin (s.late g) := allQ_ite (fun _ => injectAll_lin) fun _ => allQ_nil

/-- Only pressures and velocities are saved, and only in the three arrays. -/
theorem saves_arr {i : Nat} {q : Arr × Cell} (h : q ∈ s.saves g i) :
    (q.1 = .s1x ∨ q.1 = .s1z ∨ q.1 = .s2z) ∧ (q.2.1 = .vx ∨ q.2.1 = .vz ∨ q.2.1 = .p) := by
  unfold Srcs.saves at h
  dsimp only at h
  split_ifs at h <;> simp at h <;> (try rcases h with rfl | rfl) <;> simp

theorem storePhase_lin : AllQ Lin (s.storePhase g).flatten := by
  intro t ht
  obtain ⟨l, hl, ht⟩ := List.mem_flatten.mp ht
  obtain ⟨i, _, rfl⟩ := List.mem_map.mp hl
  obtain ⟨⟨b, a, j⟩, hq, rfl⟩ := List.mem_map.mp ht
  obtain ⟨h1, h2⟩ := saves_arr hq
  dsimp only at h1 h2
  rcases h1 with rfl | rfl | rfl <;> rcases h2 with rfl | rfl | rfl <;> exact ⟨rfl, rfl⟩

theorem restoreAll_lin : AllQ Lin (s.restoreAll g) := by
  intro t ht
  obtain ⟨i, _, ht⟩ := List.mem_flatMap.mp ht
  obtain ⟨⟨b, a, j⟩, hq, rfl⟩ := List.mem_map.mp ht
  obtain ⟨h1, h2⟩ := saves_arr hq
  dsimp only at h1 h2
  rcases h1 with rfl | rfl | rfl <;> rcases h2 with rfl | rfl | rfl <;> exact ⟨rfl, rfl⟩

theorem stepS_lin (k : Coef K) (first : Bool) : AllQ Lin (stepS g s k first) :=
  allQ_append (preP_lin k first) (allQ_append early_lin (allQ_append (pPhase_lin k) (allQ_append late_lin
    (allQ_append storePhase_lin (allQ_append (pmlV_lin k first) (allQ_append freePhase_lin restoreAll_lin))))))

theorem setAmp_nonfld (a : Nat → K) (m : Cell → K) (c : Cell) (h : fld c = false) : setAmp a m c = m c := by
  obtain ⟨c, i⟩ := c; cases c <;> first | rfl | cases h

variable [CommRing K]

theorem setAmp_comb (x y : K) (a b : Nat → K) (m1 m2 : Cell → K) :
    setAmp (fun i => x * a i + y * b i) (comb fld x y m1 m2) = comb fld x y (setAmp a m1) (setAmp b m2) := by
  funext ⟨c, i⟩; cases c <;> rfl

theorem stepsS_nonfld (k : Coef K) (a : Nat → Nat → K) (n : Nat) (m : Cell → K) (c : Cell) (h : fld c = false) :
    stepsS g s k a n m c = m c := by
  induction n with
  | zero => rfl
  | succ n ih =>
    rw [stepsS, run_nonfield (fld := fld) (fun t ht => (stepS_lin k _ t ht).1) _ _ h, setAmp_nonfld _ _ _ h, ih]

theorem stepsS_comb (k : Coef K) (a b : Nat → Nat → K) (n : Nat) (x y : K) (m1 m2 : Cell → K)
    (hm : ∀ c, fld c = false → m1 c = m2 c) :
    stepsS g s k (fun j i => x * a j i + y * b j i) n (comb fld x y m1 m2) =
      comb fld x y (stepsS g s k a n m1) (stepsS g s k b n m2) := by
  induction n with
  | zero => rfl
  | succ n ih =>
    rw [stepsS, ih, setAmp_comb, run_comb (stepS_lin k _)]
    · rfl
    · intro c hc
      rw [setAmp_nonfld _ _ _ hc, setAmp_nonfld _ _ _ hc, stepsS_nonfld k a n m1 c hc, stepsS_nonfld k b n m2 c hc, hm c hc]

end

/-! ### What each part writes -/

section
variable {K : Type} {g : Cfg} {s : Srcs K}

/-- The statement writes into an array of `l`. -/
def Dst (l : List Arr) (t : Stmt Cell K) : Prop := t.dst.1 ∈ l

theorem allQ_mono {Q Q' : Stmt Cell K → Prop} (h : ∀ t, Q t → Q' t) {l : List (Stmt Cell K)} (hl : AllQ Q l) : AllQ Q' l :=
  fun t ht => h t (hl t ht)

theorem run_skip [CommRing K] {p : List (Stmt Cell K)} {c : Cell} (h : AllQ (fun t => t.dst ≠ c) p) (m : Cell → K) :
    run p m c = m c :=
  run_nonfield (fld := fun a => decide (a ≠ c)) (fun t ht => by simpa using h t ht) m c (by simp)

theorem run_dst [CommRing K] {l : List Arr} {p : List (Stmt Cell K)} (h : AllQ (Dst l) p) (m : Cell → K) {c : Cell}
    (hc : c.1 ∉ l) : run p m c = m c :=
  run_skip (allQ_mono (fun t ht => by rintro rfl; exact hc ht) h) m

theorem velPhase_dst (k : Coef K) : AllQ (Dst [.vx, .vz]) (velPhase g k).flatten := by
  unfold velPhase
  rw [List.flatten_append]
  exact allQ_append (allQ_sweep fun _ _ _ _ _ _ => allQ_one (by simp [Dst, vxS]))
    (allQ_sweep fun _ _ _ _ _ _ => allQ_one (by simp [Dst, vzS]))

theorem wallPhase_dst : AllQ (Dst [.vx, .vz]) (wallPhase g : List (List (Stmt Cell K))).flatten := by
  unfold wallPhase freeTop rigidTop rigidRig rigidBot rigidLef
  simp only [List.flatten_append]
  refine allQ_append (allQ_append (allQ_append (allQ_append ?_ ?_) ?_) ?_) ?_ <;>
    refine allQ_itef (fun hc => ?_) <;> refine allQ_parfor fun i h1 h2 => ?_
  · exact allQ_cons (by simp [Dst, cp]) (allQ_one (by simp [Dst, cp]))
  all_goals exact allQ_cons (by simp [Dst, ng]) (allQ_loop fun _ _ _ => allQ_one (by simp [Dst, ng]))

theorem vxPml_dst (k : Coef K) (ix iz : Int) : AllQ (Dst [.vx, .vz, .psiVxX, .psiVzZ]) (vxPml g k ix iz) :=
  allQ_cons (by simp [Dst]) (allQ_one (by simp [Dst]))
theorem vzPml_dst (k : Coef K) (ix iz : Int) : AllQ (Dst [.vx, .vz, .psiVxX, .psiVzZ]) (vzPml g k ix iz) :=
  allQ_cons (by simp [Dst]) (allQ_one (by simp [Dst]))

theorem pmlP_dst (k : Coef K) (first : Bool) : AllQP (Dst [.vx, .vz, .psiVxX, .psiVzZ]) (pmlP g k first) := by
  have sx : ∀ ix iz : Int, Dst [.vx, .vz, .psiVxX, .psiVzZ] (vxS g k.d1 k.d2 ix iz) := fun _ _ => by simp [Dst, vxS]
  have sz : ∀ ix iz : Int, Dst [.vx, .vz, .psiVxX, .psiVzZ] (vzS g k.d1 k.d2 ix iz) := fun _ _ => by simp [Dst, vzS]
  have cx : ∀ i j : Int, Dst [.vx, .vz, .psiVxX, .psiVzZ] (cp .vx i j : Stmt Cell K) := fun _ _ => by simp [Dst, cp]
  have cz : ∀ i j : Int, Dst [.vx, .vz, .psiVxX, .psiVzZ] (cp .vz i j : Stmt Cell K) := fun _ _ => by simp [Dst, cp]
  refine allQP_ite fun _ => allQP_append ?_ ?_
  · refine allQP_ite fun _ => allQP_single ?_
    rw [List.flatten_cons, List.flatten_nil, List.append_nil]
    exact allQ_append (allQ_loop fun i _ _ => allQ_one (by simp [Dst])) (allQ_loop fun i _ _ => allQ_one (by simp [Dst]))
  · refine allQP_cons (allQ_parfor fun ix _ _ => ?_) (allQP_cons (allQ_parfor fun ix _ _ => ?_) (allQP_cons ?_
      (allQP_single ?_)))
    · refine allQ_ite (fun _ => allQ_loop fun iz _ _ => vxPml_dst k ix iz) fun _ => allQ_append ?_ ?_ <;>
        exact allQ_ite (fun _ => allQ_loop fun iz _ _ => allQ_one (sx _ _)) fun _ => allQ_nil
    · refine allQ_ite (fun _ => allQ_loop fun iz _ _ => allQ_ite (fun _ => vzPml_dst k ix iz)
        (fun _ => allQ_one (sz _ _))) fun _ => allQ_append ?_ ?_ <;>
        exact allQ_ite (fun _ => allQ_loop fun iz _ _ => vzPml_dst k ix iz) fun _ => allQ_nil
    · exact allQ_itef fun _ => allQ_parfor fun i _ _ => allQ_cons (cx _ _) (allQ_cons (cx _ _)
        (allQ_cons (cz _ _) (allQ_one (cz _ _))))
    · exact allQ_itef fun _ => allQ_parfor fun i _ _ => allQ_cons (cx _ _) (allQ_cons (cx _ _)
        (allQ_cons (cz _ _) (allQ_one (cz _ _))))

theorem taperX_dst (k : Coef K) {a b c d : Int} {t : Arr} {w : Int → Int → Int} :
    AllQ (Dst [.vx, .vz]) (taperX g k a b c d t w).flatten :=
  allQ_sweep fun ix e1 e2 iz e3 e4 => allQ_cons (by simp [Dst, vxS]) (allQ_one (by simp [Dst, tapS]))

theorem taperZ_dst (k : Coef K) {a b c d : Int} {t : Arr} {w : Int → Int → Int} :
    AllQ (Dst [.vx, .vz]) (taperZ g k a b c d t w).flatten :=
  allQ_sweep fun ix e1 e2 iz e3 e4 => allQ_cons (by simp [Dst, vzS]) (allQ_one (by simp [Dst, tapS]))

theorem tapers_dst (k : Coef K) :
    AllQP (Dst [.vx, .vz]) (taperTop g k ++ taperBot g k ++ taperLef g k ++ taperRig g k) := by
  refine allQP_append (allQP_append (allQP_append ?_ ?_) ?_) ?_
  · refine allQP_ite fun ht => ?_
    refine allQP_append (allQP_append (allQP_append (allQP_append (allQP_append ?_ ?_) ?_) ?_) ?_) ?_
    · exact allQP_single (taperX_dst k)
    · exact allQP_ite fun _ => allQP_single (taperX_dst k)
    · exact allQP_ite fun _ => allQP_single (taperX_dst k)
    · exact allQP_single (taperZ_dst k)
    · exact allQP_ite fun _ => allQP_single (taperZ_dst k)
    · exact allQP_ite fun _ => allQP_single (taperZ_dst k)
  · refine allQP_ite fun ht => ?_
    refine allQP_append (allQP_append (allQP_append (allQP_append (allQP_append ?_ ?_) ?_) ?_) ?_) ?_
    · exact allQP_single (taperX_dst k)
    · exact allQP_ite fun _ => allQP_single (taperX_dst k)
    · exact allQP_ite fun _ => allQP_single (taperX_dst k)
    · exact allQP_single (taperZ_dst k)
    · exact allQP_ite fun _ => allQP_single (taperZ_dst k)
    · exact allQP_ite fun _ => allQP_single (taperZ_dst k)
  · exact allQP_ite fun _ => allQP_cons (taperX_dst k) (allQP_single (taperZ_dst k))
  · exact allQP_ite fun _ => allQP_cons (taperX_dst k) (allQP_single (taperZ_dst k))

theorem preP_parts (k : Coef K) (first : Bool) : seqOf (preP g k first) = (velPhase g k).flatten ++ ((wallPhase g).flatten ++
    (seqOf (pmlP g k first) ++ seqOf (taperTop g k ++ taperBot g k ++ taperLef g k ++ taperRig g k))) := by
  unfold preP seqOf
  simp [List.flatten_append]

theorem preP_dst (k : Coef K) (first : Bool) : AllQ (Dst [.vx, .vz, .psiVxX, .psiVzZ]) (seqOf (preP g k first)) := by
  have e : ∀ t : Stmt Cell K, Dst [.vx, .vz] t → Dst [.vx, .vz, .psiVxX, .psiVzZ] t := by
    intro t ht; unfold Dst at *; simp at ht ⊢; rcases ht with h | h <;> simp [h]
  rw [preP_parts]
  exact allQ_append (allQ_mono e (velPhase_dst k)) (allQ_append (allQ_mono e wallPhase_dst) (allQ_append (pmlP_dst k first)
    (allQ_mono e (tapers_dst k))))

theorem pPhase_dst (k : Coef K) : AllQ (Dst [.p]) (pPhase g k).flatten :=
  allQ_sweep fun _ _ _ _ _ _ => allQ_one (by simp [Dst, pS])

theorem pmlV_dst (k : Coef K) (first : Bool) : AllQP (Dst [.p, .psiPX, .psiPZ]) (pmlV g k first) := by
  refine allQP_ite fun _ => allQP_append ?_ ?_
  · refine allQP_ite fun _ => allQP_single ?_
    rw [List.flatten_cons, List.flatten_nil, List.append_nil]
    exact allQ_append (allQ_loop fun i _ _ => allQ_one (by simp [Dst])) (allQ_loop fun i _ _ => allQ_one (by simp [Dst]))
  · refine allQP_cons (allQ_parfor fun ix _ _ => allQ_loop fun iz _ _ => ?_) (allQP_cons ?_ (allQP_single ?_))
    · refine allQ_ite (fun _ => allQ_nil) fun _ => ?_
      unfold pPml
      refine allQ_append (allQ_append ?_ ?_) (allQ_one (by simp [Dst])) <;>
        exact allQ_ite (fun _ => allQ_one (by simp [Dst])) fun _ => allQ_nil
    · exact allQ_itef fun _ => allQ_parfor fun i _ _ => allQ_cons (by simp [Dst, cp]) (allQ_one (by simp [Dst, cp]))
    · exact allQ_itef fun _ => allQ_parfor fun i _ _ => allQ_cons (by simp [Dst, cp]) (allQ_one (by simp [Dst, cp]))

theorem freePhase_dst : AllQ (Dst [.p]) (freePhase g : List (List (Stmt Cell K))).flatten := by
  unfold freePhase
  simp only [List.flatten_append]
  refine allQ_append (allQ_append (allQ_append ?_ ?_) ?_) ?_ <;>
    refine allQ_itef (fun hc => ?_) <;> refine allQ_parfor fun i h1 h2 => allQ_one (by simp [Dst, zr])

theorem pressure_dst (i : Nat) (ix iz : Int) : AllQ (Dst [.p]) (s.pressure g i ix iz) := by
  have h1 : ∀ j e, Dst [.p] (addS .p j e : Stmt Cell K) := fun _ _ => by simp [Dst, addS]
  have h2 : ∀ j e, Dst [.p] (subS .p j e : Stmt Cell K) := fun _ _ => by simp [Dst, subS]
  unfold Srcs.pressure
  refine allQ_ite (fun _ => allQ_one (h1 _ _)) fun _ => ?_
  refine allQ_ite (fun _ => allQ_cons (h1 _ _) (allQ_one (h2 _ _))) fun _ => ?_
  refine allQ_ite (fun _ => allQ_cons (h1 _ _) (allQ_one (h2 _ _))) fun _ => ?_
  refine allQ_ite (fun _ => allQ_append ?_ ?_) fun _ => ?_
  · exact allQ_ite (fun _ => allQ_one (h1 _ _)) fun _ => allQ_nil
  · exact allQ_ite (fun _ => allQ_one (h2 _ _)) fun _ => allQ_nil
  · exact allQ_ite (fun _ => allQ_cons (h1 _ _) (allQ_one (h2 _ _))) fun _ => allQ_nil

theorem inject_dst (i : Nat) : AllQ (Dst [.vx, .vz, .p]) (s.inject g i) := by
  have h1 : ∀ j e, Dst [.vx, .vz, .p] (addS .p j e : Stmt Cell K) := fun _ _ => by simp [Dst, addS]
  have h2 : ∀ j e, Dst [.vx, .vz, .p] (subS .p j e : Stmt Cell K) := fun _ _ => by simp [Dst, subS]
  have h3 : ∀ j e, Dst [.vx, .vz, .p] (addS .vx j e : Stmt Cell K) := fun _ _ => by simp [Dst, addS]
  have h4 : ∀ j e, Dst [.vx, .vz, .p] (addS .vz j e : Stmt Cell K) := fun _ _ => by simp [Dst, addS]
  unfold Srcs.inject
  refine allQ_ite (fun _ => allQ_nil) fun _ => ?_
  refine allQ_ite (fun _ => allQ_one (h3 _ _)) fun _ => ?_
  refine allQ_ite (fun _ => allQ_one (h4 _ _)) fun _ => ?_
  refine allQ_ite (fun _ => allQ_cons (h2 _ _) (allQ_one (h1 _ _))) fun _ => ?_
  refine allQ_ite (fun _ => allQ_cons (h3 _ _) (allQ_cons (h3 _ _) (allQ_cons (h4 _ _) (allQ_one (h4 _ _))))) fun _ => ?_
  exact allQ_ite (fun _ => allQ_mono (fun t ht => by unfold Dst at *; simp at ht ⊢; simp [ht]) (pressure_dst _ _ _))
    fun _ => allQ_nil

theorem injectAll_dst : AllQ (Dst [.vx, .vz, .p]) (s.injectAll g) := by
  intro t ht
  obtain ⟨i, _, h⟩ := List.mem_flatMap.mp ht
  exact inject_dst i t h

theorem early_dst : AllQ (Dst [.vx, .vz, .p]) (s.early g) := allQ_ite (fun _ => injectAll_dst) fun _ => allQ_nil
theorem late_dst : AllQ (Dst [.vx, .vz, .p]) (s.late g) := allQ_ite (fun _ => injectAll_dst) fun _ => allQ_nil

theorem storePhase_dst : AllQ (Dst [.s1x, .s1z, .s2z]) (s.storePhase g).flatten := by
  intro t ht
  obtain ⟨l, hl, ht⟩ := List.mem_flatten.mp ht
  obtain ⟨i, _, rfl⟩ := List.mem_map.mp hl
  obtain ⟨q, hq, rfl⟩ := List.mem_map.mp ht
  have h1 := (saves_arr hq).1
  show q.1 ∈ _
  simp; exact h1

theorem restoreAll_dst : AllQ (Dst [.vx, .vz, .p]) (s.restoreAll g) := by
  intro t ht
  obtain ⟨i, _, ht⟩ := List.mem_flatMap.mp ht
  obtain ⟨q, hq, rfl⟩ := List.mem_map.mp ht
  have h1 := (saves_arr hq).2
  show q.2.1 ∈ _
  simp; exact h1

/-! ### Clearing memory variables that are zero -/

variable [CommRing K]

theorem clear_zero {a : Arr} {m : Cell → K} (h : ∀ i, m (a, i) = 0) : run (clear g a) m = m := by
  have hz : ∀ t ∈ (clear g a : List (Stmt Cell K)), t.e = .zero := by
    intro t ht
    obtain ⟨i, _, _, hi⟩ := mem_loop.mp ht
    rw [List.mem_singleton] at hi
    subst hi; rfl
  funext c
  by_cases hc : ∃ t ∈ (clear g a : List (Stmt Cell K)), t.dst = c
  · rw [(run_zero hz m c).1 hc]
    obtain ⟨t, ht, rfl⟩ := hc
    obtain ⟨i, _, _, hi⟩ := mem_loop.mp ht
    rw [List.mem_singleton] at hi
    subst hi; exact (h i).symm
  · exact (run_zero hz m c).2 hc

theorem pmlP_first (k : Coef K) {m : Cell → K} (h1 : ∀ i, m (.psiVxX, i) = 0) (h2 : ∀ i, m (.psiVzZ, i) = 0) :
    run (seqOf (pmlP g k true)) m = run (seqOf (pmlP g k false)) m := by
  unfold pmlP seqOf
  by_cases hp : g.pml = true
  · simp only [hp, if_true, List.flatten_append, run_append]
    congr 1
    simp only [List.flatten_cons, List.flatten_nil, List.append_nil, run_append, clear_zero h1, clear_zero h2]
    simp [run]
  · simp [hp]

theorem pmlV_first (k : Coef K) {m : Cell → K} (h1 : ∀ i, m (.psiPX, i) = 0) (h2 : ∀ i, m (.psiPZ, i) = 0) :
    run (seqOf (pmlV g k true)) m = run (seqOf (pmlV g k false)) m := by
  unfold pmlV seqOf
  by_cases hp : g.pml = true
  · simp only [hp, if_true, List.flatten_append, run_append]
    congr 1
    simp only [List.flatten_cons, List.flatten_nil, List.append_nil, run_append, clear_zero h1, clear_zero h2]
    simp [run]
  · simp [hp]

theorem stepS_first (k : Coef K) {m : Cell → K} (h1 : ∀ i, m (.psiVxX, i) = 0) (h2 : ∀ i, m (.psiVzZ, i) = 0)
    (h3 : ∀ i, m (.psiPX, i) = 0) (h4 : ∀ i, m (.psiPZ, i) = 0) :
    run (stepS g s k true) m = run (stepS g s k false) m := by
  unfold stepS
  rw [preP_parts, preP_parts]
  simp only [run_append]
  have v : ∀ c : Cell, c.1 ∉ [Arr.vx, .vz] → run (wallPhase g).flatten (run (velPhase g k).flatten m) c = m c := by
    intro c hc; rw [run_dst wallPhase_dst _ hc, run_dst (velPhase_dst k) _ hc]
  rw [pmlP_first k (fun i => by rw [v _ (by simp)]; exact h1 i) (fun i => by rw [v _ (by simp)]; exact h2 i)]
  rw [pmlV_first k]
  · intro i
    rw [run_dst storePhase_dst _ (by simp), run_dst late_dst _ (by simp), run_dst (pPhase_dst k) _ (by simp),
      run_dst early_dst _ (by simp), run_dst (tapers_dst k) _ (by simp), run_dst (pmlP_dst k false) _ (by simp),
      v _ (by simp)]
    exact h3 i
  · intro i
    rw [run_dst storePhase_dst _ (by simp), run_dst late_dst _ (by simp), run_dst (pPhase_dst k) _ (by simp),
      run_dst early_dst _ (by simp), run_dst (tapers_dst k) _ (by simp), run_dst (pmlP_dst k false) _ (by simp),
      v _ (by simp)]
    exact h4 i

end

/-! ## Property theorems -/

section
variable {K : Type} [CommRing K]

/-- The wave field after `n` time steps in the medium `med`, with initial field `u` and the amplitude `a j i` of source `i`
at step `j`. -/
def shoot (g : Cfg) (k : Coef K) (s : Srcs K) (med : Cell → K) (a : Nat → Nat → K) (n : Nat) (u : Field K) : Field K :=
  fieldOf (stepsS g s k a n (mem med u))

/-- C73: for every grid, boundary setting, medium, set of sources of every type and number of time steps, the field
generated by a superposition of wavelets (and initial fields) is the superposition of the generated fields. -/
theorem shoot_linear (g : Cfg) (k : Coef K) (s : Srcs K) (med : Cell → K) (n : Nat) (x y : K) (a b : Nat → Nat → K)
    (u v : Field K) :
    shoot g k s med (fun j i => x * a j i + y * b j i) n (Field.lincomb x y u v) =
      Field.lincomb x y (shoot g k s med a n u) (shoot g k s med b n v) := by
  unfold shoot
  rw [mem_lincomb, stepsS_comb k a b n x y _ _ (fun c hc => by rw [mem_nonfld med u c hc, mem_nonfld med v c hc])]
  rfl

/-- C73: silent sources in a medium at rest generate nothing. -/
theorem shoot_silent (g : Cfg) (k : Coef K) (s : Srcs K) (med : Cell → K) (n : Nat) :
    shoot g k s med (fun _ _ => 0) n Field.rest = Field.rest := by
  have h := shoot_linear g k s med n 0 0 (fun _ _ => 0) (fun _ _ => 0) Field.rest Field.rest
  have e : ∀ u v : Field K, Field.lincomb 0 0 u v = Field.rest := by
    intro u v; simp [Field.lincomb, Field.rest]
  rw [e, e] at h
  simpa using h

end

end Verif.Fd.Acou

import Verif.Fd.AcouInject
import Verif.Fd.AcouInterior

/-! # C28, C52, C75: strength and place of sources, sources on free surfaces, and schedules with sources -/

namespace Verif.Fd.Acou

open Verif.Sten

section
variable {K : Type} {g : Cfg} {s : Srcs K}

/-- The element is saved before the free surfaces are cleared, and written back afterwards. -/
def Srcs.Saved (g : Cfg) (s : Srcs K) (c : Cell) : Prop := ∃ i, i < s.n ∧ ∃ q ∈ s.saves g i, q.2 = c

/-- A place holds one saved element. -/
theorem saves_inj {i : Nat} {q q' : Arr × Cell} (h : q ∈ s.saves g i) (h' : q' ∈ s.saves g i) (e : q.1 = q'.1) : q = q' := by
  unfold Srcs.saves at h h'
  dsimp only at h h'
  split_ifs at h h' <;> simp at h h' <;> (try rcases h with rfl | rfl) <;> (try rcases h' with rfl | rfl) <;>
    first | rfl | cases e

theorem mem_store {t : Stmt Cell K} : t ∈ (s.storePhase g).flatten ↔
    ∃ i, i < s.n ∧ ∃ q ∈ s.saves g i, t = ⟨(q.1, (i : Int)), .rd q.2⟩ := by
  unfold Srcs.storePhase
  constructor
  · intro ht
    obtain ⟨l, hl, ht⟩ := List.mem_flatten.mp ht
    obtain ⟨i, hi, rfl⟩ := List.mem_map.mp hl
    obtain ⟨q, hq, rfl⟩ := List.mem_map.mp ht
    exact ⟨i, List.mem_range.mp hi, q, hq, rfl⟩
  · rintro ⟨i, hi, q, hq, rfl⟩
    exact List.mem_flatten.mpr ⟨_, List.mem_map.mpr ⟨i, List.mem_range.mpr hi, rfl⟩, List.mem_map.mpr ⟨q, hq, rfl⟩⟩

theorem mem_restore {t : Stmt Cell K} : t ∈ s.restoreAll g ↔
    ∃ i, i < s.n ∧ ∃ q ∈ s.saves g i, t = ⟨q.2, .rd (q.1, (i : Int))⟩ := by
  unfold Srcs.restoreAll
  constructor
  · intro ht
    obtain ⟨i, hi, ht⟩ := List.mem_flatMap.mp ht
    obtain ⟨q, hq, rfl⟩ := List.mem_map.mp ht
    exact ⟨i, List.mem_range.mp hi, q, hq, rfl⟩
  · rintro ⟨i, hi, q, hq, rfl⟩
    exact List.mem_flatMap.mpr ⟨i, List.mem_range.mpr hi, List.mem_map.mpr ⟨q, hq, rfl⟩⟩

variable [CommRing K]

open Classical in
/-- Copies to distinct places, none of which is copied. -/
theorem run_copies {L : List (Stmt Cell K)} (h1 : ∀ t ∈ L, ∃ a, t.e = .rd a ∧ ∀ t' ∈ L, t'.dst ≠ a)
    (h2 : ∀ t ∈ L, ∀ t' ∈ L, t.dst = t'.dst → t.e = t'.e) (m : Cell → K) {t : Stmt Cell K} (ht : t ∈ L) :
    run L m t.dst = t.e.eval m := by
  let V : Cell → K := fun c => if h : ∃ t ∈ L, t.dst = c then (Classical.choose h).e.eval m else 0
  have hV : ∀ t ∈ L, V t.dst = t.e.eval m := by
    intro t ht
    have hex : ∃ t' ∈ L, t'.dst = t.dst := ⟨t, ht, rfl⟩
    show (if h : ∃ t' ∈ L, t'.dst = t.dst then (Classical.choose h).e.eval m else 0) = _
    rw [dif_pos hex, h2 _ (Classical.choose_spec hex).1 t ht (Classical.choose_spec hex).2]
  have hw : WritesBack [] L m V := by
    intro t ht
    obtain ⟨a, ha, hn⟩ := h1 t ht
    refine ⟨a, ha, ?_, hn, by simp⟩
    rw [hV t ht, ha]; rfl
  rw [(run_writesBack hw m (fun _ _ _ _ => rfl) t.dst).1 ⟨t, ht, rfl⟩, hV t ht]

theorem run_store (m : Cell → K) {i : Nat} (hi : i < s.n) {q : Arr × Cell} (hq : q ∈ s.saves g i) :
    run (s.storePhase g).flatten m (q.1, (i : Int)) = m q.2 := by
  refine run_copies ?_ ?_ m (mem_store.mpr ⟨i, hi, q, hq, rfl⟩)
  · intro t ht
    obtain ⟨i, _, q, hq, rfl⟩ := mem_store.mp ht
    refine ⟨q.2, rfl, ?_⟩
    intro t' ht' e
    obtain ⟨i', _, q', hq', rfl⟩ := mem_store.mp ht'
    have h1 := (saves_arr hq').1
    have h2 := (saves_arr hq).2
    dsimp only at e
    rw [← e] at h2
    rcases h1 with h | h | h <;> rw [h] at h2 <;> simp at h2
  · intro t ht t' ht' e
    obtain ⟨i, _, q, hq, rfl⟩ := mem_store.mp ht
    obtain ⟨i', _, q', hq', rfl⟩ := mem_store.mp ht'
    simp only [Prod.mk.injEq, Nat.cast_inj] at e
    obtain ⟨e1, rfl⟩ := e
    rw [saves_inj hq hq' e1]

/-- The memory from the moment the sources are saved to the end of the step: what is written back is what was saved. -/
theorem restore_writes {Z : List (List (Stmt Cell K))} (hZ : ∀ t ∈ Z.flatten, t.dst.1 = .p) (k : Coef K) (first : Bool)
    (m4 : Cell → K) :
    WritesBack Z (s.restoreAll g) (run (seqOf (pmlV g k first)) (run (s.storePhase g).flatten m4)) m4 := by
  intro t ht
  obtain ⟨i, hi, q, hq, rfl⟩ := mem_restore.mp ht
  have h1 := (saves_arr hq).1
  refine ⟨_, rfl, ?_, ?_, ?_⟩
  · rw [run_dst (pmlV_dst k first), run_store m4 hi hq]
    rcases h1 with h | h | h <;> rw [h] <;> simp
  · intro t' ht' e
    obtain ⟨i', _, q', hq', rfl⟩ := mem_restore.mp ht'
    have h2 := (saves_arr hq').2
    dsimp only at e
    rw [e] at h2
    rcases h1 with h | h | h <;> rw [h] at h2 <;> simp at h2
  · intro t' ht' e
    have h2 := hZ t' ht'
    rw [e] at h2
    dsimp only at h2
    rcases h1 with h | h | h <;> rw [h] at h2 <;> simp at h2

omit [CommRing K] in
theorem free_dst_p {t : Stmt Cell K} (ht : t ∈ (freePhase g).flatten) : t.dst.1 = .p := by
  have := freePhase_dst (g := g) t ht
  simpa [Dst] using this

/-- The last part of the step, after the pressure sources. -/
def Srcs.ending (g : Cfg) (s : Srcs K) (k : Coef K) (first : Bool) : List (Stmt Cell K) :=
  (s.storePhase g).flatten ++ (seqOf (pmlV g k first) ++ ((freePhase g).flatten ++ s.restoreAll g))

theorem ending_saved (k : Coef K) (first : Bool) (m4 : Cell → K) {c : Cell} (hc : s.Saved g c) :
    run (s.ending g k first) m4 c = m4 c := by
  unfold Srcs.ending
  simp only [run_append]
  have hw := restore_writes (g := g) (s := s) (Z := [(freePhase g).flatten]) (fun t ht => free_dst_p (by simpa using ht))
    k first m4
  refine (run_writesBack hw _ ?_ c).1 ?_
  · intro t ht a ha
    obtain ⟨i, hi, q, hq, rfl⟩ := mem_restore.mp ht
    cases ha
    refine run_dst freePhase_dst _ ?_
    rcases (saves_arr hq).1 with h | h | h <;> rw [h] <;> simp
  · obtain ⟨i, hi, q, hq, rfl⟩ := hc
    exact ⟨_, mem_restore.mpr ⟨i, hi, q, hq, rfl⟩, rfl⟩

theorem ending_unsaved (k : Coef K) (first : Bool) (m4 : Cell → K) {c : Cell} (hc : ¬ s.Saved g c) :
    run (s.ending g k first) m4 c =
      run (freePhase g).flatten (run (seqOf (pmlV g k first)) (run (s.storePhase g).flatten m4)) c := by
  unfold Srcs.ending
  simp only [run_append]
  refine run_skip ?_ _
  intro t ht e
  obtain ⟨i, hi, q, hq, rfl⟩ := mem_restore.mp ht
  exact hc ⟨i, hi, q, hq, e⟩

/-- Velocities do not change in the last part. -/
theorem ending_vel (k : Coef K) (first : Bool) (m4 : Cell → K) {a : Arr} (ha : a = .vx ∨ a = .vz) (i : Int) :
    run (s.ending g k first) m4 (a, i) = m4 (a, i) := by
  by_cases hc : s.Saved g (a, i)
  · exact ending_saved k first m4 hc
  · rw [ending_unsaved k first m4 hc, run_dst freePhase_dst _ (by rcases ha with rfl | rfl <;> simp),
      run_dst (pmlV_dst k first) _ (by rcases ha with rfl | rfl <;> simp),
      run_dst storePhase_dst _ (by rcases ha with rfl | rfl <;> simp)]

/-- Pressure sources do not touch velocities. -/
theorem weight_vel (h : s.type < 6) (m : Cell → K) (i : Nat) {a : Arr} (ha : a = .vx ∨ a = .vz) (j : Int) :
    s.weight g m i (a, j) = 0 := by
  have hp : ∀ (l : Int) (v : K), pt (.p, l) (a, j) v = 0 := by
    intro l v; unfold pt; rw [if_neg]; rcases ha with rfl | rfl <;> simp
  unfold Srcs.weight
  dsimp only
  simp only [show ¬ s.type = 6 by omega, show ¬ s.type = 7 by omega, show ¬ s.type = 10 by omega,
    show ¬ s.type = 12 by omega, if_false, hp]
  split_ifs <;> simp

omit [CommRing K] in
theorem stepS_ending (k : Coef K) (first : Bool) : stepS g s k first = seqOf (preP g k first) ++ (s.early g ++
    ((pPhase g k).flatten ++ (s.late g ++ s.ending g k first))) := rfl

omit [CommRing K] in
theorem preP_half (k : Coef K) (first : Bool) :
    seqOf (preP g k first) = (velPhase g k).flatten ++ ((wallPhase g).flatten ++ seqOf (half g k first)) := by
  unfold preP half seqOf
  simp only [List.flatten_append, List.flatten_cons, List.flatten_nil, List.append_nil, List.append_assoc]

/-- The memories of a step with sources. -/
structure Stages (g : Cfg) (s : Srcs K) (k : Coef K) (first : Bool) (m m1 m2 m3 m4 m5 : Cell → K) : Prop where
  e1 : m1 = run (seqOf (preP g k first)) m
  e2 : m2 = run (s.early g) m1
  e3 : m3 = run (pPhase g k).flatten m2
  e4 : m4 = run (s.late g) m3
  e5 : m5 = run (s.ending g k first) m4

theorem stages (k : Coef K) (first : Bool) (m : Cell → K) :
    ∃ m1 m2 m3 m4, Stages g s k first m m1 m2 m3 m4 (run (stepS g s k first) m) :=
  ⟨_, _, _, _, rfl, rfl, rfl, rfl, by rw [stepS_ending]; simp only [run_append]⟩

/-- Sum over all sources of amplitude times weight. -/
def Srcs.total (g : Cfg) (s : Srcs K) (med : Cell → K) (a : Nat → K) (c : Cell) : K :=
  ∑ i ∈ Finset.range s.n, a i * s.weight g med i c

variable {k : Coef K} {first : Bool} {m m1 m2 m3 m4 m5 : Cell → K}

theorem Stages.med1 (h : Stages g s k first m m1 m2 m3 m4 m5) : SameMed m1 m := by
  intro c hc
  rw [h.e1, run_dst (preP_dst k first)]
  obtain ⟨a, j⟩ := c
  rcases hc with h | h
  · dsimp only at h; subst h; simp
  · cases a <;> first | (cases h; done) | simp

theorem Stages.at2' (h : Stages g s k first m m1 m2 m3 m4 m5) (c : Cell) :
    m2 c = m1 c + if s.type > 5 then s.total g m (fun i => m (.amp, (i : Int))) c else 0 := by
  rw [h.e2, (early_adds (g := g) (s := s) m).2 _ h.med1]
  rfl

theorem Stages.med2 (h : Stages g s k first m m1 m2 m3 m4 m5) : SameMed m2 m := by
  rw [h.e2]; exact (early_adds (g := g) (s := s) m).same h.med1

theorem Stages.med3 (h : Stages g s k first m m1 m2 m3 m4 m5) : SameMed m3 m := by
  refine SameMed.trans ?_ h.med2
  intro c hc
  rw [h.e3, run_dst (pPhase_dst k)]
  obtain ⟨a, j⟩ := c
  rcases hc with h | h
  · dsimp only at h; subst h; simp
  · cases a <;> first | (cases h; done) | simp

theorem Stages.at4 (h : Stages g s k first m m1 m2 m3 m4 m5) (c : Cell) :
    m4 c = m3 c + if s.type < 6 then s.total g m (fun i => m (.amp, (i : Int))) c else 0 := by
  rw [h.e4, (late_adds (g := g) (s := s) m).2 _ h.med3]
  rfl

/-- Velocities at the end of the step are those the pressure loop used. -/
theorem Stages.vel (h : Stages g s k first m m1 m2 m3 m4 m5) {a : Arr} (ha : a = .vx ∨ a = .vz) (i : Int) :
    m5 (a, i) = m2 (a, i) := by
  rw [h.e5, ending_vel k first m4 ha, h.at4, h.e3, run_dst (pPhase_dst k) _ (by rcases ha with rfl | rfl <;> simp)]
  split
  · rename_i ht
    unfold Srcs.total
    rw [Finset.sum_eq_zero (fun j _ => by rw [weight_vel ht _ _ ha, mul_zero]), add_zero]
  · rw [add_zero]

/-- The velocities at the end of the step are those of a step without sources plus what the sources add. -/
theorem Stages.vel_total (h : Stages g s k first m m1 m2 m3 m4 m5) {a : Arr} (ha : a = .vx ∨ a = .vz) (i : Int) :
    m5 (a, i) = m1 (a, i) + s.total g m (fun i => m (.amp, (i : Int))) (a, i) := by
  rw [h.vel ha, h.at2']
  split
  · rfl
  · rename_i ht
    unfold Srcs.total
    rw [Finset.sum_eq_zero (fun j _ => by rw [weight_vel (by omega) _ _ ha, mul_zero])]

theorem Stages.pressure (hv : Valid g) (h : Stages g s k first m m1 m2 m3 m4 m5) {ix iz : Int} (hi : InP g ix iz)
    (hf : Freed g ix iz → s.Saved g (.p, ix * g.naz + iz)) :
    m5 (.p, ix * g.naz + iz) = (pS g k.c1 k.c2 ix iz).e.eval m2 +
      if s.type < 6 then s.total g m (fun i => m (.amp, (i : Int))) (.p, ix * g.naz + iz) else 0 := by
  obtain ⟨⟨g1, g2, g3, g4, g5⟩, ⟨p1, p2, p3, p4⟩, q1, q2, q3, q4⟩ := grid hv
  have hb : g.iePz' ≤ g.naz ∧ 1 ≤ g.ioPz' := by
    simp only [Cfg.iePz', Cfg.ioPz', Cfg.iePz, Cfg.ioPz]; constructor <;> split_ifs <;> omega
  have hi' := hi
  obtain ⟨i1, i2, i3, i4⟩ := hi'
  have h5 : m5 (.p, ix * g.naz + iz) = m4 (.p, ix * g.naz + iz) := by
    rw [h.e5]
    by_cases hs : s.Saved g (.p, ix * g.naz + iz)
    · exact ending_saved k first m4 hs
    · rw [ending_unsaved k first m4 hs, run_na (free_na hv fun _ hf' => hs (hf hf')) (by omega) (by omega),
        run_na (pmlV_na hv k first (by simp) fun _ => hi) (by omega) (by omega), run_dst storePhase_dst _ (by simp)]
  rw [h5, h.at4]
  congr 1
  rw [h.e3]
  unfold pPhase
  rw [run_sweep_at (W := Wp) (g := g) _ i1 i2 i3 i4 (by omega) (by omega)]
  · show Verif.Par.store _ _ _ _ = _
    exact if_pos rfl
  · intro jx e1 e2 jz e3 e4 t ht
    rw [List.mem_singleton] at ht; subst ht
    exact ⟨pS_key _ _ (by omega) (by omega), pS_rkey _ _ (by omega) (by omega)⟩

theorem weight_med (a : Nat → Nat → K) (n : Nat) (med : Cell → K) (u : Field K) (c : Cell) :
    s.total g (setAmp (a n) (stepsS g s k a n (mem med u))) (fun i => setAmp (a n) (stepsS g s k a n (mem med u)) (.amp, (i : Int))) c
      = s.total g med (a n) c := by
  unfold Srcs.total
  refine Finset.sum_congr rfl fun i _ => ?_
  congr 1
  refine weight_congr (fun c hc => ?_) i c
  rw [setAmp_nonfld _ _ _ hc, stepsS_nonfld _ _ _ _ _ hc, mem_nonfld _ _ _ hc]

/-! ## Property theorems -/

/-- C75: at every point of the model that is not on a rigid wall the particle velocities are advanced by the difference of
the pressure before the step, plus, for every source, its amplitude at this time step times its weight there. -/
theorem source_velocity (hv : Valid g) (k : Coef K) (s : Srcs K) (med : Cell → K) (a : Nat → Nat → K) (n : Nat) (u0 : Field K)
    (ix iz : Int) :
    let u := shoot g k s med a n u0
    let u' := shoot g k s med a (n + 1) u0
    (g.ioXx ≤ ix → ix < g.ieXx → g.ioXz ≤ iz → iz < g.ieXz → (g.rig = 3 → ix ≠ g.nx + 1 ∧ ix ≠ g.nx + 2) →
      at2 g u'.vx ix iz = at2 g u.vx ix iz -
        med (.rox, ix * g.naz + iz) * (stag k.c1 k.c2 fun j => at2 g u.p (ix + j) iz) +
        ∑ i ∈ Finset.range s.n, a n i * s.weight g med i (.vx, ix * g.naz + iz)) ∧
    (g.ioZx ≤ ix → ix < g.ieZx → g.ioZz ≤ iz → iz < g.ieZz → (g.bot = 3 → iz ≠ g.nz + 1 ∧ iz ≠ g.nz + 2) →
      at2 g u'.vz ix iz = at2 g u.vz ix iz -
        med (.roz, ix * g.naz + iz) * (stag k.c1 k.c2 fun j => at2 g u.p ix (iz + j)) +
        ∑ i ∈ Finset.range s.n, a n i * s.weight g med i (.vz, ix * g.naz + iz)) := by
  obtain ⟨⟨g1, g2, g3, g4, g5⟩, ⟨p1, p2, p3, p4⟩, q1, q2, q3, q4⟩ := grid hv
  intro u u'
  obtain ⟨m, hm⟩ : ∃ m, m = setAmp (a n) (stepsS g s k a n (mem med u0)) := ⟨_, rfl⟩
  obtain ⟨m1, m2, m3, m4, hs⟩ := stages (g := g) (s := s) k (n = 0) m
  have e5 : ∀ c, stepsS g s k a (n + 1) (mem med u0) c = run (stepS g s k (n = 0)) m c := by intro c; rw [hm]; rfl
  have hw := fun c => weight_med (g := g) (s := s) (k := k) a n med u0 c
  rw [← hm] at hw
  have hmed : ∀ b j, fld (b, j) = false → m (b, j) = med (b, j) := by
    intro b j hc; rw [hm, setAmp_nonfld _ _ _ hc, stepsS_nonfld _ _ _ _ _ hc, mem_nonfld _ _ _ hc]
  have hmx : ∀ j, m (.vx, j) = u.vx j := by intro j; rw [hm]; rfl
  have hmz : ∀ j, m (.vz, j) = u.vz j := by intro j; rw [hm]; rfl
  have hmp : ∀ j, m (.p, j) = u.p j := by intro j; rw [hm]; rfl
  refine ⟨fun h1 h2 h3 h4 hwl => ?_, fun h1 h2 h3 h4 hwl => ?_⟩
  · have hi : InX g ix iz := ⟨h1, h2, h3, h4⟩
    have b1 : 0 ≤ iz := by simp only [Cfg.ioXz] at h3; omega
    have b2 : iz < g.naz := by simp only [Cfg.ieXz] at h4; omega
    show stepsS g s k a (n + 1) (mem med u0) (.vx, ix * g.naz + iz) = _
    rw [e5, hs.vel_total (.inl rfl), hw, hs.e1, preP_half, run_append, half_at hv k _ (.inl ⟨rfl, hi⟩) _ b1 b2, vel_vx hv k hi]
    · simp only [vxS, dpx, eval_add, eval_sub, eval_mul, rd, Expr.eval, stag, at2, hmx, hmp,
        hmed .rox _ rfl, add_zero, ← sub_eq_add_neg]
      rfl
    · rintro (⟨-, hr, h⟩ | ⟨h, -⟩)
      · have := hwl hr; omega
      · cases h
  · have hi : InZ g ix iz := ⟨h1, h2, h3, h4⟩
    have b1 : 0 ≤ iz := by simp only [Cfg.ioZz] at h3; omega
    have b2 : iz < g.naz := by simp only [Cfg.ieZz] at h4; omega
    show stepsS g s k a (n + 1) (mem med u0) (.vz, ix * g.naz + iz) = _
    rw [e5, hs.vel_total (.inr rfl), hw, hs.e1, preP_half, run_append, half_at hv k _ (.inr (.inl ⟨rfl, hi⟩)) _ b1 b2,
      vel_vz hv k hi]
    · simp only [vzS, dpz, eval_add, eval_sub, eval_mul, rd, Expr.eval, stag, at2, hmz, hmp,
        hmed .roz _ rfl, add_zero, ← sub_eq_add_neg, ← add_sub_assoc, ← add_assoc]
      rfl
    · rintro (⟨h, -⟩ | ⟨-, hr, h⟩)
      · cases h
      · have := hwl hr; omega

/-- C75: at every point of the model the pressure is advanced by the differences of the particle velocities after their
update, plus, for every source, its amplitude at this time step times its weight there.  On a free surface this holds where
the pressure of a source is saved; elsewhere on it see `free_surface_source`. -/
theorem source_pressure (hv : Valid g) (k : Coef K) (s : Srcs K) (med : Cell → K) (a : Nat → Nat → K) (n : Nat) (u0 : Field K)
    (ix iz : Int) (h1 : g.ioPx' ≤ ix) (h2 : ix < g.iePx') (h3 : g.ioPz' ≤ iz) (h4 : iz < g.iePz')
    (hf : Freed g ix iz → s.Saved g (.p, ix * g.naz + iz)) :
    let u := shoot g k s med a n u0
    let u' := shoot g k s med a (n + 1) u0
    at2 g u'.p ix iz = at2 g u.p ix iz - med (.l2m, ix * g.naz + iz) *
      ((stag k.c1 k.c2 fun j => at2 g u'.vx (ix + 1 + j) iz) + (stag k.c1 k.c2 fun j => at2 g u'.vz ix (iz + 1 + j))) +
      ∑ i ∈ Finset.range s.n, a n i * s.weight g med i (.p, ix * g.naz + iz) := by
  intro u u'
  obtain ⟨m, hm⟩ : ∃ m, m = setAmp (a n) (stepsS g s k a n (mem med u0)) := ⟨_, rfl⟩
  obtain ⟨m1, m2, m3, m4, hs⟩ := stages (g := g) (s := s) k (n = 0) m
  have e5 : ∀ c, stepsS g s k a (n + 1) (mem med u0) c = run (stepS g s k (n = 0)) m c := by intro c; rw [hm]; rfl
  have hw := fun c => weight_med (g := g) (s := s) (k := k) a n med u0 c
  rw [← hm] at hw
  have hx : ∀ j, m2 (.vx, j) = u'.vx j := fun j => by
    show _ = stepsS g s k a (n + 1) (mem med u0) (.vx, j)
    rw [e5, hs.vel (.inl rfl)]
  have hz : ∀ j, m2 (.vz, j) = u'.vz j := fun j => by
    show _ = stepsS g s k a (n + 1) (mem med u0) (.vz, j)
    rw [e5, hs.vel (.inr rfl)]
  have hl : m2 (.l2m, ix * g.naz + iz) = med (.l2m, ix * g.naz + iz) := by
    rw [hs.med2 _ (.inr rfl), hm, setAmp_nonfld _ _ _ rfl, stepsS_nonfld _ _ _ _ _ rfl, mem_nonfld _ _ _ rfl]
  have hp : m2 (.p, ix * g.naz + iz) = u.p (ix * g.naz + iz) +
      if s.type > 5 then s.total g med (a n) (.p, ix * g.naz + iz) else 0 := by
    rw [hs.at2', hw, hs.e1, run_dst (preP_dst k _) _ (by simp), hm]; rfl
  show stepsS g s k a (n + 1) (mem med u0) (.p, ix * g.naz + iz) = _
  rw [e5, hs.pressure hv ⟨h1, h2, h3, h4⟩ hf, hw]
  simp only [pS, eval_add, eval_sub, eval_mul, rd, Expr.eval, stag, at2, hp, hl, hx, hz]
  rw [show ix + 1 + 0 = ix + 1 by omega, show ix + 1 + -1 = ix by omega, show ix + 1 + 1 = ix + 2 by omega,
    show ix + 1 + -2 = ix - 1 by omega, show ix * g.naz + (iz + 1 + 0) = ix * g.naz + iz + 1 by omega,
    show ix * g.naz + (iz + 1 + -1) = ix * g.naz + iz by omega, show ix * g.naz + (iz + 1 + 1) = ix * g.naz + iz + 2 by omega,
    show ix * g.naz + (iz + 1 + -2) = ix * g.naz + iz - 1 by omega]
  show _ = _ + s.total g med (a n) (.p, ix * g.naz + iz)
  by_cases ht : s.type < 6
  · rw [if_pos ht, if_neg (by omega)]; ring
  · rw [if_neg ht, if_pos (by omega)]; ring

/-- C52 with sources: the pressure on a free surface is zero after every step, except where the pressure of a source is
saved. -/
theorem free_surface_source (hv : Valid g) (k : Coef K) (s : Srcs K) (med : Cell → K) (a : Nat → Nat → K) (n : Nat)
    (u0 : Field K) (ix iz : Int) (hf : Freed g ix iz) (hs : ¬ s.Saved g (.p, ix * g.naz + iz)) :
    at2 g (shoot g k s med a (n + 1) u0).p ix iz = 0 := by
  show run (stepS g s k (n = 0)) (setAmp (a n) (stepsS g s k a n (mem med u0))) (.p, ix * g.naz + iz) = 0
  rw [stepS_ending]
  simp only [run_append]
  rw [ending_unsaved _ _ _ hs]
  exact freed_zero hv hf _

end
end Verif.Fd.Acou

import Verif.Med.Ext

/-! # The four sides and the moving surface -/

namespace Verif.Med

/-- Linear arithmetic over the sizes and offsets. -/
macro "geo" : tactic => `(tactic|
  ((try simp only [ox, oz, Par.ioXx, Par.ioXz, Par.ioZx, Par.ioZz, Par.ioPx, Par.ioPz, Par.ioTx, Par.ioTz, Par.ieXx, Par.ieXz,
    Par.ieZx, Par.ieZz, Par.iePx, Par.iePz, Par.ieTx, Par.ieTz, Par.rPx, Par.rPz, Par.rTx, Par.rTz, Par.nax, Par.naz]) <;> omega))

section
variable {K : Type} {p : Par} {m : Mem K} {V : Arr → Int → Int → K}

theorem cond_true {c : Bool} {f : Mem K → Option (Mem K)} (h : c = true) : cond c f m = f m := by simp [cond, h]
theorem cond_false {c : Bool} {f : Mem K → Option (Mem K)} (h : c = false) : cond c f m = some m := by simp [cond, h]

/-- Five steps, one per array; each keeps the other arrays. -/
theorem five {f1 f2 f3 f4 f5 : Mem K → Option (Mem K)} {P Q : Arr → Mem K → Prop}
    (hP : ∀ a m m', m' a = m a → P a m → P a m') (hQ : ∀ a m m', m' a = m a → Q a m → Q a m')
    (h1 : ∀ m, P .rox m → ∃ m', f1 m = some m' ∧ Q .rox m' ∧ ∀ c, c ≠ .rox → m' c = m c)
    (h2 : ∀ m, P .roz m → ∃ m', f2 m = some m' ∧ Q .roz m' ∧ ∀ c, c ≠ .roz → m' c = m c)
    (h3 : ∀ m, P .l2m m → ∃ m', f3 m = some m' ∧ Q .l2m m' ∧ ∀ c, c ≠ .l2m → m' c = m c)
    (h4 : ∀ m, P .lam m → ∃ m', f4 m = some m' ∧ Q .lam m' ∧ ∀ c, c ≠ .lam → m' c = m c)
    (h5 : ∀ m, P .muu m → ∃ m', f5 m = some m' ∧ Q .muu m' ∧ ∀ c, c ≠ .muu → m' c = m c)
    (h : ∀ a, used p a → P a m) :
    ∃ m', (do
      let m ← f1 m
      let m ← f2 m
      let m ← f3 m
      cond (p.ischeme > 2) (fun m => do
        let m ← f4 m
        f5 m) m) = some m' ∧ ∀ a, used p a → Q a m' := by
  obtain ⟨m1, e1, q1, k1⟩ := h1 m (h .rox trivial)
  obtain ⟨m2, e2, q2, k2⟩ := h2 m1 (hP _ _ _ (k1 _ (by decide)) (h .roz trivial))
  obtain ⟨m3, e3, q3, k3⟩ := h3 m2 (hP _ _ _ (k2 _ (by decide)) (hP _ _ _ (k1 _ (by decide)) (h .l2m trivial)))
  by_cases hs : p.ischeme > 2
  · obtain ⟨m4, e4, q4, k4⟩ := h4 m3 (hP _ _ _ (k3 _ (by decide)) (hP _ _ _ (k2 _ (by decide))
      (hP _ _ _ (k1 _ (by decide)) (h .lam hs))))
    obtain ⟨m5, e5, q5, k5⟩ := h5 m4 (hP _ _ _ (k4 _ (by decide)) (hP _ _ _ (k3 _ (by decide)) (hP _ _ _ (k2 _ (by decide))
      (hP _ _ _ (k1 _ (by decide)) (h .muu hs)))))
    refine ⟨m5, ?_, ?_⟩
    · simp only [Option.bind_eq_bind, e1, Option.bind_some, e2, e3]
      rw [cond_true (by simpa using hs)]
      simp [e4, e5]
    · intro a _
      cases a
      · exact hQ _ _ _ (k5 _ (by decide)) (hQ _ _ _ (k4 _ (by decide)) (hQ _ _ _ (k3 _ (by decide)) (hQ _ _ _ (k2 _ (by decide)) q1)))
      · exact hQ _ _ _ (k5 _ (by decide)) (hQ _ _ _ (k4 _ (by decide)) (hQ _ _ _ (k3 _ (by decide)) q2))
      · exact hQ _ _ _ (k5 _ (by decide)) (hQ _ _ _ (k4 _ (by decide)) q3)
      · exact hQ _ _ _ (k5 _ (by decide)) q4
      · exact q5
  · refine ⟨m3, ?_, ?_⟩
    · simp only [Option.bind_eq_bind, e1, Option.bind_some, e2, e3]
      rw [cond_false (by simpa using hs)]
    · intro a ha
      cases a
      · exact hQ _ _ _ (k3 _ (by decide)) (hQ _ _ _ (k2 _ (by decide)) q1)
      · exact hQ _ _ _ (k3 _ (by decide)) q2
      · exact q3
      · exact absurd ha hs
      · exact absurd ha hs

theorem extLef_spec (hv : Valid p) (h : HoldsAll p m V 0 0 0 0) :
    ∃ m', cond (absorbs p.lef) (extLef p) m = some m' ∧ HoldsAll p m' V (p.pad p.lef) 0 0 0 := by
  have := hv.nx; have := hv.nz; have := hv.iorder; have := hv.even; have := hv.npml
  have t1 := pad_nonneg hv p.lef; have t2 := pad_nonneg hv p.rig; have t3 := pad_nonneg hv p.top
  have t4 := pad_nonneg hv p.bot; have t5 := add_nonneg' hv
  by_cases hc : absorbs p.lef = true
  · rw [cond_true hc]
    have e := pad_abs (p := p) hc
    unfold extLef
    refine five (P := fun a m => Holds p m a (V a) 0 0 0 0) (Q := fun a m => Holds p m a (V a) (p.pad p.lef) 0 0 0)
      (fun a m m' e h => h.congr e) (fun a m m' e h => h.congr e) ?_ ?_ ?_ ?_ ?_ h
    · exact fun m h => holds_left hv t1 (by geo) (by geo) (by geo) (by geo) (by geo) (by geo) (by geo) (by geo) (by geo) h
    · exact fun m h => holds_left hv t1 (by geo) (by geo) (by geo) (by geo) (by geo) (by geo) (by geo) (by geo) (by geo) h
    · exact fun m h => holds_left hv t1 (by geo) (by geo) (by geo) (by geo) (by geo) (by geo) (by geo) (by geo) (by geo) h
    · exact fun m h => holds_left hv t1 (by geo) (by geo) (by geo) (by geo) (by geo) (by geo) (by geo) (by geo) (by geo) h
    · exact fun m h => holds_left hv t1 (by geo) (by geo) (by geo) (by geo) (by geo) (by geo) (by geo) (by geo) (by geo) h
  · rw [cond_false (by simpa using hc)]
    rw [pad_not (p := p) (by simpa using hc)]
    exact ⟨m, rfl, h⟩

theorem extRig_spec (hv : Valid p) (h : HoldsAll p m V (p.pad p.lef) 0 0 0) :
    ∃ m', cond (absorbs p.rig) (extRig p) m = some m' ∧ HoldsAll p m' V (p.pad p.lef) (p.pad p.rig) 0 0 := by
  have := hv.nx; have := hv.nz; have := hv.iorder; have := hv.even; have := hv.npml
  have t1 := pad_nonneg hv p.lef; have t2 := pad_nonneg hv p.rig; have t3 := pad_nonneg hv p.top
  have t4 := pad_nonneg hv p.bot; have t5 := add_nonneg' hv
  by_cases hc : absorbs p.rig = true
  · rw [cond_true hc]
    have e := pad_abs (p := p) hc
    unfold extRig
    refine five (P := fun a m => Holds p m a (V a) (p.pad p.lef) 0 0 0)
      (Q := fun a m => Holds p m a (V a) (p.pad p.lef) (p.pad p.rig) 0 0)
      (fun a m m' e h => h.congr e) (fun a m m' e h => h.congr e) ?_ ?_ ?_ ?_ ?_ h
    · exact fun m h => holds_right hv t2 t1 (by geo) (by geo) (by geo) (by geo) (by geo) (by geo) (by geo) (by geo) (by geo) h
    · exact fun m h => holds_right hv t2 t1 (by geo) (by geo) (by geo) (by geo) (by geo) (by geo) (by geo) (by geo) (by geo) h
    · exact fun m h => holds_right hv t2 t1 (by geo) (by geo) (by geo) (by geo) (by geo) (by geo) (by geo) (by geo) (by geo) h
    · exact fun m h => holds_right hv t2 t1 (by geo) (by geo) (by geo) (by geo) (by geo) (by geo) (by geo) (by geo) (by geo) h
    · exact fun m h => holds_right hv t2 t1 (by geo) (by geo) (by geo) (by geo) (by geo) (by geo) (by geo) (by geo) (by geo) h
  · rw [cond_false (by simpa using hc)]
    rw [pad_not (p := p) (s := p.rig) (by simpa using hc)]
    exact ⟨m, rfl, h⟩

theorem extTop_spec (hv : Valid p) (h : HoldsAll p m V (p.pad p.lef) (p.pad p.rig) 0 0) :
    ∃ m', cond (absorbs p.top) (extTop p) m = some m' ∧ HoldsAll p m' V (p.pad p.lef) (p.pad p.rig) (p.pad p.top) 0 := by
  have := hv.nx; have := hv.nz; have := hv.iorder; have := hv.even; have := hv.npml
  have t1 := pad_nonneg hv p.lef; have t2 := pad_nonneg hv p.rig; have t3 := pad_nonneg hv p.top
  have t4 := pad_nonneg hv p.bot
  by_cases hc : absorbs p.top = true
  · rw [cond_true hc]
    have e := pad_abs (p := p) hc
    have t5 : p.add = 0 := by
      unfold absorbs at hc
      simp only [Bool.or_eq_true, decide_eq_true_eq] at hc
      unfold Par.add; rw [if_neg (by omega)]
    unfold extTop
    refine five (P := fun a m => Holds p m a (V a) (p.pad p.lef) (p.pad p.rig) 0 0)
      (Q := fun a m => Holds p m a (V a) (p.pad p.lef) (p.pad p.rig) (p.pad p.top) 0)
      (fun a m m' e h => h.congr e) (fun a m m' e h => h.congr e) ?_ ?_ ?_ ?_ ?_ h
    · exact fun m h => holds_top hv t3 (by geo) (by geo) (by geo) (by geo) (by geo) (by geo) (by geo) (by geo) (by geo) h
    · exact fun m h => holds_top hv t3 (by geo) (by geo) (by geo) (by geo) (by geo) (by geo) (by geo) (by geo) (by geo) h
    · exact fun m h => holds_top hv t3 (by geo) (by geo) (by geo) (by geo) (by geo) (by geo) (by geo) (by geo) (by geo) h
    · exact fun m h => holds_top hv t3 (by geo) (by geo) (by geo) (by geo) (by geo) (by geo) (by geo) (by geo) (by geo) h
    · exact fun m h => holds_top hv t3 (by geo) (by geo) (by geo) (by geo) (by geo) (by geo) (by geo) (by geo) (by geo) h
  · rw [cond_false (by simpa using hc)]
    rw [pad_not (p := p) (s := p.top) (by simpa using hc)]
    exact ⟨m, rfl, h⟩

theorem extBot_spec (hv : Valid p) (h : HoldsAll p m V (p.pad p.lef) (p.pad p.rig) (p.pad p.top) 0) :
    ∃ m', cond (absorbs p.bot) (extBot p) m = some m' ∧
      HoldsAll p m' V (p.pad p.lef) (p.pad p.rig) (p.pad p.top) (p.pad p.bot) := by
  have := hv.nx; have := hv.nz; have := hv.iorder; have := hv.even; have := hv.npml
  have t1 := pad_nonneg hv p.lef; have t2 := pad_nonneg hv p.rig; have t3 := pad_nonneg hv p.top
  have t4 := pad_nonneg hv p.bot; have t5 := add_nonneg' hv
  by_cases hc : absorbs p.bot = true
  · rw [cond_true hc]
    have e := pad_abs (p := p) hc
    unfold extBot
    refine five (P := fun a m => Holds p m a (V a) (p.pad p.lef) (p.pad p.rig) (p.pad p.top) 0)
      (Q := fun a m => Holds p m a (V a) (p.pad p.lef) (p.pad p.rig) (p.pad p.top) (p.pad p.bot))
      (fun a m m' e h => h.congr e) (fun a m m' e h => h.congr e) ?_ ?_ ?_ ?_ ?_ h
    · exact fun m h => holds_bottom hv t4 t3 (by geo) (by geo) (by geo) (by geo) (by geo) (by geo) (by geo) (by geo) (by geo) h
    · exact fun m h => holds_bottom hv t4 t3 (by geo) (by geo) (by geo) (by geo) (by geo) (by geo) (by geo) (by geo) (by geo) h
    · exact fun m h => holds_bottom hv t4 t3 (by geo) (by geo) (by geo) (by geo) (by geo) (by geo) (by geo) (by geo) (by geo) h
    · exact fun m h => holds_bottom hv t4 t3 (by geo) (by geo) (by geo) (by geo) (by geo) (by geo) (by geo) (by geo) (by geo) h
    · exact fun m h => holds_bottom hv t4 t3 (by geo) (by geo) (by geo) (by geo) (by geo) (by geo) (by geo) (by geo) (by geo) h
  · rw [cond_false (by simpa using hc)]
    rw [pad_not (p := p) (s := p.bot) (by simpa using hc)]
    exact ⟨m, rfl, h⟩

/-- The rows above a moving surface are cleared, everything else is kept. -/
theorem extMov_spec [Field K] (hv : Valid p)
    (h : HoldsAll p m V (p.pad p.lef) (p.pad p.rig) (p.pad p.top) (p.pad p.bot)) :
    ∃ m', cond (p.top = 5) (extMov p) m = some m' ∧
      HoldsAll p m' V (p.pad p.lef) (p.pad p.rig) (p.pad p.top) (p.pad p.bot) ∧
      (∀ a, a = .rox ∨ a = .roz ∨ a = .l2m → ∀ x z, ox p a - p.pad p.lef ≤ x → x < ox p a + p.nx + p.pad p.rig →
        oz p a - p.add ≤ z → z < oz p a → p.top = 5 → m' a x z = 0) := by
  have := hv.nx; have := hv.nz; have := hv.iorder; have := hv.even; have := hv.npml
  have t1 := pad_nonneg hv p.lef; have t2 := pad_nonneg hv p.rig
  have t4 := pad_nonneg hv p.bot; have t5 := add_nonneg' hv
  by_cases hc : p.top = 5
  · rw [cond_true (by simpa using hc)]
    have e : p.add = p.topadd := by unfold Par.add; rw [if_pos hc]
    have t3 : p.pad p.top = 0 := by unfold Par.pad; rw [if_neg (by omega)]
    unfold extMov
    rw [clear_spec (by intro x z h1 h2 h3 h4; revert h1 h2 h3 h4; unfold Par.inG; geo)]
    simp only [Option.bind_eq_bind, Option.bind_some]
    rw [clear_spec (by intro x z h1 h2 h3 h4; revert h1 h2 h3 h4; unfold Par.inG; geo)]
    simp only [Option.bind_some]
    rw [clear_spec (by intro x z h1 h2 h3 h4; revert h1 h2 h3 h4; unfold Par.inG; geo)]
    refine ⟨_, rfl, ?_, ?_⟩
    · intro a ha x z h1 h2 h3 h4
      rw [← h a ha x z h1 h2 h3 h4]
      rw [upd_out, upd_out, upd_out]
      · rintro ⟨rfl, _, hh⟩; revert hh h3; geo
      · rintro ⟨rfl, _, hh⟩; revert hh h3; geo
      · rintro ⟨rfl, _, hh⟩; revert hh h3; geo
    · intro a ha x z h1 h2 h3 h4 _
      rcases ha with rfl | rfl | rfl
      · rw [upd_out (by simp), upd_out (by simp), upd_in ⟨rfl, (by revert h1 h2; geo), (by revert h3 h4; geo)⟩]
      · rw [upd_out (by simp), upd_in ⟨rfl, (by revert h1 h2; geo), (by revert h3 h4; geo)⟩]
      · rw [upd_in ⟨rfl, (by revert h1 h2; geo), (by revert h3 h4; geo)⟩]
  · rw [cond_false (by simpa using hc)]
    exact ⟨m, rfl, h, fun a _ x z _ _ _ _ h5 => absurd h5 hc⟩

end

end Verif.Med

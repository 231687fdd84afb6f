import Verif.Recv.Props

/-! # Receiver positions: nearest grid points, and where the positions are wrong -/

namespace Verif.Recv

open Verif

set_option linter.unusedSectionVars false

/-- The receiver is at the grid point next to its position. -/
def Nearest (m : Grid) (r : Rcv) : Prop := |r.x * m.dx - r.xr| ≤ m.dx / 2 ∧ |r.z * m.dz - r.zr| ≤ m.dz / 2

/-- The grid point exists. -/
def OnGrid (m : Grid) (r : Rcv) : Prop := 0 ≤ r.x ∧ r.x < m.nx ∧ 0 ≤ r.z ∧ r.z < m.nz

theorem mkRcv_nearest {m : Grid} (hdx : 0 < m.dx) (hdz : 0 < m.dz) (xr zr : ℚ) : Nearest m (mkRcv m xr zr) := by
  have key : ∀ d w : ℚ, 0 < d → |(NINT (w / d) : ℚ) * d - w| ≤ d / 2 := fun d w hd => by
    have h := NINT_near (w / d)
    have e : (NINT (w / d) : ℚ) * d - w = (NINT (w / d) - w / d) * d := by field_simp
    rw [e, abs_mul, abs_of_pos hd]
    nlinarith
  exact ⟨key _ _ hdx, key _ _ hdz⟩

theorem lineRcv_mk {m : Grid} {e : Ends} {s : Option (ℚ × ℚ)} {n : ℤ} {rs : List Rcv} (h : lineRcv m e s n = .ok rs) :
    ∀ r ∈ rs, ∃ a b, r = mkRcv m a b := by
  have key : ∀ dx dz : ℚ, ∀ r ∈ ((List.range n.toNat).map fun i : ℕ => mkRcv m (e.x1 - m.x0 + i * dx) (e.z1 - m.z0 + i * dz)),
      ∃ a b, r = mkRcv m a b := fun dx dz r hr => by
    obtain ⟨i, -, rfl⟩ := List.mem_map.1 hr
    exact ⟨_, _, rfl⟩
  unfold lineRcv at h
  split at h
  · cases h
  · dsimp only at h
    split at h
    · split at h
      · cases h
      · cases h; exact key _ _
    · split at h
      · cases h
      · split at h
        · cases h
        · cases h; exact key _ _

theorem lines_mk {m : Grid} {p : Par} {ns : List ℤ} {rs : List Rcv} (h : lines m p ns = .ok rs) : ∀ r ∈ rs, ∃ a b, r = mkRcv m a b := by
  unfold lines at h
  obtain ⟨⟨ss, nd⟩, -, h⟩ := bind_ok h
  obtain ⟨q, e, h⟩ := bind_ok h
  cases h
  intro r hr
  obtain ⟨l, hl, hr⟩ := List.mem_flatten.1 hr
  obtain ⟨i, hi, rfl⟩ := List.getElem_of_mem hl
  have f := mapM_inv e
  exact lineRcv_mk (f.get (i := i) (by rw [f.length_eq]; exact hi) hi) r hr

/-- The receivers of a circle come first and are on the grid; every other receiver is at the grid point next to its position. -/
theorem recvPar_nearest (m : Grid) (p : Par) (hdx : 0 < m.dx) (hdz : 0 < m.dz) (hnx : 1 ≤ m.nx) (hnz : 1 ≤ m.nz) (n : ℤ) (rs : List Rcv)
    (h : recvPar m p = .ok (n, rs)) :
    (∀ r ∈ rs.take p.circle.length, OnGrid m r) ∧ ∀ r ∈ rs.drop p.circle.length, Nearest m r := by
  have key : ∀ ls : List Rcv, (∀ r ∈ ls, ∃ a b, r = mkRcv m a b) →
      (∀ r ∈ (points m p ++ ls).take p.circle.length, OnGrid m r) ∧ ∀ r ∈ (points m p ++ ls).drop p.circle.length, Nearest m r := by
    intro ls hl
    unfold points
    rw [List.append_assoc, List.take_left' (by simp), List.drop_left' (by simp)]
    refine ⟨fun r hr => ?_, fun r hr => ?_⟩
    · obtain ⟨c, -, rfl⟩ := List.mem_map.1 hr
      unfold clipRcv
      exact ⟨by dsimp only; omega, by dsimp only; omega, by dsimp only; omega, by dsimp only; omega⟩
    · rw [List.mem_append, List.mem_append] at hr
      rcases hr with (hr | hr) | hr
      · obtain ⟨c, -, rfl⟩ := List.mem_map.1 hr; exact mkRcv_nearest hdx hdz _ _
      · obtain ⟨c, -, rfl⟩ := List.mem_map.1 hr; exact mkRcv_nearest hdx hdz _ _
      · obtain ⟨a, b, rfl⟩ := hl r hr; exact mkRcv_nearest hdx hdz _ _
  unfold recvPar at h
  split at h
  · cases h
  · split at h
    · cases h
    · dsimp only at h
      split at h
      · cases h
        have := key [] (by simp)
        rwa [List.append_nil] at this
      · obtain ⟨ns, h1, h⟩ := bind_ok h
        obtain ⟨r, h2, h⟩ := bind_ok h
        cases h
        exact key r (lines_mk h2)

/-- The first receivers have the positions asked for: those of the circle as computed, then those of the text file and those of the arrays, relative
to the origin of the model. -/
theorem recvPar_points (m : Grid) (p : Par) (n : ℤ) (rs : List Rcv) (h : recvPar m p = .ok (n, rs)) :
    (p.circle ++ (p.text.map (fun c => (c.1 - m.x0, c.2 - m.z0)) ++ (p.xrcva.zip p.zrcva).map fun c => (c.1 - m.x0, c.2 - m.z0))) <+:
      rs.map fun r => (r.xr, r.zr) := by
  have key : ∀ ls : List Rcv, (p.circle ++ (p.text.map (fun c => (c.1 - m.x0, c.2 - m.z0)) ++
      (p.xrcva.zip p.zrcva).map fun c => (c.1 - m.x0, c.2 - m.z0))) <+: (points m p ++ ls).map fun r => (r.xr, r.zr) := by
    intro ls
    refine ⟨ls.map fun r => (r.xr, r.zr), ?_⟩
    unfold points
    rw [List.map_append, List.map_append, List.map_append, List.map_map, List.map_map, List.map_map]
    congr 1
    congr 1
    symm
    exact List.map_id _
  unfold recvPar at h
  split at h
  · cases h
  · split at h
    · cases h
    · dsimp only at h
      split at h
      · cases h
        have := key []
        rwa [List.append_nil] at this
      · obtain ⟨ns, h1, h⟩ := bind_ok h
        obtain ⟨r, h2, h⟩ := bind_ok h
        cases h
        exact key r

example : ∃ n rs, recvPar ⟨-20, 0, 10, 10, 5, 4⟩ { text := [(0, 10)] } = .ok (n, rs) ∧ [(20, 10)] <+: rs.map fun r => (r.xr, r.zr) := by
  have e : recvPar ⟨-20, 0, 10, 10, 5, 4⟩ { text := [(0, 10)] } = .ok (1, points ⟨-20, 0, 10, 10, 5, 4⟩ { text := [(0, 10)] }) := by
    simp [recvPar]
  refine ⟨_, _, e, ?_⟩
  have := recvPar_points _ _ _ _ e
  norm_num at this ⊢
  exact this

/-! ## One line -/

section
variable {m : Grid} (hdx : 0 < m.dx) (hdz : 0 < m.dz)
include hdx hdz

/-- A parameter set with one line and nothing else. -/
def one (x1 x2 z1 z2 : ℚ) (dxr dzr : List ℚ) : Par :=
  { xrcv1 := [x1], xrcv2 := [x2], zrcv1 := [z1], zrcv2 := [z2], dxrcv := dxr, dzrcv := dzr }

/-- Inside the model. -/
structure Fits (m : Grid) (x1 x2 z1 z2 : ℚ) : Prop where
  hx0 : m.x0 ≤ x1
  hx : x1 ≤ x2
  hx1 : x2 ≤ m.x1
  hz0 : m.z0 ≤ z1
  hz : z1 ≤ z2
  hz1 : z2 ≤ m.z1

theorem clip_fits {x1 x2 z1 z2 : ℚ} (f : Fits m x1 x2 z1 z2) : clipEnds m ⟨x1, x2, z1, z2⟩ = ⟨x1, x2, z1, z2⟩ := by
  have a1 := f.hx0; have a2 := f.hx; have a3 := f.hx1; have b1 := f.hz0; have b2 := f.hz; have b3 := f.hz1
  unfold Grid.x1 at a3; unfold Grid.z1 at b3
  unfold clipEnds
  simp only
  rw [max_eq_right a1, max_eq_right (a1.trans a2), max_eq_right b1, max_eq_right (b1.trans b2), min_eq_right, min_eq_right, min_eq_right,
    min_eq_right] <;> nlinarith

omit hdx hdz in
theorem crop_fits {x1 x2 z1 z2 : ℚ} (f : Fits m x1 x2 z1 z2) : crop m ⟨x1, x2, z1, z2⟩ = .ok ⟨x1, x2, z1, z2⟩ := by
  have a1 := f.hx0; have a2 := f.hx; have a3 := f.hx1; have b1 := f.hz0; have b2 := f.hz; have b3 := f.hz1
  have key : ∀ s0 s1 a b : ℚ, s0 ≤ a → a ≤ b → b ≤ s1 → cropAxis s0 s1 a b = .ok (a, b) := fun s0 s1 a b h1 h2 h3 => by
    unfold cropAxis
    have n : ¬a < s0 := not_lt.2 h1
    dsimp only
    rw [if_neg (fun h => n h.1), if_neg (fun h => not_lt.2 (h2.trans h3) h.2), if_neg n, if_neg (not_lt.2 h2), if_neg (not_lt.2 h3)]
  unfold crop
  dsimp only
  rw [key _ _ _ _ a1 a2 a3, key _ _ _ _ b1 b2 b3]
  rfl

/-- The call for one line inside the model, step by step. -/
theorem one_eq {x1 x2 z1 z2 : ℚ} {dxr dzr : List ℚ} (f : Fits m x1 x2 z1 z2) :
    recvPar m (one x1 x2 z1 z2 dxr dzr) = (spacing m (one x1 x2 z1 z2 dxr dzr) 1).bind fun s =>
      ((([(⟨x1, x2, z1, z2⟩ : Ends)].zip s.1).zipIdx).mapM fun t => fixAt m s.2 t.2 t.1.1 t.1.2).bind fun fs =>
        (fs.mapM fun t => lineCount t.1 t.2).bind fun ns =>
          ((([(⟨x1, x2, z1, z2⟩ : Ends)].zip s.1).zip ns).mapM fun t => lineRcv m t.1.1 t.1.2 t.2).bind fun rs => .ok (ns.sum, rs.flatten) := by
  have e : (ends m (one x1 x2 z1 z2 dxr dzr)).map (clipEnds m) = [⟨x1, x2, z1, z2⟩] := by
    unfold ends one
    rw [if_neg (by simp)]
    simp [clip_fits hdx hdz f]
  have c : ([(⟨x1, x2, z1, z2⟩ : Ends)]).mapM (crop m) = .ok [⟨x1, x2, z1, z2⟩] := by
    rw [List.mapM_cons, crop_fits f]; rfl
  unfold recvPar
  have q1 : (one x1 x2 z1 z2 dxr dzr).xrcva = [] := rfl
  have q2 : (one x1 x2 z1 z2 dxr dzr).zrcva = [] := rfl
  rw [q1, q2, if_neg (by simp), if_neg (by simp [one])]
  dsimp only
  rw [if_neg (by simp [one])]
  unfold counts lines
  rw [e]
  simp only [bind, c]
  change Except.bind (Except.bind (spacing m _ 1) _) _ = _
  cases hs : spacing m (one x1 x2 z1 z2 dxr dzr) 1 with
  | error _ => rfl
  | ok s =>
    change Except.bind (Except.bind (List.mapM _ _) _) _ = Except.bind (List.mapM _ _) _
    cases hf : ([(⟨x1, x2, z1, z2⟩ : Ends)].zip s.1).zipIdx.mapM (fun t => fixAt m s.2 t.2 t.1.1 t.1.2) with
    | error _ => rfl
    | ok fs =>
      change Except.bind (List.mapM _ _) _ = Except.bind (List.mapM _ _) _
      cases hn : fs.mapM (fun t => lineCount t.1 t.2) with
      | error _ => rfl
      | ok ns =>
        change Except.bind (Except.bind (List.mapM _ _) _) _ = Except.bind (List.mapM _ _) _
        cases (([(⟨x1, x2, z1, z2⟩ : Ends)].zip s.1).zip ns).mapM (fun t => lineRcv m t.1.1 t.1.2 t.2) with
        | error _ => rfl
        | ok rs =>
          change Except.ok _ = Except.ok _
          simp [one, points]

/-- The same when the spacing is initialised. -/
theorem one_run {x1 x2 z1 z2 : ℚ} {dxr dzr : List ℚ} (f : Fits m x1 x2 z1 z2) {s : ℚ × ℚ}
    (hs : spacing m (one x1 x2 z1 z2 dxr dzr) 1 = .ok ([some s], 1)) :
    recvPar m (one x1 x2 z1 z2 dxr dzr) = (fixLine m ⟨x1, x2, z1, z2⟩ s).bind fun q => (lineCount q.1 (some q.2)).bind fun n =>
      (lineRcv m ⟨x1, x2, z1, z2⟩ (some s) n).bind fun rs => .ok (n, rs) := by
  rw [one_eq hdx hdz f, hs]
  change Except.bind (List.mapM _ [(((⟨x1, x2, z1, z2⟩ : Ends), some s), 0)]) _ = _
  rw [List.mapM_cons, List.mapM_nil]
  unfold fixAt
  simp only [Nat.lt_one_iff, if_true]
  cases fixLine m ⟨x1, x2, z1, z2⟩ s with
  | error _ => rfl
  | ok q =>
    change Except.bind (List.mapM (fun t => lineCount t.1 t.2) [(q.1, some q.2)]) _ = Except.bind (lineCount q.1 (some q.2)) _
    have e1 : List.mapM (fun t : Ends × Option (ℚ × ℚ) => lineCount t.1 t.2) [(q.1, some q.2)] =
        (lineCount q.1 (some q.2)).bind fun n => .ok [n] := by
      rw [List.mapM_cons, List.mapM_nil]; rfl
    rw [e1]
    cases lineCount q.1 (some q.2) with
    | error _ => rfl
    | ok n =>
      change Except.bind (List.mapM _ [(((⟨x1, x2, z1, z2⟩ : Ends), some s), n)]) _ = Except.bind (lineRcv m _ _ n) _
      rw [List.mapM_cons, List.mapM_nil]
      dsimp only
      cases lineRcv m ⟨x1, x2, z1, z2⟩ (some s) n with
      | error _ => rfl
      | ok rs =>
        change Except.ok _ = Except.ok _
        simp

omit hdx hdz in
theorem spacing_dz {x1 x2 z1 z2 d : ℚ} : spacing m (one x1 x2 z1 z2 [] [d]) 1 = .ok ([some (m.dx, d)], 1) := by
  unfold spacing one; simp

omit hdx hdz in
theorem spacing_dx {x1 x2 z1 z2 d : ℚ} : spacing m (one x1 x2 z1 z2 [d] []) 1 = .ok ([some (d, 0)], 1) := by
  unfold spacing one; simp

omit hdx hdz in
theorem spacing_both {x1 x2 z1 z2 a b : ℚ} : spacing m (one x1 x2 z1 z2 [a] [b]) 1 = .ok ([some (a, b)], 1) := by
  unfold spacing one; simp

/-- A vertical line for which only `dzrcv` is given: the first pass sets `dxrcv` to 0, the second pass does not, and the receivers go off
sideways by one column each. -/
theorem vertical_slants (x z1 z2 d : ℚ) (k : ℕ) (f : Fits m x x z1 z2) (hd : 0 < d) (hk : 1 ≤ k) (hz : z2 - z1 = k * d) :
    recvPar m (one x x z1 z2 [] [d]) =
      .ok ((k : ℤ) + 1, (List.range (k + 1)).map fun i : ℕ => mkRcv m (x - m.x0 + i * m.dx) (z1 - m.z0 + i * d)) := by
  have kp : (0 : ℚ) < k := by exact_mod_cast hk
  have ne : z1 ≠ z2 := by have := mul_pos kp hd; intro h; rw [h] at hz; linarith
  rw [one_run hdx hdz f spacing_dz]
  unfold fixLine
  dsimp only
  have c : ¬(m.dx = 0 ∧ d = 0) := fun h => hdx.ne' h.1
  simp only [if_neg (not_lt.2 hd.le), if_neg c, if_neg (not_lt.2 hdx.le)]
  rw [if_pos ⟨trivial, hdx.ne'⟩, if_neg (fun h => ne h.1)]
  change Except.bind (lineCount _ _) _ = _
  unfold lineCount
  dsimp only
  rw [if_neg (by simp), if_neg hd.ne', hz, mul_div_cancel_right₀ _ hd.ne', abs_of_nonneg kp.le,
    show ((k : ℕ) : ℚ) = ((k : ℤ) : ℚ) by push_cast; rfl, NINT_int]
  change Except.bind (lineRcv m _ _ _) _ = _
  unfold lineRcv
  dsimp only
  rw [if_pos hdx.ne', if_neg (by omega), add_sub_cancel_right, hz, show (((k : ℤ)) : ℚ) = (k : ℚ) by push_cast; rfl,
    mul_div_cancel_left₀ _ kp.ne']
  rfl

/-- A horizontal line over an even number of columns with a receiver at every second column: the last receiver is one column outside the
grid. -/
theorem horizontal_overshoots (j : ℕ) (hnx : m.nx = 2 * j + 2) (hnz : 1 ≤ m.nz) :
    ∃ rs, recvPar m (one m.x0 m.x1 m.z0 m.z0 [2 * m.dx] []) = .ok ((j : ℤ) + 2, rs) ∧
      ∃ r ∈ rs, r.x = m.nx := by
  have hx : (m.nx : ℚ) = 2 * j + 2 := by rw [hnx]; push_cast; ring
  have jn : (0 : ℚ) ≤ j := by positivity
  have f : Fits m m.x0 m.x1 m.z0 m.z0 := by
    have h2 : (1 : ℚ) ≤ m.nz := by exact_mod_cast hnz
    refine ⟨le_refl _, ?_, le_refl _, le_refl _, le_refl _, ?_⟩
    · unfold Grid.x1; rw [hx]; nlinarith
    · unfold Grid.z1; nlinarith
  have d0 : 0 < 2 * m.dx := by linarith
  have ne : m.x0 ≠ m.x1 := by unfold Grid.x1; rw [hx]; intro h; nlinarith
  rw [one_run hdx hdz f spacing_dx]
  unfold fixLine
  dsimp only
  have c : ¬(2 * m.dx = 0 ∧ (if (0 : ℚ) < 0 then m.dz else 0) = 0) := fun h => d0.ne' h.1
  simp only [if_neg c, if_neg (not_lt.2 d0.le)]
  rw [if_neg (fun h => ne h.1)]
  change ∃ rs, Except.bind (lineCount _ _) _ = _ ∧ _
  unfold lineCount
  dsimp only
  have q : (m.x1 - m.x0) / (2 * m.dx) = j + 1 / 2 := by unfold Grid.x1; rw [hx]; field_simp; ring
  have N : NINT |(j : ℚ) + 1 / 2| = j + 1 := by
    rw [abs_of_pos (by linarith)]
    unfold NINT
    rw [if_pos (by linarith), show (j : ℚ) + 1 / 2 + 1 / 2 = ((j + 1 : ℤ) : ℚ) by push_cast; ring, Int.floor_intCast]
  rw [if_pos d0.ne', q, N]
  change ∃ rs, Except.bind (lineRcv m _ _ _) _ = _ ∧ _
  unfold lineRcv
  dsimp only
  rw [if_pos d0.ne', if_neg (by omega)]
  refine ⟨_, by rw [show (j : ℤ) + 1 + 1 = j + 2 by ring]; rfl, mkRcv m (m.x0 - m.x0 + ((j + 1 : ℕ) : ℚ) * (2 * m.dx)) _,
    List.mem_map.2 ⟨j + 1, List.mem_range.2 (by omega), rfl⟩, ?_⟩
  unfold mkRcv
  dsimp only
  rw [show (m.x0 - m.x0 + ((j + 1 : ℕ) : ℚ) * (2 * m.dx)) / m.dx = ((2 * j + 2 : ℤ) : ℚ) by push_cast; field_simp; ring, NINT_int, hnx]

/-- A line with both ends at the same point is refused, whatever the spacing. -/
theorem point_refused (x z a b : ℚ) (f : Fits m x x z z) (ha : 0 ≤ a) :
    recvPar m (one x x z z [a] [b]) = .error .verr := by
  rw [one_run hdx hdz f spacing_both]
  unfold fixLine
  rw [if_neg (not_lt.2 ha)]
  dsimp only
  rw [ite_self]
  change Except.bind (lineCount _ _) _ = _
  unfold lineCount
  dsimp only
  have zero : ∀ (c : Prop) [Decidable c] (v : ℚ), (c ∨ v = 0) → (if c ∧ v ≠ 0 then (0 : ℚ) else v) = 0 := by
    intro c _ v h
    by_cases hv : v = 0
    · simp [hv]
    · rw [if_pos ⟨h.resolve_right hv, hv⟩]
  rw [if_neg, if_pos]
  · rfl
  · exact zero _ _ (Or.inl rfl)
  · exact not_not.2 (zero _ _ (Or.inl rfl))

/-- A negative `dxrcv` writes past the end of an array. -/
theorem negative_dx (x1 x2 z1 z2 d : ℚ) (f : Fits m x1 x2 z1 z2) (hd : d < 0) : recvPar m (one x1 x2 z1 z2 [d] []) = .error .ub := by
  rw [one_run hdx hdz f spacing_dx]
  unfold fixLine
  rw [if_pos hd]
  rfl

/-- Two values of `dxrcv` for one line are written past the end of an array. -/
theorem too_many_dx (x1 x2 z1 z2 a b : ℚ) (f : Fits m x1 x2 z1 z2) (t : List ℚ) : recvPar m (one x1 x2 z1 z2 [a, b] t) = .error .ub := by
  rw [one_eq hdx hdz f]
  unfold spacing one
  rw [if_pos (by simp)]
  rfl

/-- Two or more lines with one value of `dxrcv` and one of `dzrcv`: the spacing of the other lines is used without being set. -/
theorem shared_spacing_unset (p : Par) (l l' : Line) (ls : List Line) (a : Asks p (l :: l' :: ls)) (hg : ∀ q ∈ l :: l' :: ls, q.Good m)
    (hx : p.dxrcv = [l.dxr]) (hz : p.dzrcv = [l.dzr]) : recvPar m p = .error .ub := by
  have ec : ((l :: l' :: ls).map Line.ends).map (clipEnds m) = (l :: l' :: ls).map Line.ends := by
    rw [List.map_map]
    exact List.map_congr_left fun q hq => clip_good hdx hdz (hg q hq)
  have es : spacing m p (l :: l' :: ls).length = .ok (some (l.dxr, l.dzr) :: none :: List.replicate ls.length none, 1) := by
    unfold spacing
    rw [hx, hz, if_neg (by simp), if_neg (by simp), if_neg (by simp), if_neg (by simp), if_neg (by simp)]
    simp [List.replicate_succ]
  have hc : counts m p = .error .ub := by
    unfold counts
    rw [a.ends, ec, mapM_map, mapM_ok (g := Line.ends) fun q hq => crop_good (hg q hq)]
    change (spacing m p ((l :: l' :: ls).map Line.ends).length).bind _ = _
    rw [List.length_map, es]
    obtain ⟨e, s, h1, h2⟩ := fix_good hdx hdz (hg l (by simp))
    have tail : ∀ (A : List Line) (n i : ℕ), 1 ≤ i → (((A.map Line.ends).zip (List.replicate n (none : Option (ℚ × ℚ)))).zipIdx i).mapM
        (fun t => fixAt m 1 t.2 t.1.1 t.1.2) = .ok ((A.map Line.ends).zip (List.replicate n none)) := by
      intro A
      induction A with
      | nil => intro n i _; rfl
      | cons q A ih =>
        intro n i hi
        cases n with
        | zero => rfl
        | succ n =>
          rw [List.map_cons, List.replicate_succ, List.zip_cons_cons, List.zipIdx_cons, List.mapM_cons, ih n (i + 1) (by omega)]
          unfold fixAt
          rw [if_neg (by dsimp only; omega)]
          rfl
    change Except.bind (List.mapM _ _) _ = _
    rw [List.map_cons, List.zip_cons_cons, List.zipIdx_cons, List.mapM_cons]
    have t1 := tail (l' :: ls) (ls.length + 1) 1 (le_refl _)
    rw [List.replicate_succ] at t1
    rw [t1]
    have f0 : fixAt m 1 0 l.ends (some (l.dxr, l.dzr)) = .ok (e, some s) := by
      unfold fixAt; rw [if_pos (by omega)]; dsimp only; rw [h1]; rfl
    dsimp only
    rw [f0]
    change List.mapM _ ((e, some s) :: (l'.ends, none) :: (ls.map Line.ends).zip _) = _
    rw [List.mapM_cons, List.mapM_cons]
    dsimp only
    rw [h2]
    rfl
  unfold recvPar
  rw [if_neg (by simp [a.arr]), if_neg (by rw [a.x1, a.x2, a.z1, a.z2]; simp)]
  dsimp only
  rw [if_neg (fun h => by rw [a.x1] at h; simp at h), hc]
  rfl

/-- Receivers of the arrays `xrcva`, `zrcva` are not kept on the grid. -/
theorem array_not_clipped (z : ℚ) :
    ∃ r, recvPar m { xrcva := [m.x0 + m.nx * m.dx], zrcva := [z] } = .ok (1, [r]) ∧ r.x = m.nx := by
  refine ⟨mkRcv m (m.x0 + m.nx * m.dx - m.x0) (z - m.z0), ?_, ?_⟩
  · unfold recvPar points
    simp
  · unfold mkRcv
    dsimp only
    rw [show (m.x0 + m.nx * m.dx - m.x0) / m.dx = (m.nx : ℚ) by field_simp; ring, NINT_int]

end

/-! ## Concrete cases -/

/-- 5 columns and 4 rows of 10 m, from x = -20. -/
def sample : Grid := ⟨-20, 0, 10, 10, 5, 4⟩

theorem sample_line : (⟨-20, 20, 0, 20, 20, 0, 2⟩ : Line).Good sample := by
  refine ⟨?_, ?_, ?_, ?_, ?_, ?_, ?_, Or.inl ⟨?_, ?_⟩⟩ <;> norm_num [sample, Grid.x1, Grid.z1]

theorem sample_vertical : (⟨0, 0, 0, 30, 0, 10, 3⟩ : Line).Good sample := by
  refine ⟨?_, ?_, ?_, ?_, ?_, ?_, ?_, Or.inr ⟨?_, ?_, ?_⟩⟩ <;> norm_num [sample, Grid.x1, Grid.z1]

/-- A sloping and a vertical line, with a value of `dxrcv` and `dzrcv` for each. -/
example : ∃ n, recvPar sample ⟨[], [], [], [], [-20, 0], [20, 0], [0, 0], [20, 30], [20, 0], [0, 10]⟩ =
    .ok (n, (⟨-20, 20, 0, 20, 20, 0, 2⟩ : Line).wanted sample ++ (⟨0, 0, 0, 30, 0, 10, 3⟩ : Line).wanted sample) := by
  have h := recvPar_lines (m := sample) (by norm_num [sample]) (by norm_num [sample]) ⟨[], [], [], [], [-20, 0], [20, 0], [0, 0], [20, 30], [20, 0], [0, 10]⟩
    [⟨-20, 20, 0, 20, 20, 0, 2⟩, ⟨0, 0, 0, 30, 0, 10, 3⟩] ⟨by simp, rfl, rfl, rfl, rfl, rfl⟩
    (fun l hl => by
      simp only [List.mem_cons, List.not_mem_nil, or_false] at hl
      rcases hl with rfl | rfl
      · exact sample_line
      · exact sample_vertical) rfl rfl
  simpa [points] using h

/-- One line with `dxrcv` only; and as many receivers as were counted, on the grid and next to their positions. -/
example : ∃ n, recvPar sample (one (-20) 20 0 20 [20] []) = .ok (n, (⟨-20, 20, 0, 20, 20, 0, 2⟩ : Line).wanted sample) ∧ n = 3 ∧
    ∀ r ∈ (⟨-20, 20, 0, 20, 20, 0, 2⟩ : Line).wanted sample, Nearest sample r ∧ OnGrid sample r := by
  have hx : 0 < sample.dx := by norm_num [sample]
  have hz : 0 < sample.dz := by norm_num [sample]
  obtain ⟨n, h⟩ := recvPar_lines_dx hx hz (one (-20) 20 0 20 [20] [])
    [⟨-20, 20, 0, 20, 20, 0, 2⟩] ⟨by simp, rfl, rfl, rfl, rfl, rfl⟩ (by simpa using sample_line) 20 (Or.inl rfl) rfl (by simp)
  have h' : recvPar sample (one (-20) 20 0 20 [20] []) = .ok (n, (⟨-20, 20, 0, 20, 20, 0, 2⟩ : Line).wanted sample) := by
    simpa [points, one] using h
  refine ⟨n, h', ?_, fun r hr => ⟨?_, wanted_grid hx hz sample_line r hr⟩⟩
  · have := recvPar_count _ _ _ _ h'
    rw [← this]; simp [Line.wanted]
  · exact (recvPar_nearest _ _ hx hz (by norm_num [sample]) (by norm_num [sample]) _ _ h').2 r (by simpa [one] using hr)

example : recvPar sample {} = .ok (5, (List.range 5).map fun (i : ℕ) => ⟨i, 0, i * 10, 0⟩) :=
  recvPar_default (m := sample) (by norm_num [sample]) (by norm_num [sample]) (by norm_num [sample]) (by norm_num [sample])

/-- A vertical line at x = 0 from z = 0 to 20 every 10: the last receiver is at x = 20. -/
example : ∃ n rs, recvPar sample (one 0 0 0 20 [] [10]) = .ok (n, rs) ∧ ∃ r ∈ rs, r.x = 4 ∧ r.z = 2 := by
  refine ⟨_, _, vertical_slants (m := sample) (by norm_num [sample]) (by norm_num [sample]) 0 0 20 10 2
    (by refine ⟨?_, ?_, ?_, ?_, ?_, ?_⟩ <;> norm_num [sample, Grid.x1, Grid.z1]) (by norm_num) (by norm_num) (by norm_num),
    _, List.mem_map.2 ⟨2, by simp, rfl⟩, ?_, ?_⟩
  · norm_num [mkRcv, sample, NINT]
  · norm_num [mkRcv, sample, NINT]

/-- 6 columns: the last of the receivers at every second column is at column 6. -/
example : ∃ rs, recvPar ⟨0, 0, 10, 10, 6, 4⟩ (one 0 50 0 0 [20] []) = .ok (4, rs) ∧ ∃ r ∈ rs, r.x = 6 := by
  have h := horizontal_overshoots (m := ⟨0, 0, 10, 10, 6, 4⟩) (by norm_num) (by norm_num) 2 (by norm_num) (by norm_num)
  norm_num [Grid.x1] at h
  exact h

example : Asks ⟨[], [], [], [], [-20, -20], [20, 20], [0, 10], [20, 30], [20], [0]⟩
    [⟨-20, 20, 0, 20, 20, 0, 2⟩, ⟨-20, 20, 10, 30, 20, 0, 2⟩] ∧ (⟨-20, 20, 10, 30, 20, 0, 2⟩ : Line).Good sample := by
  refine ⟨⟨by simp, rfl, rfl, rfl, rfl, rfl⟩, ?_⟩
  refine ⟨?_, ?_, ?_, ?_, ?_, ?_, ?_, Or.inl ⟨?_, ?_⟩⟩ <;> norm_num [sample, Grid.x1, Grid.z1]

example : Fits sample 0 0 10 10 ∧ Fits sample (-20) 20 0 0 := by
  constructor <;> refine ⟨?_, ?_, ?_, ?_, ?_, ?_⟩ <;> norm_num [sample, Grid.x1, Grid.z1]

end Verif.Recv

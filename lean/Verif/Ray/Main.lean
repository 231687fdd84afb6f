import Verif.Ray.Props

/-! # Travel times: rings and the whole grid -/

namespace Verif.Ray

open Verif

set_option linter.unusedSectionVars false

noncomputable section

/-- A source on a grid of at least two by two points. -/
structure Src (g : Grid) (sx sz : ℤ) : Prop where
  nx : 2 ≤ g.nx
  nz : 2 ≤ g.nz
  src : g.Has sx sz

/-- Point inside the box. -/
def Box.In (b : Box) (x z : ℤ) : Prop := b.xl ≤ x ∧ x ≤ b.xh ∧ b.zl ≤ z ∧ z ≤ b.zh

/-- All points of the box are set. -/
def Full (b : Box) (T : Field) : Prop := ∀ x z, b.In x z → ∃ v, T x z = some v

/-- The points of the box are as before. -/
def Same (b : Box) (T T' : Field) : Prop := ∀ x z, b.In x z → T' x z = T x z

section
variable {g : Grid} {s0 s1 : ℝ} {sx sz : ℤ} (M : Medium g s0 s1) (S : Src g sx sz) {k : ℤ} (hk : 1 ≤ k)
include M S hk

/-- One edge, seen from outside: the outer line is set, the rest unchanged. -/
theorem edge_if (c : Prop) [Decidable c] {vert : Bool} {inn out lo hi : ℤ} {T : Field} (hT : AllOk g s0 s1 sx sz T)
    (hE : c → ∃ f, Edge g sx sz vert inn out lo hi k T f) :
    ∃ T', doIf c (edge g vert inn out lo hi) T = some T' ∧ AllOk g s0 s1 sx sz T' ∧
      (∀ x z, (∀ al, lo ≤ al → al ≤ hi → ¬(c ∧ x = px vert al out ∧ z = pz vert al out)) → T' x z = T x z) ∧
      (∀ x z v, T x z = some v → ∃ v', T' x z = some v') ∧
      (c → ∀ al, lo ≤ al → al ≤ hi → ∃ v, T' (px vert al out) (pz vert al out) = some v) := by
  by_cases hc : c
  · obtain ⟨f, E⟩ := hE hc
    obtain ⟨T', e, m⟩ := edge_ok M E hT
    unfold doIf
    rw [if_pos hc]
    refine ⟨T', e, m.ok, fun x z h => m.keep x z fun al h1 h2 h3 => h al h1 h2 ⟨hc, h3⟩, fun x z v hv => ?_, fun _ al h1 h2 => m.isSet al ⟨h1, h2⟩⟩
    by_cases h : ∃ al, lo ≤ al ∧ al ≤ hi ∧ x = px vert al out ∧ z = pz vert al out
    · obtain ⟨al, h1, h2, h3, h4⟩ := h
      rw [h3, h4]; exact m.isSet al ⟨h1, h2⟩
    · rw [m.keep x z fun al h1 h2 h3 => h ⟨al, h1, h2, h3⟩]; exact ⟨v, hv⟩
  · unfold doIf
    rw [if_neg hc]
    exact ⟨T, rfl, hT, fun _ _ _ => rfl, fun _ _ v hv => ⟨v, hv⟩, fun h => (hc h).elim⟩

/-- One corner, seen from outside. -/
theorem corner_if (c : Prop) [Decidable c] {ix iz ox oz : ℤ} {T : Field} (hT : AllOk g s0 s1 sx sz T)
    (hC : c → g.Has ix iz ∧ g.Has ix oz ∧ g.Has ox iz ∧ g.Has ox oz ∧ (∃ v, T ix iz = some v) ∧ (∃ v, T ix oz = some v) ∧
      (∃ v, T ox iz = some v) ∧ 1 ≤ cheb sx sz ix iz ∧ cheb sx sz ox oz = cheb sx sz ix iz + 1) :
    ∃ T', doIf c (corner g ix iz ox oz) T = some T' ∧ AllOk g s0 s1 sx sz T' ∧
      (∀ x z, ¬(c ∧ x = ox ∧ z = oz) → T' x z = T x z) ∧ (∀ x z v, T x z = some v → ∃ v', T' x z = some v') ∧
      (c → ∃ v, T' ox oz = some v) := by
  by_cases hc : c
  · obtain ⟨h1, h2, h3, h4, ⟨t, et⟩, ⟨a, ea⟩, ⟨b, eb⟩, h5, h6⟩ := hC hc
    obtain ⟨v, e, ok⟩ := corner_ok M hT h1 h2 h3 h4 et ea eb h5 h6
    unfold doIf
    rw [if_pos hc]
    refine ⟨_, e, hT.upd ok, fun x z h => upd_ne _ _ fun h' => h ⟨hc, h'⟩, fun x z w hw => ?_, fun _ => ⟨v, upd_self _ _ _ _⟩⟩
    by_cases h : x = ox ∧ z = oz
    · rw [h.1, h.2]; exact ⟨v, upd_self _ _ _ _⟩
    · rw [upd_ne _ _ h]; exact ⟨w, hw⟩
  · unfold doIf
    rw [if_neg hc]
    exact ⟨T, rfl, hT, fun _ _ _ => rfl, fun _ _ v hv => ⟨v, hv⟩, fun h => (hc h).elim⟩

omit M S hk in
theorem cheb_eq (x z d : ℤ) : cheb sx sz x z = d ↔ (|x - sx| ≤ d ∧ |z - sz| ≤ d ∧ (|x - sx| = d ∨ |z - sz| = d)) := by
  unfold cheb
  constructor
  · intro h
    rw [← h]
    refine ⟨le_max_left _ _, le_max_right _ _, ?_⟩
    rcases le_total |x - sx| |z - sz| with h' | h'
    · right; rw [max_eq_right h']
    · left; rw [max_eq_left h']
  · rintro ⟨h1, h2, h | h⟩
    · rw [max_eq_left (by omega), h]
    · rw [max_eq_right (by omega), h]

omit M S hk in
theorem cheb_at {x z d : ℤ} (h1 : -d ≤ x - sx ∧ x - sx ≤ d) (h2 : -d ≤ z - sz ∧ z - sz ≤ d)
    (h3 : x - sx = d ∨ x - sx = -d ∨ z - sz = d ∨ z - sz = -d) : cheb sx sz x z = d := by
  rw [cheb_eq]
  refine ⟨abs_le.2 h1, abs_le.2 h2, ?_⟩
  have hd : 0 ≤ d := by omega
  rcases h3 with h | h | h | h
  · left; rw [h, abs_of_nonneg hd]
  · left; rw [h, abs_neg, abs_of_nonneg hd]
  · right; rw [h, abs_of_nonneg hd]
  · right; rw [h, abs_neg, abs_of_nonneg hd]

/-- The limits of the box of ring `k`. -/
structure Lim (g : Grid) (sx sz k xl xh zl zh : ℤ) : Prop where
  nx2 : 2 ≤ g.nx
  nz2 : 2 ≤ g.nz
  x0 : 0 ≤ sx
  x1 : sx < g.nx
  z0 : 0 ≤ sz
  z1 : sz < g.nz
  exl : xl = max (sx - k) 0
  exh : xh = min (sx + k) (g.nx - 1)
  ezl : zl = max (sz - k) 0
  ezh : zh = min (sz + k) (g.nz - 1)

/-- After the edges: what is set, and what is unchanged. -/
structure After (g : Grid) (xl xh zl zh : ℤ) (T Td : Field) : Prop where
  dR : ∀ z, xh < g.nx - 1 → zl ≤ z → z ≤ zh → ∃ v, Td (xh + 1) z = some v
  dL : ∀ z, xl > 0 → zl ≤ z → z ≤ zh → ∃ v, Td (xl - 1) z = some v
  dB : ∀ x, zh < g.nz - 1 → xl ≤ x → x ≤ xh → ∃ v, Td x (zh + 1) = some v
  dT : ∀ x, zl > 0 → xl ≤ x → x ≤ xh → ∃ v, Td x (zl - 1) = some v
  dI : ∀ x z, xl ≤ x → x ≤ xh → zl ≤ z → z ≤ zh → ∃ v, Td x z = some v
  same : ∀ x z, xl ≤ x → x ≤ xh → zl ≤ z → z ≤ zh → Td x z = T x z

theorem edges_ok {xl xh zl zh : ℤ} (L : Lim g sx sz k xl xh zl zh) {T : Field} (hT : AllOk g s0 s1 sx sz T) (hF : Full ⟨xl, xh, zl, zh⟩ T) :
    ∃ Td, edges g ⟨xl, xh, zl, zh⟩ T = some Td ∧ AllOk g s0 s1 sx sz Td ∧ After g xl xh zl zh T Td := by
  obtain ⟨nx2, nz2, x0, x1, z0, z1, exl, exh, ezl, ezh⟩ := L
  have hF' : ∀ x z, xl ≤ x → x ≤ xh → zl ≤ z → z ≤ zh → ∃ v, T x z = some v := fun x z a b c d => hF x z ⟨a, b, c, d⟩
  unfold edges
  dsimp only
  simp only [Option.bind_eq_bind]
  -- right
  obtain ⟨Ta, ea, oka, ka, pa, sa⟩ := edge_if M S hk (xh < g.nx - 1) (vert := true) (inn := xh) (out := xh + 1) (lo := zl) (hi := zh) hT (by
    intro c
    refine ⟨fun al => (T xh al).getD 0, ⟨hk, by omega, by omega, ?_, ?_, ?_, ?_, ?_⟩⟩ <;> intro al h1 h2 <;> simp only [px, pz, if_true]
    · exact ⟨by omega, by omega, by omega, by omega⟩
    · exact ⟨by omega, by omega, by omega, by omega⟩
    · exact cheb_at (by omega) (by omega) (by omega)
    · exact cheb_at (by omega) (by omega) (by omega)
    · obtain ⟨v, hv⟩ := hF' xh al (by omega) (by omega) (by omega) (by omega)
      rw [hv]; rfl)
  simp only [px, pz, if_true] at ka sa
  rw [ea, Option.bind_some]
  -- left
  obtain ⟨Tb, e2, okb, kb, pb, sb⟩ := edge_if M S hk (xl > 0) (vert := true) (inn := xl) (out := xl - 1) (lo := zl) (hi := zh) oka (by
    intro c
    refine ⟨fun al => (Ta xl al).getD 0, ⟨hk, by omega, by omega, ?_, ?_, ?_, ?_, ?_⟩⟩ <;> intro al h1 h2 <;> simp only [px, pz, if_true]
    · exact ⟨by omega, by omega, by omega, by omega⟩
    · exact ⟨by omega, by omega, by omega, by omega⟩
    · exact cheb_at (by omega) (by omega) (by omega)
    · exact cheb_at (by omega) (by omega) (by omega)
    · obtain ⟨v, hv⟩ := hF' xl al (by omega) (by omega) (by omega) (by omega)
      obtain ⟨w, hw⟩ := pa _ _ _ hv
      rw [hw]; rfl)
  simp only [px, pz, if_true] at kb sb
  rw [e2, Option.bind_some]
  -- bottom
  obtain ⟨Tc, e3, okc, kc, pc, sc⟩ := edge_if M S hk (zh < g.nz - 1) (vert := false) (inn := zh) (out := zh + 1) (lo := xl) (hi := xh) okb (by
    intro c
    refine ⟨fun al => (Tb al zh).getD 0, ⟨hk, by omega, by omega, ?_, ?_, ?_, ?_, ?_⟩⟩ <;> intro al h1 h2 <;>
      simp only [px, pz, Bool.false_eq_true, if_false]
    · exact ⟨by omega, by omega, by omega, by omega⟩
    · exact ⟨by omega, by omega, by omega, by omega⟩
    · exact cheb_at (by omega) (by omega) (by omega)
    · exact cheb_at (by omega) (by omega) (by omega)
    · obtain ⟨v, hv⟩ := hF' al zh (by omega) (by omega) (by omega) (by omega)
      obtain ⟨w, hw⟩ := pa _ _ _ hv
      obtain ⟨u, hu⟩ := pb _ _ _ hw
      rw [hu]; rfl)
  simp only [px, pz, Bool.false_eq_true, if_false] at kc sc
  rw [e3, Option.bind_some]
  -- top
  obtain ⟨Td, e4, okd, kd, pd, sd⟩ := edge_if M S hk (zl > 0) (vert := false) (inn := zl) (out := zl - 1) (lo := xl) (hi := xh) okc (by
    intro c
    refine ⟨fun al => (Tc al zl).getD 0, ⟨hk, by omega, by omega, ?_, ?_, ?_, ?_, ?_⟩⟩ <;> intro al h1 h2 <;>
      simp only [px, pz, Bool.false_eq_true, if_false]
    · exact ⟨by omega, by omega, by omega, by omega⟩
    · exact ⟨by omega, by omega, by omega, by omega⟩
    · exact cheb_at (by omega) (by omega) (by omega)
    · exact cheb_at (by omega) (by omega) (by omega)
    · obtain ⟨v, hv⟩ := hF' al zl (by omega) (by omega) (by omega) (by omega)
      obtain ⟨w, hw⟩ := pa _ _ _ hv
      obtain ⟨u, hu⟩ := pb _ _ _ hw
      obtain ⟨u', hu'⟩ := pc _ _ _ hu
      rw [hu']; rfl)
  simp only [px, pz, Bool.false_eq_true, if_false] at kd sd
  -- what is set so far
  have up : ∀ x z, (∃ v, Ta x z = some v) → ∃ v, Td x z = some v := fun x z ⟨v, hv⟩ => by
    obtain ⟨w, hw⟩ := pb _ _ _ hv
    obtain ⟨u, hu⟩ := pc _ _ _ hw
    exact pd _ _ _ hu
  have dR : ∀ z, xh < g.nx - 1 → zl ≤ z → z ≤ zh → ∃ v, Td (xh + 1) z = some v := fun z c h1 h2 => up _ _ (sa c z h1 h2)
  have dL : ∀ z, xl > 0 → zl ≤ z → z ≤ zh → ∃ v, Td (xl - 1) z = some v := fun z c h1 h2 => by
    obtain ⟨w, hw⟩ := sb c z h1 h2
    obtain ⟨u, hu⟩ := pc _ _ _ hw
    exact pd _ _ _ hu
  have dB : ∀ x, zh < g.nz - 1 → xl ≤ x → x ≤ xh → ∃ v, Td x (zh + 1) = some v := fun x c h1 h2 => by
    obtain ⟨w, hw⟩ := sc c x h1 h2
    exact pd _ _ _ hw
  have dT : ∀ x, zl > 0 → xl ≤ x → x ≤ xh → ∃ v, Td x (zl - 1) = some v := fun x c h1 h2 => sd c x h1 h2
  have dI : ∀ x z, xl ≤ x → x ≤ xh → zl ≤ z → z ≤ zh → ∃ v, Td x z = some v := fun x z a b c d => by
    obtain ⟨v, hv⟩ := hF' x z a b c d
    exact up _ _ (pa _ _ _ hv)
  have same : ∀ x z, xl ≤ x → x ≤ xh → zl ≤ z → z ≤ zh → Td x z = T x z := fun x z a b c d => by
    rw [kd x z fun al _ _ h => by omega, kc x z fun al _ _ h => by omega, kb x z fun al _ _ h => by omega, ka x z fun al _ _ h => by omega]
  exact ⟨Td, e4, okd, dR, dL, dB, dT, dI, same⟩

set_option maxHeartbeats 800000 in
theorem corners_ok {xl xh zl zh : ℤ} (L : Lim g sx sz k xl xh zl zh) {T Td : Field} (okd : AllOk g s0 s1 sx sz Td)
    (A : After g xl xh zl zh T Td) :
    ∃ T4, corners g ⟨xl, xh, zl, zh⟩ Td = some T4 ∧ AllOk g s0 s1 sx sz T4 ∧ Full (startBox g sx sz (k + 1)) T4 ∧ Same ⟨xl, xh, zl, zh⟩ T T4 := by
  obtain ⟨nx2, nz2, x0, x1, z0, z1, exl, exh, ezl, ezh⟩ := L
  obtain ⟨dR, dL, dB, dT, dI, same⟩ := A
  unfold corners
  dsimp only
  simp only [Option.bind_eq_bind]
  -- corners
  obtain ⟨xr', hxr⟩ : ∃ a, a = if xh < g.nx - 1 then xh else g.nx - 2 := ⟨_, rfl⟩
  obtain ⟨xl', hxl⟩ : ∃ a, a = if xl > 0 then xl else 1 := ⟨_, rfl⟩
  obtain ⟨zr', hzr⟩ : ∃ a, a = if zh < g.nz - 1 then zh else g.nz - 2 := ⟨_, rfl⟩
  obtain ⟨zl', hzl⟩ : ∃ a, a = if zl > 0 then zl else 1 := ⟨_, rfl⟩
  rw [← hxr, ← hxl, ← hzr, ← hzl]
  have fx1 : xl ≤ xr' ∧ xr' ≤ xh := by rw [hxr]; split <;> omega
  have fx2 : xl ≤ xl' ∧ xl' ≤ xh := by rw [hxl]; split <;> omega
  have fz1 : zl ≤ zr' ∧ zr' ≤ zh := by rw [hzr]; split <;> omega
  have fz2 : zl ≤ zl' ∧ zl' ≤ zh := by rw [hzl]; split <;> omega
  have gx1 : 0 ≤ xr' ∧ xr' + 1 < g.nx := by rw [hxr]; split <;> omega
  have gx2 : 0 ≤ xl' - 1 ∧ xl' < g.nx := by rw [hxl]; split <;> omega
  have gz1 : 0 ≤ zr' ∧ zr' + 1 < g.nz := by rw [hzr]; split <;> omega
  have gz2 : 0 ≤ zl' - 1 ∧ zl' < g.nz := by rw [hzl]; split <;> omega
  have setX : ∀ z, zl ≤ z → z ≤ zh → ∃ v, Td (xr' + 1) z = some v := fun z a b => by
    rw [hxr]; split
    · exact dR z ‹_› a b
    · exact dI _ _ (by omega) (by omega) a b
  have setX' : ∀ z, zl ≤ z → z ≤ zh → ∃ v, Td (xl' - 1) z = some v := fun z a b => by
    rw [hxl]; split
    · exact dL z ‹_› a b
    · exact dI _ _ (by omega) (by omega) a b
  have setZ : ∀ x, xl ≤ x → x ≤ xh → ∃ v, Td x (zr' + 1) = some v := fun x a b => by
    rw [hzr]; split
    · exact dB x ‹_› a b
    · exact dI _ _ a b (by omega) (by omega)
  have setZ' : ∀ x, xl ≤ x → x ≤ xh → ∃ v, Td x (zl' - 1) = some v := fun x a b => by
    rw [hzl]; split
    · exact dT x ‹_› a b
    · exact dI _ _ a b (by omega) (by omega)
  have cx1 : (-k ≤ xr' - sx ∧ xr' - sx ≤ k) ∧ (-(k + 1) ≤ xr' + 1 - sx ∧ xr' + 1 - sx ≤ k + 1) ∧ (xh < g.nx - 1 → xr' - sx = k) := by
    rw [hxr]; split <;> omega
  have cx2 : (-k ≤ xl' - sx ∧ xl' - sx ≤ k) ∧ (-(k + 1) ≤ xl' - 1 - sx ∧ xl' - 1 - sx ≤ k + 1) ∧ (xl > 0 → xl' - sx = -k) := by
    rw [hxl]; split <;> omega
  have cz1 : (-k ≤ zr' - sz ∧ zr' - sz ≤ k) ∧ (-(k + 1) ≤ zr' + 1 - sz ∧ zr' + 1 - sz ≤ k + 1) ∧ (zh < g.nz - 1 → zr' - sz = k) := by
    rw [hzr]; split <;> omega
  have cz2 : (-k ≤ zl' - sz ∧ zl' - sz ≤ k) ∧ (-(k + 1) ≤ zl' - 1 - sz ∧ zl' - 1 - sz ≤ k + 1) ∧ (zl > 0 → zl' - sz = -k) := by
    rw [hzl]; split <;> omega
  -- bottom right
  obtain ⟨T1, f1, ok1, k1, p1, s1'⟩ := corner_if M S hk (xh < g.nx - 1 ∨ zh < g.nz - 1) (ix := xr') (iz := zr') (ox := xr' + 1) (oz := zr' + 1) okd (by
    intro c
    have q1 : cheb sx sz xr' zr' = k := cheb_at cx1.1 cz1.1 (by omega)
    have q2 : cheb sx sz (xr' + 1) (zr' + 1) = k + 1 := cheb_at cx1.2.1 cz1.2.1 (by omega)
    rw [q1, q2]
    exact ⟨⟨by omega, by omega, by omega, by omega⟩, ⟨by omega, by omega, by omega, by omega⟩, ⟨by omega, by omega, by omega, by omega⟩,
      ⟨by omega, by omega, by omega, by omega⟩, dI _ _ fx1.1 fx1.2 fz1.1 fz1.2, setZ _ fx1.1 fx1.2, setX _ fz1.1 fz1.2, hk, rfl⟩)
  rw [f1, Option.bind_some]
  -- bottom left
  obtain ⟨T2, f2, ok2, k2, p2, s2'⟩ := corner_if M S hk (xl > 0 ∨ zh < g.nz - 1) (ix := xl') (iz := zr') (ox := xl' - 1) (oz := zr' + 1) ok1 (by
    intro c
    have q1 : cheb sx sz xl' zr' = k := cheb_at cx2.1 cz1.1 (by omega)
    have q2 : cheb sx sz (xl' - 1) (zr' + 1) = k + 1 := cheb_at cx2.2.1 cz1.2.1 (by omega)
    rw [q1, q2]
    have w : ∀ x z, (∃ v, Td x z = some v) → ∃ v, T1 x z = some v := fun x z ⟨v, hv⟩ => p1 _ _ _ hv
    exact ⟨⟨by omega, by omega, by omega, by omega⟩, ⟨by omega, by omega, by omega, by omega⟩, ⟨by omega, by omega, by omega, by omega⟩,
      ⟨by omega, by omega, by omega, by omega⟩, w _ _ (dI _ _ fx2.1 fx2.2 fz1.1 fz1.2), w _ _ (setZ _ fx2.1 fx2.2), w _ _ (setX' _ fz1.1 fz1.2), hk, rfl⟩)
  rw [f2, Option.bind_some]
  -- top right
  obtain ⟨T3, f3, ok3, k3, p3, s3'⟩ := corner_if M S hk (xh < g.nx - 1 ∨ zl > 0) (ix := xr') (iz := zl') (ox := xr' + 1) (oz := zl' - 1) ok2 (by
    intro c
    have q1 : cheb sx sz xr' zl' = k := cheb_at cx1.1 cz2.1 (by omega)
    have q2 : cheb sx sz (xr' + 1) (zl' - 1) = k + 1 := cheb_at cx1.2.1 cz2.2.1 (by omega)
    rw [q1, q2]
    have w : ∀ x z, (∃ v, Td x z = some v) → ∃ v, T2 x z = some v := fun x z ⟨v, hv⟩ => by
      obtain ⟨u, hu⟩ := p1 _ _ _ hv
      exact p2 _ _ _ hu
    exact ⟨⟨by omega, by omega, by omega, by omega⟩, ⟨by omega, by omega, by omega, by omega⟩, ⟨by omega, by omega, by omega, by omega⟩,
      ⟨by omega, by omega, by omega, by omega⟩, w _ _ (dI _ _ fx1.1 fx1.2 fz2.1 fz2.2), w _ _ (setZ' _ fx1.1 fx1.2), w _ _ (setX _ fz2.1 fz2.2), hk, rfl⟩)
  rw [f3, Option.bind_some]
  -- top left
  obtain ⟨T4, f4, ok4, k4, p4, s4'⟩ := corner_if M S hk (xl > 0 ∨ zl > 0) (ix := xl') (iz := zl') (ox := xl' - 1) (oz := zl' - 1) ok3 (by
    intro c
    have q1 : cheb sx sz xl' zl' = k := cheb_at cx2.1 cz2.1 (by omega)
    have q2 : cheb sx sz (xl' - 1) (zl' - 1) = k + 1 := cheb_at cx2.2.1 cz2.2.1 (by omega)
    rw [q1, q2]
    have w : ∀ x z, (∃ v, Td x z = some v) → ∃ v, T3 x z = some v := fun x z ⟨v, hv⟩ => by
      obtain ⟨u, hu⟩ := p1 _ _ _ hv
      obtain ⟨u', hu'⟩ := p2 _ _ _ hu
      exact p3 _ _ _ hu'
    exact ⟨⟨by omega, by omega, by omega, by omega⟩, ⟨by omega, by omega, by omega, by omega⟩, ⟨by omega, by omega, by omega, by omega⟩,
      ⟨by omega, by omega, by omega, by omega⟩, w _ _ (dI _ _ fx2.1 fx2.2 fz2.1 fz2.2), w _ _ (setZ' _ fx2.1 fx2.2), w _ _ (setX' _ fz2.1 fz2.2), hk, rfl⟩)
  refine ⟨T4, f4, ok4, ?_, ?_⟩
  · -- everything in the next box is set
    have w : ∀ x z, (∃ v, Td x z = some v) → ∃ v, T4 x z = some v := fun x z ⟨v, hv⟩ => by
      obtain ⟨u, hu⟩ := p1 _ _ _ hv
      obtain ⟨u', hu'⟩ := p2 _ _ _ hu
      obtain ⟨u'', hu''⟩ := p3 _ _ _ hu'
      exact p4 _ _ _ hu''
    rintro x z ⟨a1, a2, a3, a4⟩
    simp only [startBox] at a1 a2 a3 a4
    by_cases bx : xl ≤ x ∧ x ≤ xh
    · by_cases bz : zl ≤ z ∧ z ≤ zh
      · exact w _ _ (dI x z bx.1 bx.2 bz.1 bz.2)
      · by_cases cz : zh < z
        · have : z = zh + 1 := by omega
          rw [this]; exact w _ _ (dB x (by omega) bx.1 bx.2)
        · have : z = zl - 1 := by omega
          rw [this]; exact w _ _ (dT x (by omega) bx.1 bx.2)
    · by_cases bz : zl ≤ z ∧ z ≤ zh
      · by_cases cx : xh < x
        · have : x = xh + 1 := by omega
          rw [this]; exact w _ _ (dR z (by omega) bz.1 bz.2)
        · have : x = xl - 1 := by omega
          rw [this]; exact w _ _ (dL z (by omega) bz.1 bz.2)
      · by_cases cx : xh < x
        · have ex : x = xr' + 1 := by rw [hxr, if_pos (by omega)]; omega
          by_cases cz : zh < z
          · have ez : z = zr' + 1 := by rw [hzr, if_pos (by omega)]; omega
            rw [ex, ez]
            obtain ⟨v, hv⟩ := s1' (by omega)
            obtain ⟨u', hu'⟩ := p2 _ _ _ hv
            obtain ⟨u'', hu''⟩ := p3 _ _ _ hu'
            exact p4 _ _ _ hu''
          · have ez : z = zl' - 1 := by rw [hzl, if_pos (by omega)]; omega
            rw [ex, ez]
            obtain ⟨v, hv⟩ := s3' (by omega)
            exact p4 _ _ _ hv
        · have ex : x = xl' - 1 := by rw [hxl, if_pos (by omega)]; omega
          by_cases cz : zh < z
          · have ez : z = zr' + 1 := by rw [hzr, if_pos (by omega)]; omega
            rw [ex, ez]
            obtain ⟨v, hv⟩ := s2' (by omega)
            obtain ⟨u'', hu''⟩ := p3 _ _ _ hv
            exact p4 _ _ _ hu''
          · have ez : z = zl' - 1 := by rw [hzl, if_pos (by omega)]; omega
            rw [ex, ez]
            exact s4' (by omega)
  · rintro x z ⟨a1, a2, a3, a4⟩
    dsimp only at a1 a2 a3 a4
    have ox1 : xh < g.nx - 1 → xr' = xh := fun c => by rw [hxr, if_pos c]
    have ox2 : xl > 0 → xl' = xl := fun c => by rw [hxl, if_pos c]
    have oz1 : zh < g.nz - 1 → zr' = zh := fun c => by rw [hzr, if_pos c]
    have oz2 : zl > 0 → zl' = zl := fun c => by rw [hzl, if_pos c]
    rw [k4 x z (by omega), k3 x z (by omega), k2 x z (by omega), k1 x z (by omega), same x z a1 a2 a3 a4]

/-- One pass of the loop: the next box is set, the box itself is unchanged. -/
theorem ring_ok {T : Field} (hT : AllOk g s0 s1 sx sz T) (hF : Full (startBox g sx sz k) T) :
    ∃ T1 T2, edges g (startBox g sx sz k) T = some T1 ∧ corners g (startBox g sx sz k) T1 = some T2 ∧
      AllOk g s0 s1 sx sz T2 ∧ Full (startBox g sx sz (k + 1)) T2 ∧ Same (startBox g sx sz k) T T2 := by
  obtain ⟨x0, x1, z0, z1⟩ := S.src
  have L : Lim g sx sz k _ _ _ _ := ⟨S.nx, S.nz, x0, x1, z0, z1, rfl, rfl, rfl, rfl⟩
  obtain ⟨T1, e1, ok1, A⟩ := edges_ok M S hk L hT hF
  obtain ⟨T2, e2, r⟩ := corners_ok M S hk L ok1 A
  exact ⟨T1, T2, e1, e2, r⟩

omit M S hk in
theorem startBox_grow {k : ℤ} : grow g (startBox g sx sz k) = startBox g sx sz (k + 1) := by
  unfold grow startBox
  dsimp only
  have e1 : max (max (sx - k) 0 - 1) 0 = max (sx - (k + 1)) 0 := by omega
  have e2 : min (min (sx + k) (g.nx - 1) + 1) (g.nx - 1) = min (sx + (k + 1)) (g.nx - 1) := by omega
  have e3 : max (max (sz - k) 0 - 1) 0 = max (sz - (k + 1)) 0 := by omega
  have e4 : min (min (sz + k) (g.nz - 1) + 1) (g.nz - 1) = min (sz + (k + 1)) (g.nz - 1) := by omega
  rw [e1, e2, e3, e4]

omit M hk in
theorem rings_ok (M : Medium g s0 s1) (fuel : ℕ) (k : ℤ) (hk : 1 ≤ k) (hf : g.nx + g.nz ≤ fuel + k) (hf1 : 1 ≤ fuel) {T : Field}
    (hT : AllOk g s0 s1 sx sz T) (hF : Full (startBox g sx sz k) T) :
    ∃ T', rings g fuel (startBox g sx sz k) T = some T' ∧ AllOk g s0 s1 sx sz T' ∧ (∀ x z, g.Has x z → ∃ v, T' x z = some v) ∧
      Same (startBox g sx sz k) T T' := by
  induction fuel generalizing k T with
  | zero => omega
  | succ fuel ih =>
    obtain ⟨T1, T2, e1, e2, ok, full, same⟩ := ring_ok M S hk hT hF
    obtain ⟨x0, x1, z0, z1⟩ := S.src
    have := S.nx; have := S.nz
    unfold rings
    simp only [Option.bind_eq_bind, e1, e2, Option.bind_some]
    by_cases c : (startBox g sx sz k).xh < g.nx - 1 ∨ (startBox g sx sz k).xl > 0 ∨ (startBox g sx sz k).zh < g.nz - 1 ∨ (startBox g sx sz k).zl > 0
    · rw [if_pos c, startBox_grow]
      simp only [startBox] at c
      obtain ⟨T', e, ok', full', same'⟩ := ih (k + 1) (by omega) (by push_cast at hf; omega) (by push_cast at hf; omega) ok full
      refine ⟨T', e, ok', full', fun x z h => ?_⟩
      rw [same' x z ?_, same x z h]
      obtain ⟨h1, h2, h3, h4⟩ := h
      simp only [startBox] at h1 h2 h3 h4
      exact ⟨by simp only [startBox]; omega, by simp only [startBox]; omega, by simp only [startBox]; omega, by simp only [startBox]; omega⟩
    · rw [if_neg c]
      simp only [startBox] at c
      refine ⟨T2, rfl, ok, fun x z h => full x z ?_, same⟩
      obtain ⟨h1, h2, h3, h4⟩ := h
      exact ⟨by simp only [startBox]; omega, by simp only [startBox]; omega, by simp only [startBox]; omega, by simp only [startBox]; omega⟩

end

/-! ## The source region -/

/-- Straight ray with the mean of the two slownesses. -/
def nearTime (g : Grid) (sx sz x z : ℤ) : ℝ :=
  1 / 2 * Real.sqrt (((x - sx : ℤ) * g.h) ^ 2 + ((z - sz : ℤ) * g.h) ^ 2) * (g.slow x z + g.slow sx sz)

theorem nearTime_ok {g : Grid} {s0 s1 : ℝ} {sx sz x z : ℤ} (M : Medium g s0 s1) (h : g.Has x z) (hs : g.Has sx sz) :
    Ok g s0 s1 sx sz x z (nearTime g sx sz x z) := by
  have hh := M.step; have hp := M.pos
  have a1 := M.lo _ _ h; have a2 := M.hi _ _ h; have b1 := M.lo _ _ hs; have b2 := M.hi _ _ hs
  have q2 : Real.sqrt 2 * Real.sqrt 2 = 2 := Real.mul_self_sqrt (by norm_num)
  have q := one_le_sqrt2
  obtain ⟨D, hD⟩ : ∃ D, D = Real.sqrt (((x - sx : ℤ) * g.h) ^ 2 + ((z - sz : ℤ) * g.h) ^ 2) := ⟨_, rfl⟩
  have D0 : 0 ≤ D := by rw [hD]; exact Real.sqrt_nonneg _
  unfold nearTime
  rw [← hD]
  refine ⟨by have := mul_nonneg D0 (by linarith : 0 ≤ g.slow x z + g.slow sx sz); linarith, fun hc => ?_, ?_⟩
  · have hDh : g.h ≤ D := by
      rw [hD]
      apply Real.le_sqrt_of_sq_le
      have : x - sx ≠ 0 ∨ z - sz ≠ 0 := by
        by_contra hn
        push Not at hn
        apply hc
        unfold cheb
        rw [hn.1, hn.2]; simp
      have one : ∀ a : ℤ, a ≠ 0 → g.h ^ 2 ≤ ((a : ℝ) * g.h) ^ 2 := fun a ha => by
        have h1 : (1 : ℝ) ≤ (a : ℝ) ^ 2 := by
          have : 1 ≤ a ^ 2 := by have := sq_pos_of_ne_zero ha; omega
          exact_mod_cast this
        rw [mul_pow]
        have := sq_nonneg g.h
        nlinarith
      rcases this with h | h
      · have := one _ h; have := sq_nonneg (((z - sz : ℤ) : ℝ) * g.h); linarith
      · have := one _ h; have := sq_nonneg (((x - sx : ℤ) : ℝ) * g.h); linarith
    nlinarith
  · have hc0 : (0 : ℝ) ≤ cheb sx sz x z := by
      have : 0 ≤ cheb sx sz x z := le_trans (abs_nonneg _) (le_max_left _ _)
      exact_mod_cast this
    have hDc : D ≤ Real.sqrt 2 * g.h * cheb sx sz x z := by
      rw [hD]
      refine Real.sqrt_le_iff.2 ⟨by positivity, ?_⟩
      have c1 : |((x - sx : ℤ) : ℝ)| ≤ cheb sx sz x z := by
        rw [← Int.cast_abs]; exact_mod_cast le_max_left |x - sx| |z - sz|
      have c2 : |((z - sz : ℤ) : ℝ)| ≤ cheb sx sz x z := by
        rw [← Int.cast_abs]; exact_mod_cast le_max_right |x - sx| |z - sz|
      have d1 := sq_le_sq' (abs_le.1 c1).1 (abs_le.1 c1).2
      have d2 := sq_le_sq' (abs_le.1 c2).1 (abs_le.1 c2).2
      have hh2 := sq_nonneg g.h
      have e : (Real.sqrt 2 * g.h * cheb sx sz x z) ^ 2 = 2 * g.h ^ 2 * (cheb sx sz x z : ℝ) ^ 2 := by
        linear_combination g.h ^ 2 * (cheb sx sz x z : ℝ) ^ 2 * q2
      rw [e, mul_pow, mul_pow]
      nlinarith
    have : 1 / 2 * D * (g.slow x z + g.slow sx sz) ≤ D * s1 := by nlinarith
    have : D * s1 ≤ Real.sqrt 2 * g.h * cheb sx sz x z * s1 := by nlinarith
    linarith

open Classical in
theorem nearSource_ok {g : Grid} {sx sz order : ℤ} (S : Src g sx sz) (ho : 1 ≤ order) :
    ∃ T, nearSource g sx sz order (upd (fun _ _ => none) sx sz 0) = some T ∧
      ∀ x z, T x z = if (startBox g sx sz order).In x z then some (nearTime g sx sz x z) else none := by
  obtain ⟨x0, x1, z0, z1⟩ := S.src
  have nx2 := S.nx; have nz2 := S.nz
  obtain ⟨b, hb⟩ : ∃ b, b = startBox g sx sz order := ⟨_, rfl⟩
  have bx : b.xl = max (sx - order) 0 ∧ b.xh = min (sx + order) (g.nx - 1) ∧ b.zl = max (sz - order) 0 ∧ b.zh = min (sz + order) (g.nz - 1) := by
    rw [hb]; exact ⟨rfl, rfl, rfl, rfl⟩
  obtain ⟨b1, b2, b3, b4⟩ := bx
  unfold nearSource
  dsimp only
  rw [← hb]
  simp only [Option.bind_eq_bind, sget_some S.src, Option.bind_some, tget_some S.src (upd_self _ _ _ _), add_zero]
  have src : b.In sx sz := ⟨by omega, by omega, by omega, by omega⟩
  have n0 : nearTime g sx sz sx sz = 0 := by unfold nearTime; simp
  unfold forIM
  refine Exists.elim (forNM_inv (n := (b.zh + 1 - b.zl).toNat) (s := upd (fun _ _ => none) sx sz 0) (body := fun i T =>
      forNM (b.xh + 1 - b.xl).toNat (fun j T => (sget g (b.xl + j) (b.zl + i)).bind fun s =>
        tput g T (b.xl + j) (b.zl + i) (1 / 2 * Real.sqrt (((b.xl + j - sx : ℤ) * g.h) ^ 2 + ((b.zl + i - sz : ℤ) * g.h) ^ 2) * (s + g.slow sx sz))) T)
    (fun i (T : Field) => ∀ x z, T x z = if (b.In x z ∧ z < b.zl + i) ∨ (x = sx ∧ z = sz) then some (nearTime g sx sz x z) else none) ?_ ?_) ?_
  · intro x z
    by_cases c : x = sx ∧ z = sz
    · rw [c.1, c.2, upd_self, if_pos (Or.inr ⟨rfl, rfl⟩), n0]
    · rw [upd_ne _ _ c, if_neg]
      rintro (⟨⟨-, -, h, -⟩, h'⟩ | h)
      · push_cast at h'; omega
      · exact c h
  · intro i hi T hT
    refine Exists.elim (forNM_inv (n := (b.xh + 1 - b.xl).toNat) (s := T) (body := fun j T => (sget g (b.xl + j) (b.zl + i)).bind fun s =>
        tput g T (b.xl + j) (b.zl + i) (1 / 2 * Real.sqrt (((b.xl + j - sx : ℤ) * g.h) ^ 2 + ((b.zl + i - sz : ℤ) * g.h) ^ 2) * (s + g.slow sx sz)))
      (fun j (T' : Field) => ∀ x z, T' x z = if z = b.zl + i ∧ b.xl ≤ x ∧ x < b.xl + j then some (nearTime g sx sz x z) else T x z) ?_ ?_) ?_
    · intro x z
      rw [if_neg]; push_cast; omega
    · intro j hj T' hT'
      have has : g.Has (b.xl + j) (b.zl + i) := ⟨by omega, by omega, by omega, by omega⟩
      rw [sget_some has, Option.bind_some, tput_some has]
      refine ⟨_, rfl, fun x z => ?_⟩
      by_cases c : x = b.xl + j ∧ z = b.zl + i
      · rw [c.1, c.2, upd_self, if_pos (by push_cast; omega)]; rfl
      · rw [upd_ne _ _ c, hT' x z]
        by_cases c' : z = b.zl + i ∧ b.xl ≤ x ∧ x < b.xl + j
        · rw [if_pos c', if_pos (by push_cast; omega)]
        · rw [if_neg c', if_neg (by push_cast; omega)]
    · intro T' ⟨e, hT'⟩
      refine ⟨T', e, fun x z => ?_⟩
      rw [hT' x z, hT x z]
      by_cases c : z = b.zl + i ∧ b.xl ≤ x ∧ x < b.xl + ((b.xh + 1 - b.xl).toNat : ℤ)
      · rw [if_pos c, if_pos (Or.inl ⟨⟨by omega, by omega, by omega, by omega⟩, by push_cast; omega⟩)]
      · rw [if_neg c]
        by_cases c' : (b.In x z ∧ z < b.zl + i) ∨ (x = sx ∧ z = sz)
        · rw [if_pos c', if_pos]
          rcases c' with ⟨h, h'⟩ | h
          · exact Or.inl ⟨h, by push_cast; omega⟩
          · exact Or.inr h
        · rw [if_neg c', if_neg]
          rintro (⟨h, h'⟩ | h)
          · push_cast at h'
            obtain ⟨i1, i2, i3, i4⟩ := h
            by_cases cz : z < b.zl + i
            · exact c' (Or.inl ⟨⟨i1, i2, i3, i4⟩, cz⟩)
            · exact c ⟨by omega, i1, by omega⟩
          · exact c' (Or.inr h)
  · intro T ⟨e, hT⟩
    refine ⟨T, e, fun x z => ?_⟩
    rw [hT x z]
    by_cases c : b.In x z
    · rw [if_pos c, if_pos (Or.inl ⟨c, by obtain ⟨_, _, _, _⟩ := c; omega⟩)]
    · rw [if_neg c, if_neg]
      rintro (⟨h, -⟩ | h)
      · exact c h
      · rw [h.1, h.2] at c; exact c src

/-- The solver sets a time at every point of the grid, within bounds that follow from the slowness. -/
theorem eikonal_ok {g : Grid} {s0 s1 : ℝ} {sx sz order : ℤ} (M : Medium g s0 s1) (S : Src g sx sz) (ho : 1 ≤ order) :
    ∃ T, eikonal g sx sz order = some T ∧ (∀ x z, g.Has x z → ∃ v, T x z = some v ∧ Ok g s0 s1 sx sz x z v) ∧
      ∀ x z, g.Has x z → |x - sx| ≤ order → |z - sz| ≤ order → T x z = some (nearTime g sx sz x z) := by
  obtain ⟨T0, e0, h0⟩ := nearSource_ok S ho
  have inHas : ∀ x z, (startBox g sx sz order).In x z → g.Has x z := fun x z ⟨a, b, c, d⟩ => by
    obtain ⟨_, _, _, _⟩ := S.src
    simp only [startBox] at a b c d
    exact ⟨by omega, by omega, by omega, by omega⟩
  have ok0 : AllOk g s0 s1 sx sz T0 := fun x z v hv => by
    rw [h0] at hv
    split at hv
    · cases hv; exact nearTime_ok M (inHas _ _ ‹_›) S.src
    · cases hv
  have full0 : Full (startBox g sx sz order) T0 := fun x z h => ⟨_, by rw [h0, if_pos h]⟩
  have := S.nx; have := S.nz
  obtain ⟨T, e, ok, full, same⟩ := rings_ok S M (g.nx + g.nz).toNat order ho (by omega) (by omega) ok0 full0
  unfold eikonal
  simp only [Option.bind_eq_bind, tput_some S.src, e0, Option.bind_some]
  refine ⟨T, e, fun x z h => ?_, fun x z h hx hz => ?_⟩
  · obtain ⟨v, hv⟩ := full x z h
    exact ⟨v, hv, ok x z v hv⟩
  · have hin : (startBox g sx sz order).In x z := by
      obtain ⟨_, _, _, _⟩ := h
      rw [abs_le] at hx hz
      exact ⟨by simp only [startBox]; omega, by simp only [startBox]; omega, by simp only [startBox]; omega, by simp only [startBox]; omega⟩
    rw [same x z hin, h0, if_pos hin]

end

end Verif.Ray

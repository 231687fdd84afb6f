import Verif.Med.Model

/-! # Loops over rectangles: what is in the arrays afterwards -/

namespace Verif.Med

open Classical in
/-- The memory with the cells of `R` replaced by those of `F`. -/
noncomputable def upd {K : Type} (R : Arr → Int → Int → Prop) (F m : Mem K) : Mem K :=
  fun a x z => if R a x z then F a x z else m a x z

section
variable {K : Type} {m F : Mem K} {R : Arr → Int → Int → Prop} {a : Arr} {x z : Int}

theorem upd_in (h : R a x z) : upd R F m a x z = F a x z := by simp [upd, h]
theorem upd_out (h : ¬ R a x z) : upd R F m a x z = m a x z := by simp [upd, h]

theorem upd_congr {R' : Arr → Int → Int → Prop} (h : ∀ a x z, R a x z ↔ R' a x z) : upd R F m = upd R' F m := by
  funext a x z
  by_cases hr : R a x z
  · simp [upd, hr, (h a x z).1 hr]
  · simp [upd, hr, mt (h a x z).2 hr]

theorem set_eq_upd (v : K) (h : F a x z = v) :
    set m a x z v = upd (fun a' x' z' => a' = a ∧ x' = x ∧ z' = z) F m := by
  funext a' x' z'
  by_cases hc : a' = a ∧ x' = x ∧ z' = z
  · obtain ⟨rfl, rfl, rfl⟩ := hc; simp [upd, set, h]
  · simp [upd, set, hc]

theorem upd_upd {R' : Arr → Int → Int → Prop} :
    upd R F (upd R' F m) = upd (fun a x z => R a x z ∨ R' a x z) F m := by
  funext a x z
  by_cases h1 : R a x z <;> by_cases h2 : R' a x z <;> simp [upd, h1, h2]

/-- One loop: iteration `u` replaces the cells `W u` by `F`, whatever was done to those cells before. -/
theorem loop1_spec {body : Int → Mem K → Option (Mem K)} {W : Int → Arr → Int → Int → Prop} {lo hi : Int} {T : Arr → Int → Int → Prop}
    (hT : ∀ u, lo ≤ u → u < hi → ∀ a x z, W u a x z → T a x z)
    (h : ∀ u, lo ≤ u → u < hi → ∀ m' : Mem K, (∀ a x z, ¬ T a x z → m' a x z = m a x z) →
      (∀ a x z, m' a x z = m a x z ∨ m' a x z = F a x z) →
      body u m' = some (upd (W u) F m')) (m0 : Mem K) (hm0 : ∀ a x z, ¬ T a x z → m0 a x z = m a x z)
    (hm1 : ∀ a x z, m0 a x z = m a x z ∨ m0 a x z = F a x z) :
    forIM lo hi body m0 = some (upd (fun a x z => ∃ u, lo ≤ u ∧ u < hi ∧ W u a x z) F m0) := by
  unfold forIM
  have key : ∀ n : Nat, n ≤ (hi - lo).toNat → forNM n (fun k => body (lo + k)) m0 =
      some (upd (fun a x z => ∃ u, lo ≤ u ∧ u < lo + n ∧ W u a x z) F m0) := by
    intro n
    induction n with
    | zero =>
      intro _
      rw [forNM_zero]
      congr 1
      funext a x z
      rw [upd_out]
      rintro ⟨u, h1, h2, _⟩
      omega
    | succ n ih =>
      intro hn
      rw [forNM_succ, ih (by omega)]
      have hlt : lo + (n : Int) < hi := by omega
      change body (lo + (n : Int)) _ = _
      rw [h (lo + n) (by omega) hlt]
      · rw [upd_upd]
        congr 1
        apply upd_congr
        intro a x z
        constructor
        · rintro (hw | ⟨u, h1, h2, h3⟩)
          · exact ⟨lo + n, by omega, by push_cast; omega, hw⟩
          · exact ⟨u, h1, by push_cast; omega, h3⟩
        · rintro ⟨u, h1, h2, h3⟩
          by_cases hu : u = lo + n
          · subst hu; exact Or.inl h3
          · exact Or.inr ⟨u, h1, by push_cast at h2; omega, h3⟩
      · intro a x z hnT
        rw [upd_out, hm0 a x z hnT]
        rintro ⟨u, h1, h2, h3⟩
        exact hnT (hT u h1 (by omega) a x z h3)
      · intro a x z
        by_cases hR : ∃ u, lo ≤ u ∧ u < lo + n ∧ W u a x z
        · exact Or.inr (upd_in hR)
        · rw [upd_out hR]; exact hm1 a x z
  rw [key _ (le_refl _)]
  congr 1
  apply upd_congr
  intro a x z
  constructor
  · rintro ⟨u, h1, h2, h3⟩; exact ⟨u, h1, by omega, h3⟩
  · rintro ⟨u, h1, h2, h3⟩; exact ⟨u, h1, by omega, h3⟩

/-- Two nested loops. -/
theorem loop2_spec {body : Int → Int → Mem K → Option (Mem K)} {W : Int → Int → Arr → Int → Int → Prop}
    {x0 x1 z0 z1 : Int} {T : Arr → Int → Int → Prop}
    (hT : ∀ a x z, T a x z ↔ ∃ u v, (x0 ≤ u ∧ u < x1) ∧ (z0 ≤ v ∧ v < z1) ∧ W u v a x z)
    (h : ∀ u v, x0 ≤ u → u < x1 → z0 ≤ v → v < z1 → ∀ m' : Mem K, (∀ a x z, ¬ T a x z → m' a x z = m a x z) →
      (∀ a x z, m' a x z = m a x z ∨ m' a x z = F a x z) →
      body u v m' = some (upd (W u v) F m')) :
    forIM x0 x1 (fun u => forIM z0 z1 (body u)) m = some (upd T F m) := by
  rw [loop1_spec (m := m) (T := T) (F := F) (body := fun u => forIM z0 z1 (body u))
    (W := fun u a x z => ∃ v, z0 ≤ v ∧ v < z1 ∧ W u v a x z) ?_ ?_ m (fun _ _ _ _ => rfl) (fun _ _ _ => Or.inl rfl)]
  · congr 1
    apply upd_congr
    intro a x z
    rw [hT]
    constructor
    · rintro ⟨u, h1, h2, v, h3, h4, h5⟩; exact ⟨u, v, ⟨h1, h2⟩, ⟨h3, h4⟩, h5⟩
    · rintro ⟨u, v, ⟨h1, h2⟩, ⟨h3, h4⟩, h5⟩; exact ⟨u, h1, h2, v, h3, h4, h5⟩
  · rintro u h1 h2 a x z ⟨v, h3, h4, h5⟩
    rw [hT]; exact ⟨u, v, ⟨h1, h2⟩, ⟨h3, h4⟩, h5⟩
  · intro u h1 h2 m' hm' hm1'
    exact loop1_spec (m := m) (T := T) (F := F) (body := body u) (W := W u)
      (fun v h3 h4 a x z hw => by rw [hT]; exact ⟨u, v, ⟨h1, h2⟩, ⟨h3, h4⟩, hw⟩)
      (fun v h3 h4 m'' hm'' hm1'' => h u v h1 h2 h3 h4 m'' hm'' hm1'') m' hm' hm1'

theorem rd_ok {p : Par} (h : p.inG x z) : rd p m a x z = some (m a x z) := by simp [rd, h]
theorem wr_ok {p : Par} {v : K} (h : p.inG x z) : wr p a x z v m = some (set m a x z v) := by simp [wr, h]

/-- The copies of one iteration. -/
theorem copy1_spec {p : Par} {src : Arr → Int × Int} (hx : p.inG x z) (as : List Arr) (hn : as.Nodup)
    (hs : ∀ a ∈ as, p.inG (src a).1 (src a).2) (hF : ∀ a ∈ as, F a x z = m a (src a).1 (src a).2) (m0 : Mem K)
    (hm0 : ∀ a ∈ as, m0 a (src a).1 (src a).2 = m a (src a).1 (src a).2) :
    copy1 p x z src as m0 = some (upd (fun a' x' z' => a' ∈ as ∧ x' = x ∧ z' = z) F m0) := by
  induction as generalizing m0 with
  | nil =>
    unfold copy1
    congr 1
    funext a x z
    rw [upd_out]
    simp
  | cons b bs ih =>
    unfold copy1
    rw [rd_ok (hs b (by simp))]
    simp only [Option.bind_eq_bind, Option.bind_some]
    rw [wr_ok hx]
    simp only [Option.bind_some]
    rw [List.nodup_cons] at hn
    rw [ih hn.2 (fun a ha => hs a (by simp [ha])) (fun a ha => hF a (by simp [ha])), set_eq_upd (F := F), upd_upd]
    · congr 1
      apply upd_congr
      intro a' x' z'
      simp only [List.mem_cons]
      tauto
    · rw [hF b (by simp), hm0 b (by simp)]
    · intro a ha
      have hne : a ≠ b := by rintro rfl; exact hn.1 ha
      simp only [set, hne, false_and, if_false]
      exact hm0 a (by simp [ha])

/-- Copying over a rectangle, from cells outside it. -/
theorem copyXZ_spec {p : Par} {as : List Arr} {x0 x1 z0 z1 : Int} {src : Arr → Int → Int → Int × Int}
    (hn : as.Nodup)
    (hb : ∀ x z, x0 ≤ x → x < x1 → z0 ≤ z → z < z1 → p.inG x z ∧ ∀ a ∈ as,
      p.inG (src a x z).1 (src a x z).2 ∧
      ¬ ((x0 ≤ (src a x z).1 ∧ (src a x z).1 < x1) ∧ (z0 ≤ (src a x z).2 ∧ (src a x z).2 < z1))) :
    copyXZ p as x0 x1 z0 z1 src m = some (upd (fun a x z => a ∈ as ∧ (x0 ≤ x ∧ x < x1) ∧ (z0 ≤ z ∧ z < z1))
      (fun a x z => m a (src a x z).1 (src a x z).2) m) := by
  unfold copyXZ
  apply loop2_spec (W := fun u v a x z => a ∈ as ∧ x = u ∧ z = v)
  · intro a x z
    constructor
    · rintro ⟨h1, h2, h3⟩; exact ⟨x, z, h2, h3, h1, rfl, rfl⟩
    · rintro ⟨u, v, h2, h3, h1, rfl, rfl⟩; exact ⟨h1, h2, h3⟩
  · intro u v h1 h2 h3 h4 m' hm' _
    obtain ⟨g1, g2⟩ := hb u v h1 h2 h3 h4
    apply copy1_spec (m := m) g1 as hn (fun a ha => (g2 a ha).1) (fun a ha => rfl)
    intro a ha
    exact hm' _ _ _ (fun hh => (g2 a ha).2 hh.2)

/-- The same with the rows in the outer loop. -/
theorem copyZX_spec {p : Par} {as : List Arr} {x0 x1 z0 z1 : Int} {src : Arr → Int → Int → Int × Int}
    (hn : as.Nodup)
    (hb : ∀ x z, x0 ≤ x → x < x1 → z0 ≤ z → z < z1 → p.inG x z ∧ ∀ a ∈ as,
      p.inG (src a x z).1 (src a x z).2 ∧
      ¬ ((x0 ≤ (src a x z).1 ∧ (src a x z).1 < x1) ∧ (z0 ≤ (src a x z).2 ∧ (src a x z).2 < z1))) :
    copyZX p as x0 x1 z0 z1 src m = some (upd (fun a x z => a ∈ as ∧ (x0 ≤ x ∧ x < x1) ∧ (z0 ≤ z ∧ z < z1))
      (fun a x z => m a (src a x z).1 (src a x z).2) m) := by
  unfold copyZX
  apply loop2_spec (body := fun iz ix => copy1 p ix iz (fun a => src a ix iz) as)
    (W := fun u v a x z => a ∈ as ∧ x = v ∧ z = u)
  · intro a x z
    constructor
    · rintro ⟨h1, h2, h3⟩; exact ⟨z, x, h3, h2, h1, rfl, rfl⟩
    · rintro ⟨u, v, h2, h3, h1, rfl, rfl⟩; exact ⟨h1, h3, h2⟩
  · intro u v h1 h2 h3 h4 m' hm' _
    obtain ⟨g1, g2⟩ := hb v u h3 h4 h1 h2
    apply copy1_spec (m := m) g1 as hn (fun a ha => (g2 a ha).1) (fun a ha => rfl)
    intro a ha
    exact hm' _ _ _ (fun hh => (g2 a ha).2 hh.2)

/-- Clearing a rectangle. -/
theorem clear_spec [Field K] {p : Par} {b : Arr} {x0 x1 z0 z1 : Int}
    (hb : ∀ x z, x0 ≤ x → x < x1 → z0 ≤ z → z < z1 → p.inG x z) :
    clear p b x0 x1 z0 z1 m = some (upd (fun a x z => a = b ∧ (x0 ≤ x ∧ x < x1) ∧ (z0 ≤ z ∧ z < z1))
      (fun _ _ _ => 0) m) := by
  unfold clear
  apply loop2_spec (body := fun u v => wr p b u v 0) (W := fun u v a x z => a = b ∧ x = u ∧ z = v)
  · intro a x z
    constructor
    · rintro ⟨h1, h2, h3⟩; exact ⟨x, z, h2, h3, h1, rfl, rfl⟩
    · rintro ⟨u, v, h2, h3, h1, rfl, rfl⟩; exact ⟨h1, h2, h3⟩
  · intro u v h1 h2 h3 h4 m' _ _
    rw [wr_ok (hb u v h1 h2 h3 h4), set_eq_upd (F := fun _ _ _ => 0) 0 rfl]

end

end Verif.Med

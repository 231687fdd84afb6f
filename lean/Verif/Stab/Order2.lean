import Verif.Med.Spec
import Mathlib.Tactic.Ring

/-!
# The vertical velocity of the second-order acoustic kernel (acoustic2.c:79-82, 97-102)

The arrays have `nax*naz` elements, column after column (fdelmodc.c:355-357).  The kernel takes the columns from the range of the rows:
`ioZx=mod.ioZz`, `ieZx=mod.ieZz`.
-/

namespace Verif.Stab.Order2

open Verif.Med

variable {K : Type} [Ring K]

/-- `vz[ix*n1+iz] -= roz[ix*n1+iz]*(p[ix*n1+iz] - p[ix*n1+iz-1]);` (acoustic2.c:100). -/
def vzCell (roz pr : Buf K) (n1 ix iz : Int) (vz : Buf K) : Option (Buf K) :=
  (roz.rd (ix * n1 + iz)).bind fun r => (pr.rd (ix * n1 + iz)).bind fun a => (pr.rd (ix * n1 + iz - 1)).bind fun b =>
    (vz.rd (ix * n1 + iz)).bind fun v => vz.wr (ix * n1 + iz) (v - r * (a - b))

/-- The loop over the vertical velocity (acoustic2.c:79-82, 98-102). -/
def vzLoop (p : Par) (roz pr vz : Buf K) : Option (Buf K) :=
  let ioZz := p.ioZz
  let ioZx := p.ioZz
  let ieZz := p.ieZz
  let ieZx := p.ieZz
  forIM ioZx ieZx (fun ix => forIM ioZz ieZz (fun iz => vzCell roz pr p.naz ix iz)) vz

private theorem forNM_none {σ : Type} {n k : Nat} {body : Nat → σ → Option σ} (hk : k < n) (h : ∀ s, body k s = none) (s : σ) :
    forNM n body s = none := by
  induction n with
  | zero => omega
  | succ n ih =>
    rw [forNM_succ]
    by_cases hn : k = n
    · subst hn
      cases forNM k body s with
      | none => rfl
      | some t => exact h t
    · rw [ih (by omega)]; rfl

private theorem forIM_none {σ : Type} {lo hi k : Int} {body : Int → σ → Option σ} (h1 : lo ≤ k) (h2 : k < hi)
    (h : ∀ s, body k s = none) (s : σ) : forIM lo hi body s = none := by
  unfold forIM
  refine forNM_none (k := (k - lo).toNat) (by omega) (fun s => ?_) s
  have : lo + ((k - lo).toNat : Int) = k := by omega
  rw [this]; exact h s

/-- **More rows than columns: the kernel leaves the arrays.**  Without absorbing borders this is every model with two rows more
than columns. -/
theorem outside (p : Par) (roz pr vz : Buf K) (hs : (roz.size : Int) = p.nax * p.naz) (h0 : 0 ≤ p.nax) (hz0 : 0 ≤ p.naz) (hi : 0 ≤ p.ioZz)
    (hz : p.ioZz < p.ieZz) (h : p.nax < p.ieZz) : vzLoop p roz pr vz = none := by
  unfold vzLoop
  dsimp only
  by_cases hlo : p.ioZz ≤ p.nax
  · refine forIM_none (k := p.nax) hlo h (fun s => ?_) vz
    refine forIM_none (k := p.ioZz) (le_refl _) hz (fun s => ?_) s
    have : ¬ roz.ok (p.nax * p.naz + p.ioZz) := by unfold Buf.ok; omega
    simp [vzCell, Buf.rd, this]
  · refine forIM_none (k := p.ioZz) (le_refl _) hz (fun s => ?_) vz
    refine forIM_none (k := p.ioZz) (le_refl _) hz (fun s => ?_) s
    have h1 : p.nax * p.naz ≤ p.ioZz * p.naz := Int.mul_le_mul_of_nonneg_right (by omega) hz0
    have : ¬ roz.ok (p.ioZz * p.naz + p.ioZz) := by unfold Buf.ok; omega
    simp [vzCell, Buf.rd, this]

private theorem cell_ok {roz pr vz : Buf K} {N : Nat} {n1 ix iz : Int} (h1 : roz.size = N) (h2 : pr.size = N) (h3 : vz.size = N)
    (ha : 1 ≤ ix * n1 + iz) (hb : ix * n1 + iz < N) : ∃ v', vzCell roz pr n1 ix iz vz = some v' ∧ v'.size = N ∧
      ∀ k, v'.val k = if k = ix * n1 + iz then vz.val k - roz.val k * (pr.val k - pr.val (k - 1)) else vz.val k := by
  have o1 : roz.ok (ix * n1 + iz) := by unfold Buf.ok; omega
  have o2 : pr.ok (ix * n1 + iz) := by unfold Buf.ok; omega
  have o3 : pr.ok (ix * n1 + iz - 1) := by unfold Buf.ok; omega
  have o4 : vz.ok (ix * n1 + iz) := by unfold Buf.ok; omega
  refine ⟨{ vz with val := fun k => if k = ix * n1 + iz then vz.val (ix * n1 + iz) - roz.val (ix * n1 + iz) *
      (pr.val (ix * n1 + iz) - pr.val (ix * n1 + iz - 1)) else vz.val k },
    by simp only [vzCell, Buf.rd_ok o1, Buf.rd_ok o2, Buf.rd_ok o3, Buf.rd_ok o4, Buf.wr_ok o4, Option.bind_some], h3, ?_⟩
  intro k
  dsimp only
  by_cases hk : k = ix * n1 + iz
  · subst hk; simp
  · simp [hk]

private theorem forIM_inv {σ : Type} {lo hi : Int} {body : Int → σ → Option σ} {s : σ} (hlh : lo ≤ hi) (P : Int → σ → Prop) (h0 : P lo s)
    (hs : ∀ k, lo ≤ k → k < hi → ∀ s, P k s → ∃ s', body k s = some s' ∧ P (k + 1) s') :
    ∃ s', forIM lo hi body s = some s' ∧ P hi s' := by
  unfold forIM
  obtain ⟨t, h1, h2⟩ := forNM_inv (n := (hi - lo).toNat) (s := s) (fun n s => P (lo + n) s) (by simpa using h0)
    (body := fun k => body (lo + k)) (fun k hk s hP => by
      obtain ⟨s', a, b⟩ := hs (lo + k) (by omega) (by omega) s hP
      exact ⟨s', a, by push_cast; rw [← add_assoc]; exact b⟩)
  refine ⟨t, h1, ?_⟩
  have : lo + (((hi - lo).toNat : Nat) : Int) = hi := by omega
  rw [this] at h2; exact h2

/-- What the loop does if it stays in the arrays: the rule of the scheme in the columns `ioZz..ieZz-1`, and nothing elsewhere. -/
theorem inside (p : Par) (roz pr vz : Buf K) {N : Nat} (hN : (N : Int) = p.nax * p.naz) (h1 : roz.size = N) (h2 : pr.size = N)
    (h3 : vz.size = N) (hi : 1 ≤ p.ioZz) (hz : p.ioZz ≤ p.ieZz) (hzn : p.ieZz ≤ p.naz) (h : p.ieZz ≤ p.nax) :
    ∃ v', vzLoop p roz pr vz = some v' ∧ v'.size = N ∧ ∀ ix iz, 0 ≤ iz → iz < p.naz →
      v'.val (ix * p.naz + iz) = if (p.ioZz ≤ ix ∧ ix < p.ieZz) ∧ (p.ioZz ≤ iz ∧ iz < p.ieZz) then
        vz.val (ix * p.naz + iz) - roz.val (ix * p.naz + iz) * (pr.val (ix * p.naz + iz) - pr.val (ix * p.naz + iz - 1))
      else vz.val (ix * p.naz + iz) := by
  -- an element belongs to one column and row
  have uniq : ∀ {ix iz jx jz : Int}, 0 ≤ iz → iz < p.naz → 0 ≤ jz → jz < p.naz → ix * p.naz + iz = jx * p.naz + jz → ix = jx ∧ iz = jz := by
    intro ix iz jx jz a b c d e
    have hd : (ix - jx) * p.naz = jz - iz := by rw [Int.sub_mul]; omega
    have hxy : ix = jx := by
      rcases lt_trichotomy ix jx with hlt | heq | hgt
      · exfalso
        have : (ix - jx) * p.naz ≤ (-1) * p.naz := Int.mul_le_mul_of_nonneg_right (by omega) (by omega)
        omega
      · exact heq
      · exfalso
        have : 1 * p.naz ≤ (ix - jx) * p.naz := Int.mul_le_mul_of_nonneg_right (by omega) (by omega)
        omega
    subst hxy
    exact ⟨rfl, by omega⟩
  let new : Int → K := fun k => vz.val k - roz.val k * (pr.val k - pr.val (k - 1))
  have outer := forIM_inv (s := vz) (lo := p.ioZz) (hi := p.ieZz)
    (body := fun ix => forIM p.ioZz p.ieZz (fun iz => vzCell roz pr p.naz ix iz)) hz
    (fun (c : Int) (v : Buf K) => v.size = N ∧ ∀ ix iz, 0 ≤ iz → iz < p.naz → v.val (ix * p.naz + iz) =
      if (p.ioZz ≤ ix ∧ ix < c) ∧ (p.ioZz ≤ iz ∧ iz < p.ieZz) then new (ix * p.naz + iz) else vz.val (ix * p.naz + iz))
    ⟨h3, fun ix iz _ _ => by rw [if_neg (by omega)]⟩ ?_
  · obtain ⟨v', e, hs, hv⟩ := outer
    exact ⟨v', e, hs, hv⟩
  · intro c c1 c2 v ⟨hvs, hv⟩
    have cpos : 0 ≤ c * p.naz := Int.mul_nonneg (by omega) (by omega)
    have cle : c * p.naz ≤ (p.nax - 1) * p.naz := Int.mul_le_mul_of_nonneg_right (by omega) (by omega)
    have cexp : (p.nax - 1) * p.naz = p.nax * p.naz - p.naz := by rw [Int.sub_mul]; omega
    have inner := forIM_inv (s := v) (lo := p.ioZz) (hi := p.ieZz) (body := fun iz => vzCell roz pr p.naz c iz) hz
      (fun (r : Int) (w : Buf K) => w.size = N ∧ ∀ ix iz, 0 ≤ iz → iz < p.naz → w.val (ix * p.naz + iz) =
        if ix = c ∧ (p.ioZz ≤ iz ∧ iz < r) then new (ix * p.naz + iz) else v.val (ix * p.naz + iz))
      ⟨hvs, fun ix iz _ _ => by rw [if_neg (by omega)]⟩ ?_
    · obtain ⟨w, e, hs, hw⟩ := inner
      refine ⟨w, e, hs, fun ix iz z1 z2 => ?_⟩
      rw [hw ix iz z1 z2, hv ix iz z1 z2]
      by_cases hrow : p.ioZz ≤ iz ∧ iz < p.ieZz
      · by_cases hc : ix = c
        · rw [if_pos ⟨hc, hrow⟩, if_pos (by omega)]
        · rw [if_neg (by omega)]
          by_cases hlt : p.ioZz ≤ ix ∧ ix < c
          · rw [if_pos (by omega), if_pos (by omega)]
          · rw [if_neg (by omega), if_neg (by omega)]
      · rw [if_neg (by omega), if_neg (by omega), if_neg (by omega)]
    · intro r r1 r2 w ⟨hws, hw⟩
      obtain ⟨w', e, hs, hk⟩ := cell_ok (n1 := p.naz) (ix := c) (iz := r) h1 h2 hws (by omega) (by omega)
      refine ⟨w', e, hs, fun ix iz z1 z2 => ?_⟩
      rw [hk, hw ix iz z1 z2]
      by_cases hcell : ix * p.naz + iz = c * p.naz + r
      · obtain ⟨rfl, rfl⟩ := uniq z1 z2 (by omega) (by omega) hcell
        rw [if_pos rfl, if_neg (by omega), if_pos (by omega), hv _ _ z1 z2, if_neg (by omega)]
      · rw [if_neg hcell]
        have hne : ¬ (ix = c ∧ iz = r) := fun ⟨a, b⟩ => hcell (by rw [a, b])
        by_cases h5 : ix = c ∧ (p.ioZz ≤ iz ∧ iz < r)
        · rw [if_pos h5, if_pos (by omega)]
        · rw [if_neg h5, if_neg (by omega)]

/-- **Wide models: the columns beyond the number of rows have no vertical motion.**  Without absorbing borders, in a model with more
columns than rows the vertical velocity of the first column and of every column beyond `nz` is never changed. -/
theorem columns_missed (p : Par) (roz pr vz : Buf K) {N : Nat} (hN : (N : Int) = p.nax * p.naz) (h1 : roz.size = N) (h2 : pr.size = N)
    (h3 : vz.size = N) (ho : p.iorder = 2) (hnz : 1 ≤ p.nz) (hx : p.nz ≤ p.nx) (hpad : p.pad p.top = 0 ∧ p.pad p.bot = 0 ∧ p.pad p.lef = 0 ∧ p.pad p.rig = 0)
    (hadd : p.add = 0) : ∃ v', vzLoop p roz pr vz = some v' ∧ ∀ i iz, (i = 0 ∨ p.nz < i ∧ i < p.nx) → 0 ≤ iz → iz < p.naz →
      v'.val (i * p.naz + iz) = vz.val (i * p.naz + iz) := by
  obtain ⟨ht, hb, hl, hr⟩ := hpad
  have e1 : p.ioZz = 1 := by simp [Par.ioZz, ho, ht, hadd]
  have e2 : p.ieZz = p.nz + 1 := by simp [Par.ieZz, ho, ht, hadd]
  have e3 : p.naz = p.nz + 2 := by simp [Par.naz, ho, ht, hb, hadd]
  have e4 : p.nax = p.nx + 2 := by simp [Par.nax, ho, hl, hr]
  obtain ⟨v', e, _, hv⟩ := inside p roz pr vz hN h1 h2 h3 (by omega) (by omega) (by omega) (by omega)
  refine ⟨v', e, fun i iz hi z1 z2 => ?_⟩
  rw [hv i iz z1 z2, if_neg (by omega)]

/-- Two rows more than columns, no borders: outside the arrays. -/
theorem tall_outside (p : Par) (roz pr vz : Buf K) (hs : (roz.size : Int) = p.nax * p.naz) (ho : p.iorder = 2) (hnx : 1 ≤ p.nx)
    (hz : p.nx + 2 ≤ p.nz) (hpad : p.pad p.top = 0 ∧ p.pad p.bot = 0 ∧ p.pad p.lef = 0 ∧ p.pad p.rig = 0) (hadd : p.add = 0) :
    vzLoop p roz pr vz = none := by
  obtain ⟨ht, hb, hl, hr⟩ := hpad
  have e1 : p.ioZz = 1 := by simp [Par.ioZz, ho, ht, hadd]
  have e2 : p.ieZz = p.nz + 1 := by simp [Par.ieZz, ho, ht, hadd]
  have e3 : p.naz = p.nz + 2 := by simp [Par.naz, ho, ht, hb, hadd]
  have e4 : p.nax = p.nx + 2 := by simp [Par.nax, ho, hl, hr]
  exact outside p roz pr vz hs (by omega) (by omega) (by omega) (by omega) (by omega)

/-- A model of 100 columns and 40 rows with free sides meets the hypotheses of `columns_missed`; turned around it meets those of
`tall_outside`. -/
def wide : Par := { nx := 100, nz := 40, iorder := 2, npml := 0, topadd := 0, ischeme := 1, lef := 1, rig := 1, top := 1, bot := 1 }

example : wide.pad wide.top = 0 ∧ wide.pad wide.bot = 0 ∧ wide.pad wide.lef = 0 ∧ wide.pad wide.rig = 0 ∧ wide.add = 0 ∧
    ((102 * 42 : Nat) : Int) = wide.nax * wide.naz := by decide

end Verif.Stab.Order2

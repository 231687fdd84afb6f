import Verif.Fd.RecordingProps
import Verif.Util.NameExt
import Verif.Su.Props
import Mathlib.Algebra.Order.Floor.Ring
import Mathlib.Data.Rat.Floor
import Mathlib.Tactic.Linarith

/-!
# The receiver files of a run of `fdelmodc`

`fdelmodc/fdelmodc.c:522-770` (loop over the shots), `fdelmodc/writeRec.c`, `fdelmodc/fileOpen.c:77-108`.

A file is the list of its traces.  The components that only need their array to be written are modelled; the decomposed fields
(`rec_type_ud`), `rec_scale`, MPI and negative start times are not.  Real arithmetic is exact (ℚ) and `int` unbounded, but the two-byte words of
the header are not.
-/

namespace Verif.Fd.Out
open Verif.Util

/-- The words of the header that `writeRec` sets from positions and numbers. -/
structure Hdr where
  tracl : ℤ
  tracf : ℤ
  fldr : ℤ
  sx : ℤ
  sdepth : ℤ
  selev : ℤ
  gx : ℤ
  gelev : ℤ
  offset : ℤ
  cdp : ℤ
  ns : ℕ
  ntr : ℤ
deriving DecidableEq, Repr

/-- Positions of the model, of the receivers and of the shots (grid points), number of receivers and shots. -/
structure Geo where
  x0 : ℚ
  z0 : ℚ
  dx : ℚ
  dz : ℚ
  nrec : ℕ
  recx : ℕ → ℤ
  recz : ℕ → ℤ
  nshots : ℕ
  shotx : ℕ → ℤ
  shotz : ℕ → ℤ

/-- Conversion of a `float` to `int`: towards zero. -/
def toInt (x : ℚ) : ℤ := if 0 ≤ x then ⌊x⌋ else ⌈x⌉

/-- The header of a trace, writeRec.c:88-107, 192-197.  `ns` is an `unsigned short` (segy.h:312). -/
def header (g : Geo) (nsam : ℤ) (ishot irec : ℕ) : Hdr :=
  let sx := toInt (1000 * (g.x0 + g.shotx ishot * g.dx))
  let gx := toInt (1000 * (g.x0 + g.recx irec * g.dx))
  { tracl := ishot * g.nrec + irec + 1
    tracf := irec + 1
    fldr := ishot + 1
    sx := sx
    sdepth := toInt (1000 * (g.z0 + g.shotz ishot * g.dz))
    selev := toInt (-1000 * (g.z0 + g.shotz ishot * g.dz))
    gx := gx
    gelev := toInt (-1000 * (g.z0 + g.recz irec * g.dz))
    offset := toInt ((g.recx irec - g.shotx ishot) * g.dx)
    cdp := (gx + sx).tdiv 2
    ns := (nsam % 65536).toNat
    ntr := g.nshots * g.nrec }

/-- A trace in a file. -/
abbrev Trace := Hdr × List ℚ

/-- The files: what is in them, `none` if there is no such file. -/
abbrev Files := List Char → Option (List Trace)

/-- The extensions of the components, writeRec.c:113-123, in the order in which they are opened and written. -/
def extensions : List (List Char) :=
  ["_rvx".toList, "_rvz".toList, "_rp".toList, "_rtxx".toList, "_rtzz".toList, "_rtxz".toList, "_rdxvx".toList, "_rdzvz".toList, "_rpp".toList,
    "_rss".toList, "_rq".toList]

/-- The components that `getRecTimes` stores with `=` (getRecTimes.c:233, 237); the others are added with `+=`.  They are also those that
are not set to zero after a shot (fdelmodc.c:755-763). -/
def assigned (c : List Char) : Bool := c == "_rdxvx".toList || c == "_rdzvz".toList

/-- `sprintf(number,"_%03d",fileno)`, writeRec.c:74-77. -/
def number (fileno : ℤ) : List Char :=
  if fileno = 0 then [] else '_' :: (List.replicate (3 - (toString fileno).toList.length) '0' ++ (toString fileno).toList)

/-- `fileOpen` for all components, writeRec.c:113-123 and fileOpen.c:77-88: mode `"a"` keeps what is in the file, mode `"w"` empties it.
`none`: the name does not fit. -/
def openAll (file : List Char) (fileno : ℤ) (append : Bool) (comps : List (List Char)) (fs : Files) : Option Files :=
  comps.foldlM (fun fs c => (recName file (number fileno) c).map fun n => Function.update fs n (some (if append then (fs n).getD [] else []))) fs

/-- One receiver, writeRec.c:199-235 and `traceWrite`, fileOpen.c:90-102: a trace at the end of every file. -/
def writeOne (file : List Char) (fileno : ℤ) (comps : List (List Char)) (h : Hdr) (row : List Char → List ℚ) (fs : Files) : Option Files :=
  comps.foldlM (fun fs c => (recName file (number fileno) c).map fun n => Function.update fs n (some ((fs n).getD [] ++ [(h, row c)]))) fs

/-- `writeRec`, writeRec.c:55-280.  `none` is also a read beyond the end of the receiver array, which has `nrec*nt` values. -/
def writeRec (file : List Char) (comps : List (List Char)) (g : Geo) (nt nsam : ℤ) (ishot : ℕ) (fileno : ℤ) (arr : List Char → ℤ → ℚ) (fs : Files) :
    Option Files :=
  if g.nrec = 0 then some fs
  else if nsam ≤ nt then
    (openAll file fileno (decide (ishot ≠ 0)) comps fs).bind fun fs =>
      forNM g.nrec (fun irec fs => writeOne file fileno comps (header g nsam ishot irec)
        (fun c => (List.range nsam.toNat).map fun j : ℕ => arr c (irec * nt + j)) fs) fs
  else none

/-- `getRecTimes`, getRecTimes.c, for receivers on grid points: `p c irec it` is the value of the field at the receiver.  `none` is a
write outside of the array. -/
def store (nt : ℤ) (nrec : ℕ) (p : List Char → ℕ → ℤ → ℚ) (it isam : ℤ) (arr : List Char → ℤ → ℚ) : Option (List Char → ℤ → ℚ) :=
  if nrec = 0 ∨ (0 ≤ isam ∧ isam < nt) then
    some (forN nrec (fun irec arr => fun c i =>
      if i = irec * nt + isam then (if assigned c then p c irec it else arr c i + p c irec it) else arr c i) arr)
  else none

/-- The variables of the loop over time; `isam` is `none` before it is set. -/
structure St where
  fileno : ℤ
  isam : Option ℤ
  arr : List Char → ℤ → ℚ
  fs : Files

/-- One step of the loop over time, fdelmodc.c:658-686. -/
def timeStep (file : List Char) (comps : List (List Char)) (g : Geo) (r : RecPar) (p : List Char → ℕ → ℤ → ℚ) (ishot : ℕ) (it : ℤ) (s : St) :
    Option St :=
  if (it - r.delay).tmod r.skipdt = 0 ∧ r.delay ≤ it then
    let isam := sampleIndex r s.fileno it
    (store r.nt g.nrec p it isam s.arr).bind fun arr =>
      if writeToFile r it ∧ it + r.skipdt ≤ r.it1 - 1 then
        let fileno := (((it - r.delay).tdiv r.skipdt) + 1).tdiv r.nt
        (writeRec file comps g r.nt (isam + 1) ishot fileno arr s.fs).map fun fs => ⟨fileno, some isam, arr, fs⟩
      else some ⟨s.fileno, some isam, arr, s.fs⟩
  else some s

/-- One shot, fdelmodc.c:522-770. -/
def shot (file : List Char) (comps : List (List Char)) (g : Geo) (r : RecPar) (p : List Char → ℕ → ℤ → ℚ) (ishot : ℕ) (s : St) : Option St :=
  (forIM 0 r.it1 (fun it s => timeStep file comps g r p ishot it s) { s with fileno := 0 }).bind fun s =>
    let fileno := if s.fileno = 0 then 0 else s.fileno + 1
    s.isam.bind fun isam =>
      (writeRec file comps g r.nt (isam + 1) ishot fileno s.arr s.fs).map fun fs =>
        ⟨fileno, s.isam, fun c i => if assigned c then s.arr c i else 0, fs⟩

/-- The loop over the shots, from files `fs` and receiver arrays that are zero (`calloc`, fdelmodc.c:420-431). -/
def run (file : List Char) (comps : List (List Char)) (g : Geo) (r : RecPar) (p : ℕ → List Char → ℕ → ℤ → ℚ) (fs : Files) : Option Files :=
  (forNM g.nshots (fun ishot s => shot file comps g r (p ishot) ishot s) ⟨0, none, fun _ _ => 0, fs⟩).map St.fs

/-! ### Specification -/

/-- The samples of a trace: one for time zero of the record, which is not modelled and stays zero, and one for every step `D`, `D+S`, …
before `T`. -/
def samples (S D T : ℕ) (f : ℤ → ℚ) : List ℚ := 0 :: (List.range (nRec S (T - D))).map fun k => f (D + k * S : ℕ)

/-- What the file of a component has to hold: the shots one after the other, in each the receivers one after the other. -/
def expected (g : Geo) (S D T : ℕ) (p : ℕ → ℕ → ℤ → ℚ) : List Trace :=
  ((List.range g.nshots).map fun ishot => (List.range g.nrec).map fun irec =>
    (header g (nRec S (T - D) + 1 : ℕ) ishot irec, samples S D T (p ishot irec))).flatten

/-! ### Files -/

/-- Every component changes its own file. -/
theorem each_file {comps : List (List Char)} (hnd : comps.Nodup) (name : List Char → List Char) (nm : List Char → Option (List Char))
    (hnm : ∀ c ∈ comps, nm c = some (name c)) (hinj : ∀ c ∈ comps, ∀ c' ∈ comps, name c = name c' → c = c')
    (f : List Char → Option (List Trace) → List Trace) (fs : Files) :
    ∃ fs', comps.foldlM (fun fs c => (nm c).map fun n => Function.update fs n (some (f c (fs n)))) fs = some fs' ∧
      (∀ c ∈ comps, fs' (name c) = some (f c (fs (name c)))) ∧ ∀ n, (∀ c ∈ comps, n ≠ name c) → fs' n = fs n := by
  induction comps generalizing fs with
  | nil => exact ⟨fs, rfl, by simp, fun _ _ => rfl⟩
  | cons c comps ih =>
    obtain ⟨fs', h1, h2, h3⟩ := ih (List.nodup_cons.mp hnd).2 (fun c hc => hnm c (by simp [hc])) (fun a ha b hb => hinj a (by simp [ha]) b (by simp [hb]))
      (Function.update fs (name c) (some (f c (fs (name c)))))
    have hne : ∀ c' ∈ comps, name c' ≠ name c := fun c' hc' he =>
      (List.nodup_cons.mp hnd).1 (hinj c' (by simp [hc']) c (by simp) he ▸ hc')
    refine ⟨fs', ?_, ?_, ?_⟩
    · rw [List.foldlM_cons, hnm c (by simp)]
      exact h1
    · intro c' hc'
      rcases List.mem_cons.mp hc' with rfl | hc'
      · rw [h3 _ (fun a ha => (hne a ha).symm), Function.update_self]
      · rw [h2 c' hc', Function.update_of_ne (hne c' hc')]
    · intro n hn
      rw [h3 n (fun a ha => hn a (by simp [ha])), Function.update_of_ne (hn c (by simp))]

/-- A call of `writeRec`: a file of every component with, after what was in it if this is not the first shot, a trace for every receiver. -/
theorem writeRec_spec {comps : List (List Char)} (hnd : comps.Nodup) (file : List Char) (fileno : ℤ) (name : List Char → List Char)
    (hnm : ∀ c ∈ comps, recName file (number fileno) c = some (name c)) (hinj : ∀ c ∈ comps, ∀ c' ∈ comps, name c = name c' → c = c')
    (g : Geo) (hrec : g.nrec ≠ 0) (nt nsam : ℤ) (hns : nsam ≤ nt) (ishot : ℕ) (arr : List Char → ℤ → ℚ) (fs : Files) :
    ∃ fs', writeRec file comps g nt nsam ishot fileno arr fs = some fs' ∧
      (∀ c ∈ comps, fs' (name c) = some ((if ishot ≠ 0 then (fs (name c)).getD [] else []) ++ (List.range g.nrec).map fun irec : ℕ =>
        (header g nsam ishot irec, (List.range nsam.toNat).map fun j : ℕ => arr c (irec * nt + j)))) ∧
      ∀ n, (∀ c ∈ comps, n ≠ name c) → fs' n = fs n := by
  unfold writeRec
  rw [if_neg hrec, if_pos hns]
  obtain ⟨fs1, e1, h1, h2⟩ := each_file hnd name _ hnm hinj (fun _ o => if decide (ishot ≠ 0) then o.getD [] else []) fs
  unfold openAll
  rw [e1, Option.bind_some]
  obtain ⟨fs', e2, h3, h4⟩ := forNM_inv (n := g.nrec) (body := fun irec fs => writeOne file fileno comps (header g nsam ishot irec)
        (fun c => (List.range nsam.toNat).map fun j : ℕ => arr c (irec * nt + j)) fs) (s := fs1)
    (fun k f => (∀ c ∈ comps, f (name c) = some ((if ishot ≠ 0 then (fs (name c)).getD [] else []) ++ (List.range k).map fun irec : ℕ =>
        (header g nsam ishot irec, (List.range nsam.toNat).map fun j : ℕ => arr c (irec * nt + j)))) ∧
      ∀ n, (∀ c ∈ comps, n ≠ name c) → f n = fs n)
    ⟨fun c hc => by rw [h1 c hc]; simp, h2⟩ (fun k _ f ⟨a, b⟩ => by
      obtain ⟨f', e, x, y⟩ := each_file hnd name _ hnm hinj (fun c o => o.getD [] ++ [(header g nsam ishot k,
        (List.range nsam.toNat).map fun j : ℕ => arr c (k * nt + j))]) f
      refine ⟨f', e, fun c hc => ?_, fun n hn => ?_⟩
      · rw [x c hc, a c hc, List.range_succ, List.map_append, ← List.append_assoc]
        rfl
      · rw [y n hn, b n hn])
  exact ⟨fs', e2, h3, h4⟩

/-! ### Recording -/

theorem store_spec (R nrec : ℕ) (p : List Char → ℕ → ℤ → ℚ) (it : ℤ) (k : ℕ) (hk : k < R) (arr : List Char → ℤ → ℚ) :
    ∃ arr', store R nrec p it k arr = some arr' ∧ ∀ c (irec j : ℕ), irec < nrec → j < R →
      arr' c (irec * R + j) = if j = k then (if assigned c then p c irec it else arr c (irec * R + j) + p c irec it) else arr c (irec * R + j) := by
  unfold store
  rw [if_pos (Or.inr ⟨by omega, by exact_mod_cast hk⟩)]
  refine ⟨_, rfl, ?_⟩
  have key := forN_inv (n := nrec) (body := fun (irec : ℕ) (arr : List Char → ℤ → ℚ) => fun c i =>
      if i = irec * (R : ℤ) + (k : ℤ) then (if assigned c then p c irec it else arr c i + p c irec it) else arr c i) (s := arr)
    (fun m a => ∀ c (irec j : ℕ), irec < nrec → j < R → a c (irec * R + j) =
      if irec < m ∧ j = k then (if assigned c then p c irec it else arr c (irec * R + j) + p c irec it) else arr c (irec * R + j))
    (fun c irec j _ _ => by rw [if_neg (by omega)]) (fun m _ a ha c irec j hi hj => by
      have hiff : (irec : ℤ) * R + j = m * R + k ↔ irec = m ∧ j = k := by
        constructor
        · intro h
          have h' : irec * R + j = m * R + k := by exact_mod_cast h
          have e1 : (irec * R + j) / R = irec := by
            rw [Nat.add_comm, Nat.add_mul_div_right _ _ (by omega), Nat.div_eq_of_lt hj, Nat.zero_add]
          have e2 : (m * R + k) / R = m := by
            rw [Nat.add_comm, Nat.add_mul_div_right _ _ (by omega), Nat.div_eq_of_lt hk, Nat.zero_add]
          have : irec = m := by rw [← e1, h', e2]
          subst this
          exact ⟨rfl, by omega⟩
        · rintro ⟨rfl, rfl⟩; rfl
      dsimp only
      by_cases hc : irec = m ∧ j = k
      · have e1 := ha c irec j hi hj
        rw [if_neg (by omega)] at e1
        rw [if_pos (hiff.mpr hc), e1]
        have h9 : irec < m + 1 ∧ j = k := ⟨by omega, hc.2⟩
        rw [hc.1] at h9 ⊢
        simp only [h9, and_self, if_true]
      · rw [if_neg (fun h => hc (hiff.mp h)), ha c irec j hi hj]
        by_cases h2 : irec < m ∧ j = k
        · have h9 : irec < m + 1 ∧ j = k := ⟨by omega, h2.2⟩
          simp only [h2, h9, and_self, if_true]
        · have h9 : ¬ (irec < m + 1 ∧ j = k) := by omega
          simp only [h2, h9, if_false])
  intro c irec j hi hj
  rw [key c irec j hi hj]
  simp only [hi, true_and]

theorem nRec_mul {S : ℕ} (hS : 0 < S) (k : ℕ) : nRec S (k * S) = k := by
  refine Nat.le_antisymm ?_ ?_
  · by_contra h
    have := (lt_nRec (S := S) (x := k * S) (k := k) hS).mp (by omega)
    omega
  · by_contra h
    have := (lt_nRec (S := S) (x := k * S) (k := k - 1) hS).not.mp (by omega)
    have h2 : (k - 1) * S < k * S := Nat.mul_lt_mul_of_pos_right (by omega) hS
    omega

/-- The receivers are read at the steps `D`, `D+S`, …. -/
theorem record_iff {S D it : ℕ} (hS : 0 < S) : (((it : ℤ) - D).tmod S = 0 ∧ (D : ℤ) ≤ it) ↔ it = D + nRec S (it - D) * S := by
  constructor
  · rintro ⟨h1, h2⟩
    have h4 : S ∣ it - D := by
      have h3 : (S : ℤ) ∣ (it : ℤ) - D := Int.dvd_of_tmod_eq_zero h1
      have : ((it - D : ℕ) : ℤ) = it - D := by omega
      rw [← this] at h3; exact_mod_cast h3
    obtain ⟨j, hj⟩ := h4
    rw [hj, Nat.mul_comm S j, nRec_mul hS]
    rw [Nat.mul_comm] at hj
    omega
  · intro h
    refine ⟨?_, by omega⟩
    have : (it : ℤ) - D = ((nRec S (it - D) * S : ℕ) : ℤ) := by omega
    rw [this]
    push_cast
    exact Int.mul_tmod_left _ _

theorem nRec_succ {S D it : ℕ} (hS : 0 < S) :
    nRec S (it + 1 - D) = if it = D + nRec S (it - D) * S then nRec S (it - D) + 1 else nRec S (it - D) := by
  have hlt : ∀ k x, k < nRec S x ↔ k * S < x := fun k x => lt_nRec hS
  split
  · rename_i h
    generalize nRec S (it - D) = K at *
    have h1 := hlt K (it + 1 - D)
    have h2 := hlt (K + 1) (it + 1 - D)
    rw [Nat.succ_mul] at h2
    omega
  · rename_i h
    have h1 := hlt (nRec S (it - D)) (it - D)
    have h2 := hlt (nRec S (it - D)) (it + 1 - D)
    have h3 := hlt (nRec S (it - D) - 1) (it - D)
    have h4 := hlt (nRec S (it - D) - 1) (it + 1 - D)
    generalize nRec S (it - D) = K at *
    omega

theorem sampleIndex_first {R S D T K : ℕ} (hS : 0 < S) : sampleIndex ⟨R, S, D, T, 0⟩ 0 ((D + K * S : ℕ) : ℤ) = (K + 1 : ℕ) := by
  unfold sampleIndex
  dsimp only
  have : ((D + K * S : ℕ) : ℤ) - D - 0 * R * S + 0 = (K : ℤ) * S := by push_cast; ring
  rw [this, Int.mul_tdiv_cancel _ (by omega), if_neg (by omega)]
  push_cast; rfl

theorem not_writeToFile {R S D T K : ℕ} (hS : 0 < S) (hK : K + 1 < R) : writeToFile ⟨R, S, D, T, 0⟩ ((D + K * S : ℕ) : ℤ) = false := by
  unfold writeToFile
  dsimp only
  have : ((D + K * S : ℕ) : ℤ) - D + 0 = (K : ℤ) * S := by push_cast; ring
  rw [this, Int.mul_tdiv_cancel _ (by omega), if_pos (by omega)]
  rw [decide_eq_false_iff_not, show ((K : ℤ) + 1) = ((K + 1 : ℕ) : ℤ) by push_cast; rfl, ← Int.ofNat_tmod, Nat.mod_eq_of_lt hK]
  omega

/-- The arrays after the first `n` steps of a shot, before the trace is full. -/
theorem steps_spec (file : List Char) (comps : List (List Char)) (g : Geo) (R S D T : ℕ) (hS : 0 < S) (p : List Char → ℕ → ℤ → ℚ) (ishot : ℕ) (s : St)
    (hs : s.fileno = 0) (n : ℕ) (hfit : nRec S (n - D) < R) :
    ∃ s', forNM n (fun it s => timeStep file comps g ⟨R, S, D, T, 0⟩ p ishot (0 + (it : ℤ)) s) s = some s' ∧ s'.fileno = 0 ∧ s'.fs = s.fs ∧
      (s'.isam = if nRec S (n - D) = 0 then s.isam else some (nRec S (n - D) : ℕ)) ∧
      ∀ c (irec j : ℕ), irec < g.nrec → j < R → s'.arr c (irec * R + j) =
        if 1 ≤ j ∧ j ≤ nRec S (n - D) then
          (if assigned c then p c irec (D + (j - 1) * S : ℕ) else s.arr c (irec * R + j) + p c irec (D + (j - 1) * S : ℕ))
        else s.arr c (irec * R + j) := by
  induction n with
  | zero =>
    have h0 : nRec S (0 - D) = 0 := by
      have := (lt_nRec (k := 0) (x := 0 - D) hS).not.mpr (by omega)
      omega
    refine ⟨s, rfl, hs, rfl, by rw [if_pos h0], fun c irec j _ _ => by rw [h0, if_neg (by omega)]⟩
  | succ n ih =>
    have hsucc := nRec_succ (S := S) (D := D) (it := n) hS
    obtain ⟨s1, e, hf, hfs, hi, ha⟩ := ih (by rw [hsucc] at hfit; split at hfit <;> omega)
    rw [forNM_succ, e, Option.bind_some]
    unfold timeStep
    simp only [Int.zero_add]
    by_cases hc : n = D + nRec S (n - D) * S
    · rw [if_pos ((record_iff hS).mpr hc)]
      rw [if_pos hc] at hsucc
      rw [hsucc] at hfit ⊢
      generalize nRec S (n - D) = K at *
      have e1 : sampleIndex ⟨R, S, D, T, 0⟩ s1.fileno (n : ℤ) = (K + 1 : ℕ) := by rw [hf, hc]; exact sampleIndex_first hS
      have e2 : writeToFile ⟨R, S, D, T, 0⟩ (n : ℤ) = false := by rw [hc]; exact not_writeToFile hS hfit
      rw [e1]
      obtain ⟨arr', e3, h3⟩ := store_spec R g.nrec p n (K + 1) hfit s1.arr
      rw [e3, Option.bind_some, e2, if_neg (by simp)]
      refine ⟨_, rfl, hf, hfs, by rw [if_neg (by omega)], fun c irec j h1 h2 => ?_⟩
      refine Eq.trans (h3 c irec j h1 h2) ?_
      rw [ha c irec j h1 h2]
      by_cases hj : j = K + 1
      · have h6 : ¬ (1 ≤ j ∧ j ≤ K) := by omega
        have h7 : 1 ≤ j ∧ j ≤ K + 1 := by omega
        have h8 : D + (j - 1) * S = n := by rw [hj, Nat.add_sub_cancel, ← hc]
        rw [if_pos hj, if_neg h6, if_pos h7, h8]
      · rw [if_neg hj]
        by_cases h5 : 1 ≤ j ∧ j ≤ K
        · have h7 : 1 ≤ j ∧ j ≤ K + 1 := by omega
          simp only [h5, h7, and_self, if_true]
        · have h7 : ¬ (1 ≤ j ∧ j ≤ K + 1) := by omega
          simp only [h5, h7, if_false]
    · rw [if_neg (fun h => hc ((record_iff hS).mp h))]
      rw [if_neg hc] at hsucc
      rw [hsucc]
      exact ⟨s1, rfl, hf, hfs, hi, ha⟩

/-- What the arrays hold between shots: zero, but for the samples of the last shot in the components that are not set to zero. -/
def Clean (nrec R K : ℕ) (arr : List Char → ℤ → ℚ) : Prop :=
  ∀ c (irec j : ℕ), irec < nrec → j < R → (assigned c = false ∨ j = 0 ∨ K < j) → arr c (irec * R + j) = 0

theorem shot_spec {comps : List (List Char)} (hnd : comps.Nodup) (file : List Char) (name : List Char → List Char)
    (hnm : ∀ c ∈ comps, recName file [] c = some (name c)) (hinj : ∀ c ∈ comps, ∀ c' ∈ comps, name c = name c' → c = c')
    (g : Geo) (hrec : g.nrec ≠ 0) (R S D T : ℕ) (hS : 0 < S) (hD : D < T) (hfit : T ≤ D + (R - 1) * S) (p : List Char → ℕ → ℤ → ℚ) (ishot : ℕ) (s : St)
    (hcl : Clean g.nrec R (nRec S (T - D)) s.arr) :
    ∃ s', shot file comps g ⟨R, S, D, T, 0⟩ p ishot s = some s' ∧ Clean g.nrec R (nRec S (T - D)) s'.arr ∧
      (∀ c ∈ comps, s'.fs (name c) = some ((if ishot ≠ 0 then (s.fs (name c)).getD [] else []) ++ (List.range g.nrec).map fun irec : ℕ =>
        (header g (nRec S (T - D) + 1 : ℕ) ishot irec, samples S D T (p c irec)))) ∧
      ∀ n, (∀ c ∈ comps, n ≠ name c) → s'.fs n = s.fs n := by
  have hK0 : 0 < nRec S (T - D) := (lt_nRec hS).mpr (by omega)
  have hKR : nRec S (T - D) < R := by
    by_contra hc
    have := (lt_nRec (k := R - 1) (x := T - D) hS).mp (by omega)
    omega
  obtain ⟨s1, e, hf, hfs, hi, ha⟩ := steps_spec file comps g R S D T hS p ishot { s with fileno := 0 } rfl T hKR
  rw [if_neg (by omega)] at hi
  unfold shot forIM
  rw [show (⟨R, S, D, T, 0⟩ : RecPar).it1 = (T : ℤ) from rfl, show ((T : ℤ) - 0).toNat = T by omega, e, Option.bind_some]
  dsimp only
  rw [hi, Option.bind_some, if_pos hf]
  obtain ⟨fs', e2, h1, h2⟩ := writeRec_spec hnd file 0 name (by rw [show number 0 = [] from rfl]; exact hnm) hinj g hrec R (nRec S (T - D) + 1 : ℕ)
    (by exact_mod_cast hKR) ishot s1.arr s1.fs
  rw [show (((nRec S (T - D) : ℕ) : ℤ) + 1) = ((nRec S (T - D) + 1 : ℕ) : ℤ) by push_cast; rfl, e2]
  refine ⟨_, rfl, ?_, ?_, ?_⟩
  · intro c irec j h3 h4 h5
    dsimp only
    split
    · rename_i h6
      rw [ha c irec j h3 h4, if_neg (by rcases h5 with h5 | h5 | h5; · simp [h6] at h5
                                        · omega
                                        · omega)]
      exact hcl c irec j h3 h4 h5
    · rfl
  · intro c hc
    refine Eq.trans (h1 c hc) ?_
    rw [hfs]
    congr 2
    refine List.map_congr_left fun irec hir => ?_
    have hir : irec < g.nrec := List.mem_range.mp hir
    congr 1
    rw [Int.toNat_natCast, samples, List.range_succ_eq_map, List.map_cons, List.map_map]
    congr 1
    · rw [ha c irec 0 hir (by omega), if_neg (by omega)]
      exact hcl c irec 0 hir (by omega) (Or.inr (Or.inl rfl))
    · refine List.map_congr_left fun k hk => ?_
      have hk : k < nRec S (T - D) := List.mem_range.mp hk
      rw [Function.comp, ha c irec k.succ hir (by omega), if_pos (by omega), Nat.succ_sub_one]
      split
      · rfl
      · rename_i h6
        rw [show s.arr c (↑irec * ↑R + ↑k.succ) = 0 from hcl c irec k.succ hir (by omega) (Or.inl (by simpa using h6)), zero_add]
  · intro n hn
    refine Eq.trans (h2 n hn) ?_
    rw [hfs]

theorem run_named {comps : List (List Char)} (hnd : comps.Nodup) (file : List Char) (name : List Char → List Char)
    (hnm : ∀ c ∈ comps, recName file [] c = some (name c)) (hinj : ∀ c ∈ comps, ∀ c' ∈ comps, name c = name c' → c = c')
    (g : Geo) (hrec : g.nrec ≠ 0) (hshots : g.nshots ≠ 0) (R S D T : ℕ) (hS : 0 < S) (hD : D < T) (hfit : T ≤ D + (R - 1) * S)
    (p : ℕ → List Char → ℕ → ℤ → ℚ) (fs : Files) :
    ∃ fs', run file comps g ⟨R, S, D, T, 0⟩ p fs = some fs' ∧
      (∀ c ∈ comps, fs' (name c) = some (expected g S D T (fun ishot irec => p ishot c irec))) ∧
      ∀ n, (∀ c ∈ comps, n ≠ name c) → fs' n = fs n := by
  obtain ⟨s', e, -, h1, h2⟩ := forNM_inv (n := g.nshots) (body := fun ishot s => shot file comps g ⟨R, S, D, T, 0⟩ (p ishot) ishot s)
    (s := ⟨0, none, fun _ _ => 0, fs⟩)
    (fun m s => Clean g.nrec R (nRec S (T - D)) s.arr ∧
      (∀ c ∈ comps, m ≠ 0 → s.fs (name c) = some ((List.range m).map fun ishot => (List.range g.nrec).map fun irec =>
        (header g (nRec S (T - D) + 1 : ℕ) ishot irec, samples S D T (p ishot c irec))).flatten) ∧
      ∀ n, (∀ c ∈ comps, n ≠ name c) → s.fs n = fs n)
    ⟨fun _ _ _ _ _ _ => rfl, fun _ _ h => absurd rfl h, fun _ _ => rfl⟩ (fun m _ s ⟨a, b, c⟩ => by
      obtain ⟨s', e, x, y, z⟩ := shot_spec hnd file name hnm hinj g hrec R S D T hS hD hfit (p m) m s a
      refine ⟨s', e, x, fun c hc _ => ?_, fun n hn => by rw [z n hn, c n hn]⟩
      rw [y c hc]
      by_cases hm : m = 0
      · subst hm; simp [List.range_one]
      · rw [if_pos hm, b c hc hm, Option.getD_some, List.range_succ, List.map_append, List.flatten_append]
        simp)
  refine ⟨s'.fs, ?_, fun c hc => h1 c hc hshots, h2⟩
  unfold run
  rw [e]
  rfl

/-! ### Theorems -/

theorem extensions_ok : extensions.Nodup ∧ ∀ c ∈ extensions, '_' :: c.tail = c ∧ '_' ∉ c.tail ∧ c.length ≤ 96 ∧ c.length ≤ 6 ∧ '.' ∉ c := by decide

/-- **C136 (partial).** A run with one record per shot (`rec_ntsam` not smaller than the number of samples) leaves, for every component asked for, a
file with a trace for every shot and receiver, in this order, with the right header and the field at the recorded times, whatever was in the
file before; no other file is touched.  Missing: records that are split over files (`run_split`). -/
theorem run_files_partial {comps : List (List Char)} (hc : comps.Sublist extensions) (base : List Char) (hb : '.' ∉ base) (hlen : base.length ≤ 1000)
    (g : Geo) (hrec : g.nrec ≠ 0) (hshots : g.nshots ≠ 0) (R S D T : ℕ) (hS : 0 < S) (hD : D < T) (hfit : T ≤ D + (R - 1) * S)
    (p : ℕ → List Char → ℕ → ℤ → ℚ) (fs : Files) :
    ∃ fs', run (base ++ ".su".toList) comps g ⟨R, S, D, T, 0⟩ p fs = some fs' ∧
      (∀ c ∈ comps, fs' (base ++ c ++ ".su".toList) = some (expected g S D T (fun ishot irec => p ishot c irec))) ∧
      ∀ n, (∀ c ∈ comps, n ≠ base ++ c ++ ".su".toList) → fs' n = fs n := by
  have hm : ∀ c ∈ comps, c ∈ extensions := fun c h => hc.subset h
  refine run_named (hc.nodup extensions_ok.1) (base ++ ".su".toList) (fun c => base ++ c ++ ".su".toList) (fun c h => ?_) (fun c _ c' _ h => ?_)
    g hrec hshots R S D T hS hD hfit p fs
  · have := (extensions_ok.2 c (hm c h)).2.2
    rw [rec_names_partial hb (by simp) (by simp; omega) (by simp) this.1]
    simp
  · exact List.append_cancel_left (List.append_cancel_right h)

/-- **C136.** The traces of a file are numbered from one, without gaps. -/
theorem expected_numbered (g : Geo) (S D T : ℕ) (p : ℕ → ℕ → ℤ → ℚ) :
    (expected g S D T p).map (fun t => t.1.tracl) = (List.range (g.nshots * g.nrec)).map fun i : ℕ => (i : ℤ) + 1 := by
  unfold expected
  rw [List.map_flatten, List.map_map]
  generalize g.nshots = m
  induction m with
  | zero => simp
  | succ m ih =>
    rw [List.range_succ, List.map_append, List.flatten_append, ih, Nat.succ_mul, List.range_add, List.map_append]
    congr 1
    simp [header, Function.comp_def]

/-- **C136.** Positions in the header are those of shot and receiver, in millimetres, up to less than one; source depth and elevation have
opposite signs. -/
theorem toInt_near (x : ℚ) : |(toInt x : ℚ) - x| < 1 ∧ |(toInt x : ℚ)| ≤ |x| := by
  unfold toInt
  split
  · rename_i h
    have h1 := Int.floor_le x
    have h2 := Int.lt_floor_add_one x
    have h3 : (0 : ℚ) ≤ ⌊x⌋ := by exact_mod_cast Int.floor_nonneg.mpr h
    rw [abs_of_nonneg h3, abs_of_nonneg h, abs_lt]
    exact ⟨⟨by linarith, by linarith⟩, h1⟩
  · rename_i h
    push Not at h
    have h1 := Int.le_ceil x
    have h2 := Int.ceil_lt_add_one x
    have h3 : ((⌈x⌉ : ℤ) : ℚ) ≤ 0 := by exact_mod_cast Int.ceil_nonpos.mpr (le_of_lt h)
    rw [abs_of_nonpos h3, abs_of_neg h, abs_lt]
    exact ⟨⟨by linarith, by linarith⟩, by linarith⟩

theorem toInt_neg (x : ℚ) : toInt (-x) = - toInt x := by
  unfold toInt
  rcases lt_trichotomy x 0 with h | h | h
  · rw [if_pos (by linarith), if_neg (by linarith), Int.floor_neg]
  · subst h; simp
  · rw [if_neg (by linarith), if_pos h.le, Int.ceil_neg]

theorem header_positions (g : Geo) (nsam : ℤ) (ishot irec : ℕ) :
    |((header g nsam ishot irec).sx : ℚ) - 1000 * (g.x0 + g.shotx ishot * g.dx)| < 1 ∧
    |((header g nsam ishot irec).gx : ℚ) - 1000 * (g.x0 + g.recx irec * g.dx)| < 1 ∧
    |((header g nsam ishot irec).gelev : ℚ) - -(1000 * (g.z0 + g.recz irec * g.dz))| < 1 ∧
    |((header g nsam ishot irec).sdepth : ℚ) - 1000 * (g.z0 + g.shotz ishot * g.dz)| < 1 ∧
    (header g nsam ishot irec).selev = - (header g nsam ishot irec).sdepth := by
  unfold header
  dsimp only
  refine ⟨(toInt_near _).1, (toInt_near _).1, ?_, (toInt_near _).1, ?_⟩
  · rw [neg_mul]; exact (toInt_near _).1
  · rw [neg_mul, toInt_neg]

/-- **C136.** The number of samples in the header is that of the trace exactly when there are less than 65536. -/
theorem expected_ns (g : Geo) (S D T : ℕ) (p : ℕ → ℕ → ℤ → ℚ) (t : Trace) (ht : t ∈ expected g S D T p) :
    t.1.ns = t.2.length ↔ t.2.length < 65536 := by
  unfold expected at ht
  simp only [List.mem_flatten, List.mem_map, List.mem_range] at ht
  obtain ⟨_, ⟨ishot, _, rfl⟩, ht⟩ := ht
  simp only [List.mem_map, List.mem_range] at ht
  obtain ⟨irec, _, rfl⟩ := ht
  simp only [header, samples, List.length_cons, List.length_map, List.length_range]
  omega

/-- **C136.** A record that is split over files is written outside of the arrays: in the last sample of the first file. -/
theorem run_split (file : List Char) (comps : List (List Char)) (g : Geo) (hrec : g.nrec ≠ 0) (hshots : g.nshots ≠ 0) (R S D T : ℕ) (hR : 0 < R) (hS : 0 < S)
    (hT : D + (R - 1) * S < T) (p : ℕ → List Char → ℕ → ℤ → ℚ) (fs : Files) : run file comps g ⟨R, S, D, T, 0⟩ p fs = none := by
  have stick : ∀ {σ : Type} (body : ℕ → σ → Option σ) (s : σ) (m n : ℕ), m ≤ n → forNM m body s = none → forNM n body s = none := by
    intro σ body s m n h e
    induction n, h using Nat.le_induction with
    | base => exact e
    | succ n _ ih => rw [forNM_succ, ih]; rfl
  have h1 : shot file comps g ⟨R, S, D, T, 0⟩ (p 0) 0 ⟨0, none, fun _ _ => 0, fs⟩ = none := by
    unfold shot forIM
    rw [show (⟨R, S, D, T, 0⟩ : RecPar).it1 = (T : ℤ) from rfl, show ((T : ℤ) - 0).toNat = T by omega]
    rw [stick _ _ (D + (R - 1) * S + 1) T (by omega) ?_]
    · rfl
    have hn : nRec S (D + (R - 1) * S - D) = R - 1 := by rw [Nat.add_sub_cancel_left, nRec_mul hS]
    obtain ⟨s1, e, hf, -, -, -⟩ := steps_spec file comps g R S D T hS (p 0) 0 ⟨0, none, fun _ _ => 0, fs⟩ rfl (D + (R - 1) * S)
      (by rw [hn]; omega)
    rw [forNM_succ]
    refine Eq.trans (congrArg (fun o => Option.bind o _) e) ?_
    rw [Option.bind_some]
    unfold timeStep
    dsimp only
    rw [if_pos (by rw [Int.zero_add]; exact (record_iff hS).mpr (by rw [hn])), hf, Int.zero_add, sampleIndex_first hS]
    unfold store
    rw [if_neg (by push Not; exact ⟨hrec, fun _ => by rw [Nat.sub_add_cancel hR]⟩)]
    rfl
  unfold run
  rw [stick _ _ 1 g.nshots (by omega) (by rw [forNM_succ, forNM_zero, Option.bind_some]; exact h1)]
  rfl

/-! ### Reading the file again -/

/-- The bytes of a trace, with some way `hdr` of writing headers and `flt` of writing numbers. -/
def bytes {β : Type*} (hdr : Hdr → List β) (flt : ℚ → List β) (t : Trace) : List β × List β := (hdr t.1, (t.2.map flt).flatten)

/-- **C136.** The gathers of a file of a run, as the programs that read gathers (`readData`) see them, are the shots. -/
theorem expected_gathers {β : Type*} (W : Su.Words β) (hdr : Hdr → List β) (flt : ℚ → List β) (hh : ∀ h, (hdr h).length = Su.hb)
    (hf : ∀ x, (flt x).length = 4) (hns : ∀ h, W.ns (hdr h) = h.ns) (hsx : ∀ h, W.sx (hdr h) = h.sx) (hfl : ∀ h, W.fldr (hdr h) = h.fldr)
    (g : Geo) (hrec : g.nrec ≠ 0) (S D T : ℕ) (hsam : nRec S (T - D) + 1 < 65536) (p : ℕ → ℕ → ℤ → ℚ) :
    Su.Cut W (nRec S (T - D) + 1) ((List.range g.nshots).map fun ishot => (List.range g.nrec).map fun irec =>
      bytes hdr flt (header g (nRec S (T - D) + 1 : ℕ) ishot irec, samples S D T (p ishot irec))) := by
  have key : ∀ ishot irec, Su.key W (bytes hdr flt (header g (nRec S (T - D) + 1 : ℕ) ishot irec, samples S D T (p ishot irec))) =
      (toInt (1000 * (g.x0 + g.shotx ishot * g.dx)), (ishot : ℤ) + 1) := by
    intro ishot irec
    simp only [Su.key, bytes, hsx, hfl]
    rfl
  constructor
  · intro x hx
    obtain ⟨ishot, -, rfl⟩ := List.mem_map.mp hx
    refine ⟨by simpa using hrec, fun t ht => ?_, fun t ht t' ht' => ?_⟩
    · obtain ⟨irec, -, rfl⟩ := List.mem_map.mp ht
      refine ⟨hh _, ?_, ?_⟩
      · simp only [bytes, List.length_flatten, List.map_map]
        rw [List.map_congr_left (f := List.length ∘ flt) (g := fun _ => 4) (fun x _ => hf x)]
        rw [List.map_const', List.sum_replicate_nat, samples, List.length_cons, List.length_map, List.length_range, Nat.mul_comm]
      · rw [bytes, hns]
        simp only [header]
        omega
    · obtain ⟨irec, -, rfl⟩ := List.mem_map.mp ht
      obtain ⟨irec', -, rfl⟩ := List.mem_map.mp ht'
      rw [key, key]
  · refine List.isChain_map _ |>.mpr ?_
    refine List.Pairwise.isChain ?_
    refine List.Pairwise.imp ?_ List.pairwise_lt_range
    intro a b hab t ht t' ht'
    obtain ⟨irec, -, rfl⟩ := List.mem_map.mp ht
    obtain ⟨irec', -, rfl⟩ := List.mem_map.mp ht'
    rw [key, key]
    intro h
    have := (Prod.mk.inj h).2
    omega

/-! ### Examples -/

/-- Two shots and three receivers. -/
def exGeo : Geo := ⟨-100, 0, 5, 5, 3, fun i => 10 * i, fun _ => 2, 2, fun s => 20 * s, fun _ => 1⟩

example (p : ℕ → List Char → ℕ → ℤ → ℚ) (fs : Files) : ∃ fs', run "shot.su".toList ["_rvz".toList, "_rp".toList] exGeo ⟨6, 4, 3, 20, 0⟩ p fs = some fs' ∧
    fs' "shot_rp.su".toList = some (expected exGeo 4 3 20 (fun ishot irec => p ishot "_rp".toList irec)) ∧
    fs' "other.su".toList = fs "other.su".toList := by
  obtain ⟨fs', h1, h2, h3⟩ := run_files_partial (comps := ["_rvz".toList, "_rp".toList]) (by decide) "shot".toList (by decide) (by decide) exGeo
    (by decide) (by decide) 6 4 3 20 (by decide) (by decide) (by decide) p fs
  exact ⟨fs', h1, h2 "_rp".toList (by decide), h3 _ (by decide)⟩

example (p : ℕ → ℕ → ℤ → ℚ) : (expected exGeo 4 3 20 p).map (fun t => t.1.tracl) = [1, 2, 3, 4, 5, 6] := by
  rw [expected_numbered]; decide

example (p : ℕ → List Char → ℕ → ℤ → ℚ) (fs : Files) : run "shot.su".toList ["_rp".toList] exGeo ⟨4, 4, 3, 20, 0⟩ p fs = none :=
  run_split _ _ exGeo (by decide) (by decide) 4 4 3 20 (by decide) (by decide) (by decide) p fs

end Verif.Fd.Out

import Verif.Base.Write
import Mathlib.Data.Rat.Floor
import Mathlib.Tactic.Linarith
import Mathlib.Tactic.Ring

/-!
# C45: extendModel (utils/extendModel.c)

The input file is a non-empty list of traces; the model grid was determined by `getModelInfo`, so all traces
have `nz` samples (`hdr.ns == nz`; otherwise `trace`, allocated with `nz` samples, would overflow).  Of the
header only the coordinate `gx` is modelled; coordinates are rationals and the C conversion to int truncates
towards zero.
-/

namespace Verif.Util
open Verif

/-- A trace: coordinate `gx` and samples. -/
structure Trace where
  gx : Int
  samples : Nat → ℚ

/-- Conversion of a floating-point value to int. -/
def toInt (x : ℚ) : Int := if x ≥ 0 then ⌊x⌋ else ⌈x⌉

/-- The three loops filling `traceout` (extendModel.c:96-98); `traceout` has `nz+nabove+nbelow` elements
(lines 83-84). -/
def fillTrace (nz nabove nbelow : Nat) (trace : Nat → ℚ) (out : Buf ℚ) : Option (Buf ℚ) :=
  (forNM nabove (fun j (o : Buf ℚ) => o.wr j (trace 0)) out).bind fun out =>
  (forNM nz (fun j (o : Buf ℚ) => o.wr (nabove + j : Nat) (trace j)) out).bind fun out =>
  forNM nbelow (fun j (o : Buf ℚ) => o.wr (nabove + nz + j : Nat) (trace (nz - 1))) out

/-- The loop over the traces of the file (extendModel.c:88-117): the first trace is preceded by `nbefore` copies.
`out` collects the written traces; the state also keeps `traceout`. -/
def writeTraces (nz nbefore nabove nbelow : Nat) (dx scl : ℚ) (traces : Nat → Trace) (n : Nat)
    (st : Buf ℚ × List (Int × Buf ℚ)) : Option (Buf ℚ × List (Int × Buf ℚ)) :=
  forNM n (fun itrace st =>
    (fillTrace nz nabove nbelow (traces itrace).samples st.1).map fun traceout =>
      let before := if itrace = 0 then
          (List.range nbefore).map fun i => (toInt ((traces itrace).gx - ((nbefore:ℚ) - i) * dx * scl), traceout)
        else []
      (traceout, st.2 ++ before ++ [((traces itrace).gx, traceout)])) st

/-- The whole program (extendModel.c:77-122): `nx` traces are read, then the last one is repeated `nafter` times. -/
def extendModel (nz nx nbefore nafter nabove nbelow : Nat) (dx scl : ℚ) (traces : Nat → Trace) :
    Option (List (Int × Buf ℚ)) :=
  (writeTraces nz nbefore nabove nbelow dx scl traces nx (⟨nz + nabove + nbelow, fun _ => 0⟩, [])).map fun st =>
    st.2 ++ (List.range nafter).map fun i => (toInt ((traces (nx-1)).gx + ((i:ℚ) + 1) * dx * scl), st.1)

/-- Nearest index of the original grid: `k` counted from `lead` and clamped to `[0,n)`. -/
def nearest (lead n k : Nat) : Nat := if k < lead then 0 else if k < lead + n then k - lead else n - 1

theorem fillTrace_spec (nz nabove nbelow : Nat) (hz : 0 < nz) (trace : Nat → ℚ) (out : Buf ℚ)
    (hs : out.size = nz + nabove + nbelow) :
    ∃ o, fillTrace nz nabove nbelow trace out = some o ∧ o.size = nz + nabove + nbelow ∧
      ∀ j : Nat, j < nz + nabove + nbelow → o.val j = trace (nearest nabove nz j) := by
  unfold fillTrace
  obtain ⟨o1, a1, a2, a3, a4⟩ := writes_spec nabove (fun j => (j:Int)) (fun _ => trace 0) out
    (fun k hk => ⟨by omega, by omega⟩) (fun k l _ _ h => by omega)
  obtain ⟨o2, b1, b2, b3, b4⟩ := writes_spec nz (fun j => ((nabove + j : Nat) : Int)) (fun j => trace j) o1
    (fun k hk => ⟨by omega, by omega⟩) (fun k l _ _ h => by omega)
  obtain ⟨o3, c1, c2, c3, c4⟩ := writes_spec nbelow (fun j => ((nabove + nz + j : Nat) : Int)) (fun _ => trace (nz-1)) o2
    (fun k hk => ⟨by omega, by omega⟩) (fun k l _ _ h => by omega)
  refine ⟨o3, by rw [a1]; simp only [Option.bind_some]; rw [b1]; exact c1, by omega, ?_⟩
  intro j hj
  unfold nearest
  split
  · next h =>
    rw [c4 j (fun k _ => by omega), b4 j (fun k _ => by omega)]
    exact a3 j h
  · next h =>
    split
    · next h2 =>
      rw [c4 j (fun k _ => by omega)]
      have := b3 (j - nabove) (by omega)
      rw [show nabove + (j - nabove) = j from by omega] at this
      exact this
    · next h2 =>
      have := c3 (j - (nabove + nz)) (by omega)
      rw [show nabove + nz + (j - (nabove + nz)) = j from by omega] at this
      exact this

/-- Trace `k` of the output. -/
def IsExtended (nz nx nbefore nabove nbelow : Nat) (traces : Nat → Trace) (k : Nat) (o : Buf ℚ) : Prop :=
  o.size = nabove + nz + nbelow ∧
  ∀ j : Nat, j < nabove + nz + nbelow → o.val j = (traces (nearest nbefore nx k)).samples (nearest nabove nz j)

/-- **C45.** For every non-empty model the program writes `nbefore+nx+nafter` traces of `nabove+nz+nbelow` samples,
and every sample is the nearest sample of the original model (in particular the original is found unchanged at
offset `(nbefore,nabove)`). -/
theorem extendModel_correct (nz nx nbefore nafter nabove nbelow : Nat) (hz : 0 < nz) (hx : 0 < nx) (dx scl : ℚ)
    (traces : Nat → Trace) :
    ∃ out, extendModel nz nx nbefore nafter nabove nbelow dx scl traces = some out ∧
      out.length = nbefore + nx + nafter ∧
      ∀ k (hk : k < out.length), IsExtended nz nx nbefore nabove nbelow traces k out[k].2 := by
  unfold extendModel writeTraces
  have key := forNM_inv (n := nx) (s := ((⟨nz + nabove + nbelow, fun _ => 0⟩ : Buf ℚ), ([] : List (Int × Buf ℚ))))
    (body := fun itrace st =>
      (fillTrace nz nabove nbelow (traces itrace).samples st.1).map fun traceout =>
        let before := if itrace = 0 then
            (List.range nbefore).map fun i => (toInt ((traces itrace).gx - ((nbefore:ℚ) - i) * dx * scl), traceout)
          else []
        (traceout, st.2 ++ before ++ [((traces itrace).gx, traceout)]))
    (fun m st => st.1.size = nz + nabove + nbelow ∧ (m = 0 → st.2 = []) ∧
      (0 < m → st.2.length = nbefore + m ∧
        (∀ j : Nat, j < nabove + nz + nbelow → st.1.val j = (traces (m-1)).samples (nearest nabove nz j)) ∧
        (∀ k (hk : k < st.2.length), st.2[k].2.size = nabove + nz + nbelow ∧
          ∀ j : Nat, j < nabove + nz + nbelow →
            st.2[k].2.val j = (traces (k - nbefore)).samples (nearest nabove nz j))))
    ⟨rfl, fun _ => rfl, fun h => absurd h (lt_irrefl _)⟩ (by
      rintro m hm ⟨tr, out⟩ ⟨g1, g2, g3⟩
      obtain ⟨o, e1, e2, e3⟩ := fillTrace_spec nz nabove nbelow hz (traces m).samples tr g1
      dsimp only at g1 g2 g3 ⊢
      rw [e1]
      refine ⟨_, rfl, e2, fun h => absurd h (Nat.succ_ne_zero m), fun _ => ?_⟩
      dsimp only
      have e3' : ∀ j : Nat, j < nabove + nz + nbelow → o.val j = (traces m).samples (nearest nabove nz j) :=
        fun j hj => e3 j (by omega)
      have e2' : o.size = nabove + nz + nbelow := by omega
      by_cases h0 : m = 0
      · subst h0
        rw [if_pos rfl, g2 rfl, List.nil_append]
        refine ⟨by simp, e3', ?_⟩
        intro k hk
        have hk' : k < nbefore + 1 := by simpa using hk
        have hval : (((List.range nbefore).map fun i => (toInt ((traces 0).gx - ((nbefore:ℚ) - i) * dx * scl), o)) ++
            [((traces 0).gx, o)])[k].2 = o := by
          by_cases hkb : k < nbefore
          · rw [List.getElem_append_left (by simpa using hkb)]; simp
          · rw [List.getElem_append_right (by simpa using hkb)]; simp
        rw [hval]
        have : k - nbefore = 0 := by omega
        rw [this]
        exact ⟨e2', e3'⟩
      · rw [if_neg h0, List.append_nil]
        obtain ⟨q1, q2, q3⟩ := g3 (by omega)
        refine ⟨by simp [q1]; omega, e3', ?_⟩
        intro k hk
        have hk' : k < nbefore + m + 1 := by simpa [q1] using hk
        by_cases hkb : k < nbefore + m
        · rw [List.getElem_append_left (by omega)]
          exact q3 k (by omega)
        · rw [List.getElem_append_right (by omega)]
          have : k - nbefore = m := by omega
          rw [this]
          simp only [List.getElem_singleton]
          exact ⟨e2', e3'⟩)
  obtain ⟨⟨tr, out⟩, e1, g1, _, g3⟩ := key
  obtain ⟨q1, q2, q3⟩ := g3 hx
  rw [e1]
  dsimp only at g1 q1 q2 q3
  refine ⟨_, rfl, by simp [q1], ?_⟩
  intro k hk
  dsimp only at hk ⊢
  have hk' : k < nbefore + nx + nafter := by simpa [q1] using hk
  unfold IsExtended nearest
  by_cases hkb : k < nbefore + nx
  · rw [List.getElem_append_left (by omega)]
    obtain ⟨r1, r2⟩ := q3 k (by omega)
    refine ⟨r1, fun j hj => ?_⟩
    rw [r2 j hj]
    unfold nearest
    congr 2
    split
    · omega
    · rfl
  · rw [List.getElem_append_right (by omega)]
    simp only [List.getElem_map]
    refine ⟨by omega, fun j hj => ?_⟩
    rw [if_neg (by omega), if_neg hkb]
    exact q2 j hj

/-- **C45.** Only the coordinates: trace `k` of the output lies `k-nbefore` steps from the first trace before it,
`k-nbefore-nx+1` steps beyond the last trace after it, and the original traces keep their coordinate. -/
theorem extendModel_coordinates (nz nx nbefore nafter nabove nbelow : Nat) (hz : 0 < nz) (hx : 0 < nx) (dx scl : ℚ)
    (traces : Nat → Trace) (out : List (Int × Buf ℚ))
    (h : extendModel nz nx nbefore nafter nabove nbelow dx scl traces = some out) :
    out.map Prod.fst =
      ((List.range nbefore).map fun i => toInt ((traces 0).gx - ((nbefore:ℚ) - i) * dx * scl)) ++
      ((List.range nx).map fun i => (traces i).gx) ++
      ((List.range nafter).map fun i => toInt ((traces (nx-1)).gx + ((i:ℚ) + 1) * dx * scl)) := by
  unfold extendModel writeTraces at h
  have key := forNM_inv (n := nx) (s := ((⟨nz + nabove + nbelow, fun _ => 0⟩ : Buf ℚ), ([] : List (Int × Buf ℚ))))
    (body := fun itrace st =>
      (fillTrace nz nabove nbelow (traces itrace).samples st.1).map fun traceout =>
        let before := if itrace = 0 then
            (List.range nbefore).map fun i => (toInt ((traces itrace).gx - ((nbefore:ℚ) - i) * dx * scl), traceout)
          else []
        (traceout, st.2 ++ before ++ [((traces itrace).gx, traceout)]))
    (fun m st => st.1.size = nz + nabove + nbelow ∧ (m = 0 → st.2 = []) ∧ (0 < m → st.2.map Prod.fst =
      ((List.range nbefore).map fun i => toInt ((traces 0).gx - ((nbefore:ℚ) - i) * dx * scl)) ++
      ((List.range m).map fun i => (traces i).gx)))
    ⟨rfl, fun _ => rfl, fun h => absurd h (lt_irrefl _)⟩ (by
      rintro m hm ⟨tr, out⟩ ⟨g1, g2, g3⟩
      obtain ⟨o, e1, e2, e3⟩ := fillTrace_spec nz nabove nbelow hz (traces m).samples tr g1
      dsimp only at g1 g2 g3 ⊢
      rw [e1]
      refine ⟨_, rfl, e2, fun h => absurd h (Nat.succ_ne_zero m), fun _ => ?_⟩
      dsimp only
      rw [List.range_succ, List.map_append, List.map_append, List.map_append]
      by_cases h0 : m = 0
      · subst h0
        rw [if_pos rfl, g2 rfl]
        simp
      · rw [if_neg h0, g3 (by omega)]
        simp)
  obtain ⟨⟨tr, out'⟩, e1, g1, _, g3⟩ := key
  rw [e1] at h
  simp only [Option.map_some, Option.some.injEq] at h
  rw [← h, List.map_append, g3 hx, List.map_map]
  rfl

/-- A 2 by 2 model extended by one sample on every side. -/
example : (extendModel 2 2 1 1 1 1 10 1 (fun k => ⟨10 * k, fun j => 10 * k + j⟩)).map
    (fun l => l.map fun t => (t.1, [t.2.val 0, t.2.val 1, t.2.val 2, t.2.val 3])) =
    some [(-10, [0, 0, 1, 1]), (0, [0, 0, 1, 1]), (10, [10, 10, 11, 11]), (20, [10, 10, 11, 11])] := by decide +kernel

end Verif.Util

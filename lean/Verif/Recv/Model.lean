import Verif.Base.Num

/-!
# Model of fdelmodc/recvPar.c: receiver positions

Arithmetic is exact.  The positions on a circle or an ellipse before clipping, and the coordinates in the text file, are inputs.
`raytime/recvPar.c` has the same text.
-/

namespace Verif.Recv

open Verif

/-- How a call can stop: with an error message (`verr`), or with undefined behaviour. -/
inductive Stop
  | verr
  | ub
deriving DecidableEq, Repr

abbrev Run := Except Stop

/-- Origin, spacing and size of the model (recvPar.c:26). -/
structure Grid where
  x0 : ℚ
  z0 : ℚ
  dx : ℚ
  dz : ℚ
  nx : ℤ
  nz : ℤ

/-- `sub_x1`, `sub_z1` (recvPar.c:43-44). -/
def Grid.x1 (m : Grid) : ℚ := m.x0 + (m.nx - 1) * m.dx
def Grid.z1 (m : Grid) : ℚ := m.z0 + (m.nz - 1) * m.dz

/-- The parameters; a list is empty when the parameter is not given.  `circle` holds `xr`, `zr` of recvPar.c:307-358 and `text` the lines of
the file `rcv_txt`. -/
structure Par where
  circle : List (ℚ × ℚ) := []
  text : List (ℚ × ℚ) := []
  xrcva : List ℚ := []
  zrcva : List ℚ := []
  xrcv1 : List ℚ := []
  xrcv2 : List ℚ := []
  zrcv1 : List ℚ := []
  zrcv2 : List ℚ := []
  dxrcv : List ℚ := []
  dzrcv : List ℚ := []

/-- One receiver: grid point and position relative to the origin of the model. -/
structure Rcv where
  x : ℤ
  z : ℤ
  xr : ℚ
  zr : ℚ
deriving DecidableEq, Repr

/-- The ends of a line. -/
structure Ends where
  x1 : ℚ
  x2 : ℚ
  z1 : ℚ
  z2 : ℚ

/-- recvPar.c:313-316, 382-385, 401-404, 499-503: position and nearest grid point. -/
def mkRcv (m : Grid) (xr zr : ℚ) : Rcv := ⟨NINT (xr / m.dx), NINT (zr / m.dz), xr, zr⟩

/-- recvPar.c:361-364. -/
def clipRcv (m : Grid) (r : Rcv) : Rcv := { r with x := min (m.nx - 1) (max r.x 0), z := min (m.nz - 1) (max r.z 0) }

/-- recvPar.c:105-115, 458-468. -/
def clipEnds (m : Grid) (e : Ends) : Ends :=
  ⟨min (m.x0 + m.nx * m.dx) (max m.x0 e.x1), min (m.x0 + m.nx * m.dx) (max m.x0 e.x2),
   min (m.z0 + m.nz * m.dz) (max m.z0 e.z1), min (m.z0 + m.nz * m.dz) (max m.z0 e.z2)⟩

/-- One coordinate of recvPar.c:120-138 (140-158): `s0`, `s1` are the borders of the model. -/
def cropAxis (s0 s1 a b : ℚ) : Run (ℚ × ℚ) :=
  if a < s0 ∧ b < s0 then .error .verr
  else if ¬a < s0 ∧ a > s1 then .error .verr
  else
    let a := if a < s0 then s0 else a
    if b < a then .error .verr
    else .ok (a, if b > s1 then s1 else b)

/-- recvPar.c:119-159 for one line. -/
def crop (m : Grid) (e : Ends) : Run Ends := do
  let (x1, x2) ← cropAxis m.x0 m.x1 e.x1 e.x2
  let (z1, z2) ← cropAxis m.z0 m.z1 e.z1 e.z2
  pure ⟨x1, x2, z1, z2⟩

/-- Ends of the lines from the parameters (recvPar.c:95-102, 414-422), for `n` lines. -/
def ends (m : Grid) (p : Par) : List Ends :=
  if p.xrcv1 = [] then [⟨m.x0, m.x1, m.z0, m.z0⟩]
  else (p.xrcv1.zip (p.xrcv2.zip (p.zrcv1.zip p.zrcv2))).map fun t => ⟨t.1, t.2.1, t.2.2.1, t.2.2.2⟩

/-- recvPar.c:162-192 (424-448): the spacings of `n` lines, `none` for elements that are not initialised, and the number of lines whose spacing
is checked.  More values than lines are written past the end of the arrays. -/
def spacing (m : Grid) (p : Par) (n : ℕ) : Run (List (Option (ℚ × ℚ)) × ℕ) :=
  if p.dxrcv.length > n ∨ p.dzrcv.length > n then .error .ub
  else if p.dxrcv.length ≤ 1 ∧ p.dzrcv = [] then .ok (List.replicate n (some (p.dxrcv.headD m.dx, 0)), 1)
  else if p.dzrcv.length = 1 ∧ p.dxrcv = [] then .ok (List.replicate n (some (m.dx, p.dzrcv.headD 0)), 1)
  else if p.dxrcv.length ≠ p.dzrcv.length then .error .verr
  else if p.dxrcv.length ≠ n ∧ p.dxrcv.length ≠ 1 then .error .verr
  else .ok ((p.dxrcv.zip p.dzrcv).map some ++ List.replicate (n - p.dxrcv.length) none, p.dxrcv.length)

/-- recvPar.c:195-226 for one line.  A negative `dxrcv` writes `dxr[i]` with an `i` that is past the end of the array or not initialised. -/
def fixLine (m : Grid) (e : Ends) (s : ℚ × ℚ) : Run (Ends × (ℚ × ℚ)) :=
  if s.1 < 0 then .error .ub
  else
    let dxr := s.1
    let dzr := if s.2 < 0 then m.dz else s.2
    let x2 := if dxr = 0 ∧ dzr = 0 then e.x1 else e.x2
    let dxr := if dxr = 0 ∧ dzr = 0 then 1 else dxr
    let dxr := if e.x1 = x2 ∧ dxr ≠ 0 then 0 else dxr
    let dzr := if e.z1 = e.z2 ∧ dzr ≠ 0 then 0 else dzr
    .ok ({ e with x2 := x2 }, (dxr, dzr))

/-- The checks of recvPar.c:195-226 for line number `k`: only the first `nd` lines. -/
def fixAt (m : Grid) (nd k : ℕ) (e : Ends) (s : Option (ℚ × ℚ)) : Run (Ends × Option (ℚ × ℚ)) :=
  if k < nd then
    match s with
    | none => .error .ub
    | some s => (fixLine m e s).map fun r => (r.1, some r.2)
  else .ok (e, s)

/-- recvPar.c:232-242: number of receivers of one line. -/
def lineCount (e : Ends) (s : Option (ℚ × ℚ)) : Run ℤ :=
  match s with
  | none => .error .ub
  | some (dxr, dzr) =>
    if dxr ≠ 0 then .ok (NINT |(e.x2 - e.x1) / dxr| + 1)
    else if dzr = 0 then .error .verr
    else .ok (NINT |(e.z2 - e.z1) / dzr| + 1)

/-- recvPar.c:473-505: the receivers of one line.  For one receiver the spacing is divided by zero and its multiple by 0 is not a number, which
cannot be converted to an index. -/
def lineRcv (m : Grid) (e : Ends) (s : Option (ℚ × ℚ)) (n : ℤ) : Run (List Rcv) :=
  match s with
  | none => .error .ub
  | some (dxr, dzr) =>
    let go := fun dxrcv dzrcv : ℚ =>
      (List.range n.toNat).map fun i : ℕ => mkRcv m (e.x1 - m.x0 + i * dxrcv) (e.z1 - m.z0 + i * dzrcv)
    if dxr ≠ 0 then if n = 1 then .error .ub else .ok (go dxr ((e.z2 - e.z1) / (n - 1 : ℤ)))
    else if dzr = 0 then .error .verr
    else if n = 1 then .error .ub else .ok (go ((e.x2 - e.x1) / (n - 1 : ℤ)) dzr)

/-- First pass over the lines (recvPar.c:93-245): `nlrcv`. -/
def counts (m : Grid) (p : Par) : Run (List ℤ) := do
  let es ← ((ends m p).map (clipEnds m)).mapM (crop m)
  let (ss, nd) ← spacing m p es.length
  let fs ← ((es.zip ss).zipIdx).mapM fun t => fixAt m nd t.2 t.1.1 t.1.2
  fs.mapM fun t => lineCount t.1 t.2

/-- Second pass over the lines (recvPar.c:413-506). -/
def lines (m : Grid) (p : Par) (ns : List ℤ) : Run (List Rcv) := do
  let es := (ends m p).map (clipEnds m)
  let (ss, _) ← spacing m p es.length
  let rs ← ((es.zip ss).zip ns).mapM fun t => lineRcv m t.1.1 t.1.2 t.2
  pure rs.flatten

/-- Receivers on a circle, of the text file and of the arrays `xrcva`, `zrcva` (recvPar.c:307-410). -/
def points (m : Grid) (p : Par) : List Rcv :=
  p.circle.map (fun c => clipRcv m (mkRcv m c.1 c.2)) ++ (p.text.map (fun c => mkRcv m (c.1 - m.x0) (c.2 - m.z0)) ++
    (p.xrcva.zip p.zrcva).map fun c => mkRcv m (c.1 - m.x0) (c.2 - m.z0))

/-- `recvPar`, recvPar.c:26-518: `rec->max_nrec`, the length of the receiver arrays, and the receivers that are written. -/
def recvPar (m : Grid) (p : Par) : Run (ℤ × List Rcv) :=
  if p.xrcva.length ≠ p.zrcva.length then .error .verr
  else if p.xrcv1.length ≠ p.xrcv2.length ∨ p.zrcv1.length ≠ p.zrcv2.length ∨ p.xrcv1.length ≠ p.zrcv2.length then .error .verr
  else
    let base : ℤ := p.circle.length + p.text.length + p.xrcva.length
    if base ≠ 0 ∧ p.xrcv1 = [] then .ok (base, points m p)
    else (counts m p).bind fun ns => (lines m p ns).bind fun rs => .ok (base + ns.sum, points m p ++ rs)

end Verif.Recv

import Verif.Snap.ReshapeProps
import Verif.Base.Num

/-!
# combine: many snapshot files in one volume (utils/combine.c)

Each file holds `nt` snapshots of `ny × nx × nz` samples.  Not modelled: reading the files (C182), the numbers found in the first
header, the search for the number of files, the fields of the output header apart from `gx`.
-/

namespace Verif.Snap

universe u
variable {K : Type u}

/-- `direction=`. -/
inductive Dir | x | y | z
deriving DecidableEq

/-- `nyout`, `nxout`, `nzout` (utils/combine.c:154-168). -/
def outSize (dir : Dir) (N ny nx nz : Nat) : Nat × Nat × Nat :=
  match dir with
  | .z => (ny, nx, nz * N)
  | .y => (ny * N, nx, nz)
  | .x => (ny, nx * N, nz)

/-- What is added to `iy`, `ix`, `iz` for file `is` (utils/combine.c:211-220, 234-243, 257-266). -/
def shift (dir : Dir) (is : Nat) : Nat × Nat × Nat :=
  match dir with
  | .z => (0, 0, is)
  | .y => (is, 0, 0)
  | .x => (0, is, 0)

/-- Where a sample is in a file (utils/combine.c:221, 267 for compact=0 and 2; 244 for compact=1). -/
def inIdx (transposed : Bool) (ny nx nz it iy ix iz : Nat) : Nat :=
  if transposed then it * ny * nz * nx + iy * nz * nx + iz * nx + ix else it * ny * nx * nz + iy * nx * nz + ix * nz + iz

/-- The loops over one file (utils/combine.c:209-224). -/
def combineFile (tr : Bool) (dir : Dir) (N nt ny nx nz is : Nat) (ind out : Nat → K) : Option (Nat → K) :=
  let (nyo, nxo, nzo) := outSize dir N ny nx nz
  let (oy, ox, oz) := shift dir is
  copyM (nt * nyo * nxo * nzo) (nt * ny * nx * nz)
    (fun (it, iy, ix, iz) => idx nyo nxo nzo it (iy + oy) (ix + ox) (iz + oz))
    (fun (it, iy, ix, iz) => inIdx tr ny nx nz it iy ix iz)
    ind (quads nt ny nx nz) out

/-- The loop over the files (utils/combine.c:192-274); the volume starts cleared. -/
def combine [Zero K] (tr : Bool) (dir : Dir) (N nt ny nx nz : Nat) (file : Nat → Nat → K) : Option (Nat → K) :=
  (List.range N).foldlM (fun o is => combineFile tr dir N nt ny nx nz is (file is) o) fun _ => 0

/-- Name of file `k` (utils/combine.c:92-96, 104-105): what is before the first occurrence of the direction and the number, the
direction and the number of the file, and what follows the first two characters of the occurrence. -/
def combineName (file : List Char) (dir : Char) (numb dnumb k : Nat) : Option (List Char) :=
  (strstr file (dir :: dec numb)).map fun p => file.take p ++ (dir :: dec (k * dnumb + numb)) ++ file.drop (p + 2)

/-- Field `gx` of the trace `ix` (utils/combine.c:309): the cast binds closer than the product.  `roundf` is `NINT` on exact
numbers. -/
def gx (x0 dx : Rat) (ix : Nat) : Int := NINT (x0 + ix * dx) * 1000

/-- Along the stacking direction. -/
def along (dir : Dir) (iy ix iz : Nat) : Nat :=
  match dir with
  | .z => iz
  | .y => iy
  | .x => ix

end Verif.Snap

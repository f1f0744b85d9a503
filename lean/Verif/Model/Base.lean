import Verif.Model.Lattice
import Mathlib.Analysis.SpecialFunctions.Trigonometric.Basic
import Mathlib.Analysis.SpecialFunctions.Pow.Real
import Mathlib.LinearAlgebra.CrossProduct

/-!
# Model of `/repo/tbplas/base/lattice.py` (generators, rotation, area, volume) and
`/repo/tbplas/base/kpoints.py`

Real arithmetic is exact.
-/

namespace Verif

/-- One element of the clean-up loop, lattice.py:46-49. -/
noncomputable def cleanEntry (x : ℝ) : ℝ := if |x| < 1e-15 then 0 else x

/-- The radicand in lattice.py:43-45 (`alpha`, ... in radian). -/
noncomputable def latRad (al be ga : ℝ) : ℝ :=
  1 + 2 * Real.cos al * Real.cos be * Real.cos ga - Real.cos al ^ 2 - Real.cos be ^ 2 - Real.cos ga ^ 2

/-- `gen_lattice_vectors` before the clean-up, lattice.py:34-45. -/
noncomputable def genLatRaw (a b c alpha beta gamma : ℝ) : Mat3 ℝ :=
  let al := alpha / 180 * Real.pi
  let be := beta / 180 * Real.pi
  let ga := gamma / 180 * Real.pi
  !![a, 0, 0;
     b * Real.cos ga, b * Real.sin ga, 0;
     c * Real.cos be, c * (Real.cos al - Real.cos be * Real.cos ga) / Real.sin ga,
       c * Real.sqrt (latRad al be ga) / Real.sin ga]

open Classical in
/-- `gen_lattice_vectors`, lattice.py:13-50; `none` models the `ValueError` of `sqrt` and the
`ZeroDivisionError`. -/
noncomputable def genLatticeVectors (a b c alpha beta gamma : ℝ) : Option (Mat3 ℝ) :=
  if latRad (alpha / 180 * Real.pi) (beta / 180 * Real.pi) (gamma / 180 * Real.pi) < 0 ∨
      Real.sin (gamma / 180 * Real.pi) = 0 then none
  else some ((genLatRaw a b c alpha beta gamma).map cleanEntry)

/-- `gen_reciprocal_vectors`, lattice.py:53-71: row `i` solves `lat @ x = 2 pi e_i`; `none` models
`LinAlgError` for a singular matrix. -/
noncomputable def genReciprocal (lat : Mat3 ℝ) : Option (Mat3 ℝ) :=
  if lat.det = 0 then none
  else some (Matrix.of fun i => lat⁻¹.mulVec (fun j => 2 * Real.pi * (if i = j then 1 else 0)))

/-- Rotation axes accepted by `rotate_coord`. -/
inductive Axis where
  | x | y | z
deriving DecidableEq

/-- Unit vector of an axis, lattice.py:159-164. -/
def axisVec : Axis → Vec3 ℝ
  | .x => ![1, 0, 0]
  | .y => ![0, 1, 0]
  | .z => ![0, 0, 1]

/-- `rot_mat`, lattice.py:165-169. -/
noncomputable def rotMat (ax : Axis) (angle : ℝ) : Mat3 ℝ :=
  let u := axisVec ax
  Real.cos angle • (1 : Mat3 ℝ) +
    Real.sin angle • !![0, -u 2, u 1; u 2, 0, -u 0; -u 1, u 0, 0] +
    (1 - Real.cos angle) • Matrix.vecMulVec u u

/-- `rotate_coord`, lattice.py:127-178, for arrays of floats. -/
noncomputable def rotateCoord (coord : List (Vec3 ℝ)) (angle : ℝ) (ax : Axis) (center : Vec3 ℝ) :
    List (Vec3 ℝ) :=
  coord.map (fun r => (rotMat ax angle).mulVec (r - center) + center)

/-- Conversion of a float to an integer on assignment to an integer array (rounding to zero). -/
noncomputable def truncInt (x : ℝ) : ℤ := if 0 ≤ x then ⌊x⌋ else ⌈x⌉

/-- `rotate_coord` for arrays (or lists) of integers: the result array has the type of the argument
(lattice.py:172). -/
noncomputable def rotateCoordInt (coord : List (Vec3 ℤ)) (angle : ℝ) (ax : Axis) (center : Vec3 ℝ) :
    List (Vec3 ℤ) :=
  coord.map (fun r => fun x =>
    truncInt (((rotMat ax angle).mulVec ((fun y => (r y : ℝ)) - center) + center) x))

/-- Euclidean norm (`np.linalg.norm`). -/
noncomputable def norm3 (v : Vec3 ℝ) : ℝ := Real.sqrt (v 0 ^ 2 + v 1 ^ 2 + v 2 ^ 2)

/-- `get_lattice_area`, lattice.py:181-204, for the directions `a, b, c` (numbered 0, 1, 2). -/
noncomputable def latticeArea (lat : Mat3 ℝ) (dir : Fin 3) : ℝ :=
  match dir with
  | 0 => norm3 (crossProduct (lat 1) (lat 2))
  | 1 => norm3 (crossProduct (lat 2) (lat 0))
  | 2 => norm3 (crossProduct (lat 0) (lat 1))

/-- `get_lattice_volume`, lattice.py:207-218. -/
noncomputable def latticeVolume (lat : Mat3 ℝ) : ℝ := |dotProduct (crossProduct (lat 0) (lat 1)) (lat 2)|

/-- Points of one segment, kpoints.py:34-38. -/
noncomputable def kSegment (k0 k1 : Vec3 ℝ) (nk : ℕ) : List (Vec3 ℝ) :=
  (List.range nk).map (fun j : ℕ => k0 + ((j : ℝ) * 1 / nk) • (k1 - k0))

/-- The loop over the segments, kpoints.py:33-38. -/
noncomputable def kSegments : List (Vec3 ℝ) → List ℕ → List (Vec3 ℝ)
  | k0 :: k1 :: ks, n :: ns => kSegment k0 k1 n ++ kSegments (k1 :: ks) ns
  | _, _ => []

/-- `gen_kpath`, kpoints.py:13-42; `none` models `ValueError`.  The numbers of interpolation points
are natural numbers (negative ones are not modelled). -/
noncomputable def genKpath (hs : List (Vec3 ℝ)) (num : List ℕ) : Option (List (Vec3 ℝ) × List ℕ) :=
  if hs.length ≠ num.length + 1 then none
  else some (kSegments hs num ++ [hs.getLastD 0],
    (List.range (num.length + 1)).map (fun i => (num.take i).sum))

/-- `numpy.linspace(start, stop, num)`. -/
noncomputable def linspace (start stop : ℝ) (num : ℕ) : List ℝ :=
  (List.range num).map (fun i : ℕ => start + i * ((stop - start) / ((num : ℝ) - 1)))

/-- `gen_kmesh`, kpoints.py:65-81; `none` models the `ValueError` for a wrong length and the
`ZeroDivisionError` for a zero size. -/
noncomputable def genKmesh (size : List ℕ) : Option (List (Vec3 ℝ)) :=
  match size with
  | [na, nb, nc] =>
    if na = 0 ∨ nb = 0 ∨ nc = 0 then none
    else some ((linspace 0 (1 - 1 / na) na).flatMap fun kx =>
      (linspace 0 (1 - 1 / nb) nb).flatMap fun ky =>
        (linspace 0 (1 - 1 / nc) nc).map fun kz => ![kx, ky, kz])
  | _ => none

/-- The accumulation loop of `gen_kdist`, kpoints.py:58-61. -/
noncomputable def kdistLoop : Vec3 ℝ → ℝ → List (Vec3 ℝ) → List ℝ
  | _, _, [] => []
  | prev, d, k :: ks => (d + norm3 (k - prev)) :: kdistLoop k (d + norm3 (k - prev)) ks

/-- `gen_kdist`, kpoints.py:45-62. -/
noncomputable def genKdist (lat : Mat3 ℝ) (kpts : List (Vec3 ℝ)) : Option (List ℝ) :=
  match genReciprocal lat with
  | none => none
  | some rec =>
    match frac2cart rec kpts 0 with
    | [] => some []
    | k :: ks => some (0 :: kdistLoop k 0 ks)

end Verif

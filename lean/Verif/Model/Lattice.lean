import Mathlib.Data.Matrix.Basic
import Mathlib.LinearAlgebra.Matrix.NonsingularInverse
import Mathlib.Data.Matrix.Mul

/-!
# Model of `/repo/tbplas/base/lattice.py` (coordinate conversion part)

Arrays of coordinates are lists of vectors `Fin 3 → F`; the code converts row by
row.  `numpy.linalg.inv` is the mathematical inverse and raises for a singular
matrix (modelled by `none`).
-/

namespace Verif

/-- Vector in 3D (`(3,) float64 array`). -/
abbrev Vec3 (F : Type*) := Fin 3 → F

/-- `(3,3)` array; rows are lattice vectors. -/
abbrev Mat3 (F : Type*) := Matrix (Fin 3) (Fin 3) F

variable {F : Type*} [Field F]

/-- One row of `cart2frac`, lattice.py:93-97:
`inv(lattice_vectors.T) @ (row - origin).T`. -/
noncomputable def cart2fracRow (lat : Mat3 F) (origin row : Vec3 F) : Vec3 F :=
  (lat.transpose)⁻¹.mulVec (row - origin)

/-- One row of `frac2cart`, lattice.py:121-123: `lattice_vectors.T @ row.T + origin`. -/
def frac2cartRow (lat : Mat3 F) (origin row : Vec3 F) : Vec3 F :=
  lat.transpose.mulVec row + origin

/-- `cart2frac`, lattice.py:74-98; `none` models `LinAlgError` of `numpy.linalg.inv`. -/
noncomputable def cart2frac [DecidableEq F] (lat : Mat3 F) (cart : List (Vec3 F)) (origin : Vec3 F) :
    Option (List (Vec3 F)) :=
  if lat.transpose.det = 0 then none else some (cart.map (cart2fracRow lat origin))

/-- `frac2cart`, lattice.py:101-124, for array arguments (the branch converting
non-array arguments at line 120 calls `np.ndarray(...)` and is not modelled). -/
def frac2cart (lat : Mat3 F) (frac : List (Vec3 F)) (origin : Vec3 F) : List (Vec3 F) :=
  frac.map (frac2cartRow lat origin)

end Verif

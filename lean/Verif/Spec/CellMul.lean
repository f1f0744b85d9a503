import Verif.Model.Hopping
import Mathlib.LinearAlgebra.Matrix.Defs

/-! # Integer matrices acting on cells -/

namespace Verif.Props

/-- Image of a cell index under an integer matrix. -/
def cellMul (A : Matrix (Fin 3) (Fin 3) ℤ) (R : Cell) : Cell :=
  (A 0 0 * R.1 + A 0 1 * R.2.1 + A 0 2 * R.2.2, A 1 0 * R.1 + A 1 1 * R.2.1 + A 1 2 * R.2.2,
    A 2 0 * R.1 + A 2 1 * R.2.1 + A 2 2 * R.2.2)

end Verif.Props

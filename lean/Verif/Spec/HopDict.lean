import Verif.Model.HopDict

/-! # Specification for `HopDict`: the last write wins -/

namespace Verif.HopDict

open PrimCell

/-- What `d[R][i, j]` reads; 0 if the cell is absent. -/
def elem (d : HopDict) (R : Cell) (i j : ℕ) : ℂ := (PyDict.get? d.mats R).elim 0 fun M => M.val i j

/-- The value that a call writes to the element `(i, j)` of the matrix of cell `R`, in a dictionary for `n` orbitals. -/
def writeOf (n : ℕ) (R : Cell) (i j : ℕ) : HDOp → Option ℂ
  | .setItem rn M => if checkLen 0 rn = some R ∧ M.rows = n ∧ M.cols = n then some (M.val i j) else none
  | .setEntry rn a b v => if checkLen 0 rn = some R ∧ pyIndex n a = some i ∧ pyIndex n b = some j then some v else none
  | .read _ => none

/-- The last value written in a history, 0 if there is none. -/
def lastWrite (n : ℕ) (ops : List HDOp) (R : Cell) (i j : ℕ) : ℂ := (ops.reverse.findSome? (writeOf n R i j)).getD 0

end Verif.HopDict

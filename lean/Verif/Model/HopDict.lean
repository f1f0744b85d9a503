import Verif.Model.Materials

/-!
# Model of `HopDict`

`/repo/tbplas/builder/base.py`, lines 492-630, and `PrimitiveCell.add_hopping_dict`, `/repo/tbplas/builder/primitive.py`, 384-402.
Matrix elements are exact complex numbers.  Arrays have shape `(dim, dim)`; an argument of another shape is a `HopArg` whose `rows` and
`cols` differ from the number of orbitals.  `val` outside the shape has no meaning.
-/

namespace Verif

open PrimCell Materials

/-- A matrix held by the dictionary: `numpy` array, or `coo_matrix` after `to_spare`. -/
structure HopMat where
  dim : ℕ
  val : ℕ → ℕ → ℂ
  sparse : Bool

/-- A matrix given by the caller. -/
structure HopArg where
  rows : ℕ
  cols : ℕ
  val : ℕ → ℕ → ℂ

/-- State of a `HopDict`: `_num_orb` and `_hoppings`, base.py:511-517.  `_mat_shape` is always `(_num_orb, _num_orb)`. -/
structure HopDict where
  num : ℕ
  mats : PyDict Cell HopMat

/-- What the calls raise: `CellIndexLenError`, `ValueError`, `PCHopDiagonalError`, `TypeError`, `IndexError`, or an exception of the cell. -/
inductive HDErr where
  | cellIndexLen | value | pcHopDiagonal | type | index
  | cell (e : PCErr)

namespace HopDict

/-- `__init__`, base.py:511-517. -/
def init (n : ℕ) : HopDict := ⟨n, []⟩

/-- `np.zeros(self._mat_shape)`, base.py:564-565. -/
def zeros (n : ℕ) : HopMat := ⟨n, fun _ _ => 0, false⟩

/-- `__getitem__` for a legal cell index, base.py:550-567: a missing matrix is created. -/
def getItem (d : HopDict) (R : Cell) : HopDict × HopMat :=
  match PyDict.get? d.mats R with
  | some M => (d, M)
  | none => ({ d with mats := PyDict.set d.mats R (zeros d.num) }, zeros d.num)

/-- `_check_diag`, base.py:582-595: `none` if there is no matrix for the cell (0, 0, 0) or its diagonal is small.  `np.diag` of a
`coo_matrix` raises `ValueError` (it becomes a 0-dimensional array). -/
noncomputable def checkDiag (d : HopDict) : Option HDErr :=
  match PyDict.get? d.mats (0, 0, 0) with
  | none => none
  | some M => if M.sparse then some .value else
    open Classical in if ∃ i < M.dim, 1e-5 ≤ ‖M.val i i‖ then some .pcHopDiagonal else none

/-- `__setitem__`, base.py:519-548.  The matrix is stored before the diagonal is checked. -/
noncomputable def setItem (d : HopDict) (rn : List ℤ) (M : HopArg) : HopDict × Except HDErr Unit :=
  match checkLen 0 rn with
  | none => (d, .error .cellIndexLen)
  | some R =>
    if ¬ (M.rows = d.num ∧ M.cols = d.num) then (d, .error .value) else
    let d' := { d with mats := PyDict.set d.mats R ⟨d.num, M.val, false⟩ }
    if R = (0, 0, 0) then
      match checkDiag d' with
      | some e => (d', .error e)
      | none => (d', .ok ())
    else (d', .ok ())

/-- `d[rn][i, j] = v`: `__getitem__`, base.py:550-567, and assignment to an element of the array, which is the one in the dictionary. -/
def setEntry (d : HopDict) (rn : List ℤ) (i j : ℤ) (v : ℂ) : HopDict × Except HDErr Unit :=
  match checkLen 0 rn with
  | none => (d, .error .cellIndexLen)
  | some R =>
    let g := getItem d R
    if g.2.sparse then (g.1, .error .type) else
    match pyIndex g.2.dim i, pyIndex g.2.dim j with
    | some a, some b =>
      ({ g.1 with mats := PyDict.set g.1.mats R ⟨g.2.dim, fun i' j' => if i' = a ∧ j' = b then v else g.2.val i' j', false⟩ }, .ok ())
    | _, _ => (g.1, .error .index)

/-- The setter of `num_orb`, base.py:616-620. -/
def setNum (d : HopDict) (n : ℕ) : HopDict := { d with num := n }

/-- `to_spare`, base.py:597-609. -/
noncomputable def toSpare (d : HopDict) : HopDict × Except HDErr Unit :=
  match checkDiag d with
  | some e => (d, .error e)
  | none => ({ d with mats := d.mats.map fun p => (p.1, { p.2 with sparse := true }) }, .ok ())

/-- The nonzero elements in iteration order, primitive.py:397-402. -/
noncomputable def entries (d : HopDict) : List (Cell × ℤ × ℤ × ℂ) := d.mats.flatMap fun p => cooEntries p.2.dim p.1 p.2.val

end HopDict

variable {Λ : Type*}

/-- `add_hopping_dict`, primitive.py:384-402: the new cell, the dictionary after the call, and the outcome. -/
noncomputable def addHopDict (s : PrimCell ℝ ℂ Λ) (d : HopDict) : PrimCell ℝ ℂ Λ × HopDict × Except HDErr Unit :=
  if s.locked then (s, d, .error (.cell .lock)) else
  match d.toSpare with
  | (d', .error e) => (s, d', .error e)
  | (d', .ok ()) =>
    match addHoppings s d'.entries with
    | (s', .ok ()) => (s', d', .ok ())
    | (s', .error e) => (s', d', .error (.cell e))

namespace HopDict

/-- Calls on a dictionary. -/
inductive HDOp where
  | setItem (rn : List ℤ) (M : HopArg)
  | setEntry (rn : List ℤ) (i j : ℤ) (v : ℂ)
  | read (rn : List ℤ)

/-- Effect of a call, failing ones included. -/
noncomputable def step (d : HopDict) : HDOp → HopDict
  | .setItem rn M => (d.setItem rn M).1
  | .setEntry rn i j v => (d.setEntry rn i j v).1
  | .read rn => match checkLen 0 rn with
    | none => d
    | some R => (d.getItem R).1

/-- State after a history. -/
noncomputable def run (d : HopDict) (ops : List HDOp) : HopDict := ops.foldl step d

end HopDict

end Verif

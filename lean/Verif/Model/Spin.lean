import Verif.Model.Parallel

/-!
# Model of `SpinTexture`, `/repo/tbplas/diagonal/magnetic.py` 14-133

The cell enters through `Diag` (Model/Parallel): it may be changed between two calls.  `hash` of the
k-grid is an argument.  Arrays of eigenstates are cached per process with their shape.
-/

namespace Verif

/-- Exceptions: one raised by `calc_states`, `TypeError` for subscripting `None`, `IndexError`, and
`ValueError` of `np.vdot` for vectors of different lengths. -/
inductive SpinErr where
  | diag (e : ParErr) | type | index | shape
deriving DecidableEq

/-- Attributes `_k_grid`, `_hash_k` and `_states` (number of k-points and orbitals, rows of process
`r`), magnetic.py:40-43. -/
structure SpinObj where
  grid : List (Vec3 ℝ)
  hash : Option ℤ
  states : Option (ℕ × ℕ × (ℕ → ℕ → ℕ → ℕ → ℂ))

/-- `__init__`, magnetic.py:29-43. -/
def SpinObj.init (grid : List (Vec3 ℝ)) : SpinObj := ⟨grid, none, none⟩

/-- The setter of `k_grid`, magnetic.py:124-133. -/
def SpinObj.setGrid (s : SpinObj) (grid : List (Vec3 ℝ)) : SpinObj := { s with grid := grid }

/-- `update_states`, magnetic.py:45-54; `calc_states` has `convention = 1` by default. -/
def updateStates (D : Diag) (w : World) (hk : List (Vec3 ℝ) → ℤ) (buf : ℕ → Buf) (s : SpinObj) :
    SpinObj × Except SpinErr Unit :=
  if s.hash ≠ some (hk s.grid) then
    let s1 := { s with hash := some (hk s.grid) }
    match calcStates D w buf s1.grid.length (fun i => s1.grid.getD i 0) 1 false with
    | .error e => (s1, .error (.diag e))
    | .ok f => ({ s1 with states := some (s1.grid.length, D.nb, fun r => (f r).2) }, .ok ())
  else (s, .ok ())

/-- The slice `v[k::2]`. -/
def slice2 (v : List ℂ) (k : ℕ) : List ℂ := (List.range ((v.length + 1 - k) / 2)).map fun i => v.getD (2 * i + k) 0

/-- `split_spin`, magnetic.py:56-80; `n` is `self.num_orb`. -/
def splitSpin (major : Bool) (n : ℕ) (state : List ℂ) : List ℂ × List ℂ :=
  if major then (state.take (n / 2), state.drop (n / 2)) else (slice2 state 0, slice2 state 1)

/-- `np.vdot`. -/
def npVdot (u d : List ℂ) : Except SpinErr ℂ :=
  if u.length = d.length then .ok (List.zipWith (fun a b => star a * b) u d).sum else .error .shape

/-- Loop body magnetic.py:100-108. -/
def spinVal (major : Bool) (n : ℕ) (component : String) (state : List ℂ) : Except SpinErr ℝ :=
  let (u, d) := splitSpin major n state
  (if component = "x" then do
    return (← npVdot u d) + (← npVdot d u)
  else if component = "y" then do
    return -Complex.I * (← npVdot u d) + Complex.I * (← npVdot d u)
  else do
    return (← npVdot u u) - (← npVdot d d)).map Complex.re

/-- `self._states[i_k, i_b]` on process `r`. -/
def stateAt (s : SpinObj) (r ik ib : ℕ) : Except SpinErr (List ℂ) :=
  match s.states with
  | none => .error .type
  | some (nk, no, st) => if ik < nk ∧ ib < no then .ok ((List.range no).map (st r ik ib)) else .error .index

/-- Loop over bands, magnetic.py:99-108: row `i_k` of the result. -/
def spinRow (major : Bool) (n : ℕ) (component : String) (s : SpinObj) (r ik : ℕ) : Except SpinErr (ℕ → ℝ) :=
  ((List.range n).mapM fun ib => (stateAt s r ik ib).bind (spinVal major n component)).map
    fun (l : List ℝ) b => l.getD b 0

/-- `eval`, magnetic.py:82-112: the new object and the result on every process. -/
def evalSpin (D : Diag) (w : World) (hk : List (Vec3 ℝ) → ℤ) (major : Bool) (component : String)
    (buf : ℕ → Buf) (s : SpinObj) : SpinObj × Except SpinErr (ℕ → ℕ → ℕ → ℝ) :=
  match updateStates D w hk buf s with
  | (s1, .error e) => (s1, .error e)
  | (s1, .ok ()) => (s1, (onRanks w fun r =>
      (rangeElems (distRange w s1.grid.length r)).foldlM (fun (ex : ℕ → ℕ → ℝ) ik =>
        (spinRow major D.nb component s1 r ik).map fun row => Function.update ex ik row) 0).map (allReduce w))

/-- Calls on a calculator; `cell` is a change of the cell by its owner. -/
inductive SpinOp where
  | grid (ks : List (Vec3 ℝ))
  | cell (D : Diag)
  | eval (component : String) (buf : ℕ → Buf)

/-- State of the cell and of the calculator after a call. -/
def SpinOp.run (w : World) (hk : List (Vec3 ℝ) → ℤ) (major : Bool) (p : Diag × SpinObj) : SpinOp → Diag × SpinObj
  | .grid ks => (p.1, p.2.setGrid ks)
  | .cell D => (D, p.2)
  | .eval c buf => (p.1, (evalSpin p.1 w hk major c buf p.2).1)

end Verif

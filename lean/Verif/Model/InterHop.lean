import Verif.Model.Prim

/-!
# Model of `InterHopping`

`/repo/tbplas/builder/base.py`, lines 98-167 (`Observable`, lock part) and 422-489
(`InterHopping`); `PCInterHopping` (`primitive.py` 1116-1151) adds only accessors.
The methods inherited from `IntraHopping` (base.py:246-368) run with the overridden
`_norm_keys`, which takes no conjugate.
-/

namespace Verif

/-- Lock state of an `Observable`, base.py:98-146. -/
structure LockState where
  locked : Bool
  subscribers : List String

namespace LockState

/-- `Observable.__init__`, base.py:109-111. -/
def init : LockState := ⟨false, []⟩
/-- `add_subscriber`, base.py:113-121. -/
def addSubscriber (s : LockState) (name : String) : LockState :=
  { s with subscribers := name :: s.subscribers }
/-- `lock`, base.py:123-134. -/
def lock (s : LockState) (name : String) : LockState × Res :=
  if name ∈ s.subscribers then ({ s with locked := true }, .ok ()) else (s, .error .value)
/-- `unlock`, base.py:136-142. -/
def unlock (s : LockState) : LockState := { s with locked := false }

end LockState

/-- State of an `InterHopping` object: lock flag and terms. -/
structure InterHop (E : Type*) where
  locked : Bool
  hops : PyDict Cell (PyDict Pair E)

namespace InterHop

variable {E : Type*}

/-- `InterHopping.__init__`, base.py:433-441. -/
def empty : InterHop E := ⟨false, []⟩

/-- `InterHopping._norm_keys`, base.py:448-472; `none` models `CellIndexLenError`. -/
def normKeys (rn : List ℤ) (i j : ℤ) : Option (Cell × Pair) :=
  (checkLen 0 rn).map (fun R => (R, (i, j)))

/-- `InterHopping.add_hopping`, base.py:474-489, with 221-244. -/
def add (s : InterHop E) (rn : List ℤ) (i j : ℤ) (e : E) : InterHop E × Res :=
  if s.locked then (s, .error .lock) else
  match normKeys rn i j with
  | none => (s, .error .cellIndexLen)
  | some (R, p) =>
    ({ s with hops := PyDict.set s.hops R (PyDict.set ((PyDict.get? s.hops R).getD []) p e) }, .ok ())

/-- `get_hopping`, base.py:246-268; `none` models `status = False` (or a length error). -/
def get (s : InterHop E) (rn : List ℤ) (i j : ℤ) : Option E :=
  match normKeys rn i j with
  | none => none
  | some (R, p) => (PyDict.get? s.hops R).bind (fun d => PyDict.get? d p)

/-- `remove_hopping`, base.py:270-287.  It is inherited and does not look at the lock. -/
def remove (s : InterHop E) (rn : List ℤ) (i j : ℤ) : InterHop E × Res :=
  match normKeys rn i j with
  | none => (s, .error .cellIndexLen)
  | some (R, p) =>
    match PyDict.get? s.hops R with
    | none => (s, .ok ())
    | some d =>
      match PyDict.get? d p with
      | none => (s, .ok ())
      | some _ => ({ s with hops := PyDict.set s.hops R (PyDict.erase d p) }, .ok ())

/-- `remove_orbitals`, base.py:299-331 (inherited; does not look at the lock). -/
def removeOrbitals (s : InterHop E) (L : List ℤ) : InterHop E × Res :=
  ({ s with hops := s.hops.map (fun q =>
      (q.1, PyDict.remap (IntraHop.remapPair (sortedSet L)) q.2)) }, .ok ())

/-- `remove_rn`, base.py:333-346 (inherited; does not look at the lock). -/
def removeRn (s : InterHop E) (rn : List ℤ) : InterHop E × Res :=
  match normKeys rn 0 0 with
  | none => (s, .error .cellIndexLen)
  | some (R, _) => ({ s with hops := PyDict.erase s.hops R }, .ok ())

/-- `purge`, base.py:348-356. -/
def purge (s : InterHop E) : InterHop E × Res :=
  ({ s with hops := s.hops.filter (fun q => !q.2.isEmpty) }, .ok ())

/-- `to_list`, base.py:358-368. -/
def toList (s : InterHop E) : List (Cell × Pair × E) :=
  (purge s).1.hops.flatMap (fun q => q.2.map (fun pe => (q.1, pe.1, pe.2)))

/-- Calls on the object. -/
inductive Op (E : Type*) where
  | add (rn : List ℤ) (i j : ℤ) (e : E)
  | remove (rn : List ℤ) (i j : ℤ)
  | removeOrbitals (L : List ℤ)
  | removeRn (rn : List ℤ)
  | purge

/-- Effect of one call. -/
def step (s : InterHop E) : Op E → InterHop E × Res
  | .add rn i j e => add s rn i j e
  | .remove rn i j => remove s rn i j
  | .removeOrbitals L => removeOrbitals s L
  | .removeRn rn => removeRn s rn
  | .purge => purge s

/-- State after a history of calls. -/
def run (s : InterHop E) (ops : List (Op E)) : InterHop E := ops.foldl (fun s op => (step s op).1) s

end InterHop
end Verif

import Verif.Model.PyDict
import Mathlib.Algebra.Star.Basic
import Mathlib.Data.Int.Order.Basic
import Mathlib.Data.List.Sort
import Mathlib.Data.List.Dedup

/-!
# Model of the hopping container `IntraHopping`

`/repo/tbplas/builder/base.py`, lines 76-92 (`check_conj`) and 170-419
(`IntraHopping`).
-/

namespace Verif

/-- Cell index `(r_a, r_b, r_c)` (`rn3_type`, base.py:15). -/
abbrev Cell := ℤ × ℤ × ℤ

/-- Orbital pair `(orb_i, orb_j)` (`pair_type`, base.py:23). Python integers. -/
abbrev Pair := ℤ × ℤ

/-- `check_conj`, base.py:76-92.  The recursion over the component index is
unfolded. -/
def checkConj (R : Cell) (i j : ℤ) : Bool :=
  if R.1 > 0 then false
  else if R.1 < 0 then true
  else if R.2.1 > 0 then false
  else if R.2.1 < 0 then true
  else if R.2.2 > 0 then false
  else if R.2.2 < 0 then true
  else decide (i > j)

/-- `sorted(set(indices))`, base.py:307 and primitive.py:352. -/
def sortedSet (L : List ℤ) : List ℤ := L.dedup.insertionSort (· ≤ ·)

/-- State of an `IntraHopping` object: the attribute `__hoppings`
(base.py:177-181), a dict of dicts. -/
abbrev IntraHop (E : Type*) := PyDict Cell (PyDict Pair E)

namespace IntraHop

variable {E : Type*} [Star E]

/-- `IntraHopping.__init__`, base.py:188-190. -/
def empty : IntraHop E := []

/-- `IntraHopping._norm_keys`, base.py:196-219: `(rn, pair, conj)`. -/
def normKeys (R : Cell) (i j : ℤ) : Cell × Pair × Bool :=
  let conj := checkConj R i j
  if conj then ((-R.1, -R.2.1, -R.2.2), (j, i), conj) else (R, (i, j), conj)

/-- `IntraHopping.add_hopping`, base.py:221-244. -/
def add (h : IntraHop E) (R : Cell) (i j : ℤ) (e : E) : IntraHop E :=
  let nk := normKeys R i j
  let e' := if nk.2.2 then star e else e
  let hopRn := (PyDict.get? h nk.1).getD []
  PyDict.set h nk.1 (PyDict.set hopRn nk.2.1 e')

/-- `IntraHopping.get_hopping`, base.py:246-268; `none` models `status = False`. -/
def get (h : IntraHop E) (R : Cell) (i j : ℤ) : Option E :=
  let nk := normKeys R i j
  match PyDict.get? h nk.1 with
  | none => none
  | some hopRn =>
    match PyDict.get? hopRn nk.2.1 with
    | none => none
    | some e => some (if nk.2.2 then star e else e)

/-- `IntraHopping.remove_hopping`, base.py:270-287: new state and status. -/
def remove (h : IntraHop E) (R : Cell) (i j : ℤ) : IntraHop E × Bool :=
  let nk := normKeys R i j
  match PyDict.get? h nk.1 with
  | none => (h, false)
  | some hopRn =>
    match PyDict.get? hopRn nk.2.1 with
    | none => (h, false)
    | some _ => (PyDict.set h nk.1 (PyDict.erase hopRn nk.2.1), true)

/-- `_remap` inside `remove_orbitals`, base.py:310-319 (the memo table
`idx_remap` is transparent and not modelled). -/
def remapIndex (indices : List ℤ) (x : ℤ) : ℤ :=
  indices.foldl (fun result j => if j < x then result - 1 else result) x

/-- Loop body of `remove_orbitals`, base.py:322-330: the pair is dropped if it
touches a removed orbital and renumbered otherwise. -/
def remapPair (indices : List ℤ) (p : Pair) : Option Pair :=
  if p.1 ∈ indices ∨ p.2 ∈ indices then none
  else some (remapIndex indices p.1, remapIndex indices p.2)

/-- `IntraHopping.remove_orbitals`, base.py:299-331. -/
def removeOrbitals (h : IntraHop E) (L : List ℤ) : IntraHop E :=
  let indices := sortedSet L
  h.map (fun q => (q.1, PyDict.remap (remapPair indices) q.2))

/-- `IntraHopping.remove_orbital`, base.py:289-297. -/
def removeOrbital (h : IntraHop E) (x : ℤ) : IntraHop E := removeOrbitals h [x]

/-- `IntraHopping.remove_rn`, base.py:333-346. -/
def removeRn (h : IntraHop E) (R : Cell) : IntraHop E × Bool :=
  let nk := normKeys R 0 0
  match PyDict.get? h nk.1 with
  | none => (h, false)
  | some _ => (PyDict.erase h nk.1, true)

/-- `IntraHopping.purge`, base.py:348-356. -/
def purge (h : IntraHop E) : IntraHop E := h.filter (fun q => !q.2.isEmpty)

/-- `IntraHopping.to_list`, base.py:358-368 (the returned value; the call also
purges the object).  `to_array` (370-393) splits the same list into the index
and energy arrays. -/
def toList (h : IntraHop E) : List (Cell × Pair × E) :=
  (purge h).flatMap (fun q => q.2.map (fun pe => (q.1, pe.1, pe.2)))

/-- `IntraHopping.num_hop`, base.py:409-419. -/
def numHop (h : IntraHop E) : ℕ := h.foldl (fun n q => n + q.2.length) 0

/-- Mutating calls on the container. -/
inductive Op (E : Type*) where
  | add (R : Cell) (i j : ℤ) (e : E)
  | remove (R : Cell) (i j : ℤ)
  | removeOrbitals (L : List ℤ)
  | removeRn (R : Cell)
  | purge

/-- Effect of one call on the state. -/
def step (h : IntraHop E) : Op E → IntraHop E
  | .add R i j e => add h R i j e
  | .remove R i j => (remove h R i j).1
  | .removeOrbitals L => removeOrbitals h L
  | .removeRn R => (removeRn h R).1
  | .purge => purge h

/-- State after a history of calls on a fresh container. -/
def run (ops : List (Op E)) : IntraHop E := ops.foldl step empty

end IntraHop
end Verif

import Verif.Model.Hopping
import Verif.Model.Lattice

/-!
# Model of `PrimitiveCell`

`/repo/tbplas/builder/primitive.py`, lines 53-605 and 956-1113, together with
`check_rn`, `check_pos` and `Observable` of `/repo/tbplas/builder/base.py`.

A method call is a function from the state to the new state and the outcome.
Python's exceptions are outcomes; the state is the one left behind when the
exception propagates.  Real arithmetic is exact (any field `F`).  Python's
`hash` of the orbital list and of the hopping terms enters as two uninterpreted
functions (`HashFns`).
-/

namespace Verif

/-- Exceptions raised by the primitive cell (`builder/exceptions.py`, and
`ValueError`, `IndexError`, `numpy.linalg.LinAlgError`). -/
inductive PCErr where
  | lock | orbPositionLen | cellIndexLen | pcOrbIndex | pcHopDiagonal | pcHopNotFound
  | latVec | value | index | linAlg | pcOrbEmpty | pcHopEmpty
deriving DecidableEq, Repr

/-- `check_rn` (base.py:26-45), also used with other item types for `check_pos`
(48-59) and `check_pbc` (62-73): `none` models `legal = False`. -/
def checkLen {α : Type*} (item : α) : List α → Option (α × α × α)
  | [a, b, c] => some (a, b, c)
  | [a, b] => some (a, b, item)
  | _ => none

/-- Resolution of a Python/numpy list index (negative indices count from the end);
`none` models `IndexError`. -/
def pyIndex (n : ℕ) (i : ℤ) : Option ℕ :=
  if 0 ≤ i ∧ i < n then some i.toNat
  else if -(n : ℤ) ≤ i ∧ i < 0 then some (i + n).toNat
  else none

/-- `Orbital` namedtuple, base.py:95. -/
structure Orbital (F Λ : Type*) where
  position : Vec3 F
  energy : F
  label : Λ

/-- Python's `hash` on the fingerprints used by the cell (primitive.py:147-150). -/
structure HashFns (F E Λ : Type*) where
  orb : List (Orbital F Λ) → ℤ
  hop : List (Cell × Pair × E) → ℤ

/-- State of a `PrimitiveCell`, primitive.py:53-127 and 101-127. -/
structure PrimCell (F E Λ : Type*) where
  locked : Bool
  lat : Mat3 F
  origin : Vec3 F
  orbs : List (Orbital F Λ)
  hops : IntraHop E
  hashOrb : ℤ
  hashHop : ℤ
  arrPos : List (Vec3 F)
  arrEng : List F
  arrInd : List (Cell × Pair)
  arrHop : List E

/-- Outcome of a call. -/
abbrev Res := Except PCErr Unit

namespace PrimCell

variable {F E Λ : Type*} [Field F] [DecidableEq F] [Star E]

/-- `num_orb`, primitive.py:1001-1008. -/
def numOrb (s : PrimCell F E Λ) : ℕ := s.orbs.length

/-- `PrimitiveCell.__init__`, primitive.py:101-127 (shape checks passed). -/
def init (H : HashFns F E Λ) (lat : Mat3 F) (origin : Vec3 F) : PrimCell F E Λ :=
  { locked := false, lat := lat, origin := origin, orbs := [], hops := IntraHop.empty,
    hashOrb := H.orb [], hashHop := H.hop [], arrPos := [], arrEng := [], arrInd := [], arrHop := [] }

/-- Convert a completed coordinate to a vector. -/
def vec3 (p : F × F × F) : Vec3 F := ![p.1, p.2.1, p.2.2]

/-- `_check_hop_index`, primitive.py:185-209. -/
def checkHopIndex (s : PrimCell F E Λ) (rn : List ℤ) (i j : ℤ) : Except PCErr Cell :=
  match checkLen 0 rn with
  | none => .error .cellIndexLen
  | some R =>
    if ¬ (0 ≤ i ∧ i < s.numOrb) then .error .pcOrbIndex
    else if ¬ (0 ≤ j ∧ j < s.numOrb) then .error .pcOrbIndex
    else if R = (0, 0, 0) ∧ i = j then .error .pcHopDiagonal
    else .ok R

/-- `add_orbital`, primitive.py:211-229. -/
def addOrbital (s : PrimCell F E Λ) (pos : List F) (eng : F) (label : Λ) : PrimCell F E Λ × Res :=
  if s.locked then (s, .error .lock) else
  match checkLen 0 pos with
  | none => (s, .error .orbPositionLen)
  | some p => ({ s with orbs := s.orbs ++ [⟨vec3 p, eng, label⟩] }, .ok ())

/-- `add_orbital_cart`, primitive.py:231-247. -/
noncomputable def addOrbitalCart (s : PrimCell F E Λ) (pos : List F) (unit eng : F) (label : Λ) :
    PrimCell F E Λ × Res :=
  if s.locked then (s, .error .lock) else
  match checkLen 0 pos with
  | none => (s, .error .orbPositionLen)
  | some p =>
    match cart2frac s.lat [unit • vec3 p] s.origin with
    | some [q] => addOrbital s [q 0, q 1, q 2] eng label
    | _ => (s, .error .linAlg)

/-- Body of `set_orbital` after the position check, primitive.py:273-284. -/
def setOrbitalAt (s : PrimCell F E Λ) (i : ℤ) (pos : Option (Vec3 F)) (eng : Option F)
    (label : Option Λ) : PrimCell F E Λ × Res :=
  match pyIndex s.numOrb i with
  | none => (s, .error .pcOrbIndex)
  | some k =>
    ({ s with orbs := s.orbs.modify k (fun o =>
        ⟨pos.getD o.position, eng.getD o.energy, label.getD o.label⟩) }, .ok ())

/-- `set_orbital`, primitive.py:249-284. -/
def setOrbital (s : PrimCell F E Λ) (i : ℤ) (pos : Option (List F)) (eng : Option F)
    (label : Option Λ) : PrimCell F E Λ × Res :=
  if s.locked then (s, .error .lock) else
  match pos with
  | none => setOrbitalAt s i none eng label
  | some l =>
    match checkLen 0 l with
    | none => (s, .error .orbPositionLen)
    | some p => setOrbitalAt s i (some (vec3 p)) eng label

/-- `set_orbital_cart`, primitive.py:286-310. -/
noncomputable def setOrbitalCart (s : PrimCell F E Λ) (i : ℤ) (pos : Option (List F)) (unit : F)
    (eng : Option F) (label : Option Λ) : PrimCell F E Λ × Res :=
  if s.locked then (s, .error .lock) else
  match pos with
  | none => setOrbital s i none eng label
  | some l =>
    match checkLen 0 l with
    | none => (s, .error .orbPositionLen)
    | some p =>
      match cart2frac s.lat [unit • vec3 p] s.origin with
      | some [q] => setOrbital s i (some [q 0, q 1, q 2]) eng label
      | _ => (s, .error .linAlg)

/-- `get_orbital`, primitive.py:312-324. -/
def getOrbital (s : PrimCell F E Λ) (i : ℤ) : Except PCErr (Orbital F Λ) :=
  match pyIndex s.numOrb i with
  | none => .error .pcOrbIndex
  | some k => match s.orbs[k]? with
    | none => .error .pcOrbIndex
    | some o => .ok o

/-- The popping loop of `remove_orbitals`, primitive.py:353-357: pops
`orb_i - i` for the i-th index; on `IndexError` the orbitals popped so far are
gone. -/
def popLoop {α : Type*} (i : ℤ) : List α → List ℤ → List α × Bool
  | orbs, [] => (orbs, true)
  | orbs, x :: xs =>
    match pyIndex orbs.length (x - i) with
    | none => (orbs, false)
    | some k => popLoop (i + 1) (orbs.eraseIdx k) xs

/-- `remove_orbitals`, primitive.py:338-360. -/
def removeOrbitals (s : PrimCell F E Λ) (L : List ℤ) : PrimCell F E Λ × Res :=
  if s.locked then (s, .error .lock) else
  let r := popLoop 0 s.orbs (sortedSet L)
  if r.2 then ({ s with orbs := r.1, hops := s.hops.removeOrbitals L }, .ok ())
  else ({ s with orbs := r.1 }, .error .pcOrbIndex)

/-- `remove_orbital`, primitive.py:326-336. -/
def removeOrbital (s : PrimCell F E Λ) (i : ℤ) : PrimCell F E Λ × Res :=
  if s.locked then (s, .error .lock) else removeOrbitals s [i]

/-- `add_hopping`, primitive.py:362-382. -/
def addHopping (s : PrimCell F E Λ) (rn : List ℤ) (i j : ℤ) (e : E) : PrimCell F E Λ × Res :=
  if s.locked then (s, .error .lock) else
  match checkHopIndex s rn i j with
  | .error err => (s, .error err)
  | .ok R => ({ s with hops := s.hops.add R i j e }, .ok ())

/-- Loop of `add_hopping_dict`, primitive.py:397-402, over the flattened entries. -/
def addHoppings (s : PrimCell F E Λ) : List (Cell × ℤ × ℤ × E) → PrimCell F E Λ × Res
  | [] => (s, .ok ())
  | (R, i, j, e) :: l =>
    match addHopping s [R.1, R.2.1, R.2.2] i j e with
    | (s', .ok ()) => addHoppings s' l
    | (s', .error err) => (s', .error err)

/-- `add_hopping_dict`, primitive.py:384-402, with `HopDict.to_spare` (base.py:591-603)
and `_check_diag` (576-589).  `entries` are the nonzero matrix elements in
iteration order, `big e` is the test `abs(e) >= 1e-5`. -/
def addHoppingDict (s : PrimCell F E Λ) (big : E → Bool) (entries : List (Cell × ℤ × ℤ × E)) :
    PrimCell F E Λ × Res :=
  if s.locked then (s, .error .lock) else
  if entries.any (fun t => t.1 = (0, 0, 0) ∧ t.2.1 = t.2.2.1 ∧ big t.2.2.2) then
    (s, .error .pcHopDiagonal)
  else addHoppings s entries

/-- `get_hopping`, primitive.py:404-425. -/
def getHopping (s : PrimCell F E Λ) (rn : List ℤ) (i j : ℤ) : Except PCErr E :=
  match checkHopIndex s rn i j with
  | .error err => .error err
  | .ok R => match s.hops.get R i j with
    | some e => .ok e
    | none => .error .pcHopNotFound

/-- `remove_hopping`, primitive.py:427-448. -/
def removeHopping (s : PrimCell F E Λ) (rn : List ℤ) (i j : ℤ) : PrimCell F E Λ × Res :=
  if s.locked then (s, .error .lock) else
  match checkHopIndex s rn i j with
  | .error err => (s, .error err)
  | .ok R =>
    let r := s.hops.remove R i j
    if r.2 then ({ s with hops := r.1 }, .ok ()) else ({ s with hops := r.1 }, .error .pcHopNotFound)

/-- `hop_count[x] += 1` on a numpy array. -/
def bump (c : List ℕ) (x : ℤ) : Option (List ℕ) :=
  (pyIndex c.length x).map (fun k => c.modify k (· + 1))

/-- Counting loop of `trim`, primitive.py:459-464. -/
def countLoop : List ℕ → List Pair → Option (List ℕ)
  | c, [] => some c
  | c, p :: ps =>
    match bump c p.1 with
    | none => none
    | some c1 => match bump c1 p.2 with
      | none => none
      | some c2 => countLoop c2 ps

/-- `orb_id_trim`, primitive.py:467. -/
def orbIdTrim (c : List ℕ) : List ℤ :=
  (c.zipIdx.filter (fun q => q.1 ≤ 1)).map (fun q => (q.2 : ℤ))

/-- `trim`, primitive.py:450-470. -/
def trim (s : PrimCell F E Λ) : PrimCell F E Λ × Res :=
  if s.locked then (s, .error .lock) else
  match countLoop (List.replicate s.numOrb 0) (s.hops.flatMap (fun q => q.2.map Prod.fst)) with
  | none => (s, .error .index)
  | some c => removeOrbitals s (orbIdTrim c)

/-- The test `to_keep` of `apply_pbc`, primitive.py:488-492. -/
def keepRn (pbc : Bool × Bool × Bool) (R : Cell) : Bool :=
  (pbc.1 || R.1 = 0) && (pbc.2.1 || R.2.1 = 0) && (pbc.2.2 || R.2.2 = 0)

/-- `apply_pbc`, primitive.py:472-494. -/
def applyPbc (s : PrimCell F E Λ) (pbc : List Bool) : PrimCell F E Λ × Res :=
  if s.locked then (s, .error .lock) else
  match pbc with
  | [a, b, c] =>
    let hops' := (PyDict.keys s.hops).foldl
      (fun (h : IntraHop E) R => if keepRn (a, b, c) R then h else (h.removeRn R).1) s.hops
    ({ s with hops := hops' }, .ok ())
  | _ => (s, .error .value)

/-- `sync_orb`, primitive.py:547-560, with `_update_attr_hash` (155-169). -/
def syncOrb (H : HashFns F E Λ) (s : PrimCell F E Λ) (force : Bool) : PrimCell F E Λ :=
  let new := H.orb s.orbs
  let upd := s.hashOrb ≠ new
  let s1 := { s with hashOrb := new }
  if force ∨ upd then
    { s1 with arrPos := s.orbs.map Orbital.position, arrEng := s.orbs.map Orbital.energy }
  else s1

/-- `sync_hop`, primitive.py:562-574.  Computing the hash calls `to_list`, which
purges the container. -/
def syncHop (H : HashFns F E Λ) (s : PrimCell F E Λ) (force : Bool) : PrimCell F E Λ :=
  let new := H.hop s.hops.toList
  let upd := s.hashHop ≠ new
  let s1 := { s with hashHop := new, hops := s.hops.purge }
  if force ∨ upd then
    { s1 with arrInd := s.hops.toList.map (fun t => (t.1, t.2.1)),
              arrHop := s.hops.toList.map (fun t => t.2.2) }
  else s1

/-- Lattice vectors from a nested list; `none` models a wrong shape. -/
def latOfList (l : List (List F)) : Option (Mat3 F) :=
  match l with
  | [[a, b, c], [d, e, f], [g, h, i]] => some !![a, b, c; d, e, f; g, h, i]
  | _ => none

/-- Vector from a list; `none` models a wrong shape. -/
def vecOfList (l : List F) : Option (Vec3 F) :=
  match l with
  | [a, b, c] => some ![a, b, c]
  | _ => none

/-- Update loop of `reset_lattice`, primitive.py:538-541; the flag is `false` if
`self._orbital_list[i]` raises `IndexError`. -/
def setPositions : List (Orbital F Λ) → List (Vec3 F) → List (Orbital F Λ) × Bool
  | orbs, [] => (orbs, true)
  | [], _ :: _ => ([], false)
  | o :: orbs, p :: pos =>
    let r := setPositions orbs pos
    (⟨p, o.energy, o.label⟩ :: r.1, r.2)

/-- `reset_lattice`, primitive.py:496-545.  `orb_pos_nm` (1062-1070) synchronises
and then uses the cached positions. -/
noncomputable def resetLattice (H : HashFns F E Λ) (s : PrimCell F E Λ)
    (lat : Option (List (List F))) (origin : Option (List F)) (unit : F) (fixOrb : Bool) :
    PrimCell F E Λ × Res :=
  if s.locked then (s, .error .lock) else
  match (match lat with
    | none => some s.lat
    | some l => (latOfList l).map (fun m => unit • m)) with
  | none => (s, .error .latVec)
  | some newLat =>
    match (match origin with
      | none => some s.origin
      | some l => (vecOfList l).map (fun v => unit • v)) with
    | none => (s, .error .value)
    | some newOrigin =>
      if fixOrb ∧ s.numOrb > 0 then
        let s1 := syncOrb H s false
        match cart2frac newLat (frac2cart s.lat s1.arrPos s.origin) newOrigin with
        | none => (s1, .error .linAlg)
        | some pos =>
          let r := setPositions s1.orbs pos
          if r.2 then ({ s1 with orbs := r.1, lat := newLat, origin := newOrigin }, .ok ())
          else ({ s1 with orbs := r.1 }, .error .index)
      else ({ s with lat := newLat, origin := newOrigin }, .ok ())

/-- Method calls that modify the cell. -/
inductive Op (F E Λ : Type*) where
  | addOrbital (pos : List F) (eng : F) (label : Λ)
  | addOrbitalCart (pos : List F) (unit eng : F) (label : Λ)
  | setOrbital (i : ℤ) (pos : Option (List F)) (eng : Option F) (label : Option Λ)
  | setOrbitalCart (i : ℤ) (pos : Option (List F)) (unit : F) (eng : Option F) (label : Option Λ)
  | removeOrbital (i : ℤ)
  | removeOrbitals (L : List ℤ)
  | addHopping (rn : List ℤ) (i j : ℤ) (e : E)
  | addHoppingDict (big : E → Bool) (entries : List (Cell × ℤ × ℤ × E))
  | removeHopping (rn : List ℤ) (i j : ℤ)
  | trim
  | applyPbc (pbc : List Bool)
  | resetLattice (lat : Option (List (List F))) (origin : Option (List F)) (unit : F) (fixOrb : Bool)

/-- Calls that only read; they may refresh the cached arrays. -/
inductive Read where
  | syncOrb (force : Bool)
  | syncHop (force : Bool)

/-- Effect of a mutating call. -/
noncomputable def step (H : HashFns F E Λ) (s : PrimCell F E Λ) : Op F E Λ → PrimCell F E Λ × Res
  | .addOrbital p e l => addOrbital s p e l
  | .addOrbitalCart p u e l => addOrbitalCart s p u e l
  | .setOrbital i p e l => setOrbital s i p e l
  | .setOrbitalCart i p u e l => setOrbitalCart s i p u e l
  | .removeOrbital i => removeOrbital s i
  | .removeOrbitals L => removeOrbitals s L
  | .addHopping rn i j e => addHopping s rn i j e
  | .addHoppingDict b d => addHoppingDict s b d
  | .removeHopping rn i j => removeHopping s rn i j
  | .trim => trim s
  | .applyPbc p => applyPbc s p
  | .resetLattice l o u f => resetLattice H s l o u f

/-- Effect of a read. -/
def read (H : HashFns F E Λ) (s : PrimCell F E Λ) : Read → PrimCell F E Λ
  | .syncOrb f => syncOrb H s f
  | .syncHop f => syncHop H s f

/-- A call is a mutation or a read. -/
abbrev Call (F E Λ : Type*) := Op F E Λ ⊕ Read

/-- Effect of any call. -/
noncomputable def call (H : HashFns F E Λ) (s : PrimCell F E Λ) : Call F E Λ → PrimCell F E Λ
  | .inl op => (step H s op).1
  | .inr r => read H s r

/-- State after a history, failing calls included. -/
noncomputable def run (H : HashFns F E Λ) (s : PrimCell F E Λ) (cs : List (Call F E Λ)) : PrimCell F E Λ :=
  cs.foldl (call H) s

end PrimCell
end Verif

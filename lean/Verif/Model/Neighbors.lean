import Verif.Model.SuperCell
import Verif.Model.Base

/-!
# Model of `find_neighbors`, `/repo/tbplas/builder/advanced.py` 402-474

`scipy.spatial.KDTree` is not modelled: `sparse_distance_matrix` of the trees of two lists of points is
an argument; what is assumed about it is stated in Spec/Neighbors.
-/

namespace Verif

/-- `KDTree(a).sparse_distance_matrix(KDTree(b), max_distance).items()`. -/
abbrev DistMatrix := List (Vec3 ℝ) → List (Vec3 ℝ) → ℝ → List ((ℕ × ℕ) × ℝ)

/-- The named tuple `Term`, advanced.py:459. -/
structure NbTerm where
  rn : Cell
  pair : ℕ × ℕ
  rij : Vec3 ℝ
  distance : ℝ

/-- `range(-m, m+1)`. -/
def symRange (m : ℤ) : List ℤ := (List.range (2 * m + 1).toNat).map fun k : ℕ => -m + k

/-- `neighbor_rn`, advanced.py:455-458. -/
def neighborRn (a b c : ℤ) : List Cell :=
  (symRange a).flatMap fun ia => (symRange b).flatMap fun ib => (symRange c).map fun ic => (ia, ib, ic)

/-- `np.matmul(rn, lat_ket)`. -/
def cellShift (lat : Mat3 ℝ) (rn : Cell) : Vec3 ℝ := fun x =>
  (rn.1 : ℝ) * lat 0 x + (rn.2.1 : ℝ) * lat 1 x + (rn.2.2 : ℝ) * lat 2 x

/-- Loop body advanced.py:464-472. -/
noncomputable def nbCell (tree : DistMatrix) (posBra posKet : List (Vec3 ℝ)) (lat : Mat3 ℝ) (dmax : ℝ) (rn : Cell) :
    List NbTerm :=
  let posKetRn := posKet.map fun p => p + cellShift lat rn
  (tree posBra posKetRn dmax).filterMap fun e =>
    open Classical in
    if 0 < e.2 then some ⟨rn, e.1, posKetRn.getD e.1.2 0 - posBra.getD e.1.1 0, e.2⟩ else none

/-- The loop and `sorted`, advanced.py:461-474; Python's sort is stable. -/
noncomputable def nbSearch (tree : DistMatrix) (posBra posKet : List (Vec3 ℝ)) (lat : Mat3 ℝ) (a b c : ℤ) (dmax : ℝ) :
    List NbTerm :=
  open Classical in
  ((neighborRn a b c).flatMap (nbCell tree posBra posKet lat dmax)).mergeSort
    fun s t => decide (s.distance ≤ t.distance)

/-- A `PrimitiveCell` or a `SuperCell`. -/
inductive AnyCell (Λ : Type*) where
  | prim (s : PrimCell ℝ ℂ Λ)
  | sup (s : SCell ℝ ℂ Λ)

/-- Exceptions: `PCOrbEmptyError`, `AttributeError`, one raised by `sync_array`. -/
inductive NbErr where
  | orbEmpty | attribute | sc (e : SCErr)

/-- `orb_pos_nm`, primitive.py:1057-1066: the synchronised cell and the positions. -/
noncomputable def primPosNm {Λ : Type*} (H : HashFns ℝ ℂ Λ) (s : PrimCell ℝ ℂ Λ) : PrimCell ℝ ℂ Λ × List (Vec3 ℝ) :=
  let s' := PrimCell.syncOrb H s false
  (s', frac2cart s'.lat s'.arrPos s'.origin)

/-- `find_neighbors`, advanced.py:402-474.  `ket = none` is the default; then the second object is the
first one.  Primitive cells have no `get_orb_pos` and supercells no `verify_orbitals`. -/
noncomputable def findNeighbors {Λ : Type*} (H : HashFns ℝ ℂ Λ) (HS : SCHash ℝ ℂ Λ) (tree : DistMatrix)
    (bra : AnyCell Λ) (ket : Option (AnyCell Λ)) (a b c : ℤ) (dmax : ℝ) : Except NbErr (List NbTerm) :=
  match bra with
  | .prim p =>
    if p.numOrb = 0 then .error .orbEmpty
    else match ket with
      | none =>
        let (p1, posBra) := primPosNm H p
        let (p2, posKet) := primPosNm H p1
        .ok (nbSearch tree posBra posKet p2.lat a b c dmax)
      | some (.prim q) =>
        if q.numOrb = 0 then .error .orbEmpty
        else
          let (q1, posKet) := primPosNm H q
          .ok (nbSearch tree (primPosNm H p).2 posKet q1.lat a b c dmax)
      | some (.sup _) => .error .attribute
  | .sup s =>
    match SCell.syncArray HS s false with
    | (_, .error e) => .error (.sc e)
    | (s1, .ok ()) =>
      match ket with
      | some (.prim _) => .error .attribute
      | none =>
        (match SCell.syncArray HS s1 false with
        | (_, .error e) => .error (.sc e)
        | (s2, .ok ()) => .ok (nbSearch tree (s1.orbPos H) (s2.orbPos H) (scLatVec s2.pc.lat s2.dim) a b c dmax))
      | some (.sup t) =>
        (match SCell.syncArray HS t false with
        | (_, .error e) => .error (.sc e)
        | (t1, .ok ()) => .ok (nbSearch tree (s1.orbPos H) (t1.orbPos H) (scLatVec t1.pc.lat t1.dim) a b c dmax))

end Verif

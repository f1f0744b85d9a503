import Verif.Model.Advanced
import Mathlib.LinearAlgebra.CrossProduct
import Mathlib.Algebra.Order.Floor.Ring

/-!
# Model of `reshape_prim_cell` and `make_hetero_layer`

`/repo/tbplas/builder/advanced.py` 143-243 and 289-304.

Real arithmetic is exact (`F` is an ordered field with a floor function).  `scipy.spatial.KDTree` is not modelled:
`query_ball_point` of the tree of a list of points is an argument; what is assumed about it is stated in Spec/Reshape.  The
conversions to 32-bit integers are not modelled.
-/

namespace Verif

/-- `KDTree(points).query_ball_point(x, r)`. -/
abbrev BallQuery (F : Type*) := List (Vec3 F) → Vec3 F → F → List ℕ

section Reshape

variable {F E Λ : Type*} [Field F] [LinearOrder F] [FloorRing F] [Star E]

/-- `get_lattice_volume`, lattice.py:207-218. -/
def latVol (lat : Mat3 F) : F := |dotProduct (crossProduct (lat 0) (lat 1)) (lat 2)|

/-- Searching range in the direction `j`, advanced.py:183-194: the loops over `i` and `j` act on each `j` separately. -/
def rnRange (L : Mat3 F) (j : Fin 3) : ℤ × ℤ :=
  let r := (List.finRange 3).foldl (fun (r : ℤ × ℤ) i =>
    let sumVec := L 0 j + L 1 j + L 2 j - L i j
    (min r.1 ⌊sumVec⌋, max r.2 ⌈sumVec⌉)) (0, 0)
  (r.1 - 1, r.2 + 1)

/-- `range(a, b+1)`. -/
def closedRange (r : ℤ × ℤ) : List ℤ := (List.range (r.2 + 1 - r.1).toNat).map fun k : ℕ => r.1 + k

/-- `_get_cell_index(res_pos + delta)`, advanced.py:197-198. -/
def cellIndex (delta : F) (x : Vec3 F) : Cell := (⌊x 0 + delta⌋, ⌊x 1 + delta⌋, ⌊x 2 + delta⌋)

/-- `np.matmul(rn + pos, conv_mat)`, advanced.py:208 and 227. -/
def resPos (conv : Mat3 F) (rn : Cell) (pos : Vec3 F) : Vec3 F :=
  Matrix.vecMul (![(rn.1 : F), (rn.2.1 : F), (rn.2.2 : F)] + pos) conv

/-- The iterations of the nested loops advanced.py:203-207, in order: `(i_a, i_b, i_c, i_o)` and `pos`. -/
def reshIter (ra rb rc : ℤ × ℤ) (orbPos : List (Vec3 F)) : List (ExtId × Vec3 F) :=
  (closedRange ra).flatMap fun ia => (closedRange rb).flatMap fun ib => (closedRange rc).flatMap fun ic =>
  orbPos.zipIdx.map fun q => ((ia, ib, ic, (q.2 : ℤ)), q.1)

/-- Loop body advanced.py:208-214. -/
def reshOrbStep (conv : Mat3 F) (delta : F) (orbs : List (Orbital F Λ)) (st : PrimCell F E Λ × OrbMap)
    (q : ExtId × Vec3 F) : Except AdvErr (PrimCell F E Λ × OrbMap) :=
  let p := resPos conv (q.1.1, q.1.2.1, q.1.2.2.1) q.2
  if cellIndex delta p = (0, 0, 0) then
    let m := st.2.add q.1
    match orbs[q.1.2.2.2.toNat]? with
    | none => .error .index
    | some o => (propagate (st.1.addOrbital [p 0, p 1, p 2] o.energy o.label)).map (fun c => (c, m))
  else .ok st

/-- Loop body advanced.py:236-240 for one candidate. -/
def reshCandStep (m : OrbMap) (resRn : Cell) (idSc : ℕ) (t : Pair × E) (c : PrimCell F E Λ) (j : ℕ) :
    Except AdvErr (PrimCell F E Λ) :=
  match m.sc2pc j with
  | none => .error .index
  | some idPcJ =>
    if idPcJ.2.2.2 = t.1.2 then
      propagate (c.addHopping [resRn.1, resRn.2.1, resRn.2.2] idSc j t.2)
    else .ok c

/-- Loop body advanced.py:223-240 for one orbital and one hopping term. -/
def reshHopStep (query : BallQuery F) (pts : List (Vec3 F)) (conv : Mat3 F) (delta tol : F) (orbPos : List (Vec3 F))
    (m : OrbMap) (idSc : ℕ) (idPc : ExtId) (c : PrimCell F E Λ) (t : (Cell × Pair) × E) :
    Except AdvErr (PrimCell F E Λ) :=
  if idPc.2.2.2 = t.1.2.1 then
    match orbPos[t.1.2.2.toNat]? with
    | none => .error .index
    | some pos =>
      let p := resPos conv ((idPc.1, idPc.2.1, idPc.2.2.1) + t.1.1) pos
      let resRn := cellIndex delta p
      let p' : Vec3 F := p - ![(resRn.1 : F), (resRn.2.1 : F), (resRn.2.2 : F)]
      (query pts p' tol).foldlM (reshCandStep m resRn idSc (t.1.2, t.2)) c
  else .ok c

/-- Body of the loop advanced.py:220-240 over `id_sc_i`. -/
def reshHopRow (query : BallQuery F) (pts : List (Vec3 F)) (conv : Mat3 F) (delta tol : F) (orbPos : List (Vec3 F))
    (m : OrbMap) (terms : List ((Cell × Pair) × E)) (c : PrimCell F E Λ) (idSc : ℕ) :
    Except AdvErr (PrimCell F E Λ) :=
  match m.sc2pc idSc with
  | none => .error .index
  | some idPc => terms.foldlM (reshHopStep query pts conv delta tol orbPos m idSc idPc) c

/-- `reshape_prim_cell`, advanced.py:143-243, for a `lat_frac` of shape (3, 3) and a cell of non-zero volume.  Reading
`orb_pos`, `hop_ind`, `hop_eng` synchronises the argument, which is not modified otherwise.  `KDTree` of no points raises. -/
noncomputable def reshapePrimCell (H : HashFns F E Λ) (query : BallQuery F) (s : PCObj F E Λ) (L : Mat3 F) (delta tol : F) :
    Except AdvErr (PCObj F E Λ) :=
  if L.det = 0 then .error (.pc .linAlg) else
  let conv := L⁻¹
  let c0 := PrimCell.init H (Matrix.of fun i => Matrix.vecMul (L i) s.cell.lat) s.cell.origin
  let ext := s.ext * (latVol c0.lat / latVol s.cell.lat)
  let s1 := PrimCell.syncOrb H s.cell false
  match (reshIter (rnRange L 0) (rnRange L 1) (rnRange L 2) s1.arrPos).foldlM (reshOrbStep conv delta s1.orbs)
      (c0, OrbMap.empty) with
  | .error e => .error e
  | .ok (c1, m) =>
    if s1.hops.numHop > 0 then
      let s2 := PrimCell.syncHop H s1 false
      let c2 := PrimCell.syncOrb H c1 false
      if c2.arrPos = [] then .error .value else
      match (List.range c2.numOrb).foldlM
          (reshHopRow query c2.arrPos conv delta tol s1.arrPos m (s2.arrInd.zip s2.arrHop)) c2 with
      | .error e => .error e
      | .ok c3 => .ok ⟨c3, ext⟩
    else .ok ⟨c1, ext⟩

/-- `make_hetero_layer`, advanced.py:289-304. -/
noncomputable def makeHeteroLayer (H : HashFns F E Λ) (query : BallQuery F) (s : PCObj F E Λ) (hetero : Mat3 F) (delta tol : F) :
    Except AdvErr (PCObj F E Λ) :=
  match cart2frac s.cell.lat [hetero 0, hetero 1, hetero 2] 0 with
  | some [a, b, c] => reshapePrimCell H query s ![a, b, c] delta tol
  | _ => .error (.pc .linAlg)

end Reshape
end Verif

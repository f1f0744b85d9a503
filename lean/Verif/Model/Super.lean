import Verif.Model.Prim
import Mathlib.Data.List.Sort

/-!
# Model of the supercell kernels

`/repo/tbplas/cython/super.pyx` 17-1080.

Index arithmetic is over `ℤ` (the 32-bit version of `_id_pc2sc` is
`idPc2ScC32`).  Arrays allocated with zeros and filled through a pointer are the
lists of the rows written, in order of writing.  `scPos` and `pcPos` look up rows
of coordinate arrays.
-/

namespace Verif

/-- Orbital index in primitive cell representation `(ia, ib, ic, io)`
(`id_pc_type`, base.py:19). -/
abbrev IdPc := ℤ × ℤ × ℤ × ℤ

/-- Dimension of the supercell; the constructor only accepts positive ones. -/
structure Dim where
  a : ℕ
  b : ℕ
  c : ℕ
deriving DecidableEq

/-- `np.prod(dim)`. -/
def Dim.prod (d : Dim) : ℕ := d.a * d.b * d.c

/-- Periodic boundary flags. -/
abbrev Pbc := Bool × Bool × Bool

/-- `_id_pc2sc`, super.pyx:19-41, without overflow. -/
def idPc2Sc (d : Dim) (n : ℕ) (q : IdPc) : ℤ :=
  (q.1 * d.b * d.c + q.2.1 * d.c + q.2.2.1) * n + q.2.2.2

/-- Value of a C `int` after an operation (two's complement wrap-around). -/
def i32 (x : ℤ) : ℤ := Int.bmod x (2 ^ 32)

/-- Value of a C `long` after an operation. -/
def i64 (x : ℤ) : ℤ := Int.bmod x (2 ^ 64)

/-- `_id_pc2sc`, super.pyx:38-41, in the C types of the source: all operands of
line 39 are `int`, `num_pc` and `id_sc` are `long`. -/
def idPc2ScC32 (d : Dim) (n : ℕ) (q : IdPc) : ℤ :=
  let numPc := i32 (i32 (i32 (i32 (q.1 * d.b) * d.c) + i32 (q.2.1 * d.c)) + q.2.2.1)
  i64 (i64 (numPc * n) + q.2.2.2)

/-- Loop of `_id_pc2sc_vac`, super.pyx:86-94. -/
def linLoop (x : ℤ) : List ℤ → ℤ → Option ℤ
  | [], off => some off
  | v :: vs, off => if v < x then linLoop x vs (off + 1) else if v = x then none else some off

/-- `_id_pc2sc_vac`, super.pyx:46-99, after line 76. `-1` marks a vacancy. -/
def vacSearchLinear (vac : List ℤ) (x : ℤ) : ℤ :=
  if x < vac.getD 0 0 then x
  else if x > vac.getD (vac.length - 1) 0 then x - vac.length
  else match linLoop x vac 0 with
    | none => -1
    | some off => x - off

/-- The `while` loop of `_id_pc2sc_vac2`, super.pyx:130-142; `none` models
`offset = -1`. -/
def bisect (vac : List ℤ) (x : ℤ) (i0 i1 : ℕ) : Option ℕ :=
  if i1 - i0 > 1 then
    let im := i0 + (i1 - i0) / 2
    let xm := vac.getD im 0
    if xm < x then bisect vac x im i1
    else if xm > x then bisect vac x i0 im
    else none
  else some (i0 + 1)
termination_by i1 - i0
decreasing_by all_goals omega

/-- `_id_pc2sc_vac2`, super.pyx:104-150, after line 112. -/
def vacSearchBisect (vac : List ℤ) (x : ℤ) : ℤ :=
  let i1 := vac.length - 1
  let x0 := vac.getD 0 0
  let x1 := vac.getD i1 0
  if x < x0 then x
  else if x = x0 then -1
  else if x = x1 then -1
  else if x > x1 then x - vac.length
  else match bisect vac x 0 i1 with
    | none => -1
    | some off => x - off

/-- `id_pc2sc`, super.pyx:153-165. -/
def idPc2ScAny (d : Dim) (n : ℕ) (vac : List ℤ) (q : IdPc) : ℤ :=
  if vac.length = 0 then idPc2Sc d n q else vacSearchBisect vac (idPc2Sc d n q)

/-- `_vac_id_sc` as set by `sync_array` (super.py:305-318): `build_vac_id_sc`
(super.pyx:351-377) followed by sorting. -/
def vacIdSc (d : Dim) (n : ℕ) (vacs : List IdPc) : List ℤ :=
  (vacs.map (idPc2Sc d n)).insertionSort (· ≤ ·)

/-- The nested loops over `ia, ib, ic` (super.pyx:411-413, 937-942). -/
def cellLoop (d : Dim) : List Cell :=
  (List.range d.a).flatMap fun ia : ℕ => (List.range d.b).flatMap fun ib : ℕ =>
    (List.range d.c).map fun ic : ℕ => ((ia : ℤ), (ib : ℤ), (ic : ℤ))

/-- `build_orb_id_pc`, super.pyx:380-440. -/
def buildOrbIdPc (d : Dim) (n : ℕ) (vac : List ℤ) : List IdPc :=
  (cellLoop d).flatMap fun c =>
    ((List.range n).map fun io : ℕ => ((c.1, c.2.1, c.2.2, (io : ℤ)) : IdPc)).filter fun q =>
      vac.length = 0 ∨ vacSearchBisect vac (idPc2Sc d n q) ≠ -1

/-- `while ji_new < 0: ji_new += ni`, super.pyx:488-489.  For `ni = 0` the source
would not terminate; the constructor excludes it. -/
def wrapUp (n : ℕ) (x : ℤ) : ℤ :=
  if x < 0 ∧ 0 < n then wrapUp n (x + n) else x
termination_by (-x).toNat
decreasing_by omega

/-- `while ji_new >= ni: ji_new -= ni`, super.pyx:490-491. -/
def wrapDown (n : ℕ) (x : ℤ) : ℤ :=
  if x ≥ n ∧ 0 < n then wrapDown n (x - n) else x
termination_by x.toNat
decreasing_by omega

/-- `_wrap_pbc`, super.pyx:446-493. -/
def wrapPbc (x : ℤ) (n : ℕ) (pbc : Bool) : ℤ :=
  if pbc = false then (if x < 0 ∨ x ≥ n then -1 else x)
  else wrapDown n (wrapUp n x)

/-- Loop of `_fast_div` for `ji >= ni`, super.pyx:518-526. -/
def fastDivUp (n : ℕ) (x result bound : ℤ) : ℤ :=
  if x < bound then result - 1
  else if x = bound then result
  else if 0 < n then fastDivUp n x (result + 1) (bound + n)
  else result
termination_by (x - bound).toNat
decreasing_by omega

/-- Loop of `_fast_div` for negative `ji`, super.pyx:530-535. -/
def fastDivDown (n : ℕ) (x result bound : ℤ) : ℤ :=
  if x ≥ bound then result
  else if 0 < n then fastDivDown n x (result - 1) (bound - n)
  else result
termination_by (bound - x).toNat
decreasing_by omega

/-- `_fast_div`, super.pyx:496-537. -/
def fastDiv (x : ℤ) (n : ℕ) : ℤ :=
  if 0 ≤ x ∧ x < n then 0
  else if x ≥ n then fastDivUp n x 1 n
  else fastDivDown n x (-1) (-n)

/-- A hopping term of the supercell: one entry of `hop_i, hop_j, hop_v, dr`. -/
structure SCHop (F E : Type*) where
  i : ℤ
  j : ℤ
  v : E
  dr : Vec3 F

variable {F E : Type*} [Field F]

/-- The three assignments to `dr[ptr, :]`, super.pyx:759-773 and 967-981. -/
def hopDr (scLat : Mat3 F) (scPos : ℤ → Vec3 F) (i j : ℤ) (na nb nc : ℤ) : Vec3 F := fun x =>
  scPos j x - scPos i x + (na : F) * scLat 0 x + (nb : F) * scLat 1 x + (nc : F) * scLat 2 x

/-- Body of the inner loop of `build_hop_gen`, super.pyx:725-774; `none` if no
term is written. -/
def genTerm (d : Dim) (pbc : Pbc) (n : ℕ) (vac : List ℤ) (scLat : Mat3 F) (scPos : ℤ → Vec3 F)
    (io : ℤ) (q : IdPc) (t : Cell × Pair × E) : Option (SCHop F E) :=
  if q.2.2.2 = t.2.1.1 then
    let ja0 := q.1 + t.1.1
    let jb0 := q.2.1 + t.1.2.1
    let jc0 := q.2.2.1 + t.1.2.2
    let ja := wrapPbc ja0 d.a pbc.1
    let jb := wrapPbc jb0 d.b pbc.2.1
    let jc := wrapPbc jc0 d.c pbc.2.2
    if ja = -1 ∨ jb = -1 ∨ jc = -1 then none
    else
      let j := idPc2ScAny d n vac (ja, jb, jc, t.2.1.2)
      if vac.length = 0 ∨ j ≠ -1 then
        some ⟨io, j, t.2.2, hopDr scLat scPos io j (fastDiv ja0 d.a) (fastDiv jb0 d.b) (fastDiv jc0 d.c)⟩
      else none
  else none

/-- `build_hop_gen`, super.pyx:641-781. -/
def buildHopGen (hops : List (Cell × Pair × E)) (d : Dim) (pbc : Pbc) (n : ℕ)
    (orbIdPc : List IdPc) (vac : List ℤ) (scLat : Mat3 F) (scPos : ℤ → Vec3 F) : List (SCHop F E) :=
  orbIdPc.zipIdx.flatMap fun p => hops.filterMap (genTerm d pbc n vac scLat scPos p.2 p.1)

/-- `status` of `split_pc_hop`, super.pyx:826-833: `true` for periodic terms. -/
def isPbcHop {E : Type*} (pbc : Pbc) (t : Cell × Pair × E) : Bool :=
  !((!pbc.1 && t.1.1 ≠ 0) || (!pbc.2.1 && t.1.2.1 ≠ 0) || (!pbc.2.2 && t.1.2.2 ≠ 0))

/-- `split_pc_hop`, super.pyx:784-855. -/
def splitPcHop (hops : List (Cell × Pair × E)) (pbc : Pbc) :
    List (Cell × Pair × E) × List (Cell × Pair × E) :=
  (hops.filter (isPbcHop pbc), hops.filter (fun t => !isPbcHop pbc t))

/-- `_zero_rn`, super.pyx:540-562. -/
def zeroRn {E : Type*} (t : Cell × Pair × E) : Bool := t.1.1 = 0 ∧ t.1.2.1 = 0 ∧ t.1.2.2 = 0

/-- Body of the inner loop of `build_hop_pbc`, super.pyx:935-982. -/
def pbcTerm (d : Dim) (pbc : Pbc) (n : ℕ) (scLat : Mat3 F) (scPos : ℤ → Vec3 F) (c : Cell)
    (t : Cell × Pair × E) : SCHop F E :=
  let offI := idPc2Sc d n (c.1, c.2.1, c.2.2, 0)
  let ja0 := c.1 + t.1.1
  let jb0 := c.2.1 + t.1.2.1
  let jc0 := c.2.2 + t.1.2.2
  let offJ := if zeroRn t then offI else
    idPc2Sc d n (wrapPbc ja0 d.a pbc.1, wrapPbc jb0 d.b pbc.2.1, wrapPbc jc0 d.c pbc.2.2, 0)
  let i := offI + t.2.1.1
  let j := offJ + t.2.1.2
  ⟨i, j, t.2.2, if zeroRn t then hopDr scLat scPos i j 0 0 0
    else hopDr scLat scPos i j (fastDiv ja0 d.a) (fastDiv jb0 d.b) (fastDiv jc0 d.c)⟩

/-- `build_hop_pbc`, super.pyx:858-984. -/
def buildHopPbc (hops : List (Cell × Pair × E)) (d : Dim) (pbc : Pbc) (n : ℕ)
    (scLat : Mat3 F) (scPos : ℤ → Vec3 F) : List (SCHop F E) :=
  (cellLoop d).flatMap fun c => hops.map (pbcTerm d pbc n scLat scPos c)

/-- `SuperCell._init_hop_fast`, super.py:703-741. -/
def initHopFast (hops : List (Cell × Pair × E)) (d : Dim) (pbc : Pbc) (n : ℕ)
    (orbIdPc : List IdPc) (vac : List ℤ) (scLat : Mat3 F) (scPos : ℤ → Vec3 F) : List (SCHop F E) :=
  buildHopPbc (splitPcHop hops pbc).1 d pbc n scLat scPos ++
    buildHopGen (splitPcHop hops pbc).2 d pbc n orbIdPc vac scLat scPos

/-- One row of `build_orb_pos`, super.pyx:567-610, plus the origin added in
`get_orb_pos` (super.py:682). -/
def orbPosRow (pcLat : Mat3 F) (origin : Vec3 F) (pcPos : ℤ → Vec3 F) (q : IdPc) : Vec3 F := fun x =>
  (pcPos q.2.2.2 0 + (q.1 : F)) * pcLat 0 x + (pcPos q.2.2.2 1 + (q.2.1 : F)) * pcLat 1 x
    + (pcPos q.2.2.2 2 + (q.2.2.1 : F)) * pcLat 2 x + origin x

/-- `build_orb_pos` and `get_orb_pos` (super.py:672-685) without a position modifier. -/
def buildOrbPos (pcLat : Mat3 F) (origin : Vec3 F) (pcPos : ℤ → Vec3 F) (orbIdPc : List IdPc) :
    List (Vec3 F) := orbIdPc.map (orbPosRow pcLat origin pcPos)

/-- `build_orb_eng`, super.pyx:613-638. -/
def buildOrbEng {F : Type*} (pcEng : ℤ → F) (orbIdPc : List IdPc) : List F :=
  orbIdPc.map (fun q => pcEng q.2.2.2)

/-- `sc_lat_vec`, super.py:858-868. -/
def scLatVec (pcLat : Mat3 F) (d : Dim) : Mat3 F := fun r x =>
  pcLat r x * ((match r with | 0 => d.a | 1 => d.b | 2 => d.c : ℕ) : F)

/-- Row look-up in a coordinate array. -/
def rowAt {F : Type*} [Zero F] (l : List (Vec3 F)) (i : ℤ) : Vec3 F := l.getD i.toNat 0

/-- `find_equiv_hopping`, super.pyx:987-1026: position of the first term with the
same or exchanged indices, and whether it is the same. -/
def findEquiv {F E : Type*} (bra ket : ℤ) : List (SCHop F E) → ℕ → Option (ℕ × Bool)
  | [], _ => none
  | h :: hs, ih =>
    if h.i = bra ∧ h.j = ket then some (ih, true)
    else if h.i = ket ∧ h.j = bra then some (ih, false)
    else findEquiv bra ket hs (ih + 1)

/-- `hop_count` of `get_orb_id_trim`, super.pyx:1055-1060 (no bounds checks: the
indices are those of `get_hop`). -/
def hopCount {F E : Type*} (hops : List (SCHop F E)) : ℤ → ℕ :=
  hops.foldl (fun cnt h =>
    let cnt1 := fun x => if x = h.i then cnt h.i + 1 else cnt x
    fun x => if x = h.j then cnt1 h.j + 1 else cnt1 x) (fun _ => 0)

/-- `get_orb_id_trim`, super.pyx:1029-1080. -/
def getOrbIdTrim {F E : Type*} (orbIdPc : List IdPc) (hops : List (SCHop F E)) : List IdPc :=
  (orbIdPc.zipIdx.filter (fun p => hopCount hops p.2 ≤ 1)).map Prod.fst

end Verif

import Verif.Model.Super
import Verif.Model.Bloch

/-!
# Model of the classes `OrbitalSet` and `SuperCell`

`/repo/tbplas/builder/super.py` 20-456 (`OrbitalSet`) and 459-868 (`SuperCell`).

The supercell object contains the primitive cell it shares with the caller.
`posMod` is the user's position modifier (the identity if there is none).
Python hashes enter as uninterpreted functions.  `__str__` is not
modelled; plotting and the conversions of indices are in Plot.lean and OrbId.lean.
-/

namespace Verif

/-- Exceptions of `OrbitalSet` and `SuperCell`. -/
inductive SCErr where
  | lock | scDimLen | scDimSize (i : ℕ) (dimMin : ℤ) | pbcLen | idPcLen | idPcIndex | idPcVac
  | scOrbIndex | scHopDiagonal | cellIndexLen | type | value | index | pc (e : PCErr)
deriving DecidableEq

/-- Python's `hash` on the fingerprints used by `OrbitalSet._get_attr_hash`
(super.py:166-184). -/
structure SCHash (F E Λ : Type*) where
  pc : PrimCell F E Λ → ℤ
  vac : List IdPc → ℤ

/-- State of a `SuperCell`. -/
structure SCell (F E Λ : Type*) where
  locked : Bool
  pc : PrimCell F E Λ
  dim : Dim
  pbc : Pbc
  vacs : List IdPc
  hashPc : ℤ
  hashVac : ℤ
  vacSc : List ℤ
  orbId : List IdPc
  modi : IntraHop E
  posMod : List (Vec3 F) → List (Vec3 F)

/-- `dim_min`, super.py:138-140, for one column of `hop_ind`. -/
def dimMin (col : List ℤ) : ℤ := 2 * max |col.min?.getD 0| |col.max?.getD 0| + 1

namespace SCell

variable {F E Λ : Type*} [Field F] [DecidableEq F] [Star E]

/-- `verify_orbitals` and `verify_hoppings`, primitive.py:587-605. -/
def verifyPc (pc : PrimCell F E Λ) : Except SCErr Unit :=
  if pc.numOrb = 0 then .error (.pc .pcOrbEmpty)
  else if pc.hops.numHop = 0 then .error (.pc .pcHopEmpty)
  else .ok ()

/-- `_check_id_pc`, super.py:201-232, for tuples. -/
def checkIdPc (d : Dim) (n : ℕ) (v : List ℤ) : Except SCErr IdPc :=
  match v with
  | [a, b, c, o] =>
    if ¬ (0 ≤ a ∧ a < d.a) then .error .idPcIndex
    else if ¬ (0 ≤ b ∧ b < d.b) then .error .idPcIndex
    else if ¬ (0 ≤ c ∧ c < d.c) then .error .idPcIndex
    else if ¬ (0 ≤ o ∧ o < n) then .error .idPcIndex
    else .ok (a, b, c, o)
  | _ => .error .idPcLen

/-- `set.add`. -/
def setAdd (vacs : List IdPc) (q : IdPc) : List IdPc := if q ∈ vacs then vacs else vacs ++ [q]

/-- Loop of `add_vacancies`, super.py:262-266: vacancies added before the illegal
one stay. -/
def addVacLoop (d : Dim) (n : ℕ) : List IdPc → List (List ℤ) → List IdPc × Except SCErr Unit
  | vacs, [] => (vacs, .ok ())
  | vacs, v :: vs =>
    match checkIdPc d n v with
    | .error e => (vacs, .error e)
    | .ok q => addVacLoop d n (setAdd vacs q) vs

/-- `add_vacancies`, super.py:248-266. -/
def addVacancies (s : SCell F E Λ) (vs : List (List ℤ)) : SCell F E Λ × Except SCErr Unit :=
  if s.locked then (s, .error .lock) else
  let r := addVacLoop s.dim s.pc.numOrb s.vacs vs
  ({ s with vacs := r.1 }, r.2)

/-- `add_vacancy`, super.py:234-246. -/
def addVacancy (s : SCell F E Λ) (v : List ℤ) : SCell F E Λ × Except SCErr Unit :=
  if s.locked then (s, .error .lock) else addVacancies s [v]

/-- `set_vacancies`, super.py:268-282; the default argument `None` is not iterable. -/
def setVacancies (s : SCell F E Λ) (vs : Option (List (List ℤ))) : SCell F E Λ × Except SCErr Unit :=
  if s.locked then (s, .error .lock) else
  let s1 := { s with vacs := [] }
  match vs with
  | none => (s1, .error .type)
  | some vs => addVacancies s1 vs

/-- The dimension checks of the constructor, super.py:136-142. -/
def checkDim (ind : List (Cell × Pair)) (dim : ℤ × ℤ × ℤ) : Except SCErr Dim :=
  let ma := dimMin (ind.map (fun t => t.1.1))
  let mb := dimMin (ind.map (fun t => t.1.2.1))
  let mc := dimMin (ind.map (fun t => t.1.2.2))
  if dim.1 < ma then .error (.scDimSize 0 ma)
  else if dim.2.1 < mb then .error (.scDimSize 1 mb)
  else if dim.2.2 < mc then .error (.scDimSize 2 mc)
  else .ok ⟨dim.1.toNat, dim.2.1.toNat, dim.2.2.toNat⟩

/-- `OrbitalSet.__init__` (super.py:99-157) and `SuperCell.__init__` (487-511): the
state of the primitive cell afterwards and the outcome. -/
def new (H : HashFns F E Λ) (HS : SCHash F E Λ) (pc : PrimCell F E Λ) (dim : List ℤ) (pbc : List Bool)
    (vacancies : Option (List (List ℤ))) (posMod : List (Vec3 F) → List (Vec3 F)) :
    PrimCell F E Λ × Except SCErr (SCell F E Λ) :=
  let pc1 := { pc with locked := true }
  match verifyPc pc1 with
  | .error e => (pc1, .error e)
  | .ok () =>
    match checkLen 1 dim with
    | none => (pc1, .error .scDimLen)
    | some d =>
      let pc2 := PrimCell.syncHop H pc1 false
      match checkDim pc2.arrInd d with
      | .error e => (pc2, .error e)
      | .ok dm =>
        match checkLen false pbc with
        | none => (pc2, .error .pbcLen)
        | some p =>
          let s : SCell F E Λ :=
            { locked := false, pc := pc2, dim := dm, pbc := p, vacs := [], hashPc := HS.pc pc2,
              hashVac := HS.vac [], vacSc := [], orbId := buildOrbIdPc dm pc2.numOrb [],
              modi := IntraHop.empty, posMod := posMod }
          match vacancies with
          | none => (pc2, .ok s)
          | some vs =>
            match addVacancies s vs with
            | (_, .error e) => (pc2, .error e)
            | (s', .ok ()) => (pc2, .ok s')

/-- `sync_array`, super.py:284-327. -/
def syncArray (HS : SCHash F E Λ) (s : SCell F E Λ) (force : Bool) : SCell F E Λ × Except SCErr Unit :=
  match verifyPc s.pc with
  | .error e => (s, .error e)
  | .ok () =>
    let updPc := s.hashPc ≠ HS.pc s.pc
    let updVac := s.hashVac ≠ HS.vac s.vacs
    let s1 := { s with hashPc := HS.pc s.pc, hashVac := HS.vac s.vacs }
    if force ∨ updPc ∨ updVac then
      if s.vacs.length ≠ 0 ∧ updPc ∧ ¬ s.vacs.all (fun q =>
          (checkIdPc s.dim s.pc.numOrb [q.1, q.2.1, q.2.2.1, q.2.2.2]).toOption.isSome) then
        (s1, .error .idPcIndex)
      else
        let vs := if s.vacs.length = 0 then [] else vacIdSc s.dim s.pc.numOrb s.vacs
        ({ s1 with vacSc := vs, orbId := buildOrbIdPc s.dim s.pc.numOrb vs,
                   pc := { s.pc with locked := true } }, .ok ())
    else (s1, .ok ())

/-- `num_orb_sc`, super.py:439-447. -/
def numOrbSc (s : SCell F E Λ) : ℤ := (s.pc.numOrb * s.dim.prod : ℕ) - (s.vacs.length : ℤ)

/-- `SuperCell.add_hopping`, super.py:519-552. -/
def addHopping (s : SCell F E Λ) (rn : List ℤ) (i j : ℤ) (e : E) : SCell F E Λ × Except SCErr Unit :=
  if s.locked then (s, .error .lock) else
  match checkLen 0 rn with
  | none => (s, .error .cellIndexLen)
  | some R =>
    if ¬ (0 ≤ i ∧ i < s.numOrbSc) then (s, .error .scOrbIndex)
    else if ¬ (0 ≤ j ∧ j < s.numOrbSc) then (s, .error .scOrbIndex)
    else if R = (0, 0, 0) ∧ i = j then (s, .error .scHopDiagonal)
    else ({ s with modi := s.modi.add R i j e }, .ok ())

/-- `get_orb_pos`, super.py:672-685, after the synchronisation; `pc_orb_pos`
synchronises the primitive cell. -/
def orbPos (H : HashFns F E Λ) (s : SCell F E Λ) : List (Vec3 F) :=
  s.posMod (buildOrbPos s.pc.lat s.pc.origin
    (rowAt (PrimCell.syncOrb H s.pc false).arrPos) s.orbId)

/-- Rows of the synchronised hopping arrays of the primitive cell. -/
def pcHops (H : HashFns F E Λ) (s : SCell F E Λ) : List (Cell × Pair × E) :=
  let p := PrimCell.syncHop H s.pc false
  List.zipWith (fun a e => (a.1, a.2, e)) p.arrInd p.arrHop

/-- Terms before the modifier is applied, super.py:766-770. -/
def initHop (H : HashFns F E Λ) (s : SCell F E Λ) : List (SCHop F E) :=
  if s.vacs.length = 0 then
    initHopFast (s.pcHops H) s.dim s.pbc s.pc.numOrb s.orbId s.vacSc (scLatVec s.pc.lat s.dim)
      (rowAt (s.orbPos H))
  else
    buildHopGen (s.pcHops H) s.dim s.pbc s.pc.numOrb s.orbId s.vacSc (scLatVec s.pc.lat s.dim)
      (rowAt (s.orbPos H))

/-- `dr_i`, super.py:782-783. -/
def modDr (scLat : Mat3 F) (pos : ℤ → Vec3 F) (t : Cell × Pair × E) : Vec3 F := fun x =>
  pos t.2.1.2 x + ((t.1.1 : F) * scLat 0 x + (t.1.2.1 : F) * scLat 1 x + (t.1.2.2 : F) * scLat 2 x)
    - pos t.2.1.1 x

/-- Body of the modifier loop, super.py:777-799: terms overwritten so far and terms
to append. -/
def modStep (scLat : Mat3 F) (pos : ℤ → Vec3 F) (st : List (SCHop F E) × List (SCHop F E))
    (t : Cell × Pair × E) : List (SCHop F E) × List (SCHop F E) :=
  let dr := modDr scLat pos t
  match findEquiv t.2.1.1 t.2.1.2 st.1 0 with
  | some (k, true) => (st.1.modify k (fun h => { h with v := t.2.2, dr := dr }), st.2)
  | some (k, false) => (st.1.modify k (fun h => { h with v := star t.2.2, dr := -dr }), st.2)
  | none => (st.1, st.2 ++ [⟨t.2.1.1, t.2.1.2, t.2.2, dr⟩])

/-- Value of `get_hop`: the four arrays row by row, and whether the two index
arrays have lost their integer type (`np.append(hop_i, [])` at super.py:802-803
yields a float64 array). -/
structure HopOut (F E : Type*) where
  terms : List (SCHop F E)
  idxFloat : Bool

/-- `get_hop`, super.py:743-809, after the synchronisation; `orb_pos[id]` raises
`IndexError` for modifier indices that have become too large. -/
def getHopSynced (H : HashFns F E Λ) (s : SCell F E Λ) : Except SCErr (HopOut F E) :=
  if s.modi.numHop ≠ 0 then
    if s.modi.toList.all (fun t => (pyIndex (s.orbPos H).length t.2.1.1).isSome ∧
        (pyIndex (s.orbPos H).length t.2.1.2).isSome) then
      let st := s.modi.toList.foldl (modStep (scLatVec s.pc.lat s.dim) (rowAt (s.orbPos H)))
        (s.initHop H, [])
      .ok ⟨st.1 ++ st.2, st.2.isEmpty⟩
    else .error .index
  else .ok ⟨s.initHop H, false⟩

/-- `get_hop`, super.py:743-809. -/
def getHop (H : HashFns F E Λ) (HS : SCHash F E Λ) (s : SCell F E Λ) :
    SCell F E Λ × Except SCErr (HopOut F E) :=
  match syncArray HS s false with
  | (s', .error e) => (s', .error e)
  | (s', .ok ()) => (s', getHopSynced H s')

/-- `orb_id_pc2sc_array`, super.py:401-427, with `check_id_pc_array`
(super.pyx:203-267), as used by `trim`.  Simplified: of several illegal rows the one
reported may differ; the exact function is `orbIdPc2ScArray` (OrbId.lean). -/
def pc2scArray (s : SCell F E Λ) (qs : List IdPc) : Except SCErr (List ℤ) :=
  if ¬ qs.all (fun q => (checkIdPc s.dim s.pc.numOrb [q.1, q.2.1, q.2.2.1, q.2.2.2]).toOption.isSome) then
    .error .idPcIndex
  else if qs.any (fun q => s.vacSc.length ≠ 0 ∧ idPc2ScAny s.dim s.pc.numOrb s.vacSc q = -1) then
    .error .idPcVac
  else .ok (qs.map (idPc2ScAny s.dim s.pc.numOrb s.vacSc))

/-- `trim`, super.py:565-583.  The kernel `get_orb_id_trim` is typed `long[::1]`
and rejects float arrays (`ValueError`). -/
def trim (H : HashFns F E Λ) (HS : SCHash F E Λ) (s : SCell F E Λ) : SCell F E Λ × Except SCErr Unit :=
  if s.locked then (s, .error .lock) else
  match getHop H HS s with
  | (s1, .error e) => (s1, .error e)
  | (s1, .ok out) =>
    if out.idxFloat then (s1, .error .value) else
    let ids := getOrbIdTrim s1.orbId out.terms
    match pc2scArray s1 ids with
    | .error e => (s1, .error e)
    | .ok scs =>
      match addVacancies s1 (ids.map (fun q => [q.1, q.2.1, q.2.2.1, q.2.2.2])) with
      | (s2, .error e) => (s2, .error e)
      | (s2, .ok ()) => ({ s2 with modi := s2.modi.removeOrbitals scs }, .ok ())

/-- Calls on a supercell and its primitive cell. -/
inductive Op (F E Λ : Type*) where
  | addVacancies (vs : List (List ℤ))
  | setVacancies (vs : Option (List (List ℤ)))
  | sync (force : Bool)
  | addHopping (rn : List ℤ) (i j : ℤ) (e : E)
  | setPosMod (f : List (Vec3 F) → List (Vec3 F))
  | trim
  | lock
  | unlock
  | pcCall (c : PrimCell.Call F E Λ)
  | pcUnlock

/-- Effect of a call, with its outcome. -/
noncomputable def step (H : HashFns F E Λ) (HS : SCHash F E Λ) (s : SCell F E Λ) :
    Op F E Λ → SCell F E Λ × Except SCErr Unit
  | .addVacancies vs => addVacancies s vs
  | .setVacancies vs => setVacancies s vs
  | .sync f => syncArray HS s f
  | .addHopping rn i j e => addHopping s rn i j e
  | .setPosMod f => if s.locked then (s, .error .lock) else ({ s with posMod := f }, .ok ())
  | .trim => trim H HS s
  | .lock => ({ s with locked := true }, .ok ())
  | .unlock => ({ s with locked := false }, .ok ())
  | .pcCall c => ({ s with pc := PrimCell.call H s.pc c }, .ok ())
  | .pcUnlock => ({ s with pc := { s.pc with locked := false } }, .ok ())

/-- State after a history, failing calls included. -/
noncomputable def run (H : HashFns F E Λ) (HS : SCHash F E Λ) (s : SCell F E Λ) (ops : List (Op F E Λ)) :
    SCell F E Λ := ops.foldl (fun s op => (step H HS s op).1) s

end SCell
end Verif

import Verif.Model.Prim
import Verif.Model.InterHop
import Mathlib.Algebra.Order.Field.Basic
import Mathlib.Algebra.Order.Group.Unbundled.Abs

/-!
# Model of `extend_prim_cell` and `merge_prim_cell`

`/repo/tbplas/builder/advanced.py` 26-140 (`OrbitalMap`, `extend_prim_cell`) and
307-399 (`merge_prim_cell`).

A primitive cell *object* is the cell of `Model/Prim.lean` together with its public
attribute `extended` (primitive.py:127).  Real arithmetic is exact.
-/

namespace Verif

/-- Exceptions: those of the cell, `CoordLenError`, `ValueError`, `IndexError`, `KeyError`. -/
inductive AdvErr where
  | pc (e : PCErr) | coordLen | value | index | key
deriving DecidableEq, Repr

/-- A `PrimitiveCell` object with its attribute `extended` (primitive.py:127). -/
structure PCObj (F E Λ : Type*) where
  cell : PrimCell F E Λ
  ext : F

/-- Index of an orbital in pc representation (`id_pc_type`, base.py:23). -/
abbrev ExtId := ℤ × ℤ × ℤ × ℤ

/-- State of `OrbitalMap`, advanced.py:35-47. -/
structure OrbMap where
  idPc : List ExtId
  idSc : PyDict ExtId ℤ
  counter : ℤ

namespace OrbMap

/-- `OrbitalMap.__init__`, advanced.py:44-47. -/
def empty : OrbMap := ⟨[], [], 0⟩

/-- `OrbitalMap.add`, advanced.py:49-58. -/
def add (m : OrbMap) (id : ExtId) : OrbMap :=
  ⟨m.idPc ++ [id], PyDict.set m.idSc id m.counter, m.counter + 1⟩

/-- `OrbitalMap.pc2sc`, advanced.py:60-67; `none` models `KeyError`. -/
def pc2sc (m : OrbMap) (id : ExtId) : Option ℤ := PyDict.get? m.idSc id

/-- `OrbitalMap.sc2pc`, advanced.py:69-76; `none` models `IndexError`. -/
def sc2pc (m : OrbMap) (i : ℤ) : Option ExtId :=
  match pyIndex m.idPc.length i with
  | none => none
  | some k => m.idPc[k]?

end OrbMap

section Extend

variable {F E Λ : Type*} [Field F] [DecidableEq F] [Star E]

/-- A call on the local object `extend_cell`/`merged_cell`: an exception propagates. -/
def propagate (r : PrimCell F E Λ × Res) : Except AdvErr (PrimCell F E Λ) :=
  match r.2 with
  | .ok () => .ok r.1
  | .error e => .error (.pc e)

/-- The iterations of the nested loops of advanced.py:111-114, in order. -/
def extSites (dim : ℤ × ℤ × ℤ) (orbs : List (Orbital F Λ)) : List (ExtId × Orbital F Λ) :=
  (List.range dim.1.toNat).flatMap fun ia : ℕ =>
  (List.range dim.2.1.toNat).flatMap fun ib : ℕ =>
  (List.range dim.2.2.toNat).flatMap fun ic : ℕ =>
  orbs.zipIdx.map fun q => (((ia : ℤ), (ib : ℤ), (ic : ℤ), (q.2 : ℤ)), q.1)

/-- Loop body advanced.py:115-120. -/
def extOrbStep (dim : ℤ × ℤ × ℤ) (st : PrimCell F E Λ × OrbMap) (q : ExtId × Orbital F Λ) :
    Except AdvErr (PrimCell F E Λ × OrbMap) :=
  let m := st.2.add q.1
  let pos := [(q.2.position 0 + q.1.1) / (dim.1 : F), (q.2.position 1 + q.1.2.1) / (dim.2.1 : F),
    (q.2.position 2 + q.1.2.2.1) / (dim.2.2 : F)]
  (propagate (st.1.addOrbital pos q.2.energy q.2.label)).map (fun c => (c, m))

/-- `_wrap_pbc`, advanced.py:123-124 (Python's `%` and `//` on integers). -/
def extWrap (ji ni : ℤ) : ℤ × ℤ := (ji.fmod ni, ji.fdiv ni)

/-- Loop body advanced.py:130-138 for one orbital `id_sc_i` and one hopping term. -/
def extHopStep (m : OrbMap) (dim : ℤ × ℤ × ℤ) (idSc : ℤ) (idPc : ExtId) (c : PrimCell F E Λ)
    (t : Cell × Pair × E) : Except AdvErr (PrimCell F E Λ) :=
  if idPc.2.2.2 = t.2.1.1 then
    let wa := extWrap (idPc.1 + t.1.1) dim.1
    let wb := extWrap (idPc.2.1 + t.1.2.1) dim.2.1
    let wc := extWrap (idPc.2.2.1 + t.1.2.2) dim.2.2
    match m.pc2sc (wa.1, wb.1, wc.1, t.2.1.2) with
    | none => .error .key
    | some idScJ => propagate (c.addHopping [wa.2, wb.2, wc.2] idSc idScJ t.2.2)
  else .ok c

/-- The hopping terms in the order of the nested `items()` loops. -/
def flatTerms (h : PyDict Cell (PyDict Pair E)) : List (Cell × Pair × E) :=
  h.flatMap (fun q => q.2.map (fun pe => (q.1, pe.1, pe.2)))

/-- Body of the loop advanced.py:127-138 over `id_sc_i`. -/
def extHopRow (m : OrbMap) (dim : ℤ × ℤ × ℤ) (terms : List (Cell × Pair × E)) (c : PrimCell F E Λ)
    (idSc : ℕ) : Except AdvErr (PrimCell F E Λ) :=
  match m.sc2pc idSc with
  | none => .error .index
  | some idPc => terms.foldlM (extHopStep m dim idSc idPc) c

/-- `extend_prim_cell`, advanced.py:79-140.  The argument is only read. -/
def extendPrimCell (H : HashFns F E Λ) (p : PCObj F E Λ) (dim : List ℤ) :
    Except AdvErr (PCObj F E Λ) :=
  match checkLen 1 dim with
  | none => .error .coordLen
  | some d =>
    if d.1 < 1 ∨ d.2.1 < 1 ∨ d.2.2 < 1 then .error .value else
    let latExt : Mat3 F := Matrix.of fun i j =>
      p.cell.lat i j * ((![d.1, d.2.1, d.2.2] i : ℤ) : F)
    let c0 := PrimCell.init H latExt p.cell.origin
    let ext := p.ext * ((d.1 * d.2.1 * d.2.2 : ℤ) : F)
    match (extSites d p.cell.orbs).foldlM (extOrbStep d) (c0, OrbMap.empty) with
    | .error e => .error e
    | .ok (c1, m) =>
      match (List.range c1.numOrb).foldlM (extHopRow m d (flatTerms p.cell.hops)) c1 with
      | .error e => .error e
      | .ok c2 => .ok ⟨c2, ext⟩

end Extend

section Merge

/-- Argument of `merge_prim_cell`: a reference to a cell object, an inter-hopping object with
references to its cells, or something else. -/
inductive MergeArg (E : Type*) where
  | pc (ref : ℕ)
  | hop (bra ket : ℕ) (h : InterHop E)
  | other

variable {F E Λ : Type*} [Field F] [LinearOrder F] [Star E]

/-- Rows of a matrix, as passed to `reset_lattice`. -/
def latRows (m : Mat3 F) : List (List F) :=
  [[m 0 0, m 0 1, m 0 2], [m 1 0, m 1 1, m 1 2], [m 2 0, m 2 1, m 2 2]]

/-- Parsing loop, advanced.py:328-337; `none` models `ValueError`. -/
def parseArgs : List (MergeArg E) → Option (List ℕ × List (ℕ × ℕ × InterHop E))
  | [] => some ([], [])
  | .pc r :: l => (parseArgs l).map (fun q => (r :: q.1, q.2))
  | .hop b k h :: l => (parseArgs l).map (fun q => (q.1, (b, k, h) :: q.2))
  | .other :: _ => none

/-- `np.sum(np.abs(pc.lat_vec - lat_ref))`, advanced.py:342. -/
def latDist (a b : Mat3 F) : F := ∑ i, ∑ j, |a i j - b i j|

/-- Determination of `extended`, advanced.py:368-374: the first cell whose value exceeds the
reference by `1e-3` resets it to one. -/
def mergeExt (first : F) : List F → F
  | [] => first
  | e :: l => if e - first ≥ 1 / 1000 then 1 else mergeExt first l

/-- Objects in memory, addressed by reference. -/
abbrev Heap (F E Λ : Type*) := ℕ → PCObj F E Λ

/-- Assign an object. -/
def Heap.put (hp : Heap F E Λ) (r : ℕ) (c : PrimCell F E Λ) : Heap F E Λ :=
  fun r' => if r' = r then { hp r with cell := c } else hp r'

/-- Inner loop advanced.py:379-381. -/
def mergeOrbs (m : PrimCell F E Λ) (orbs : List (Orbital F Λ)) : Except AdvErr (PrimCell F E Λ) :=
  orbs.foldlM (fun c o => propagate (c.addOrbital [o.position 0, o.position 1, o.position 2]
    o.energy o.label)) m

/-- Loop advanced.py:377-381: every input cell is itself re-set to the reference lattice, then its
orbitals are appended.  The heap is what is left in memory, also when an exception is raised. -/
noncomputable def mergeOrbLoop (H : HashFns F E Λ) (lat : Mat3 F) (origin : Vec3 F) :
    Heap F E Λ → PrimCell F E Λ → List ℕ → Heap F E Λ × Except AdvErr (PrimCell F E Λ)
  | hp, m, [] => (hp, .ok m)
  | hp, m, r :: rs =>
    let res := (hp r).cell.resetLattice H (some (latRows lat))
      (some [origin 0, origin 1, origin 2]) 1 true
    let hp' := hp.put r res.1
    match res.2 with
    | .error e => (hp', .error (.pc e))
    | .ok () =>
      match mergeOrbs m res.1.orbs with
      | .error e => (hp', .error e)
      | .ok m' => mergeOrbLoop H lat origin hp' m' rs

/-- Loops advanced.py:386-391 and 395-398: add the terms with shifted orbital indices. -/
def mergeTerms (offI offJ : ℤ) (c : PrimCell F E Λ) (terms : List (Cell × Pair × E)) :
    Except AdvErr (PrimCell F E Λ) :=
  terms.foldlM (fun c t => propagate (c.addHopping [t.1.1, t.1.2.1, t.1.2.2] (t.2.1.1 + offI)
    (t.2.1.2 + offJ) t.2.2)) c

/-- `ind_start`, advanced.py:360: `sum(num_orb[:i])`. -/
def indStart (numOrb : List ℕ) (i : ℕ) : ℕ := (numOrb.take i).sum

/-- Loop advanced.py:384-391. -/
def mergeIntra (hp : Heap F E Λ) (numOrb : List ℕ) (c : PrimCell F E Λ) (refs : List ℕ) :
    Except AdvErr (PrimCell F E Λ) :=
  refs.zipIdx.foldlM (fun c q =>
    let off := indStart numOrb q.2
    mergeTerms off off c (flatTerms (hp q.1).cell.hops)) c

/-- Loop advanced.py:394-398; `pc_list.index` finds the first occurrence. -/
def mergeInter (numOrb : List ℕ) (refs : List ℕ) (c : PrimCell F E Λ)
    (hops : List (ℕ × ℕ × InterHop E)) : Except AdvErr (PrimCell F E Λ) :=
  hops.foldlM (fun c q =>
    mergeTerms (indStart numOrb (refs.idxOf q.1)) (indStart numOrb (refs.idxOf q.2.1)) c
      (flatTerms q.2.2.hops)) c

/-- `merge_prim_cell`, advanced.py:307-399: memory afterwards and outcome. -/
noncomputable def mergePrimCell (H : HashFns F E Λ) (hp : Heap F E Λ) (args : List (MergeArg E)) :
    Heap F E Λ × Except AdvErr (PCObj F E Λ) :=
  if args.isEmpty then (hp, .error .value) else
  match parseArgs args with
  | none => (hp, .error .value)
  | some (refs, hops) =>
    match refs with
    | [] => (hp, .error .index)
    | r0 :: _ =>
      let latRef := (hp r0).cell.lat
      let originRef := (hp r0).cell.origin
      if refs.any (fun r => latDist (hp r).cell.lat latRef > 1 / 100000) then (hp, .error .value)
      else if hops.any (fun q => q.1 ∉ refs ∨ q.2.1 ∉ refs) then (hp, .error .value) else
      let numOrb := refs.map (fun r => (hp r).cell.numOrb)
      let m0 := PrimCell.init H latRef originRef
      let ext := mergeExt (hp r0).ext (refs.map (fun r => (hp r).ext))
      match mergeOrbLoop H latRef originRef hp m0 refs with
      | (hp', .error e) => (hp', .error e)
      | (hp', .ok m1) =>
        match mergeIntra hp' numOrb m1 refs with
        | .error e => (hp', .error e)
        | .ok m2 =>
          match mergeInter numOrb refs m2 hops with
          | .error e => (hp', .error e)
          | .ok m3 => (hp', .ok ⟨m3, ext⟩)

end Merge
end Verif

import Verif.Model.SuperCell

/-!
# Model of the conversion of orbital indices of a supercell

`/repo/tbplas/builder/super.py` 329-427 (`orb_id_sc2pc`, `orb_id_pc2sc`, `orb_id_sc2pc_array`, `orb_id_pc2sc_array`) and the kernels
`check_id_sc_array`, `check_id_pc_array`, `id_sc2pc_array`, `id_pc2sc_array` of `/repo/tbplas/cython/super.pyx` 168-345.

Simplified: indices of the single conversions are integers of any size; arrays are given as lists, those with four columns as lists of quadruples (the
tests of shapes, super.py:384-385 and 417-418, are dropped); the position reported by the kernels, an `int`, is not truncated.
-/

namespace Verif

/-- Exceptions of the conversions; `sync` stands for those of `sync_array`. -/
inductive IdErr where
  | scIndex (id : ℤ)
  | pcLen
  | pcIndex (dim : ℕ) (q : IdPc)
  | pcVac (q : IdPc)
  | sync (e : SCErr)
deriving DecidableEq

/-- Element `i` of an index in primitive cell representation. -/
def idComp (q : IdPc) : ℕ → ℤ
  | 0 => q.1
  | 1 => q.2.1
  | 2 => q.2.2.1
  | _ => q.2.2.2

/-- `dim_ext`, super.pyx:238-242. -/
def dimExt (d : Dim) (n : ℕ) : ℕ → ℤ
  | 0 => d.a
  | 1 => d.b
  | 2 => d.c
  | _ => n

/-- The elements of an index that are out of range, in the order of the tests (super.py:219-230, super.pyx:249-250). -/
def wrongDims (d : Dim) (n : ℕ) (q : IdPc) : List ℕ :=
  (List.range 4).filter (fun i => ¬ (0 ≤ idComp q i ∧ idComp q i < dimExt d n i))

/-- `check_id_sc_array`, super.pyx:170-200: the status and the position of the first illegal index; `io` is the position of the head of the list. -/
def checkIdScArray (numOrb : ℤ) : ℕ → List ℤ → ℤ × ℕ
  | _, [] => (0, 0)
  | io, x :: xs => if ¬ (0 ≤ x ∧ x < numOrb) then (-1, io) else checkIdScArray numOrb (io + 1) xs

/-- `check_id_pc_array`, super.pyx:205-267: the inner loop has no `break`, so that the last wrong element is reported. -/
def checkIdPcArray (d : Dim) (n : ℕ) (vac : List ℤ) : ℕ → List IdPc → ℤ × ℕ × ℕ
  | _, [] => (0, 0, 0)
  | io, q :: qs =>
    match (wrongDims d n q).getLast? with
    | some i => (-2, io, i)
    | none =>
      if vac.length = 0 then checkIdPcArray d n vac (io + 1) qs
      else if vacSearchBisect vac (idPc2Sc d n q) = -1 then (-1, io, 0)
      else checkIdPcArray d n vac (io + 1) qs

/-- `np.array(id_pc_array, dtype=np.int32)`, super.py:414-416: the elements of a wider integer array are reduced to 32 bits. -/
def toInt32 (q : IdPc) : IdPc := (i32 q.1, i32 q.2.1, i32 q.2.2.1, i32 q.2.2.2)

namespace SCell

variable {F E Λ : Type*}

/-- The beginning of every conversion, `self.sync_array()` (super.py:342, 367, 379, 413). -/
def afterSync {α : Type*} (HS : SCHash F E Λ) (s : SCell F E Λ) (f : SCell F E Λ → Except IdErr α) : SCell F E Λ × Except IdErr α :=
  match syncArray HS s false with
  | (s', .error e) => (s', .error (.sync e))
  | (s', .ok ()) => (s', f s')

/-- `orb_id_sc2pc`, super.py:329-347. -/
def orbIdSc2Pc (HS : SCHash F E Λ) (s : SCell F E Λ) (id : ℤ) : SCell F E Λ × Except IdErr IdPc :=
  afterSync HS s fun s =>
    match (pyIndex s.orbId.length id).bind (fun k => s.orbId[k]?) with
    | none => .error (.scIndex id)
    | some q => .ok q

/-- `orb_id_pc2sc`, super.py:349-374, for tuples and integer arrays, with `_check_id_pc` (201-232). -/
def orbIdPc2Sc (HS : SCHash F E Λ) (s : SCell F E Λ) (v : List ℤ) : SCell F E Λ × Except IdErr ℤ :=
  afterSync HS s fun s =>
    match v with
    | [a, b, c, o] =>
      match (wrongDims s.dim s.pc.numOrb (a, b, c, o)).head? with
      | some i => .error (.pcIndex i (a, b, c, o))
      | none =>
        let k := idPc2ScAny s.dim s.pc.numOrb s.vacSc (a, b, c, o)
        if k = -1 then .error (.pcVac (a, b, c, o)) else .ok k
    | _ => .error .pcLen

/-- `orb_id_sc2pc_array`, super.py:376-395; reading outside the table is undefined in the kernel and gives zeros here. -/
def orbIdSc2PcArray (HS : SCHash F E Λ) (s : SCell F E Λ) (ids : List ℤ) : SCell F E Λ × Except IdErr (List IdPc) :=
  afterSync HS s fun s =>
    let st := checkIdScArray s.numOrbSc 0 ids
    if st.1 = -1 then .error (.scIndex (ids.getD st.2 0))
    else .ok (ids.map fun k => (s.orbId[k.toNat]?).getD (0, 0, 0, 0))

/-- `orb_id_pc2sc_array`, super.py:397-427. -/
def orbIdPc2ScArray (HS : SCHash F E Λ) (s : SCell F E Λ) (qs0 : List IdPc) : SCell F E Λ × Except IdErr (List ℤ) :=
  afterSync HS s fun s =>
    let qs := qs0.map toInt32
    let st := checkIdPcArray s.dim s.pc.numOrb s.vacSc 0 qs
    if st.1 = -2 then .error (.pcIndex st.2.2 (qs.getD st.2.1 (0, 0, 0, 0)))
    else if st.1 = -1 then .error (.pcVac (qs.getD st.2.1 (0, 0, 0, 0)))
    else .ok (qs.map (idPc2ScAny s.dim s.pc.numOrb s.vacSc))

end SCell
end Verif

import Verif.Model.Prim
import Mathlib.Analysis.Complex.Norm

/-!
# Model of the Wannier90 interface, `/repo/tbplas/adapter/wannier90.py`

A text file is a list of lines and a line the list of its tokens (`line.split()`), so lexical
details (white space, number formats) are not modelled.  Real and complex arithmetic is exact.
-/

namespace Verif.Wannier

/-- Token of a line: an integer literal, another number, or anything else. -/
inductive Tok where
  | int (z : ℤ)
  | num (x : ℝ)
  | word (s : String)

/-- A line as its tokens. -/
abbrev Line := List Tok

/-- Exceptions: `ValueError`, `IndexError`, `StopIteration`, `FileNotFoundError`, wrong shape of
the arrays, singular lattice, and the exceptions of `PrimitiveCell`. -/
inductive WErr where
  | value | index | stop | notFound | shape | linAlg
  | pc (e : PCErr)
deriving DecidableEq

/-- `int(token)`. -/
def Tok.toInt : Tok → Except WErr ℤ
  | .int z => .ok z
  | _ => .error .value

/-- `float(token)`. -/
noncomputable def Tok.toFloat : Tok → Except WErr ℝ
  | .int z => .ok z
  | .num x => .ok x
  | .word _ => .error .value

/-! ## Readers -/

/-- `line.lstrip().startswith("begin unit_cell_cart")`, wannier90.py:36, on tokens. -/
def isBegin : Line → Bool
  | .word a :: .word b :: _ => a == "begin" && b == "unit_cell_cart"
  | _ => false

/-- `line.lstrip().startswith("end unit_cell_cart")`, wannier90.py:38, on tokens. -/
def isEnd : Line → Bool
  | .word a :: .word b :: _ => a == "end" && b == "unit_cell_cart"
  | _ => false

/-- Loop locating the lattice block, wannier90.py:34-39; `n` is the current line number. -/
def winBounds : ℕ → ℕ × ℕ → List Line → ℕ × ℕ
  | _, st, [] => st
  | n, st, l :: ls =>
    winBounds (n + 1)
      (if isBegin l then (n, st.2) else if isEnd l then (st.1, n) else st) ls

/-- `BOHR2ANG`, base/constants.py:5. -/
noncomputable def bohr2ang : ℝ := 0.529177210671212

/-- Unit conversion, wannier90.py:53-59, applied to the unit line. -/
noncomputable def unitFactor : Line → Except WErr ℝ
  | [.word u] =>
    if u = "Ang" ∨ u = "ang" then .ok 1
    else if u = "Bohr" ∨ u = "bohr" then .ok bohr2ang
    else .error .value
  | _ => .error .value

/-- `read_lat_vec`, wannier90.py:21-59.  The shape of the array is checked here rather than in
`wan2pc`. -/
noncomputable def readLatVec (win : List Line) : Except WErr (Mat3 ℝ) := do
  let b := winBounds 0 (0, 0) win
  let block := (win.take (b.2 + 1)).drop b.1
  let six := block.length = 6
  let units : Line := if six then block.getD 1 [] else [.word "Ang"]
  let raw := if six then (block.drop 2).dropLast else (block.drop 1).dropLast
  let rows ← raw.mapM fun l => l.mapM Tok.toFloat
  let f ← unitFactor units
  match PrimCell.latOfList rows with
  | none => .error .shape
  | some m => .ok (f • m)

/-- Loop of `read_orb_pos`, wannier90.py:75-78. -/
noncomputable def orbPosLoop : List Line → Except WErr (List (List ℝ))
  | [] => .ok []
  | [] :: _ => .error .index
  | (t :: data) :: ls =>
    match t with
    | .word s =>
      if s = "X" then do
        let p ← data.mapM Tok.toFloat
        let r ← orbPosLoop ls
        .ok (p :: r)
      else orbPosLoop ls
    | _ => orbPosLoop ls

/-- `read_orb_pos`, wannier90.py:62-80; the shape of the array is checked here. -/
noncomputable def readOrbPos (xyz : List Line) : Except WErr (List (Vec3 ℝ)) := do
  let rows ← orbPosLoop (xyz.drop 2)
  rows.mapM fun r => match PrimCell.vecOfList r with
    | none => .error .shape
    | some v => .ok v

/-- `l[k:]` for a possibly negative `k`. -/
def sliceFrom {α : Type*} (l : List α) (k : ℤ) : List α :=
  if 0 ≤ k then l.drop k.toNat else l.drop (l.length + k).toNat

/-- One line of `read_hop`, wannier90.py:97-103.  A line which is both too short and malformed
may raise the other of the two exceptions. -/
noncomputable def hopLine : Line → Except WErr ((Cell × Pair) × ℂ)
  | a :: b :: c :: i :: j :: x :: y :: _ => do
    let a ← a.toInt
    let b ← b.toInt
    let c ← c.toInt
    let i ← i.toInt
    let j ← j.toInt
    let x ← x.toFloat
    let y ← y.toFloat
    .ok (((a, b, c), (i - 1, j - 1)), ⟨x, y⟩)
  | _ => .error .index

/-- `read_hop`, wannier90.py:83-104: the lists `hop_ind` and `hop_eng`. -/
noncomputable def readHop (hr : List Line) : Except WErr (List (Cell × Pair) × List ℂ) := do
  match hr[2]? with
  | none => .error .index
  | some [t] => do
    let n ← t.toInt
    let skip := 3 + -((-n).fdiv 15)
    let terms ← (sliceFrom hr skip).mapM hopLine
    .ok (terms.map Prod.fst, terms.map Prod.snd)
  | some _ => .error .value

/-- State of the loop of `read_wsvec`: before a key line, before the number of vectors, or with
`n + 1` vectors still to be read. -/
inductive WsState where
  | ready (d : PyDict (Cell × Pair) (List Cell))
  | count (d : PyDict (Cell × Pair) (List Cell)) (key : Cell × Pair)
  | vecs (d : PyDict (Cell × Pair) (List Cell)) (key : Cell × Pair) (n : ℕ) (acc : List Cell)

/-- Key line, wannier90.py:120-125. -/
def keyLine : Line → Except WErr (Cell × Pair)
  | a :: b :: c :: i :: j :: _ => do
    let a ← a.toInt
    let b ← b.toInt
    let c ← c.toInt
    let i ← i.toInt
    let j ← j.toInt
    .ok ((a, b, c), (i - 1, j - 1))
  | _ => .error .index

/-- Vector line, wannier90.py:129-132. -/
def vecLine : Line → Except WErr Cell
  | a :: b :: c :: _ => do
    let a ← a.toInt
    let b ← b.toInt
    let c ← c.toInt
    .ok (a, b, c)
  | _ => .error .index

/-- Effect of one line in the loop of `read_wsvec`, wannier90.py:119-134.  The nested calls of
`next(iterator)` are unfolded into a state machine over the lines. -/
def wsLine (st : WsState) (l : Line) : Except WErr WsState :=
  match st with
  | .ready d => do
    let key ← keyLine l
    .ok (.count d key)
  | .count d key =>
    match l with
    | [t] => do
      let n ← t.toInt
      match n.toNat with
      | 0 => .ok (.ready (PyDict.set d key []))
      | m + 1 => .ok (.vecs d key m [])
    | _ => .error .value
  | .vecs d key n acc => do
    let v ← vecLine l
    match n with
    | 0 => .ok (.ready (PyDict.set d key (acc ++ [v])))
    | m + 1 => .ok (.vecs d key m (acc ++ [v]))

/-- `read_wsvec`, wannier90.py:107-135; a file ending inside a block raises `StopIteration`. -/
def readWsvec : List Line → Except WErr (PyDict (Cell × Pair) (List Cell))
  | [] => .error .stop
  | _ :: ls => do
    match ← ls.foldlM wsLine (.ready []) with
    | .ready d => .ok d
    | _ => .error .stop

/-! ## Correction of the hopping terms -/

variable {E : Type*} [Field E]

/-- Assignment of an energy to an index, wannier90.py:160-165. -/
def wsAssign (st : List (Cell × Pair) × List E) (x : Cell × Pair) (e : E) :
    List (Cell × Pair) × List E :=
  if x ∈ st.1 then (st.1, st.2.set (st.1.idxOf x) e) else (st.1 ++ [x], st.2 ++ [e])

/-- Body of the loop of `apply_wsvec`, wannier90.py:149-165. -/
def wsKey (st : List (Cell × Pair) × List E) (q : (Cell × Pair) × List Cell) :
    Except WErr (List (Cell × Pair) × List E) :=
  if q.1 ∈ st.1 then
    let ih := st.1.idxOf q.1
    let bak := st.2.getD ih 0
    .ok (q.2.foldl (fun s v => wsAssign s (q.1.1 + v, q.1.2) (bak / q.2.length))
      (st.1, st.2.set ih 0))
  else .error .value

/-- `apply_wsvec`, wannier90.py:138-165. -/
def applyWsvec (wsvec : PyDict (Cell × Pair) (List Cell)) (st : List (Cell × Pair) × List E) :
    Except WErr (List (Cell × Pair) × List E) :=
  wsvec.foldlM wsKey st

/-! ## Conversion -/

/-- The files read by `wan2pc`; `none` if `seed_name_wsvec.dat` does not exist. -/
structure Files where
  win : List Line
  centres : List Line
  hr : List Line
  wsvec : Option (List Line)

/-- Lift the outcome of a call on the cell. -/
def lift (r : PrimCell ℝ ℂ String × Res) : Except WErr (PrimCell ℝ ℂ String) :=
  match r.2 with
  | .ok _ => .ok r.1
  | .error e => .error (.pc e)

/-- Body of the hopping loop of `wan2pc`, wannier90.py:204-210. -/
noncomputable def hopStep (cut : ℝ) (c : PrimCell ℝ ℂ String) (t : (Cell × Pair) × ℂ) :
    Except WErr (PrimCell ℝ ℂ String) :=
  if cut ≤ ‖t.2‖ then
    let r := c.addHopping [t.1.1.1, t.1.1.2.1, t.1.1.2.2] t.1.2.1 t.1.2.2 t.2
    match r.2 with
    | .error .pcHopDiagonal => lift (r.1.setOrbital t.1.2.1 none (some t.2.re) none)
    | _ => lift r
  else .ok c

/-- `wan2pc`, wannier90.py:168-211.  The lattice vectors are converted to nm by the default unit
of `PrimitiveCell.__init__` (primitive.py:84-107, `ANG = 0.1`); the default label is `"X"`. -/
noncomputable def wan2pc (H : HashFns ℝ ℂ String) (f : Files) (correct : Bool) (cut : ℝ) :
    Except WErr (PrimCell ℝ ℂ String) := do
  let lat ← readLatVec f.win
  let cart ← readOrbPos f.centres
  let hops ← readHop f.hr
  match cart2frac lat cart 0 with
  | none => .error .linAlg
  | some pos => do
    let hops ←
      if correct then
        match f.wsvec with
        | none => .error .notFound
        | some ls => do
          let ws ← readWsvec ls
          applyWsvec ws hops
      else .ok hops
    let c ← pos.foldlM (fun c p => lift (c.addOrbital [p 0, p 1, p 2] 0 "X"))
      (PrimCell.init H ((1 / 10 : ℝ) • lat) 0)
    (hops.1.zip hops.2).foldlM (hopStep cut) c

end Verif.Wannier

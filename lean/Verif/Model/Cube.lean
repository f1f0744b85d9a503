import Verif.Model.Atom
import Verif.Model.Lattice
import Verif.Model.PyDict
import Mathlib.Analysis.SpecialFunctions.Exp
import Mathlib.Analysis.SpecialFunctions.Complex.Circle

/-!
# Model of `Visualizer.plot_wfc3d` (`tbplas/visual.py:455-599`)

The arrays `orb_pos` and `lat_vec` of the model are arguments.  The file is represented by the numbers written to it, in order; the rounding to
the printed digits and the line breaks are left out.  Only the master process writes.
-/

namespace Verif.Cube

open Classical in
/-- Exceptions: `TypeError` of `range` with a float, `LinAlgError`, `ValueError` (minimum of an empty array, negative dimension), `IndexError`. -/
inductive Err
  | type
  | linalg
  | value
  | index
  deriving DecidableEq

/-- `BOHR2NM`, base/constants.py:5-6. -/
noncomputable def bohr2nm : ℝ := 0.529177210671212 * 0.1

/-- The numbers in the cube file. -/
structure File where
  natoms : ℕ
  origin : Vec3 ℝ
  grid : Fin 3 → ℕ
  res : ℝ
  atoms : List (ℤ × Vec3 ℝ)
  data : List ℝ

/-- Arguments of the call besides the model. -/
structure Args where
  wfc : List ℂ
  qns : List Atom.Qn
  conv : ℤ := 1
  kPoint : Option (Vec3 ℝ) := none
  rnMax : Option (Fin 3 → ℤ) := none
  origin : Option (Vec3 ℝ) := none
  size : Option (Vec3 ℝ) := none
  res : ℝ := 0.005
  kind : String := "real"

/-- `range(-m, m + 1)`. -/
def symInts (m : ℤ) : List ℤ := (List.range (2 * m + 1).toNat).map fun (i : ℕ) => (i : ℤ) - m

/-- `rn_frac`, visual.py:507-510. -/
def rnFrac (m : Fin 3 → ℤ) : List (Fin 3 → ℤ) :=
  (symInts (m 0)).flatMap fun i => (symInts (m 1)).flatMap fun j => (symInts (m 2)).map fun k => ![i, j, k]

/-- `orb_pos[:, i].min()`; `none` for an empty array. -/
noncomputable def colMin (pos : List (Vec3 ℝ)) (i : Fin 3) : Option ℝ :=
  match pos with
  | [] => none
  | p :: ps => some (ps.foldl (fun a q => min a (q i)) (p i))

/-- `orb_pos[:, i].max()`. -/
noncomputable def colMax (pos : List (Vec3 ℝ)) (i : Fin 3) : Option ℝ :=
  match pos with
  | [] => none
  | p :: ps => some (ps.foldl (fun a q => max a (q i)) (p i))

/-- `cube_origin`, visual.py:513-515. -/
noncomputable def boxOrigin (pos : List (Vec3 ℝ)) : Option (Vec3 ℝ) → Except Err (Vec3 ℝ)
  | some o => .ok o
  | none => match colMin pos 0, colMin pos 1, colMin pos 2 with
    | some a, some b, some c => .ok ![a, b, c]
    | _, _, _ => .error .value

/-- One component of the default size, visual.py:519-520. -/
noncomputable def sizeOf (lo hi : ℝ) : ℝ := if hi - lo ≥ 1.0 then hi - lo else 1.0

/-- `cube_size`, visual.py:516-521. -/
noncomputable def boxSize (pos : List (Vec3 ℝ)) : Option (Vec3 ℝ) → Except Err (Vec3 ℝ)
  | some s => .ok s
  | none => match colMin pos 0, colMin pos 1, colMin pos 2, colMax pos 0, colMax pos 1, colMax pos 2 with
    | some a, some b, some c, some a', some b', some c' => .ok ![sizeOf a a', sizeOf b b', sizeOf c c']
    | _, _, _, _, _, _ => .error .value

/-- Conversion of a float to `int32` (truncation; no overflow). -/
noncomputable def truncInt (x : ℝ) : ℤ := if 0 ≤ x then ⌊x⌋ else -⌊-x⌋

/-- The position of an orbital in cell `rn`, visual.py:539: `pos + np.matmul(rn, lat_vec)`. -/
noncomputable def posRn (lat : Mat3 ℝ) (pos : Vec3 ℝ) (rn : Fin 3 → ℤ) : Vec3 ℝ := pos + Matrix.vecMul (fun c => (rn c : ℝ)) lat

/-- The phase factor of cell `rn`, visual.py:542-546. -/
noncomputable def blochPhase (conv : ℤ) (k tau : Vec3 ℝ) (rn : Fin 3 → ℤ) : ℂ :=
  let phase := if conv = 1 then 2 * Real.pi * ∑ c, k c * ((rn c : ℝ) + tau c) else 2 * Real.pi * ∑ c, k c * (rn c : ℝ)
  Complex.exp (Complex.I * phase)

/-- The Bloch sum of one orbital, visual.py:536-548. -/
noncomputable def blochState (conv : ℤ) (k : Vec3 ℝ) (lat : Mat3 ℝ) (rns : List (Fin 3 → ℤ)) (o : Vec3 ℝ) (grid : Fin 3 → ℕ) (res : ℝ)
    (pos tau : Vec3 ℝ) (q : Atom.Qn) : ℕ → ℕ → ℕ → ℂ :=
  let s := rns.foldl (fun (s : ℕ → ℕ → ℕ → ℂ) rn =>
    let atomic := Atom.setCube (posRn lat pos rn) q o grid res fun _ _ _ => 0
    fun x y z => s x y z + blochPhase conv k tau rn * atomic x y z) fun _ _ _ => 0
  fun x y z => s x y z / (Real.sqrt (rns.length : ℝ) : ℂ)

/-- `cube`, visual.py:534-549: the loop over orbitals; `IndexError` if there are fewer quantum numbers or coefficients than orbitals. -/
noncomputable def orbLoop (a : Args) (k : Vec3 ℝ) (lat : Mat3 ℝ) (rns : List (Fin 3 → ℤ)) (o : Vec3 ℝ) (grid : Fin 3 → ℕ) (res : ℝ)
    (pos taus : List (Vec3 ℝ)) : ℕ → (ℕ → ℕ → ℕ → ℂ) → Except Err (ℕ → ℕ → ℕ → ℂ) :=
  fun n cube => match n with
  | 0 => .ok cube
  | n + 1 => do
    let cube ← orbLoop a k lat rns o grid res pos taus n cube
    match pos[n]?, taus[n]?, a.qns[n]?, a.wfc[n]? with
    | some p, some t, some q, some w =>
      let b := blochState a.conv k lat rns o grid res p t q
      .ok fun x y z => cube x y z + w * b x y z
    | _, _, _, _ => .error .index

/-- visual.py:550-555. -/
noncomputable def kindPart (kind : String) (w : ℂ) : ℝ :=
  if kind = "real" then w.re else if kind = "imag" then w.im else ‖w‖ ^ 2

open Classical in
/-- `atom_pos`, visual.py:558-562. -/
noncomputable def atomPos (lat : Mat3 ℝ) (rns : List (Fin 3 → ℤ)) (pq : List (Vec3 ℝ × Atom.Qn)) : PyDict (Vec3 ℝ) ℤ :=
  pq.foldl (fun d p => rns.foldl (fun d rn => d.set (posRn lat p.1 rn) p.2.z) d) []

/-- `plot_wfc3d`, visual.py:455-599. -/
noncomputable def plotWfc3d (orbPos : List (Vec3 ℝ)) (latVec : Mat3 ℝ) (a : Args) : Except Err File := do
  let k := a.kPoint.getD 0
  let rnMax ← match a.rnMax with
    | none => .error .type
    | some m => .ok m
  let rns := rnFrac rnMax
  let o ← boxOrigin orbPos a.origin
  let s ← boxSize orbPos a.size
  let grid : Fin 3 → ℤ := fun c => truncInt (s c / a.res)
  let pos := orbPos.map fun p => (bohr2nm⁻¹ • p : Vec3 ℝ)
  let lat : Mat3 ℝ := bohr2nm⁻¹ • latVec
  let o : Vec3 ℝ := bohr2nm⁻¹ • o
  let res := a.res / bohr2nm
  let taus ← match cart2frac lat pos 0 with
    | none => .error .linalg
    | some t => .ok t
  if ∃ c, grid c < 0 then .error .value else
  let g : Fin 3 → ℕ := fun c => (grid c).toNat
  let cube ← orbLoop a k lat rns o g res pos taus pos.length fun _ _ _ => 0
  let atoms := atomPos lat rns (pos.zip a.qns)
  .ok { natoms := atoms.length, origin := o, grid := g, res := res, atoms := atoms.map fun p => (p.2, p.1),
        data := (List.range (g 0)).flatMap fun x => (List.range (g 1)).flatMap fun y => (List.range (g 2)).map fun z => kindPart a.kind (cube x y z) }

end Verif.Cube

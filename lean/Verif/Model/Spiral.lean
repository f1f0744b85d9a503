import Verif.Model.Advanced
import Verif.Model.Base

/-!
# Model of `spiral_prim_cell`

`/repo/tbplas/builder/advanced.py` 246-286.  Real arithmetic is exact.
-/

namespace Verif

variable {E Λ : Type*} [Star E]

/-- Loop advanced.py:275-276. -/
noncomputable def spiralSet (s : PrimCell ℝ E Λ) : List (Vec3 ℝ × ℕ) → PrimCell ℝ E Λ × Res
  | [] => (s, .ok ())
  | q :: l =>
    let r := s.setOrbital q.2 (some [q.1 0, q.1 1, q.1 2]) none none
    match r.2 with
    | .error e => (r.1, .error e)
    | .ok () => spiralSet r.1 l

/-- Lines advanced.py:264-267: the new lattice vectors and origin. -/
noncomputable def spiralLattice (s : PrimCell ℝ E Λ) (angle : ℝ) (center : Vec3 ℝ) : Mat3 ℝ × Vec3 ℝ :=
  let pts := rotateCoord (([0, s.lat 0, s.lat 1, s.lat 2] : List (Vec3 ℝ)).map (· + s.origin)) angle .z center
  let p := fun i : ℕ => pts.getD i 0
  (![p 1 - p 0, p 2 - p 0, p 3 - p 0], p 0)

/-- `spiral_prim_cell`, advanced.py:246-276: what is left of the cell, and the outcome.  The positions of a cell without
orbitals are an array of shape (0,), to which `[0, 0, shift]` cannot be added (line 270). -/
noncomputable def spiralPrimCell (H : HashFns ℝ E Λ) (s : PrimCell ℝ E Λ) (angle : ℝ) (center : Vec3 ℝ) (shift : ℝ) :
    PrimCell ℝ E Λ × Res :=
  let lo := spiralLattice s angle center
  let r := s.resetLattice H (some (latRows lo.1)) (some [lo.2 0, lo.2 1, lo.2 2]) 1 false
  match r.2 with
  | .error e => (r.1, .error e)
  | .ok () =>
    let s1 := PrimCell.syncOrb H r.1 false
    if s1.arrPos = [] then (s1, .error .value) else
    let pos := (frac2cart s1.lat s1.arrPos s1.origin).map (· + ![0, 0, shift])
    match cart2frac lo.1 pos lo.2 with
    | none => (s1, .error .linAlg)
    | some q => spiralSet s1 q.zipIdx

end Verif

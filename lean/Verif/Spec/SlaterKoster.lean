import Verif.Model.SlaterKoster
import Mathlib.LinearAlgebra.Matrix.Trace

/-!
# Two-centre integrals as rotation-invariant tensor expressions

An s orbital is a number, a p orbital a vector `a` (`a . r / r`), a d orbital a symmetric traceless matrix `A`
(`r . A r / r^2`).  For the unit vector `n` along the bond the sigma part of a p orbital is `a . n`, that of a d orbital
`n . A n`; the pi part of a p orbital is the projection of `a` perpendicular to `n`, that of a d orbital the projection of
`(2/sqrt 3) A n`, and what is left of the product of two d orbitals is the delta part.
-/

namespace Verif.SK

/-- An orbital as a tensor. -/
inductive Tens where
  | s (c : ℝ)
  | p (a : Vec3 ℝ)
  | d (A : Mat3 ℝ)

/-- `n . A n`. -/
def quad (A : Mat3 ℝ) (n : Vec3 ℝ) : ℝ := dotProduct n (A.mulVec n)

/-- Pi overlap of two vectors: scalar product of the parts perpendicular to `n`. -/
def perp (a b n : Vec3 ℝ) : ℝ := dotProduct a b - dotProduct a n * dotProduct b n

/-- The two-centre integral `<i,0|H|j,r>` for real orbitals and real parameters. -/
noncomputable def twoCentre (v : Par) (n : Vec3 ℝ) : Tens → Tens → ℂ
  | .s c, .s c' => (c * c' : ℝ) * v.sss
  | .s c, .p a => (c * dotProduct a n : ℝ) * v.sps
  | .p a, .s c => -((c * dotProduct a n : ℝ) * v.sps)
  | .s c, .d A => (c * quad A n : ℝ) * v.sds
  | .d A, .s c => (c * quad A n : ℝ) * v.sds
  | .p a, .p b => (dotProduct a n * dotProduct b n : ℝ) * v.pps + (perp a b n : ℝ) * v.ppp
  | .p a, .d A => (dotProduct a n * quad A n : ℝ) * v.pds + (2 / Real.sqrt 3 * perp a (A.mulVec n) n : ℝ) * v.pdp
  | .d A, .p a => -((dotProduct a n * quad A n : ℝ) * v.pds + (2 / Real.sqrt 3 * perp a (A.mulVec n) n : ℝ) * v.pdp)
  | .d A, .d B => (quad A n * quad B n : ℝ) * v.dds + (4 / 3 * perp (A.mulVec n) (B.mulVec n) n : ℝ) * v.ddp +
      (2 / 3 * (A * B).trace - quad A n * quad B n - 4 / 3 * perp (A.mulVec n) (B.mulVec n) n : ℝ) * v.ddd

/-- Rotation of an orbital. -/
def Tens.rot (R : Mat3 ℝ) : Tens → Tens
  | .s c => .s c
  | .p a => .p (R.mulVec a)
  | .d A => .d (R * A * R.transpose)

/-- The tensors of the labels: `x`, `y`, `z`, `sqrt 3 xy`, `sqrt 3 yz`, `sqrt 3 zx`, `sqrt 3/2 (x^2-y^2)`,
`z^2 - (x^2+y^2)/2`. -/
noncomputable def tens : OrbLabel → Option Tens
  | .s => some (.s 1)
  | .p .x => some (.p ![1, 0, 0])
  | .p .y => some (.p ![0, 1, 0])
  | .p .z => some (.p ![0, 0, 1])
  | .d .x .y => some (.d !![0, Real.sqrt 3 / 2, 0; Real.sqrt 3 / 2, 0, 0; 0, 0, 0])
  | .d .y .z => some (.d !![0, 0, 0; 0, 0, Real.sqrt 3 / 2; 0, Real.sqrt 3 / 2, 0])
  | .d .z .x => some (.d !![0, 0, Real.sqrt 3 / 2; 0, 0, 0; Real.sqrt 3 / 2, 0, 0])
  | .dx2y2 => some (.d !![Real.sqrt 3 / 2, 0, 0; 0, -(Real.sqrt 3 / 2), 0; 0, 0, 0])
  | .dz2 => some (.d !![-1 / 2, 0, 0; 0, -1 / 2, 0; 0, 0, 1])
  | _ => none

/-- The tensor of a label (zero if there is none). -/
noncomputable def tensD (i : OrbLabel) : Tens := (tens i).getD (.s 0)

/-- All parameters real. -/
def Par.real (v : Par) : Prop :=
  v.sss.im = 0 ∧ v.sps.im = 0 ∧ v.sds.im = 0 ∧ v.pps.im = 0 ∧ v.ppp.im = 0 ∧ v.pds.im = 0 ∧ v.pdp.im = 0 ∧
  v.dds.im = 0 ∧ v.ddp.im = 0 ∧ v.ddd.im = 0

/-- The labels of the same shell. -/
def shell : OrbLabel → List OrbLabel
  | .s => [.s]
  | .p _ => [.p .x, .p .y, .p .z]
  | _ => [.d .x .y, .d .y .z, .d .z .x, .dx2y2, .dz2]

/-- Scalar product of two orbitals of the same shell, normalised to one for the nine orbitals. -/
noncomputable def Tens.inner : Tens → Tens → ℝ
  | .s c, .s c' => c * c'
  | .p a, .p b => dotProduct a b
  | .d A, .d B => 2 / 3 * (A * B).trace
  | _, _ => 0

/-- `D_{i' i}(R)`: component along orbital `i'` of orbital `i` after the rotation `R`. -/
noncomputable def rotCoef (R : Mat3 ℝ) (i' i : OrbLabel) : ℝ :=
  match tens i', tens i with
  | some a, some b => a.inner (b.rot R)
  | _, _ => 0

end Verif.SK

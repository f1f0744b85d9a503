import Verif.Model.Atom
import Mathlib.MeasureTheory.Integral.IntervalIntegral.Basic
import Mathlib.Analysis.Calculus.Deriv.Basic

/-!
# Atomic orbitals, independently of the code

Atomic units: the Hamiltonian of one electron in the field of a charge `z` at the origin is `-Δ/2 - z/r`.
-/

namespace Verif.AtomSpec

/-- Distance from the origin. -/
noncomputable def rad (x y z : ℝ) : ℝ := Real.sqrt (x ^ 2 + y ^ 2 + z ^ 2)

/-- The Laplace operator. -/
noncomputable def laplacian (ψ : ℝ → ℝ → ℝ → ℝ) (x y z : ℝ) : ℝ :=
  deriv (deriv fun t => ψ t y z) x + deriv (deriv fun t => ψ x t z) y + deriv (deriv fun t => ψ x y t) z

/-- The integral of a function over space, in spherical coordinates. -/
noncomputable def spaceIntegral (F : ℝ → ℝ → ℝ → ℝ) : ℝ :=
  ∫ r in Set.Ioi (0 : ℝ), ∫ θ in (0 : ℝ)..Real.pi, ∫ φ in (0 : ℝ)..2 * Real.pi,
    F (r * Real.sin θ * Real.cos φ) (r * Real.sin θ * Real.sin φ) (r * Real.cos θ) * (r ^ 2 * Real.sin θ)

/-- Real solid harmonics up to a positive factor: the homogeneous polynomial of degree `l` that belongs to `m`. -/
def solid : ℤ → ℤ → ℝ → ℝ → ℝ → ℝ
  | 0, 0 => fun _ _ _ => 1
  | 1, -1 => fun _ y _ => y
  | 1, 0 => fun _ _ z => z
  | 1, 1 => fun x _ _ => x
  | 2, -2 => fun x y _ => x * y
  | 2, -1 => fun _ y z => y * z
  | 2, 0 => fun x y z => 2 * z ^ 2 - x ^ 2 - y ^ 2
  | 2, 1 => fun x _ z => x * z
  | 2, 2 => fun x y _ => x ^ 2 - y ^ 2
  | 3, -3 => fun x y _ => 3 * x ^ 2 * y - y ^ 3
  | 3, -2 => fun x y z => x * y * z
  | 3, -1 => fun x y z => 4 * y * z ^ 2 - x ^ 2 * y - y ^ 3
  | 3, 0 => fun x y z => 2 * z ^ 3 - 3 * x ^ 2 * z - 3 * y ^ 2 * z
  | 3, 1 => fun x y z => 4 * x * z ^ 2 - x ^ 3 - x * y ^ 2
  | 3, 2 => fun x y z => x ^ 2 * z - y ^ 2 * z
  | 3, 3 => fun x y _ => x ^ 3 - 3 * x * y ^ 2
  | _, _ => fun _ _ _ => 0

/-- Quantum numbers of an atomic orbital of an s, p, d or f shell. -/
structure Valid (q : Atom.Qn) : Prop where
  z_pos : 1 ≤ q.z
  l_nonneg : 0 ≤ q.l
  l_lt : q.l < q.n
  l_le : q.l ≤ 3
  m_le : |q.m| ≤ q.l

/-- A family of wave functions that are the atomic orbitals: an angular dependence given by `solid`, positive times it near the nucleus,
stationary states of the hydrogen-like atom of energy `-z²/(2n²)`, normalised, and orthogonal for the same nucleus. -/
structure IsOrbitals (ψ : Atom.Qn → ℝ → ℝ → ℝ → ℝ) : Prop where
  shape : ∀ q, Valid q → ∃ f : ℝ → ℝ, Continuous f ∧ 0 < f 0 ∧ ∀ x y z, ψ q x y z = f (rad x y z) * solid q.l q.m x y z
  stationary : ∀ q, Valid q → ∀ x y z, 0 < rad x y z →
    -(1 / 2) * laplacian (ψ q) x y z - q.z / rad x y z * ψ q x y z = -(q.z ^ 2 / (2 * q.n ^ 2)) * ψ q x y z
  normalised : ∀ q, Valid q → spaceIntegral (fun x y z => ψ q x y z ^ 2) = 1
  orthogonal : ∀ q q', Valid q → Valid q' → q.z = q'.z → q ≠ q' → spaceIntegral (fun x y z => ψ q x y z * ψ q' x y z) = 0

end Verif.AtomSpec

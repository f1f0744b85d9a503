import Mathlib.Analysis.SpecialFunctions.Trigonometric.Basic
import Mathlib.LinearAlgebra.Matrix.Notation

/-! # Specification for C132: states at an energy -/

namespace Verif.Analysis

/-- `u` is a normalised eigenvector of `H` with the energy `eps`. -/
structure Level {n : ℕ} (H : Matrix (Fin n) (Fin n) ℂ) (u : Fin n → ℂ) (eps : ℝ) : Prop where
  norm : ∑ k, ‖u k‖ ^ 2 = 1
  eigen : H.mulVec u = (eps : ℂ) • u

/-- All eigenvectors orthogonal to `u` have energies further than `eta` from `en`, on a circle of circumference `R` (see `FarFrom`). -/
def RestFar {n : ℕ} (H : Matrix (Fin n) (Fin n) ℂ) (u : Fin n → ℂ) (R eta en : ℝ) : Prop :=
  ∀ (lam : ℝ) (v : Fin n → ℂ), v ≠ 0 → ∑ k, star (u k) * v k = 0 → H.mulVec v = (lam : ℂ) • v →
    eta ≤ |en - lam| ∧ |en - lam| ≤ R - eta

/-- The bound on what is left of the states further than `eta` from the energy after `T` time steps; a state at the energy gets the
factor `T`. -/
noncomputable def filterLeak (T : ℕ) (R eta : ℝ) : ℝ := Real.pi ^ 2 / (2 * T * Real.sin (Real.pi * eta / R) ^ 2)

end Verif.Analysis

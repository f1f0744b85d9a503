import Mathlib.Analysis.SpecialFunctions.Trigonometric.Basic
import Mathlib.LinearAlgebra.Matrix.Notation

/-! # Specification for C130: energies without states nearby -/

namespace Verif.Analysis

/-- No state of `H` with an amplitude on one of the sites has its energy within `eta` of `en`, on a circle of circumference `R`: the
energies from the correlation functions are only defined up to multiples of the range `R` (`en` and the spectrum both lie in a range of
this length, so the second inequality only matters at its ends). -/
def FarFrom {n : ℕ} (H : Matrix (Fin n) (Fin n) ℂ) (sites : Fin n → Prop) (R eta en : ℝ) : Prop :=
  ∀ (lam : ℝ) (v : Fin n → ℂ), H.mulVec v = (lam : ℂ) • v → (∃ i, sites i ∧ v i ≠ 0) → eta ≤ |en - lam| ∧ |en - lam| ≤ R - eta

/-- The bound on what is seen at such energies after `T` time steps, relative to all states. -/
noncomputable def leakage (T : ℕ) (R eta : ℝ) : ℝ := 3 * Real.pi ^ 2 / (4 * T * Real.sin (Real.pi * eta / R) ^ 2)

end Verif.Analysis

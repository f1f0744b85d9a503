import Verif.Spec.Tbpm
import Verif.Spec.Bessel
import Mathlib.Analysis.Normed.Algebra.MatrixExponential
import Mathlib.Analysis.InnerProductSpace.PiL2

/-! # What the time evolution of a state is -/

namespace Verif.Tbpm

variable {n : ℕ}

/-- The solution of the Schrödinger equation (`ħ = 1`) with the Hamiltonian `H` after the time `t`. -/
noncomputable def evolved (H : Matrix (Fin n) (Fin n) ℂ) (t : ℝ) (x : CVec n) : CVec n :=
  (NormedSpace.exp ((-(Complex.I * t)) • H)).mulVec x

/-- The norm of a state. -/
noncomputable def stateNorm (x : CVec n) : ℝ := ‖(WithLp.toLp 2 x : EuclideanSpace ℂ (Fin n))‖

/-- All eigenvalues lie in the unit interval. -/
def UnitSpectrum (H : Matrix (Fin n) (Fin n) ℂ) : Prop :=
  ∀ (lam : ℂ) (v : CVec n), v ≠ 0 → H.mulVec v = lam • v → ‖lam‖ ≤ 1

/-- A sample ready for a propagation: legal column indices, and a Hermitian rescaled Hamiltonian with eigenvalues in the unit interval
(see `C29_bound_partial` for samples of the program).  The parallel loops run over all rows in some order. -/
structure Ready (sch : List ℕ → ℕ → List (Fin n)) (ham : FCsr) : Prop where
  order : ∀ key k, IsOrder (sch key k)
  legal : ham.Legal n
  herm : (ham.toMatrix n).IsHermitian
  spectrum : UnitSpectrum (ham.toMatrix n)

/-- The precision is good enough for scaled time steps of length `x`: rapidly decreasing with the step, but at `x ≤ π` it only has
to be below 1/1134 (`C107_default`). -/
structure Precise (x prec : ℝ) : Prop where
  step : 1 ≤ x
  nonneg : 0 ≤ prec
  small : prec * 100 ≤ 1
  decay : prec * 3 ^ ⌈x⌉₊ * (3 * ⌈x⌉₊ + 2) < 1

end Verif.Tbpm

namespace Verif.Tbpm

/-- The operator of the occupation of states at the inverse temperature `beta` and the chemical potential `mu`,
`1 / (1 + exp (beta (H - mu)))`, or one minus it. -/
noncomputable def fermiMatrix {n : ℕ} (beta mu : ℝ) (oneMinus : Bool) (H : Matrix (Fin n) (Fin n) ℂ) : Matrix (Fin n) (Fin n) ℂ :=
  if oneMinus then 1 - (1 + NormedSpace.exp ((beta : ℂ) • (H - (mu : ℂ) • 1)))⁻¹
  else (1 + NormedSpace.exp ((beta : ℂ) • (H - (mu : ℂ) • 1)))⁻¹

end Verif.Tbpm

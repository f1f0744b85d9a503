import Verif.Model.Tbpm
import Verif.Spec.Bessel

/-!
# Model of the preparation of a propagation in `Solver`

`/repo/tbplas/tbpm/solver.py`.  The values of `scipy.special.jv` are exact Bessel functions.
-/

namespace Verif.Tbpm

/-- `Sample.energy_range`, sample.py:682-693. -/
def energyRange (rescale : ℝ) : ℝ := 2 * rescale

/-- `_get_time_step`, solver.py:175-182, in units of ħ/eV. -/
noncomputable def getTimeStep (rescale : ℝ) : ℝ := 2 * Real.pi / energyRange rescale

/-- The arguments handed to a driver: solver.py:264-275 (DOS), 294-306 (LDOS), 415-426 (DC), 483-494 (quasi-eigenstates) with
`scale = 1`, 327-339 (AC), 362-377 (dynamical polarisation) with `scale = 0.5`, 583-595 (`calc_psi_t`) with `scale = dt_scale`.
`ham` is the rescaled Hamiltonian of the sample. -/
noncomputable def solverEnv {n : ℕ} (sch : List ℕ → ℕ → List (Fin n)) (ham : FCsr) (rescale scale prec : ℝ) (besselMax : ℕ) :
    Except TErr (Env n) := do
  let timeStep := scale * getTimeStep rescale
  let l ← besselSeries (fun i => besselJ i (timeStep * rescale)) prec besselMax
  .ok ⟨sch, ham, fun k => l.getD k 0, l.length⟩

end Verif.Tbpm

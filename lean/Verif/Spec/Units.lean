import Verif.Spec.Arpack
import Verif.Spec.LindhardAC
import Verif.Spec.Lindhard

/-! # Other units of energy and length -/

namespace Verif

/-- The solvers `D` and `D'` treat the same Hamiltonian, but `D'` measures energies in a unit that is `e` times smaller, so that all numbers
are `e` times larger.  The eigensolvers may be different, and so may be the eigenvectors they return. -/
structure ScaledBy (e : ℝ) (D D' : Diag) : Prop where
  nb : D'.nb = D.nb
  plain : D.setOvl = none ∧ D'.setOvl = none
  ham : ∀ k conv m m', D.setHam k conv (fun _ _ => 0) = .ok m → D'.setHam k conv (fun _ _ => 0) = .ok m' →
    ∀ i < D.nb, ∀ j < D.nb, m' i j = (e : ℂ) * m i j

/-- The calculator for the same problem in other units: all energies are `e` times and all lengths `c` times larger. -/
noncomputable def Lind.inUnits (L : Lind) (D' : Diag) (e c : ℝ) : Lind :=
  { L with D := D', lat := c • L.lat, orbPos := fun i => c • L.orbPos i, omegas := L.omegas.map (e * ·), beta := L.beta / e,
           mu := e * L.mu, delta := e * L.delta }

end Verif

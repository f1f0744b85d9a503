import Verif.Spec.Arpack
import Verif.Spec.LindhardAC
import Verif.Spec.Lindhard

/-! # Energies measured from another zero -/

namespace Verif

/-- The solvers `D` and `D'` treat the same Hamiltonian, but in `D'` all energies are larger by `c`.  The eigensolvers may be different, and
so may be the eigenvectors they return. -/
structure ShiftedBy (c : ℝ) (D D' : Diag) : Prop where
  nb : D'.nb = D.nb
  plain : D.setOvl = none ∧ D'.setOvl = none
  ham : ∀ k conv m m', D.setHam k conv (fun _ _ => 0) = .ok m → D'.setHam k conv (fun _ _ => 0) = .ok m' →
    ∀ i < D.nb, ∀ j < D.nb, m' i j = m i j + if i = j then (c : ℂ) else 0

/-- The same calculator with another solver and another chemical potential. -/
noncomputable def Lind.withSolver (L : Lind) (D' : Diag) (c : ℝ) : Lind := { L with D := D', mu := L.mu + c }

end Verif

import Verif.Spec.Lindhard
import Verif.Spec.LindhardAC

/-! # Doping with electrons and with holes -/

namespace Verif

/-- The calculator with the opposite chemical potential. -/
noncomputable def Lind.opposite (L : Lind) : Lind := { L with mu := -L.mu }

/-- The orbitals are of two kinds, and the Hamiltonian has only elements between orbitals of different kinds. -/
structure TwoKinds (D : Diag) (c : ℕ → Bool) : Prop where
  plain : D.setOvl = none
  ham : ∀ k conv m, D.setHam k conv (fun _ _ => 0) = .ok m → ∀ i < D.nb, ∀ j < D.nb, c i = c j → m i j = 0

end Verif

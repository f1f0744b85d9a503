import Verif.Spec.Lindhard

/-! # Width of a band structure -/

namespace Verif

/-- All energies a solver finds (in convention 2, which the response functions use) lie in an interval of width `W`. -/
def BandWidth (D : Diag) (E W : ℝ) : Prop := ∀ k q, eigen D k 2 = .ok q → ∀ j < D.nb, E ≤ q.1 j ∧ q.1 j ≤ E + W

end Verif

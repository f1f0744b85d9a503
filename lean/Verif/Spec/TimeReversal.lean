import Verif.Spec.CellChoice

/-! # Models without magnetism -/

namespace Verif

/-- All hoppings of the cell are real. -/
def RealHops {Λ : Type} (s : PrimCell ℝ ℂ Λ) : Prop := ∀ R i j t, s.hops.get R i j = some t → star t = t

/-- `k'` is opposite to `k`, up to a reciprocal lattice vector; both in fractional coordinates. -/
def Opposite (k k' : Vec3 ℝ) : Prop := ∃ z : Fin 3 → ℤ, ∀ x, k' x = -k x + z x

end Verif

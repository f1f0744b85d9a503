import Verif.Spec.CellChoice
import Verif.Spec.Advanced

/-! # Two descriptions of the same crystal -/

namespace Verif

/-- The cells `s` and `s'` describe the same crystal: `s'` is rotated (or reflected) by `O` and moved to any origin, orbital `i` of `s` is orbital
`π i` of `s'`, where it is represented by its copy in the cell `n i`. -/
structure SameModel {Λ : Type} (s s' : PrimCell ℝ ℂ Λ) (O : Mat3 ℝ) (π : Equiv.Perm ℕ) (n : ℕ → Cell) : Prop where
  rigid : O * O.transpose = 1
  lat : ∀ x, s'.lat x = O.mulVec (s.lat x)
  num : s'.numOrb = s.numOrb
  perm : ∀ i, i < s.numOrb → π i < s.numOrb
  orb : ∀ i o, s.orbs[i]? = some o → ∃ o', s'.orbs[π i]? = some o' ∧ o'.energy = o.energy ∧ ∀ x, o'.position x = o.position x + cellAt (n i) x
  hop : ∀ R (i j : ℕ), i < s.numOrb → j < s.numOrb → s'.hops.get (R + n i - n j) (π i : ℕ) (π j : ℕ) = s.hops.get R i j

end Verif

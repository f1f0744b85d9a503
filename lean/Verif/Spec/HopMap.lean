import Verif.Model.Hopping
import Mathlib.Data.Finset.Dedup
import Mathlib.Data.Finset.Card
import Mathlib.Data.Finset.Filter

/-!
# Specification: hopping terms as a partial map

The abstract meaning of a hopping container: a partial function from
`(R, i, j)` to energies.  Nothing here refers to how the container stores terms.
-/

namespace Verif

/-- Partial map from `(R, i, j)` to the hopping energy `<i,0|H|j,R>`. -/
abbrev HopMap (E : Type*) := Cell → ℤ → ℤ → Option E

namespace HopMap

variable {E : Type*} [Star E]

/-- Add or overwrite a hopping together with its conjugate partner. -/
def add (m : HopMap E) (R : Cell) (i j : ℤ) (e : E) : HopMap E := fun R' i' j' =>
  if R' = R ∧ i' = i ∧ j' = j then some e
  else if R' = -R ∧ i' = j ∧ j' = i then some (star e)
  else m R' i' j'

/-- Remove a hopping together with its conjugate partner. -/
def remove (m : HopMap E) (R : Cell) (i j : ℤ) : HopMap E := fun R' i' j' =>
  if (R' = R ∧ i' = i ∧ j' = j) ∨ (R' = -R ∧ i' = j ∧ j' = i) then none else m R' i' j'

/-- Remove all hoppings to the cells `R` and `-R`. -/
def removeRn (m : HopMap E) (R : Cell) : HopMap E := fun R' i' j' =>
  if R' = R ∨ R' = -R then none else m R' i' j'

/-- New number of orbital `x` after the orbitals in `L` have been deleted. -/
def rank (L : List ℤ) (x : ℤ) : ℤ := x - ((L.toFinset.filter (· < x)).card : ℤ)

/-- `m'` is `m` with the orbitals of `L` deleted and the others renumbered. -/
def IsRemoval (m : HopMap E) (L : List ℤ) (m' : HopMap E) : Prop :=
  (∀ R i j, i ∉ L → j ∉ L → m' R (rank L i) (rank L j) = m R i j) ∧
  (∀ R a b, m' R a b ≠ none → ∃ i j, i ∉ L ∧ j ∉ L ∧ a = rank L i ∧ b = rank L j)

/-- Abstract effect of one container call. -/
def Step (m : HopMap E) : IntraHop.Op E → HopMap E → Prop
  | .add R i j e, m' => m' = add m R i j e
  | .remove R i j, m' => m' = remove m R i j
  | .removeOrbitals L, m' => IsRemoval m L m'
  | .removeRn R, m' => m' = removeRn m R
  | .purge, m' => m' = m

/-- `(R,i,j)` and `(-R,j,i)` carry conjugate energies. -/
def ConjSymm (m : HopMap E) : Prop :=
  ∀ R i j, ¬ (R = 0 ∧ i = j) → m (-R) j i = (m R i j).map star

end HopMap
end Verif

import Verif.Spec.Sample
import Mathlib.Data.Set.Function

/-! # Specification notions for the numbering of orbitals -/

namespace Verif

/-- A renumbering of the orbitals `0 .. N-1`. -/
def Renumbering (N : ℕ) (π : ℤ → ℤ) : Prop := Set.BijOn π (Set.Ico 0 (N : ℤ)) (Set.Ico 0 (N : ℤ))

/-- Of two arrays with a row for each of `N` orbitals the second holds the rows of the first, renumbered. -/
def MovedRows {α : Type*} (N : ℕ) (π : ℤ → ℤ) (x x' : List α) : Prop :=
  x.length = N ∧ x'.length = N ∧ ∀ a : ℤ, 0 ≤ a → a < N → x'[(π a).toNat]? = x[a.toNat]?

/-- A hopping term between renumbered orbitals. -/
def moveTerm {F E : Type*} (π : ℤ → ℤ) (h : SCHop F E) : SCHop F E := { h with i := π h.i, j := π h.j }

/-- Of two lists of hopping terms the second holds those of the first, renumbered, in some order. -/
def MovedTerms {F E : Type*} (π : ℤ → ℤ) (x x' : List (SCHop F E)) : Prop := x'.Perm (x.map (moveTerm π))

end Verif

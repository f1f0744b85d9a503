import Verif.Spec.Sample
import Mathlib.Data.Matrix.Basic
import Mathlib.Data.Complex.Basic

/-! # Uncoupled parts -/

namespace Verif

/-- `A` is the matrix of a system of two parts which are not coupled, with the matrices `B` and `C`; the orbitals of the first part come
first. -/
structure Uncoupled {m m' : ℕ} (A : Matrix (Fin (m + m')) (Fin (m + m')) ℂ) (B : Matrix (Fin m) (Fin m) ℂ)
    (C : Matrix (Fin m') (Fin m') ℂ) : Prop where
  first : ∀ i j, A (Fin.castAdd m' i) (Fin.castAdd m' j) = B i j
  second : ∀ i j, A (Fin.natAdd m i) (Fin.natAdd m j) = C i j
  upper : ∀ i j, A (Fin.castAdd m' i) (Fin.natAdd m j) = 0
  lower : ∀ i j, A (Fin.natAdd m i) (Fin.castAdd m' j) = 0

/-- A list of hopping terms holds those of a first part with `m` orbitals, and those of a second part whose orbitals are numbered after
them, in some order, and no others. -/
def PartTerms {F E : Type*} (m : ℕ) (x x₁ x₂ : List (SCHop F E)) : Prop :=
  x.Perm (x₁ ++ x₂.map fun t => { t with i := m + t.i, j := m + t.j })

end Verif

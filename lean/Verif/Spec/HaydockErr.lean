import Verif.Spec.Evolution
import Verif.Model.Kernel
import Mathlib.LinearAlgebra.Matrix.Defs
import Mathlib.Analysis.SpecialFunctions.Arsinh

/-! # Specification: local densities of states of two samples with the same surroundings of some sites

Used by C128. -/

namespace Verif.Tbpm

/-- The orbitals of the first sample are orbitals of the second one (through `f`), the orbitals within `depth` hoppings of the sites lie
in growing sets `S 0, S 1, ...`, and both Hamiltonians have the same columns there: an orbital of `S k` with `k < depth` has the same
hoppings in both samples, all of them to orbitals of `S (k + 1)`. -/
structure SameSurroundings {n n' : ℕ} (A : Matrix (Fin n) (Fin n) ℂ) (A' : Matrix (Fin n') (Fin n') ℂ) (f : Fin n → Fin n')
    (S : ℕ → Set (Fin n)) (sites : List (Fin n)) (depth : ℕ) : Prop where
  inj : Function.Injective f
  mono : ∀ k, S k ⊆ S (k + 1)
  start : ∀ i ∈ sites, i ∈ S 0
  near : ∀ k < depth, ∀ j ∈ S k, ∀ i, A i j ≠ 0 → i ∈ S (k + 1)
  same : ∀ k < depth, ∀ j ∈ S k, ∀ i, A' (f i) (f j) = A i j
  outside : ∀ k < depth, ∀ j ∈ S k, ∀ i', i' ∉ Set.range f → A' i' (f j) = 0

/-- Bound on the error of the Green's function after `depth` levels, for a spectrum in `[-r, r]` and the broadening `delta`. -/
noncomputable def haydockBound (r delta : ℝ) (depth : ℕ) : ℝ :=
  r / (delta ^ 2 * Real.sinh (depth * Real.arsinh (delta / r)))

end Verif.Tbpm

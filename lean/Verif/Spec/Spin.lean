import Verif.Spec.Parallel
import Mathlib.LinearAlgebra.Matrix.Notation

/-! # Specification notions for the spin texture -/

namespace Verif

/-- The Pauli matrix of a component; any name but `"x"` and `"y"` means `z`. -/
def pauli (component : String) : Matrix (Fin 2) (Fin 2) ℂ :=
  if component = "x" then !![0, 1; 1, 0]
  else if component = "y" then !![0, -Complex.I; Complex.I, 0]
  else !![1, 0; 0, -1]

/-- Index of orbital `o` with spin `s` (0 up, 1 down) among `2 * h` spin orbitals. -/
def spinIdx (major : Bool) (h o : ℕ) (s : Fin 2) : ℕ := if major then s * h + o else 2 * o + s

/-- The expectation value `⟨ψ| 1 ⊗ σ |ψ⟩`. -/
noncomputable def spinExp (major : Bool) (h : ℕ) (component : String) (ψ : ℕ → ℂ) : ℂ :=
  ∑ o ∈ Finset.range h, ∑ s : Fin 2, ∑ s' : Fin 2,
    star (ψ (spinIdx major h o s)) * pauli component s s' * ψ (spinIdx major h o s')

/-- What `eval` should return for the k-points of the grid: row `i` belongs to k-point `i`. -/
noncomputable def textureSpec (D : Diag) (major : Bool) (component : String) (grid : List (Vec3 ℝ)) :
    Except ParErr (ℕ → ℕ → ℝ) :=
  (eigens D grid.length (fun i => grid.getD i 0) 1).map fun rows i b =>
    match rows[i]? with
    | some q => if b < D.nb then (spinExp major (D.nb / 2) component fun o => q.2 o b).re else 0
    | none => 0

end Verif

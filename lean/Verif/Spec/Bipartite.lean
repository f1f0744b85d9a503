import Mathlib.Data.Matrix.Basic
import Mathlib.Data.Complex.Basic

/-! # Specification notions for electron-hole symmetry -/

namespace Verif

/-- The sites are of two kinds such that the matrix has no elements between sites of the same kind (and no diagonal). -/
def Bipartite {n : ℕ} (A : Matrix (Fin n) (Fin n) ℂ) (c : Fin n → Bool) : Prop := ∀ i j, c i = c j → A i j = 0

/-- A state with the amplitudes at the sites of the second kind reversed. -/
def flipState {n : ℕ} (c : Fin n → Bool) (x : Fin n → ℂ) : Fin n → ℂ := fun i => if c i then -x i else x i

end Verif

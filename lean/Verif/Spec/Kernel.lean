import Verif.Model.Kernel
import Verif.Spec.Csr
import Mathlib.RingTheory.Polynomial.Chebyshev
import Mathlib.LinearAlgebra.Matrix.ToLin
import Mathlib.LinearAlgebra.Matrix.ConjTranspose

/-! # Specification of the propagation kernels -/

namespace Verif.Tbpm

/-- The matrix represented by CSR arrays; repeated columns add up. -/
def FCsr.toMatrix (m : FCsr) (n : ℕ) : Matrix (Fin n) (Fin n) ℂ :=
  Matrix.of fun a b => ((List.range' (m.indptr a) (m.indptr (a + 1) - m.indptr a)).map
    fun j => if m.indices j = b then m.values j else 0).sum

/-- All column indices are those of the `n × n` matrix. -/
def FCsr.Legal (m : FCsr) (n : ℕ) : Prop := ∀ i < n, ∀ j, m.indptr i ≤ j → j < m.indptr (i + 1) → m.indices j < n

/-- The CSR arrays of a sample (`build_ham_csr`) as they are handed to Fortran. -/
def FCsr.ofSample (c : Csr ℝ ℂ) : FCsr :=
  ⟨fun k => (c.indptr k).toNat, fun k => (c.ent k).col.toNat, fun k => (c.ent k).v⟩

/-- A schedule of the rows of an `n × n` matrix: every row once, in any order. -/
def IsOrder {n : ℕ} (ord : List (Fin n)) : Prop := ord.Perm (List.finRange n)

/-- Chebyshev polynomial of the first kind of a matrix. -/
noncomputable def chebT {n : ℕ} (k : ℕ) (M : Matrix (Fin n) (Fin n) ℂ) : Matrix (Fin n) (Fin n) ℂ :=
  Polynomial.aeval M (Polynomial.Chebyshev.T ℂ k)

end Verif.Tbpm

import Verif.Model.Arpack

/-! # Specification notions for the sparse solver -/

namespace Verif

/-- `k` orthonormal eigenvectors (columns) of the `n × n` matrix `H` with their eigenvalues. -/
structure Eigenpairs (n k : ℕ) (H : IMat) (q : (ℕ → ℝ) × (ℕ → ℕ → ℂ)) : Prop where
  eigen : ∀ j < k, ∀ o < n, ∑ m ∈ Finset.range n, H o m * q.2 m j = q.1 j * q.2 o j
  orthonormal : ∀ j < k, ∀ j' < k, ∑ m ∈ Finset.range n, star (q.2 m j) * q.2 m j' = if j = j' then 1 else 0

/-- The contract of LAPACK: all eigenvectors. -/
def ZheevSpec (D : Diag) : Prop := ∀ h q, D.zheev h = some q → Eigenpairs D.nb D.nb h q

/-- The contract of `eigsh`: for sparse matrices it needs `0 < k < n`, and returns `k` of the eigenvectors, whichever. -/
def EigshSpec (n : ℕ) (eigsh : Eigsh) : Prop := ∀ h k q, eigsh h k = some q → 0 < k ∧ k < n ∧ Eigenpairs n k h q

/-- `numpy.argsort` of `m` numbers sorts them. -/
def SortSpec (m : ℕ) (argsort : (ℕ → ℝ) → List ℕ) : Prop :=
  ∀ ev, (argsort ev).Perm (List.range m) ∧ ((argsort ev).map ev).Pairwise (· ≤ ·)

end Verif

import Verif.Model.Parallel

/-! # Specification of the general eigenvalue problem -/

namespace Verif

/-- Eigenvalues `ev` and column eigenvectors `vec` of `h v = E s v` in dimension `n`, normalised by `vᴴ s v = 1`. -/
def GenEig (n : ℕ) (h s : IMat) (ev : ℕ → ℝ) (vec : ℕ → ℕ → ℂ) : Prop :=
  (∀ i < n, ∀ o < n, ∑ p ∈ Finset.range n, h o p * vec p i = ev i * ∑ p ∈ Finset.range n, s o p * vec p i) ∧
  (∀ i < n, ∀ j < n, ∑ o ∈ Finset.range n, ∑ p ∈ Finset.range n, star (vec o i) * s o p * vec p j = if i = j then 1 else 0)

/-- What LAPACK promises for `zhegv`: on Hermitian input it fails or returns a normalised eigensystem. -/
def ZhegvOk (n : ℕ) (zhegv : IMat → IMat → Option ((ℕ → ℝ) × (ℕ → ℕ → ℂ))) : Prop :=
  ∀ h s : IMat, (∀ i < n, ∀ j < n, h i j = star (h j i)) → (∀ i < n, ∀ j < n, s i j = star (s j i)) →
    ∀ ev vec, zhegv h s = some (ev, vec) → GenEig n h s ev vec

/-- `argsort` returns the indices in ascending order of the values. -/
def ArgsortOk (n : ℕ) (argsort : (ℕ → ℝ) → List ℕ) : Prop :=
  ∀ ev, (argsort ev).Perm (List.range n) ∧ ((argsort ev).map ev).Pairwise (· ≤ ·)

end Verif

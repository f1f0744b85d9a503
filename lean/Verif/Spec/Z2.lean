import Verif.Spec.Parallel
import Verif.Model.Z2
import Mathlib.LinearAlgebra.Matrix.Charpoly.Basic
import Mathlib.Algebra.Polynomial.Roots

/-! # Specification of the Wilson loop -/

namespace Verif.Z2

/-- `ev`, `vec` (columns) are an orthonormal eigensystem of the matrix `h`. -/
def EigOk (nb : ℕ) (h : IMat) (ev : ℕ → ℝ) (vec : ℕ → ℕ → ℂ) : Prop :=
  (∀ i < nb, ∀ j < nb, ∑ o ∈ Finset.range nb, star (vec o i) * vec o j = if i = j then 1 else 0) ∧
  (∀ i < nb, ∀ o < nb, ∑ p ∈ Finset.range nb, h o p * vec p i = ev i * vec o i)

/-- No overlap is given, and at the k-point `k` the Hamiltonian can be set up and the eigensolver returns an orthonormal eigensystem of it. -/
def SolvedAt (D : Diag) (k : Vec3 ℝ) : Prop :=
  D.setOvl = none ∧ ∃ h ev vec, D.setHam k 1 (fun _ _ => 0) = .ok h ∧ D.zheev h = some (ev, vec) ∧ EigOk D.nb h ev vec

/-- Exactly `nocc` of the eigenvalues (with multiplicity) lie below some energy that is not an eigenvalue. -/
def Gapped (nb nocc : ℕ) (ev : ℕ → ℝ) : Prop :=
  ∃ μ : ℝ, ((Finset.range nb).filter fun i => ev i < μ).card = nocc ∧ ∀ i < nb, ev i ≠ μ

/-- There is a gap above the `nocc` lowest states of the k-point `k`. -/
def GapAt (D : Diag) (nocc : ℕ) (k : Vec3 ℝ) : Prop := ∃ ev vec, eigen D k 1 = .ok (ev, vec) ∧ Gapped D.nb nocc ev

/-- `argsort` sorts. -/
def Sorts (D : Diag) : Prop :=
  ∀ ev, (D.argsort ev).Perm (List.range D.nb) ∧ ((D.argsort ev).map ev).Pairwise (· ≤ ·)

/-- The eigenvalues returned by `zgeev` are the roots of the characteristic polynomial with multiplicity. -/
def GeevOk {n : ℕ} (geev : Matrix (Fin n) (Fin n) ℂ → List ℂ) : Prop := ∀ d, (geev d : Multiset ℂ) = d.charpoly.roots

/-- Overlaps of the first `nocc` columns. -/
def overlap {nb nocc : ℕ} (v w : Matrix (Fin nb) (Fin nocc) ℂ) : Matrix (Fin nocc) (Fin nocc) ℂ := v.conjTranspose * w

/-- Product of overlaps along a path that starts with `v` and ends with `z`. -/
def pathMat {nb nocc : ℕ} (v : Matrix (Fin nb) (Fin nocc) ℂ) :
    List (Matrix (Fin nb) (Fin nocc) ℂ) → Matrix (Fin nb) (Fin nocc) ℂ → Matrix (Fin nocc) (Fin nocc) ℂ
  | [], z => overlap v z
  | w :: ws, z => overlap v w * pathMat w ws z

/-- The Wilson loop of a closed path. -/
def loopMat {nb nocc : ℕ} : List (Matrix (Fin nb) (Fin nocc) ℂ) → Matrix (Fin nocc) (Fin nocc) ℂ
  | [] => 1
  | v :: vs => pathMat v vs v

/-- The occupied states at a k-point: columns of the `nocc` lowest eigenvalues. -/
def occ (D : Diag) (nocc : ℕ) (k : Vec3 ℝ) : Matrix (Fin D.nb) (Fin nocc) ℂ :=
  Matrix.of fun o i => match eigen D k 1 with
    | .ok (ev, vec) => fancy (vec o) (D.argsort ev) i
    | .error _ => 0

end Verif.Z2

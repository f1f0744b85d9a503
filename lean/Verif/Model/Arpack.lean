import Verif.Model.Parallel

/-!
# Model of the sparse solver of `DiagSolver`

`/repo/tbplas/diagonal/base.py`, `solver="arpack"`.
-/

namespace Verif

/-- `num_bands`, base.py:340-350 and 486-496: the argument `k`, by default `int(num_orb * 0.6)`. -/
def sparseBands (numOrb : ℕ) (k : Option ℕ) : ℕ := k.getD (numOrb * 6 / 10)

/-- `scipy.sparse.linalg.eigsh(ham, k=…)` with the other arguments given by the user: eigenvalues and column eigenvectors, or `none`
if it raises.  (It starts from a random vector; only its contract is used.) -/
abbrev Eigsh := IMat → ℕ → Option ((ℕ → ℝ) × (ℕ → ℕ → ℂ))

/-- `_diag_ham_csr`, base.py:274-310, without an overlap, in the place of `_diag_ham_dense`: the Hamiltonian is set up as a new matrix
and diagonalised by `eigsh`.  `argsort m` sorts `m` numbers.  The matrix of `set_ham_csr` is that of `set_ham_dense` (C13), all
exceptions of `eigsh` are called `runtime`. -/
def sparseDiag (D : Diag) (eigsh : Eigsh) (argsort : ℕ → (ℕ → ℝ) → List ℕ) (k : ℕ) : Diag where
  nb := k
  setHam p conv _ := D.setHam p conv (fun _ _ => 0)
  zheev h := eigsh h k
  argsort := argsort k

/-- `calc_bands(solver="arpack")`, base.py:312-391: the same loop with the other solver and number of bands. -/
noncomputable def calcBandsSparse (D : Diag) (eigsh : Eigsh) (argsort : ℕ → (ℕ → ℝ) → List ℕ) (k : Option ℕ) (w : World)
    (buf : ℕ → Buf) (n : ℕ) (kpts : ℕ → Vec3 ℝ) (conv : ℤ) (orbs : Option (List ℕ)) :
    Except ParErr (ℕ → (ℕ → ℕ → ℝ) × (ℕ → ℕ → ℝ)) :=
  calcBands (sparseDiag D eigsh argsort (sparseBands D.nb k)) w buf n kpts conv orbs

/-- `calc_dos(solver="arpack")`, base.py:393-457. -/
noncomputable def calcDosSparse (D : Diag) (eigsh : Eigsh) (argsort : ℕ → (ℕ → ℝ) → List ℕ) (k : Option ℕ) (w : World)
    (buf : ℕ → Buf) (n : ℕ) (kpts : ℕ → Vec3 ℝ) (conv : ℤ) (orbs : Option (List ℕ)) (emin emax : Option ℝ) (step sigma : ℝ)
    (basis : ℝ → ℝ → ℝ → ℝ) (gs : ℝ) : Except ParErr (ℕ → List ℝ × (ℕ → ℝ)) :=
  calcDos (sparseDiag D eigsh argsort (sparseBands D.nb k)) w buf n kpts conv orbs emin emax step sigma basis gs

end Verif

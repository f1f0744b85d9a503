import Verif.Model.Hopping
import Mathlib.Analysis.Complex.Basic
import Mathlib.LinearAlgebra.Matrix.Notation

/-!
# Specification of the antimonene model

The 15-parameter model of Phys. Rev. B 95, 081407: three orbitals `0, 1, 2` on the lower and `3, 4, 5` on the upper sublattice.  The
amplitudes are fixed by one bond for each parameter and the symmetries of the crystal: threefold rotation, mirror, inversion.
-/

namespace Verif.Anti

/-- Rotation by 120 degrees about the site of orbital 0: images of the site `(R, i)`. -/
def rot (p : Cell × ℕ) : Cell × ℕ :=
  ((-p.1.1 - p.1.2.1 + (if p.2 < 3 then 0 else -1), p.1.1, p.1.2.2), if p.2 % 3 = 2 then p.2 - 2 else p.2 + 1)

/-- Mirror `y → -y`. -/
def mir (p : Cell × ℕ) : Cell × ℕ :=
  ((p.1.2.1, p.1.1, p.1.2.2), if p.2 % 3 = 0 then p.2 + 2 else if p.2 % 3 = 2 then p.2 - 2 else p.2)

/-- Inversion. -/
def inv (p : Cell × ℕ) : Cell × ℕ := (-p.1, if p.2 < 3 then p.2 + 3 else p.2 - 3)

/-- Image of the bond `(R, i, j)`, from orbital `i` of cell 0 to orbital `j` of cell `R`, under a map of sites. -/
def image (f : Cell × ℕ → Cell × ℕ) (b : Cell × ℕ × ℕ) : Cell × ℕ × ℕ :=
  ((f (b.1, b.2.2)).1 - (f (0, b.2.1)).1, (f (0, b.2.1)).2, (f (b.1, b.2.2)).2)

/-- The same bond from the other end. -/
def rev (b : Cell × ℕ × ℕ) : Cell × ℕ × ℕ := (-b.1, b.2.2, b.2.1)

/-- The images of a bond under all symmetries. -/
def orbit (b : Cell × ℕ × ℕ) : List (Cell × ℕ × ℕ) :=
  (([b, rev b].flatMap fun b => [b, image inv b]).flatMap fun b => [b, image mir b]).flatMap
    fun b => [b, image rot b, image rot (image rot b)]

/-- One bond for each parameter. -/
def reps : List ((Cell × ℕ × ℕ) × ℕ) :=
  [(((0, 0, 0), 1, 4), 1), (((0, 0, 0), 0, 3), 2), (((0, 1, 0), 0, 0), 3), (((0, 1, 0), 0, 1), 4), (((0, 1, 0), 1, 4), 5),
   (((0, -1, 0), 0, 1), 6), (((0, 0, 0), 0, 4), 7), (((-1, 1, 0), 0, 4), 8), (((0, 1, 0), 0, 3), 9), (((0, 1, 0), 0, 4), 10),
   (((1, 0, 0), 0, 0), 11), (((1, -1, 0), 0, 4), 12), (((1, 0, 0), 0, 3), 13), (((0, -2, 0), 0, 1), 14), (((0, 2, 0), 0, 1), 15)]

/-- All bonds, each with the number of its parameter. -/
def table : List ((Cell × ℕ × ℕ) × ℕ) := reps.flatMap fun r => (orbit r.1).map fun b => (b, r.2)

/-- The values of the parameters in eV. -/
noncomputable def param (n : ℕ) : ℝ :=
  [-2.09, 0.47, 0.18, -0.50, -0.11, 0.21, 0.08, -0.07, 0.07, 0.07, -0.06, -0.06, -0.03, -0.03, -0.04].getD (n - 1) 0

/-- Lattice constant and buckling in nm. -/
noncomputable def a : ℝ := 0.411975806
@[inherit_doc a] noncomputable def z : ℝ := 0.16455347

/-- The directions of the three orbitals of a site. -/
noncomputable def dir (m : Fin 3) : Fin 3 → ℝ :=
  ![![0.4053, 0.7020, -0.5854], ![-0.8107, 0, -0.5854], ![0.4053, -0.7020, -0.5854]] m

/-- Component `v` of the angular momentum between p orbitals along the directions `dir m` and `dir m'`: `-i ε_{m m' c} dir(c)_v`. -/
noncomputable def angMom (v m m' : Fin 3) : ℂ :=
  if m' = m + 1 then -Complex.I * dir (m + 2) v else if m = m' + 1 then Complex.I * dir (m' + 2) v else 0

/-- The Pauli matrix `v`. -/
noncomputable def sigma (v : Fin 3) : Matrix (Fin 2) (Fin 2) ℂ := ![!![0, 1; 1, 0], !![0, -Complex.I; Complex.I, 0], !![1, 0; 0, -1]] v

/-- Matrix element of `lam L·S` between the orbitals `m`, `m'` of a site with the spins `σ`, `σ'`. -/
noncomputable def soc (lam : ℝ) (σ : Fin 2) (m : Fin 3) (σ' : Fin 2) (m' : Fin 3) : ℂ :=
  (lam / 2 : ℝ) * ∑ v, sigma v σ σ' * angMom v m m'

end Verif.Anti

import Verif.Spec.Lindhard

/-! # Layers in cells of different height -/

namespace Verif

/-- The calculator with another solver and other lattice vectors, all else the same (orbital positions are Cartesian). -/
def Lind.layer (L : Lind) (D : Diag) (A : Mat3 ℝ) : Lind := { L with D := D, lat := A }

/-- The solver `D` and the lattice vectors `A` describe the same layer as those of `L`: the first two lattice vectors are the same and in the plane,
and the Hamiltonian is the same function of the first two components of the k-point.  The third lattice vectors differ. -/
structure SameLayer (L : Lind) (D : Diag) (A : Mat3 ℝ) : Prop where
  plain : L.D.setOvl = none
  plain' : D.setOvl = none
  nb : D.nb = L.D.nb
  det : L.lat.det ≠ 0
  det' : A.det ≠ 0
  rows : A 0 = L.lat 0 ∧ A 1 = L.lat 1
  flat : L.lat 0 2 = 0 ∧ L.lat 1 2 = 0
  ham : ∀ k k' m m', k' 0 = k 0 → k' 1 = k 1 → L.D.setHam k 2 (fun _ _ => 0) = .ok m → D.setHam k' 2 (fun _ _ => 0) = .ok m' →
    ∀ i < L.D.nb, ∀ j < L.D.nb, m' i j = m i j

end Verif

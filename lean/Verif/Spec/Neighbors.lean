import Verif.Model.Neighbors

/-! # Specification notions for the neighbour search -/

namespace Verif

/-- What is assumed about `sparse_distance_matrix`: keys are distinct; every entry is a pair of points with its
Euclidean distance, at most the cutoff; every pair of points within the cutoff at a positive distance is there. -/
structure IsDistMatrix (tree : DistMatrix) : Prop where
  nodup : ∀ A B m, ((tree A B m).map Prod.fst).Nodup
  sound : ∀ A B m e, e ∈ tree A B m → ∃ p q, A[e.1.1]? = some p ∧ B[e.1.2]? = some q ∧ e.2 = norm3 (q - p) ∧ e.2 ≤ m
  complete : ∀ (A B : List (Vec3 ℝ)) (m : ℝ) (i j : ℕ) (p q : Vec3 ℝ), A[i]? = some p → B[j]? = some q →
    0 < norm3 (q - p) → norm3 (q - p) ≤ m → ((i, j), norm3 (q - p)) ∈ tree A B m

/-- A term that should be found: orbital `i` of the bra at `p` and the image of orbital `j` of the ket at `q` in cell
`rn`, at a positive distance not larger than the cutoff. -/
def IsNeighbor (posBra posKet : List (Vec3 ℝ)) (lat : Mat3 ℝ) (a b c : ℤ) (dmax : ℝ) (t : NbTerm) : Prop :=
  |t.rn.1| ≤ a ∧ |t.rn.2.1| ≤ b ∧ |t.rn.2.2| ≤ c ∧
  ∃ p q, posBra[t.pair.1]? = some p ∧ posKet[t.pair.2]? = some q ∧
    t.rij = q + Matrix.vecMul (![(t.rn.1 : ℝ), (t.rn.2.1 : ℝ), (t.rn.2.2 : ℝ)]) lat - p ∧
    t.distance = norm3 t.rij ∧ 0 < t.distance ∧ t.distance ≤ dmax

end Verif

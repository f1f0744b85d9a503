import Verif.Spec.Arpack
import Verif.Spec.LindhardAC
import Verif.Spec.Lindhard

/-! # Crystals made of two parts that are not coupled -/

namespace Verif

/-- The solver `D` treats the crystal whose first orbitals are those of `D₁` and whose other orbitals are those of `D₂`, without hoppings
between the two.  The eigensolvers may be different, and the eigenvectors of `D` may be mixtures. -/
structure DirectSum (D D₁ D₂ : Diag) : Prop where
  nb : D.nb = D₁.nb + D₂.nb
  plain : D.setOvl = none ∧ D₁.setOvl = none ∧ D₂.setOvl = none
  ham : ∀ k conv m m₁ m₂, D.setHam k conv (fun _ _ => 0) = .ok m → D₁.setHam k conv (fun _ _ => 0) = .ok m₁ →
    D₂.setHam k conv (fun _ _ => 0) = .ok m₂ →
    (∀ i < D₁.nb, ∀ j < D₁.nb, m i j = m₁ i j) ∧
    (∀ i < D₂.nb, ∀ j < D₂.nb, m (D₁.nb + i : ℕ) (D₁.nb + j : ℕ) = m₂ i j) ∧
    ∀ i < D₁.nb, ∀ j < D₂.nb, m i (D₁.nb + j : ℕ) = 0 ∧ m (D₁.nb + j : ℕ) i = 0

/-- The calculator of one part: the same lattice, mesh, energies and temperature, another solver and other orbitals. -/
noncomputable def Lind.part (L : Lind) (D : Diag) (pos : ℕ → Vec3 ℝ) : Lind := { L with D := D, orbPos := pos }

/-- A hopping of the second part in the numbering of the whole. -/
def laterHop (n : ℕ) (t : Cell × Pair × ℂ) : Cell × Pair × ℂ := (t.1, (t.2.1.1 + n, t.2.1.2 + n), t.2.2)

/-- The hoppings of the whole are those of the parts. -/
structure HopsOfParts (n : ℕ) (hops hops₁ hops₂ : List (Cell × Pair × ℂ)) : Prop where
  perm : hops.Perm (hops₁ ++ hops₂.map (laterHop n))
  first : ∀ t ∈ hops₁, t.2.1.1 < n ∧ t.2.1.2 < n
  second : ∀ t ∈ hops₂, 0 ≤ t.2.1.1 ∧ 0 ≤ t.2.1.2

end Verif

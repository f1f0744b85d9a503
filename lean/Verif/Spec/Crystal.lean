import Verif.Spec.Reshape
import Verif.Model.Lattice

/-! # Sites of a crystal -/

namespace Verif

variable {F E Λ : Type*} [Field F]

/-- Cartesian position of orbital `i` of the cell with index `R`. -/
def sitePos (s : PrimCell F E Λ) (R : Cell) (i : ℕ) : Vec3 F :=
  frac2cartRow s.lat s.origin (s.orbs[i]?.elim 0 Orbital.position + cellVec F R)

/-- Square of the distance of two points. -/
def dist2 (p q : Vec3 F) : F := ∑ x, (p x - q x) ^ 2

/-- Two cells describe the same infinite crystal: there is a bijection of their sites, in all cells, that keeps the position,
the energy and the label of every site and the hopping energy of every pair of sites. -/
def SameCrystal [Star E] (s t : PrimCell F E Λ) : Prop :=
  ∃ φ : Cell × Fin s.numOrb ≃ Cell × Fin t.numOrb,
    (∀ q, sitePos s q.1 q.2 = sitePos t (φ q).1 (φ q).2 ∧
      s.orbs[(q.2 : ℕ)]?.map (fun o => (o.energy, o.label)) = t.orbs[((φ q).2 : ℕ)]?.map (fun o => (o.energy, o.label))) ∧
    ∀ p q, s.hops.get (q.1 - p.1) p.2 q.2 = t.hops.get ((φ q).1 - (φ p).1) (φ p).2 (φ q).2

end Verif

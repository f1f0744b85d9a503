import Verif.Model.Advanced
import Verif.Model.Overlap
import Verif.Spec.LindhardAC
import Verif.Spec.Lindhard

/-! # Calculations for a cell and for an extension of it -/

namespace Verif

variable {Λ : Type}

/-- The solver `D` treats the cell `s` without overlap: its matrices are the Bloch Hamiltonians of `s`.  The eigensolver is free. -/
structure SolvesCell (D : Diag) (s : PrimCell ℝ ℂ Λ) : Prop where
  nb : D.nb = s.numOrb
  plain : D.setOvl = none
  ham : ∀ k conv h, D.setHam k conv (fun _ _ => 0) = .ok h → PrimCell.setHamDense s k conv = .ok h

/-- `L` is a calculator for the cell `s` with the attribute `extended` equal to `ext`. -/
structure CalcOf (L : Lind) (s : PrimCell ℝ ℂ Λ) (ext : ℝ) : Prop where
  solver : SolvesCell L.D s
  lat : L.lat = s.lat
  pos : ∀ i ob, s.orbs[i]? = some ob → L.orbPos i = frac2cartRow s.lat s.origin ob.position
  ext : L.ext = ext

/-- Two calculators with the same physical parameters.  The mesh of the first, for the small cell, is `d` times as fine as that of the
second, so that both have the same k-points. -/
structure SameSetup (d : Cell) (L L' : Lind) : Prop where
  omegas : L'.omegas = L.omegas
  beta : L'.beta = L.beta
  mu : L'.mu = L.mu
  delta : L'.delta = L.delta
  gs : L'.gs = L.gs
  dim : L'.dim = L.dim
  mesh : (L.mesh.1 : ℤ) = d.1 * L'.mesh.1 ∧ (L.mesh.2.1 : ℤ) = d.2.1 * L'.mesh.2.1 ∧ (L.mesh.2.2 : ℤ) = d.2.2 * L'.mesh.2.2

end Verif

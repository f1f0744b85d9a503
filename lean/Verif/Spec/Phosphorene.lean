import Mathlib.Analysis.SpecialFunctions.Trigonometric.Basic

/-!
# Specification: the ten-parameter model of black phosphorus

Phys. Rev. B 92, 085419.  Lengths in nm, energies in eV.  Each row has the absolute values of the three components of a bond and the
hopping parameter.
-/

namespace Verif.Phos

/-- Lengths of the two lattice vectors, offsets of the second atom along `b` and `c`. -/
noncomputable def a : ℝ := 2 * 0.22156 * Real.sin (48.395 * Real.pi / 180)
@[inherit_doc a] noncomputable def b : ℝ := 2 * 0.07159 + 2 * 0.22156 * Real.cos (48.395 * Real.pi / 180)
@[inherit_doc a] noncomputable def p : ℝ := 0.07159
@[inherit_doc a] noncomputable def q : ℝ := 0.22378 * Real.cos ((108.657 - 90) * Real.pi / 180)

/-- Bonds and hopping parameters. -/
noncomputable def bonds : List ((ℝ × ℝ × ℝ) × ℝ) :=
  [((a / 2, b / 2 - p, 0), -1.486), ((0, p, q), 3.729), ((a, 0, 0), -0.252), ((a / 2, b / 2 + p, 0), -0.071),
   ((a / 2, b / 2, q), 0.019), ((0, b - p, q), 0.186), ((0, b, 0), -0.063), ((3 * a / 2, b / 2 - p, 0), 0.101),
   ((a, b - p, q), -0.042), ((a, b, 0), 0.073)]

end Verif.Phos

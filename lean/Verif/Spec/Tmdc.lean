import Verif.Model.Tmdc
import Verif.Props.UnitarySym
import Verif.Spec.Crystal

/-!
# Specification of the monolayers of `make_tmdc`

Parameters of Fang et al., Phys. Rev. B 92, 205108, and the point group of the monolayer.
-/

namespace Verif.Tmdc

open PrimCell Props

/-- The materials. -/
def materials : List String := ["MoS2", "MoSe2", "WS2", "WSe2"]

/-- Lattice constant and distance of the chalcogen atoms, in nm. -/
noncomputable def latConst : String → ℝ × ℝ
  | "MoS2" => (0.316, 0.317)
  | "MoSe2" => (0.329, 0.333)
  | "WS2" => (0.315, 0.314)
  | _ => (0.328, 0.334)

/-- Names of the metal and the chalcogen. -/
def names : String → String × String
  | "MoS2" => ("Mo", "S")
  | "MoSe2" => ("Mo", "Se")
  | "WS2" => ("W", "S")
  | _ => ("W", "Se")

/-- The labels of the orbitals. -/
def labels (m : String) : List String :=
  ["dz2", "dxy", "dx2-y2", "dxz", "dyz"].map ((names m).1 ++ "_" ++ ·) ++ ["px", "py", "pz"].map ((names m).2 ++ "A_" ++ ·) ++
    ["px", "py", "pz"].map ((names m).2 ++ "B_" ++ ·)

/-- The 44 parameters: eleven energies, 21 hopping terms between equal atoms, 8 between nearest neighbours, 4 between next-nearest
neighbours of different kind. -/
noncomputable def params : String → List ℝ
  | "MoS2" => [1.0688, 1.0688, -0.7755, -1.2902, -1.2902, -0.1380, 0.0874, 0.0874, -2.8949, -1.9065, -1.9065, -0.2069,
      0.0323, -0.1739, 0.8651, -0.1872, -0.2979, 0.2747, -0.5581, -0.1916, 0.9122, 0.0059, -0.0679, 0.4096,
      0.0075, -0.2562, -0.0995, -0.0705, -0.1145, -0.2487, 0.1063, -0.0385, -0.7883, -1.3790, 2.1584, -0.8836,
      -0.9402, 1.4114, -0.9535, 0.6517, -0.0686, -0.1498, -0.2205, -0.2451]
  | "MoSe2" => [0.7819, 0.7819, -0.6567, -1.1726, -1.1726, -0.2297, 0.0149, 0.0149, -2.9015, -1.7806, -1.7806, -0.1460,
      0.0177, -0.2112, 0.9638, -0.1724, -0.2636, 0.2505, -0.4734, -0.2166, 0.9911, -0.0036, -0.0735, 0.3520,
      0.0047, -0.1912, -0.0755, -0.0680, -0.0960, -0.2012, 0.1216, -0.0394, -0.6946, -1.3258, 1.9415, -0.7720,
      -0.8738, 1.2677, -0.8578, 0.5545, -0.0691, -0.1553, -0.2227, -0.2154]
  | "WS2" => [1.3754, 1.3754, -1.1278, -1.5534, -1.5534, -0.0393, 0.1984, 0.1984, -3.3706, -2.3461, -2.3461, -0.2011,
      0.0263, -0.1749, 0.8726, -0.2187, -0.3716, 0.3537, -0.6892, -0.2112, 0.9673, 0.0143, -0.0818, 0.4896,
      -0.0315, -0.3106, -0.1105, -0.0989, -0.1467, -0.3030, 0.1645, -0.1018, -0.8855, -1.4376, 2.3121, -1.0130,
      -0.9878, 1.5629, -0.9491, 0.6718, -0.0659, -0.1533, -0.2618, -0.2736]
  | _ => [1.0349, 1.0349, -0.9573, -1.3937, -1.3937, -0.1667, 0.0984, 0.0984, -3.3642, -2.1820, -2.1820, -0.1395,
      0.0129, -0.2171, 0.9763, -0.1985, -0.3330, 0.3190, -0.5837, -0.2399, 1.0470, 0.0029, -0.0912, 0.4233,
      -0.0377, -0.2321, -0.0797, -0.0920, -0.1250, -0.2456, 0.1857, -0.1027, -0.7744, -1.4014, 2.0858, -0.8998,
      -0.9044, 1.4030, -0.8548, 0.5711, -0.0676, -0.1608, -0.2618, -0.2424]

/-- Symmetrised orbitals: the coefficient of orbital `a` of the cell in orbital `l` of the reference.  The orbitals of the cell are `dz2`,
`dxy`, `dx2-y2`, `dxz`, `dyz` of the metal, `px`, `py`, `pz` of the upper and of the lower chalcogen atom. -/
noncomputable def symm : ℕ → ℕ → ℝ
  | 0, 3 => 1
  | 1, 4 => 1
  | 2, 7 => 1 / Real.sqrt 2
  | 2, 10 => 1 / Real.sqrt 2
  | 3, 5 => 1 / Real.sqrt 2
  | 3, 8 => -(1 / Real.sqrt 2)
  | 4, 6 => 1 / Real.sqrt 2
  | 4, 9 => -(1 / Real.sqrt 2)
  | 5, 0 => 1
  | 6, 1 => 1
  | 7, 2 => 1
  | 8, 7 => 1 / Real.sqrt 2
  | 8, 10 => -(1 / Real.sqrt 2)
  | 9, 5 => 1 / Real.sqrt 2
  | 9, 8 => 1 / Real.sqrt 2
  | 10, 6 => 1 / Real.sqrt 2
  | 10, 9 => 1 / Real.sqrt 2
  | _, _ => 0

/-- The matrix elements given by the parameters: cell and symmetrised orbitals. -/
def elements : List (Cell × ℕ × ℕ) :=
  [(0, 0, 0), (0, 1, 1), (0, 2, 2), (0, 3, 3), (0, 4, 4), (0, 5, 5), (0, 6, 6), (0, 7, 7), (0, 8, 8), (0, 9, 9), (0, 10, 10),
   ((-1, 1, 0), 0, 0), ((-1, 1, 0), 1, 1), ((-1, 1, 0), 2, 2), ((-1, 1, 0), 3, 3), ((-1, 1, 0), 4, 4), ((-1, 1, 0), 5, 5), ((-1, 1, 0), 6, 6),
   ((-1, 1, 0), 7, 7), ((-1, 1, 0), 8, 8), ((-1, 1, 0), 9, 9), ((-1, 1, 0), 10, 10), ((-1, 1, 0), 2, 4), ((-1, 1, 0), 5, 7), ((-1, 1, 0), 8, 10),
   ((-1, 1, 0), 0, 1), ((-1, 1, 0), 2, 3), ((-1, 1, 0), 3, 4), ((-1, 1, 0), 5, 6), ((-1, 1, 0), 6, 7), ((-1, 1, 0), 8, 9), ((-1, 1, 0), 9, 10),
   (0, 3, 0), (0, 2, 1), (0, 4, 1), (0, 8, 5), (0, 10, 5), (0, 9, 6), (0, 8, 7), (0, 10, 7),
   ((-1, -1, 0), 8, 5), ((-1, -1, 0), 10, 5), ((-1, -1, 0), 8, 7), ((-1, -1, 0), 10, 7)]

/-- The angular part of an orbital of the cell. -/
noncomputable def shape (i : ℕ) (r : Fin 3 → ℝ) : ℝ :=
  match i with
  | 0 => (2 * r 2 ^ 2 - r 0 ^ 2 - r 1 ^ 2) / (2 * Real.sqrt 3)
  | 1 => r 0 * r 1
  | 2 => (r 0 ^ 2 - r 1 ^ 2) / 2
  | 3 => r 0 * r 2
  | 4 => r 1 * r 2
  | 5 => r 0
  | 6 => r 1
  | 7 => r 2
  | 8 => r 0
  | 9 => r 1
  | 10 => r 2
  | _ => 0

/-- The isometry `r → Q r + v` of space is a symmetry of the crystal: it takes sites to sites, it takes orbitals to orbitals, and it keeps
the Hamiltonian of the infinite crystal.  On Bloch vectors it acts by `A`. -/
def Invariant (s : PrimCell ℝ ℂ String) (Q : Matrix (Fin 3) (Fin 3) ℝ) (v : Fin 3 → ℝ) (A : Matrix (Fin 3) (Fin 3) ℤ) : Prop :=
  ∃ (U : ℕ → ℕ → ℝ) (τ : ℕ → Cell), UnitarySym s A (Matrix.of fun a i => (U a i : ℂ)) τ ∧
    (∀ R, ∀ i < 11, ∀ a < 11, U a i ≠ 0 → sitePos s (cellMul A R + τ i) a = Q.mulVec (sitePos s R i) + v) ∧
    ∀ i < 11, ∀ r, shape i (Q.transpose.mulVec r) = ∑ a ∈ Finset.range 11, U a i * shape a r

/-- The rotation by 120 degrees about the axis through the chalcogen atoms. -/
noncomputable def rot3 : Matrix (Fin 3) (Fin 3) ℝ := !![-(1 / 2), -(Real.sqrt 3 / 2), 0; Real.sqrt 3 / 2, -(1 / 2), 0; 0, 0, 1]

end Verif.Tmdc

import Verif.Model.Materials

/-!
# Model of `make_black_phosphorus`

`/repo/tbplas/materials/phosphorene.py`.  Real arithmetic is exact.
-/

namespace Verif.Materials

open PrimCell

/-- `dist_nn`, `dist_nnb`, `theta`, `theta_z`, `dist_nz`, and from them `a`, `b`, `p`, `q`: phosphorene.py:24-28, 43-46. -/
noncomputable def bpA : ℝ := 2 * 0.22156 * Real.sin (48.395 * Real.pi / 180)
@[inherit_doc bpA] noncomputable def bpB : ℝ := 2 * 0.07159 + 2 * 0.22156 * Real.cos (48.395 * Real.pi / 180)
@[inherit_doc bpA] noncomputable def bpP : ℝ := 0.07159
@[inherit_doc bpA] noncomputable def bpQ : ℝ := 0.22378 * Real.cos ((108.657 - 90) * Real.pi / 180)

/-- `t_1` to `t_10`, phosphorene.py:31-40. -/
noncomputable def bpT : ℕ → ℝ
  | 1 => -1.486
  | 2 => 3.729
  | 3 => -0.252
  | 4 => -0.071
  | 5 => 0.019
  | 6 => 0.186
  | 7 => -0.063
  | 8 => 0.101
  | 9 => -0.042
  | 10 => 0.073
  | _ => 0

/-- The lattice vectors, phosphorene.py:47. -/
noncomputable def bpLat (c : ℝ) : Mat3 ℝ := !![bpA, 0, 0; 0, bpB, 0; 0, 0, c]

/-- The Cartesian coordinates, phosphorene.py:50-54. -/
noncomputable def bpCoords : List (Vec3 ℝ) :=
  [![0, 0, 0], ![0, bpP, bpQ], ![bpA / 2, bpB / 2, bpQ], ![bpA / 2, bpB / 2 + bpP, 0]]

/-- The arguments of `add_hopping`, phosphorene.py:64-107; the last component is the number of the hopping parameter. -/
def bpHops : List (List ℤ × ℤ × ℤ × ℕ) :=
  [([0, 0], 0, 1, 2), ([0, -1], 0, 3, 1), ([-1, -1], 0, 3, 1), ([0, 0], 0, 2, 5), ([-1, 0], 0, 2, 5), ([0, -1], 0, 2, 5),
   ([-1, -1], 0, 2, 5), ([0, 0], 0, 3, 4), ([-1, 0], 0, 3, 4), ([0, -1], 0, 1, 6), ([1, 0], 0, 0, 3), ([0, 1], 0, 0, 7),
   ([-2, -1], 0, 3, 8), ([1, -1], 0, 3, 8), ([-1, -1], 0, 1, 9), ([1, -1], 0, 1, 9), ([1, 1], 0, 0, 10), ([-1, 1], 0, 0, 10),
   ([0, 0], 1, 2, 1), ([-1, 0], 1, 2, 1), ([-1, -1], 1, 3, 5), ([0, -1], 1, 3, 5), ([0, 0], 1, 3, 5), ([-1, 0], 1, 3, 5),
   ([-1, -1], 1, 2, 4), ([0, -1], 1, 2, 4), ([1, 0], 1, 1, 3), ([0, 1], 1, 1, 7), ([-2, 0], 1, 2, 8), ([1, 0], 1, 2, 8),
   ([1, 1], 1, 1, 10), ([-1, 1], 1, 1, 10), ([1, 0], 2, 2, 3), ([0, 1], 2, 2, 7), ([1, 1], 2, 2, 10), ([-1, 1], 2, 2, 10),
   ([0, 0], 2, 3, 2), ([0, -1], 2, 3, 6), ([-1, -1], 2, 3, 9), ([1, -1], 2, 3, 9), ([1, 0], 3, 3, 3), ([0, 1], 3, 3, 7),
   ([1, 1], 3, 3, 10), ([-1, 1], 3, 3, 10)]

/-- `make_black_phosphorus`, phosphorene.py:12-108. -/
noncomputable def blackPhosphorus (H : HashFns ℝ ℂ String) (c : ℝ) : Except PCErr (PrimCell ℝ ℂ String) :=
  match cart2frac (bpLat c) bpCoords 0 with
  | none => .error .linAlg
  | some pos => runOk H (init H (bpLat c) 0) ((pos.map fun x => .addOrbital [x 0, x 1, x 2] 0 "P_pz") ++
      bpHops.map fun q => .addHopping q.1 q.2.1 q.2.2.1 (bpT q.2.2.2 : ℂ))

end Verif.Materials

import Verif.Spec.SkCells
import Verif.Spec.Soc

/-!
# Monolayer MoS2 with spin-orbit coupling

What `make_mos2_soc` is documented to be: the eleven d orbitals of Mo and p orbitals of the two S atoms, with two-centre hopping,
once for each spin, and the coupling `λ L.S` on each atom.  The orbital with number `11 σ + i` is orbital `i` with spin `σ`
(0 up, 1 down).
-/

namespace Verif.Mos2

open SK

/-- Atom and orbital names. -/
def names : List (String × String) :=
  [("Mo", "dz2"), ("Mo", "dzx"), ("Mo", "dyz"), ("Mo", "dx2-y2"), ("Mo", "dxy"), ("S1", "px"), ("S1", "py"), ("S1", "pz"),
   ("S2", "px"), ("S2", "py"), ("S2", "pz")]

/-- The kind of an orbital. -/
def kind : ℕ → OrbLabel
  | 0 => .dz2
  | 1 => .d .z .x
  | 2 => .d .y .z
  | 3 => .dx2y2
  | 4 => .d .x .y
  | 5 | 8 => .p .x
  | 6 | 9 => .p .y
  | 7 | 10 => .p .z
  | _ => .other

/-- The atom of an orbital: 0 is Mo, 1 and 2 are S. -/
def atom (i : ℕ) : ℕ := if i < 5 then 0 else if i < 8 then 1 else 2

/-- Energies in eV. -/
noncomputable def energy : ℕ → ℝ
  | 0 => -1.512
  | 1 | 2 => 0.419
  | 3 | 4 => -3.025
  | 5 | 6 | 8 | 9 => -1.276
  | _ => -8.236

/-- Positions in units of the lattice vectors. -/
noncomputable def position (p : ℕ) : Vec3 ℝ := if p = 0 then ![0.66667, 0.33333, 1 / 2] else if p = 1 then 0 else ![0, 0, 1]

/-- Lattice vectors in nanometer. -/
noncomputable def lattice : Mat3 ℝ := !![0.316, 0, 0; -0.1579999, 0.2736640276, 0; 0, 0, 0.3172]

/-- Slater-Koster parameters in eV. -/
noncomputable def par : Par where
  sss := 0
  sps := 0
  sds := 0
  pps := 0.696
  ppp := 0.278
  pds := -2.619
  pdp := -1.396
  dds := -0.933
  ddp := -0.478
  ddd := -0.442

/-- Strength of the spin-orbit coupling in eV. -/
noncomputable def lambda (p : ℕ) : ℝ := if p = 0 then 0.075 else 0.052

/-- The bonds from atom `p` to atom `q` of cell `R`: six neighbours of the same kind in the plane, three neighbours of Mo in each
layer of S, and the other S above or below. -/
def bonds (p q : ℕ) : List (ℤ × ℤ) :=
  if p = q then [(1, 0), (-1, 0), (0, 1), (0, -1), (1, 1), (-1, -1)]
  else if p = 0 then [(0, 0), (1, 0), (1, 1)]
  else if q = 0 then [(0, 0), (-1, 0), (-1, -1)]
  else [(0, 0)]

/-- Spin of an orbital. -/
def spin (x : ℕ) : Fin 2 := if x < 11 then 0 else 1

/-- Matrix element of `L.S` between two orbitals. -/
noncomputable def ls (x y : ℕ) : ℂ := Soc.spinOrbit (tensD (kind (x % 11))) (spin x) (tensD (kind (y % 11))) (spin y)

/-- The vector in nanometer from orbital `x` of cell 0 to orbital `y` of cell `R`. -/
noncomputable def displacement (R : Cell) (x y : ℕ) : Vec3 ℝ := fun k =>
  ∑ a, (position (atom (y % 11)) a + (![R.1, R.2.1, R.2.2] a : ℤ) - position (atom (x % 11)) a) * lattice a k

/-- The two-centre integral of a bond. -/
noncomputable def twoCentreHop (R : Cell) (x y : ℕ) : ℂ :=
  twoCentre par (fun k => displacement R x y k / norm3 (displacement R x y)) (tensD (kind (x % 11))) (tensD (kind (y % 11)))

open Classical in
/-- The hopping from orbital `x` of cell 0 to orbital `y` of cell `R`: two-centre hopping without change of the spin between bonded
atoms, spin-orbit coupling between different orbitals of one atom. -/
noncomputable def hopping (R : Cell) (x y : ℕ) : Option ℂ :=
  if spin x = spin y ∧ R.2.2 = 0 ∧ (R.1, R.2.1) ∈ bonds (atom (x % 11)) (atom (y % 11)) then some (twoCentreHop R x y)
  else if R = 0 ∧ atom (x % 11) = atom (y % 11) ∧ ls x y ≠ 0 then some (lambda (atom (x % 11)) * ls x y)
  else none

end Verif.Mos2

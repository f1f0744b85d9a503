import Verif.Spec.Atom
import Verif.Model.Lattice
import Mathlib.Analysis.SpecialFunctions.Complex.Circle
import Mathlib.Data.Int.Interval
import Mathlib.Data.Fintype.BigOperators

/-!
# Bloch waves in real space, independently of the code
-/

namespace Verif.CubeSpec

/-- The cells from `-m` to `m` in every direction. -/
noncomputable def box (m : Fin 3 → ℤ) : Finset (Fin 3 → ℤ) := Fintype.piFinset fun c => Finset.Icc (-m c) (m c)

/-- The lattice vector of a cell. -/
noncomputable def translation (lat : Mat3 ℝ) (R : Fin 3 → ℤ) : Vec3 ℝ := fun x => ∑ c, (R c : ℝ) * lat c x

/-- Displacement, in units of `a0`, from orbital `b` in cell `R` to the point `r`. -/
noncomputable def away (a0 : ℝ) (lat : Mat3 ℝ) (p r : Vec3 ℝ) (R : Fin 3 → ℤ) : Vec3 ℝ := fun x => (r x - (p x + translation lat R x)) / a0

/-- The wave `Σ_b c_b N^{-1/2} Σ_R exp(2πi θ(b,R)) ψ_b(r - r_b - R)`. -/
noncomputable def wave {n : ℕ} (ψ : Atom.Qn → ℝ → ℝ → ℝ → ℝ) (a0 : ℝ) (lat : Mat3 ℝ) (pos : Fin n → Vec3 ℝ) (q : Fin n → Atom.Qn) (c : Fin n → ℂ)
    (θ : Fin n → (Fin 3 → ℤ) → ℝ) (m : Fin 3 → ℤ) (r : Vec3 ℝ) : ℂ :=
  ∑ b, c b * ((∑ R ∈ box m, Complex.exp (2 * Real.pi * Complex.I * θ b R) *
    ψ (q b) (away a0 lat (pos b) r R 0) (away a0 lat (pos b) r R 1) (away a0 lat (pos b) r R 2)) / Real.sqrt (box m).card)

/-- The real number plotted. -/
noncomputable def shown (kind : String) (w : ℂ) : ℝ :=
  if kind = "real" then w.re else if kind = "imag" then w.im else Complex.normSq w

/-- The origin of the plot: as given, or by default the smallest coordinates of the orbitals. -/
def OriginIs {n : ℕ} (pos : Fin n → Vec3 ℝ) (arg : Option (Vec3 ℝ)) (o : Vec3 ℝ) : Prop :=
  arg = some o ∨ arg = none ∧ ∀ x, IsLeast (Set.range fun b => pos b x) (o x)

/-- The size of the plot: as given, or by default the extent of the orbitals but at least 1 nm. -/
def SizeIs {n : ℕ} (pos : Fin n → Vec3 ℝ) (arg : Option (Vec3 ℝ)) (s : Vec3 ℝ) : Prop :=
  arg = some s ∨ arg = none ∧ ∀ x, ∃ lo hi, IsLeast (Set.range fun b => pos b x) lo ∧ IsGreatest (Set.range fun b => pos b x) hi ∧ s x = max 1 (hi - lo)

end Verif.CubeSpec

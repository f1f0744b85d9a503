import Verif.Spec.SlaterKoster
import Verif.Model.Soc

/-!
# Specification of spin-orbit coupling

The operator `L.S` on the nine orbitals, from the infinitesimal rotations of their tensors, and the textbook action of the
angular momentum operators on `|l,m>`.
-/

namespace Verif.Soc
open SK

/-- Infinitesimal rotation about axis `k`: `v ↦ e_k × v`. -/
def crossMat : Fin 3 → Mat3 ℝ
  | 0 => !![0, 0, 0; 0, 0, -1; 0, 1, 0]
  | 1 => !![0, 0, 1; 0, 0, 0; -1, 0, 0]
  | 2 => !![0, -1, 0; 1, 0, 0; 0, 0, 0]

/-- Change of an orbital under an infinitesimal rotation. -/
noncomputable def turn (k : Fin 3) : Tens → Tens
  | .s _ => .s 0
  | .p a => .p ((crossMat k).mulVec a)
  | .d A => .d (crossMat k * A - A * crossMat k)

/-- Matrix element of the angular momentum, `<a| L_k |b>` with `L_k = i d/dθ`. -/
noncomputable def angMom (k : Fin 3) (a b : Tens) : ℂ := Complex.I * ((a.inner (turn k b) : ℝ) : ℂ)

/-- The Pauli matrices. -/
noncomputable def pauli : Fin 3 → Matrix (Fin 2) (Fin 2) ℂ
  | 0 => !![0, 1; 1, 0]
  | 1 => !![0, -Complex.I; Complex.I, 0]
  | 2 => !![1, 0; 0, -1]

/-- `<a σ| L.S |b τ>`. -/
noncomputable def spinOrbit (a : Tens) (σ : Fin 2) (b : Tens) (τ : Fin 2) : ℂ :=
  ∑ k, angMom k a b * (pauli k σ τ / 2)

/-- Row and column of a spin label. -/
def spinIndex : SpinLabel → Option (Fin 2)
  | .up => some 0
  | .down => some 1
  | .other => none

/-- The coefficient of `|l,m>` in an orbital. -/
noncomputable def coef (a : AtOrb) (l m : ℤ) : ℂ := (PyDict.get? a (l, m)).getD 0

/-- `L+`: the coefficient of `|l,m>` in `L+ a`. -/
noncomputable def raised (f : ℤ → ℤ → ℂ) (l m : ℤ) : ℂ :=
  if -l < m ∧ m ≤ l then (Real.sqrt (((l : ℝ) + m) * (l - m + 1)) : ℂ) * f l (m - 1) else 0

/-- `L-`: the coefficient of `|l,m>` in `L- a`. -/
noncomputable def lowered (f : ℤ → ℤ → ℂ) (l m : ℤ) : ℂ :=
  if -l ≤ m ∧ m < l then (Real.sqrt (((l : ℝ) - m) * (l + m + 1)) : ℂ) * f l (m + 1) else 0

end Verif.Soc

import Verif.Model.Analysis

/-! # Specification of the analysis of correlation functions -/

namespace Verif.Analysis

/-- The correlation function at positive and negative times: `C(-t)` is the conjugate of `C(t)`. -/
noncomputable def atTime (corr : ℕ → ℂ) (t : ℤ) : ℂ := if 0 ≤ t then corr t.natAbs else star (corr t.natAbs)

/-- The window as applied by `calc_dos`: none at `t = 0`, the value with index `|t| - 1` otherwise. -/
def dosWeight (window : ℕ → ℕ → ℝ) (n : ℕ) (t : ℤ) : ℝ := if t = 0 then 1 else window (t.natAbs - 1) n

/-- Modulus of the windowed Fourier transform of a correlation function at the energy `en`, with `-n < t ≤ n` time steps of
`tau`. -/
noncomputable def spectrum (window : ℕ → ℕ → ℝ) (n : ℕ) (tau : ℝ) (corr : ℕ → ℂ) (en : ℝ) : ℝ :=
  ‖∑ t ∈ Finset.Ioc (-(n : ℤ)) n, dosWeight window n t * atTime corr t * Complex.exp (Complex.I * en * t * tau)‖

/-- 2 if the result is corrected for spin, else 1. -/
def Ctx.spinFactor (c : Ctx) : ℝ := if c.spin then 2 else 1

/-- The kernel of the Kubo-Bastin formula:
`Γ_mn(x) = (cos x - i n sin x) exp(i n x) cos(m x) + (cos x + i m sin x) exp(-i m x) cos(n x)`. -/
noncomputable def kuboBastin (x : ℝ) (m n : ℕ) : ℂ :=
  (Real.cos x - Complex.I * n * Real.sin x) * Complex.exp (Complex.I * n * x) * Real.cos (m * x) +
    (Real.cos x + Complex.I * m * Real.sin x) * Complex.exp (-(Complex.I * m * x)) * Real.cos (n * x)

end Verif.Analysis

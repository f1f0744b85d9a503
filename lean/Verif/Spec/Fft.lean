import Verif.Model.Fft

/-! # Specification of the Fourier transform -/

namespace Verif.Fft

/-- The discrete Fourier transform of length `n`: `Σ_m x_m exp(sgn 2 pi i k m / n)`. -/
noncomputable def dft (sgn : ℤ) (n : ℕ) (x : ℕ → ℂ) (k : ℕ) : ℂ :=
  ∑ m ∈ Finset.range n, x m * Complex.exp (sgn * (2 * Real.pi * Complex.I) * k * m / n)

end Verif.Fft

import Mathlib.Analysis.SpecialFunctions.Exponential
import Mathlib.Topology.Algebra.InfiniteSum.Basic

/-! # Bessel functions of the first kind -/

namespace Verif

/-- The Bessel function of the first kind of order `n` by its power series
(DLMF 10.2.2; what `scipy.special.jv` is documented to return). -/
noncomputable def besselJ (n : ℕ) (x : ℝ) : ℝ :=
  ∑' k : ℕ, (-1) ^ k / (k.factorial * (n + k).factorial : ℝ) * (x / 2) ^ (2 * k + n)

end Verif

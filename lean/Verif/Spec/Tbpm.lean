import Verif.Model.Tbpm
import Verif.Spec.Kernel

/-! # Specification of the TBPM drivers -/

namespace Verif.Tbpm

variable {n : ℕ}

/-- The assumptions on the arguments of the drivers: every parallel loop runs over all rows in some order, the column indices are
legal, and the Bessel series has at least three terms (see `C54_short_series`). -/
structure Env.Good (e : Env n) : Prop where
  order : ∀ key k, IsOrder (e.sch key k)
  legal : e.ham.Legal n
  three : 3 ≤ e.nbes

/-- The Hamiltonian as a matrix. -/
noncomputable def Env.H (e : Env n) : Matrix (Fin n) (Fin n) ℂ := e.ham.toMatrix n

/-- The operator of one time step, forwards or backwards: the Chebyshev series with the given coefficients. -/
noncomputable def Env.U (e : Env n) (fwd : Bool) : Matrix (Fin n) (Fin n) ℂ :=
  (e.bes 0 : ℂ) • 1 + ∑ k ∈ Finset.Ico 1 e.nbes,
    (2 * e.bes k * (if fwd then -Complex.I else Complex.I) ^ k) • chebT k e.H

/-- A Chebyshev series of the Hamiltonian. -/
noncomputable def Env.chebSeries (e : Env n) (c : (ℕ → ℝ) × ℕ) : Matrix (Fin n) (Fin n) ℂ :=
  ∑ k ∈ Finset.range c.2, (c.1 k : ℂ) • chebT k e.H

/-- Mean of a quantity over the states with the seeds `seed`, `2 seed`, ..., `N seed`. -/
def meanSamples (K : Type*) [Field K] {A : Type*} [AddCommMonoid A] [Module K A] (N : ℕ) (seed : ℤ) (f : ℤ → A) : A :=
  (N : K)⁻¹ • ∑ j ∈ Finset.range N, f (seed * (j + 1))

/-- The norm test fails: the squared norms of two states differ by more than the threshold. -/
def Drifts (thr : ℝ) (x y : CVec n) : Prop := ‖innerProd x x - innerProd y y‖ > thr

/-- The filter selecting an energy: the windowed Fourier transform of the propagation over `-nt ≤ t ≤ nt`. -/
noncomputable def Env.filter (e : Env n) (nt : ℕ) (tstep energy : ℝ) : Matrix (Fin n) (Fin n) ℂ :=
  1 + ∑ t ∈ Finset.Icc 1 nt, ((1 + Real.cos (Real.pi * t / nt)) / 2 : ℝ) •
    (Complex.exp (Complex.I * energy * t * tstep) • e.U true ^ t + Complex.exp (-(Complex.I * energy * t * tstep)) • e.U false ^ t)

end Verif.Tbpm

import Verif.Model.ParamFit

/-!
# What fitting means
-/

namespace Verif.ParamFit

/-- Weighted squared deviation of the bands from the reference: band `b` counts with the square of its weight. -/
def deviation {m n : ℕ} (ref bands : Fin m → Fin n → ℝ) (w : Fin n → ℝ) : ℝ :=
  ∑ a, ∑ b, (w b * (ref a b - bands a b)) ^ 2

/-- The weights used: one for every band if none are given, otherwise the absolute values of those given divided by their sum. -/
def IsWeight {n : ℕ} (wt : Weights) (w : Fin n → ℝ) : Prop :=
  (wt = .absent ∧ ∀ b, w b = 1) ∨
    ∃ l : List ℝ, wt = .float l ∧ l.length = n ∧ ∀ b, w b = |l.getD b 0| / ∑ c : Fin n, |l.getD c 0|

/-- The minimiser does what it is for: the parameters returned with a status of success have the least sum of
squares of all parameters. -/
def Minimises {P : Type*} (leastsq : (P → List ℝ) → P → P × ℤ) : Prop :=
  ∀ f p0, (leastsq f p0).2 ∈ ([1, 2, 3, 4] : List ℤ) → ∀ p, ((f (leastsq f p0).1).map (· ^ 2)).sum ≤ ((f p).map (· ^ 2)).sum

end Verif.ParamFit

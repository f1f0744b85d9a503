import Mathlib.Data.Real.Basic
import Mathlib.Algebra.BigOperators.Fin
import Mathlib.Algebra.BigOperators.Group.List.Basic

/-!
# Model of `ParamFit`, `/repo/tbplas/builder/advanced.py` 1421-1504

The abstract methods `calc_bands_ref` and `calc_bands_fit` are arguments; both return `m × n` arrays (k-points times
bands).  `leastsq` of SciPy is an argument.  Real arithmetic is exact; division by a zero sum of weights, which yields NaN
weights and no exception, is the separate outcome `nan`.
-/

namespace Verif.ParamFit

/-- Outcomes other than a result. -/
inductive FitErr where
  | value | type | nan | runtime
deriving DecidableEq

/-- The `weights` argument: absent, a float array or an integer array. -/
inductive Weights where
  | absent
  | float (w : List ℝ)
  | int (w : List ℤ)

/-- Attributes `_bands_ref` and `_weights`. -/
structure Fit (m n : ℕ) where
  ref : Fin m → Fin n → ℝ
  weights : List ℝ

/-- `__init__`, advanced.py:1435-1454.  Dividing an integer array in place by its sum (line 1453) is refused by NumPy
(`UFuncTypeError`). -/
noncomputable def init {m n : ℕ} (ref : Fin m → Fin n → ℝ) : Weights → Except FitErr (Fit m n)
  | .absent => .ok ⟨ref, List.replicate n 1⟩
  | .float w =>
    if w.length ≠ n then .error .value
    else
      let a := w.map fun x => |x|
      if a.sum = 0 then .error .nan else .ok ⟨ref, a.map fun x => x / a.sum⟩
  | .int w => if w.length ≠ n then .error .value else .error .type

/-- `bands_diff[:, i] *= w`, advanced.py:1488. -/
def scaleCol {m n : ℕ} (d : Fin m → Fin n → ℝ) (i : ℕ) (w : ℝ) : Fin m → Fin n → ℝ :=
  fun a b => if (b : ℕ) = i then d a b * w else d a b

/-- `bands_diff.flatten()`, advanced.py:1489: row after row. -/
def flatten {m n : ℕ} (d : Fin m → Fin n → ℝ) : List ℝ :=
  (List.finRange m).flatMap fun a => (List.finRange n).map fun b => d a b

/-- `estimate_error`, advanced.py:1477-1489. -/
def estimateError {m n : ℕ} {P : Type*} (o : Fit m n) (bandsFit : P → Fin m → Fin n → ℝ) (p : P) : List ℝ :=
  flatten (o.weights.zipIdx.foldl (fun d q => scaleCol d q.2 q.1) (fun a b => o.ref a b - bandsFit p a b))

/-- `fit`, advanced.py:1491-1504.  `leastsq` takes the function to minimise and the initial parameters and returns parameters and
status. -/
def fit {m n : ℕ} {P : Type*} (leastsq : (P → List ℝ) → P → P × ℤ) (o : Fit m n) (bandsFit : P → Fin m → Fin n → ℝ) (p0 : P) :
    Except FitErr P :=
  let r := leastsq (estimateError o bandsFit) p0
  if r.2 = 1 ∨ r.2 = 2 ∨ r.2 = 3 ∨ r.2 = 4 then .ok r.1 else .error .runtime

end Verif.ParamFit

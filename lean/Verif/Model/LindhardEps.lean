import Verif.Model.LindhardAC
import Verif.Model.Config

/-! # Construction of a Lindhard calculator and the dielectric function -/

namespace Verif

/-- Exceptions of the functions of this file: `ValueError`, `ZeroDivisionError`, `TypeError`, `IndexError`. -/
inductive LindErr where
  | value | zeroDivision | type | index
deriving DecidableEq

namespace Lind


/-- `EPSILON0`, constants.py:13. -/
noncomputable def eps0 : ℝ := 0.6944615417149689

/-- `Lindhard.__init__`, lindhard.py:151-196.  `kmesh` is the list given for `kmesh_size`; the entries are non-negative in
this model and `energy_step` is a natural number.  `back_epsilon` is not kept in `Lind`: it is an argument of the functions
below. -/
noncomputable def new (D : Diag) (lat : Mat3 ℝ) (orbPos : ℕ → Vec3 ℝ) (ext : ℝ) (kmesh : List ℕ) (emin emax : ℝ) (step : ℕ)
    (mu temperature gs : ℝ) (dim : ℕ) (delta : ℝ) : Except LindErr Lind :=
  match kmesh with
  | [ka, kb, kc] =>
    if Config.KB * temperature = 0 then .error .zeroDivision
    else if ¬ (dim = 2 ∨ dim = 3) then .error .value
    else if dim = 2 ∧ kc ≠ 1 then .error .value
    else .ok { D := D, lat := lat, orbPos := orbPos, mesh := (ka, kb, kc), omegas := npLinspace emin emax step,
               beta := 1 / (Config.KB * temperature), mu := mu, delta := delta, gs := gs, ext := ext, dim := dim }
  | _ => .error .value

/-- `_get_vq`, lindhard.py:512-526.  For `q = 0` numpy divides by zero and the result is infinite: `none`. -/
noncomputable def getVq (L : Lind) (backEps : ℝ) (q : Vec3 ℝ) : Option ℝ :=
  let factor := 1 / (eps0 * backEps)
  let qNorm := norm3 q
  if qNorm = 0 then none
  else some (if L.dim = 2 then factor * 2 * Real.pi / qNorm else factor * 4 * Real.pi / qNorm ^ 2)

/-- The argument `q_points` of `calc_epsilon`: an array, or anything else. -/
inductive QArg where
  | array (q : List (Vec3 ℝ))
  | other (q : List (Vec3 ℝ))

/-- `calc_epsilon`, lindhard.py:528-549, with `num` rows in `dyn_pol`; an entry is `none` if it is not a finite number.  If
`q_points` is not an array it is passed to `np.ndarray`, which takes it for a shape: nested lists raise `TypeError`, and an
empty one has no first dimension. -/
noncomputable def calcEpsilon (L : Lind) (backEps : ℝ) (qs : QArg) (num : ℕ) (dynPol : ℕ → ℕ → ℂ) :
    Except LindErr (ℕ → ℕ → Option ℂ) :=
  match qs with
  | .other [] => .error .index
  | .other (_ :: _) => .error .type
  | .array q => q.zipIdx.foldlM (fun (e : ℕ → ℕ → Option ℂ) (p : Vec3 ℝ × ℕ) =>
      let vq := L.getVq backEps p.1
      if p.2 < num then
        .ok (Function.update e p.2 fun iw => if iw < L.omegas.length then vq.map fun v : ℝ => 1 - (v : ℂ) * dynPol p.2 iw else some 0)
      else .error .index) (fun _ _ => some 0)

/-- `calc_epsilon_q0`, lindhard.py:648-664, for arrays of equal lengths; entry `none` where numpy divides by zero. -/
noncomputable def calcEpsilonQ0 (L : Lind) (backEps : ℝ) (omegas : List ℝ) (ac : ℕ → ℂ) : Except LindErr (List (Option ℂ)) :=
  if L.dim ≠ 3 then .error .value
  else
    let prefactor := 4 * Real.pi / (backEps * eps0)
    .ok (omegas.zipIdx.map fun p => if p.1 = 0 then none else some (1 + Complex.I * (prefactor : ℂ) * ac p.2 / (p.1 : ℂ)))

end Lind
end Verif

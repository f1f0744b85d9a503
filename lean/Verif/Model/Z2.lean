import Verif.Model.Parallel
import Mathlib.Analysis.SpecialFunctions.Complex.Arg
import Mathlib.LinearAlgebra.Matrix.ConjTranspose
import Mathlib.Data.Matrix.Mul

/-!
# Model of the Z2 calculator

`/repo/tbplas/diagonal/z2.py` 54-299.  LAPACK's `zheev` is part of `Diag`; `zgeev` is a parameter (list of eigenvalues).  Real
and complex arithmetic is exact.
-/

namespace Verif.Z2

/-- `_get_h_eigenstates`, z2.py:54-65; convention 1 is the default of `_diag_ham_dense`. -/
def hEigenstates (D : Diag) (buf : Buf) (k : Vec3 ℝ) : Except ParErr (Buf × (ℕ → ℕ → ℂ)) :=
  match diagDense D buf k 1 with
  | .error e => .error e
  | .ok (b, ev, vec) => .ok (b, fun o => fancy (vec o) (D.argsort ev))

/-- `_eval_f_mat`, z2.py:78-92; `np.vdot` conjugates its first argument. -/
def fMat (nb nocc : ℕ) (vec0 vec1 : ℕ → ℕ → ℂ) : Matrix (Fin nocc) (Fin nocc) ℂ :=
  Matrix.of fun i j => (List.range nb).foldl (fun s o => s + star (vec0 o i) * vec1 o j) 0

/-- Buffer, `_d_mat` and `vec0` in the loop over the a-axis. -/
abbrev WSt (nocc : ℕ) := Buf × Matrix (Fin nocc) (Fin nocc) ℂ × (ℕ → ℕ → ℂ)

/-- Loop body z2.py:169-174. -/
def wilsonStep (D : Diag) (nocc : ℕ) (kb kc : ℝ) (st : WSt nocc) (ka : ℝ) : Except ParErr (WSt nocc) :=
  match hEigenstates D st.1 ![ka, kb, kc] with
  | .error e => .error e
  | .ok (b, vec1) => .ok (b, st.2.1 * fMat D.nb nocc st.2.2 vec1, vec1)

/-- The D matrix of one `kb`, z2.py:158-178; `ka_array.item(0)` of an empty array raises `IndexError`. -/
def wilson (D : Diag) (nocc : ℕ) (buf : Buf) (ka : List ℝ) (kb kc : ℝ) :
    Except ParErr (Buf × Matrix (Fin nocc) (Fin nocc) ℂ) :=
  match ka with
  | [] => .error .index
  | ka0 :: kas =>
    match hEigenstates D buf ![ka0, kb, kc] with
    | .error e => .error e
    | .ok (b, vec0) =>
      match kas.foldlM (wilsonStep D nocc kb kc) (b, 1, vec0) with
      | .error e => .error e
      | .ok st => .ok (st.1, st.2.1 * fMat D.nb nocc st.2.2 vec0)

/-- `_get_d_eigenvalues`, z2.py:67-76: NumPy sorts complex numbers by real, then by imaginary part. -/
noncomputable def dEigenvalues {n : ℕ} (geev : Matrix (Fin n) (Fin n) ℂ → List ℂ) (d : Matrix (Fin n) (Fin n) ℂ) : List ℂ :=
  (geev d).mergeSort fun a b => a.re < b.re || (a.re = b.re && a.im ≤ b.im)

/-- `_eval_phase`, z2.py:94-108, element by element. -/
noncomputable def evalPhase (z : ℂ) : ℝ := if ‖z‖ < 1.0e-14 then 0 else Complex.arg z

/-- The phases of one `kb`, z2.py:181-184. -/
noncomputable def phaseRow {n : ℕ} (geev : Matrix (Fin n) (Fin n) ℂ → List ℂ) (d : Matrix (Fin n) (Fin n) ℂ) : List ℝ :=
  ((dEigenvalues geev d).map evalPhase).mergeSort (fun a b => a ≤ b)

/-- Loop body z2.py:157-184: buffer and phases of one process. -/
noncomputable def phasesStep (D : Diag) (nocc : ℕ) (geev : Matrix (Fin nocc) (Fin nocc) ℂ → List ℂ) (ka : List ℝ) (kb : ℕ → ℝ)
    (kc : ℝ) (st : Buf × (ℕ → ℕ → ℝ)) (ib : ℕ) : Except ParErr (Buf × (ℕ → ℕ → ℝ)) :=
  match wilson D nocc st.1 ka (kb ib) kc with
  | .error e => .error e
  | .ok (b, d) => .ok (b, Function.update st.2 ib fun i => (phaseRow geev d).getD i 0)

/-- `calc_phases`, z2.py:126-188, for given arrays (`n` is the length of `kb_array`): phases on every process. -/
noncomputable def calcPhases (D : Diag) (nocc : ℕ) (geev : Matrix (Fin nocc) (Fin nocc) ℂ → List ℂ) (w : World)
    (buf : ℕ → Buf) (ka : List ℝ) (n : ℕ) (kb : ℕ → ℝ) (kc : ℝ) : Except ParErr (ℕ → ℕ → ℕ → ℝ) :=
  (onRanks w fun r =>
    (rangeElems (distRange w n r)).foldlM (phasesStep D nocc geev ka kb kc) ((buf r, 0) : Buf × (ℕ → ℕ → ℝ))).map
  fun st => allReduce w fun r => (st r).2

/-! ## Reordering -/

/-- `_get_min_key`, z2.py:110-124: the first key whose value is within 1e-15 of the minimum. -/
noncomputable def minKey {K : Type*} (d : List (K × ℝ)) : Option K :=
  match (d.map Prod.snd).min? with
  | none => none
  | some mv => (d.find? fun kv => |kv.2 - mv| < 1.0e-15).map Prod.fst

/-- The candidates of z2.py:225-230: keys `(m, n)`, values the distance to the previous phase. -/
noncomputable def candidates (th p0 : ℝ) (cp : List ℝ) : List ((ℕ × ℤ) × ℝ) :=
  cp.zipIdx.flatMap fun pm => ([-2, 0, 2] : List ℤ).filterMap fun (n : ℤ) =>
    if |p0 - (pm.1 + (n : ℝ) * Real.pi)| < th then some ((pm.2, n), |p0 - (pm.1 + (n : ℝ) * Real.pi)|) else none

/-- Loop body z2.py:214-237 for one band: phases of the row and the remaining candidates `phase_i1_cp`. -/
noncomputable def fixBand (th : ℝ) (row0 : ℕ → ℝ) (st : (ℕ → ℝ) × List ℝ) (j : ℕ) : (ℕ → ℝ) × List ℝ :=
  if |row0 j - st.1 j| > th then
    match minKey (candidates th (row0 j) st.2) with
    | none => st
    | some (m, n) => (Function.update st.1 j (st.2.getD m 0 + n * Real.pi), st.2.eraseIdx m)
  else st

/-- Loop body z2.py:210-237 for one row. -/
noncomputable def fixRow (th : ℝ) (nocc : ℕ) (ph : ℕ → ℕ → ℝ) (ib : ℕ) : ℕ → ℕ → ℝ :=
  Function.update ph (ib + 1)
    ((List.range nocc).foldl (fixBand th (ph ib)) (ph (ib + 1), (List.range nocc).map (ph (ib + 1)))).1

/-- Loop body z2.py:245-269 for one band: phases of the row and the remaining candidates `phase_i2_cp`. -/
noncomputable def smoothBand (th : ℝ) (row0 row1 : ℕ → ℝ) (st : (ℕ → ℝ) × List ℝ) (j : ℕ) : (ℕ → ℝ) × List ℝ :=
  match minKey (st.2.zipIdx.filterMap fun pm =>
    if |row1 j - pm.1| < th then some (pm.2, |pm.1 - 2 * row1 j + row0 j|) else none) with
  | none => st
  | some m => (Function.update st.1 j (st.2.getD m 0), st.2.eraseIdx m)

/-- Loop body z2.py:241-269 for one row. -/
noncomputable def smoothRow (th : ℝ) (nocc : ℕ) (ph : ℕ → ℕ → ℝ) (ib : ℕ) : ℕ → ℕ → ℝ :=
  Function.update ph (ib + 2)
    ((List.range nocc).foldl (smoothBand th (ph ib) (ph (ib + 1))) (ph (ib + 2), (List.range nocc).map (ph (ib + 2)))).1

/-- `reorder_phases`, z2.py:190-270, for a table of `nk` rows and `num_occ` columns. -/
noncomputable def reorderPhases (nk nocc : ℕ) (ph : ℕ → ℕ → ℝ) (th : ℝ) (smooth : Bool) : ℕ → ℕ → ℝ :=
  let p1 := (List.range (nk - 1)).foldl (fixRow th nocc) ph
  if smooth then (List.range (nk - 2)).foldl (smoothRow th nocc) p1 else p1

/-- `count_crossing`, z2.py:273-299. -/
noncomputable def countCrossing (nk nocc : ℕ) (ph : ℕ → ℕ → ℝ) (ref : ℝ) : ℕ :=
  (List.range (nk - 1)).foldl (fun c ik => (List.range nocc).foldl (fun c ib =>
    if (ph ik ib - ref) * (ph (ik + 1) ib - ref) < 0 then c + 1 else c) c) 0

end Verif.Z2

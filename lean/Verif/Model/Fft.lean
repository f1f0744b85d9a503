import Verif.Model.Kernel

/-!
# Model of the Fourier transform and of the Fermi coefficients

`/repo/tbplas/fortran/fft.F90` 17-70 in builds without FFTW (`fft1d_inplace`) and `/repo/tbplas/fortran/funcs.f90` 60-123
(`get_Fermi_cheb_coef`).

Arrays are functions with zero-based indices.  The iterations of a parallel loop run in the order given by a schedule; reads and writes
of different iterations are not interleaved here; C137 allows it.  Real arithmetic is exact.
-/

namespace Verif.Fft
open Verif.Tbpm

/-- Body of the inner loop, fft.F90:46-49, for zero-based `i` and `j`: `x(itmp)` is written after `x(i)`. -/
noncomputable def butterfly (sgn : ℤ) (e : ℝ) (ncur j : ℕ) (x : ℕ → ℂ) (i : ℕ) : ℕ → ℂ :=
  let itmp := i + ncur
  let ctmp := x i - x itmp
  let x1 := Function.update x i (x i + x itmp)
  Function.update x1 itmp (ctmp * Complex.exp ⟨0, sgn * e * j⟩)

/-- The values of `i` in `DO i = j, n, ntmp`, zero-based. -/
def strided (n j ntmp : ℕ) : List ℕ := (List.range ((n - j + ntmp - 1) / ntmp)).map fun q => j + q * ntmp

/-- One iteration of the parallel loop, fft.F90:44-51. -/
noncomputable def column (sgn : ℤ) (n ntmp ncur : ℕ) (x : ℕ → ℂ) (j : ℕ) : ℕ → ℂ :=
  (strided n j ntmp).foldl (butterfly sgn (2 * Real.pi / ntmp) ncur j) x

/-- The loop fft.F90:37-53.  `sch ncur` is the order of the parallel loop of the stage with half-length `ncur`. -/
noncomputable def stages (sch : ℕ → List ℕ) (sgn : ℤ) (n : ℕ) (ncur : ℕ) (x : ℕ → ℂ) : ℕ → ℂ :=
  if ncur / 2 < 1 then x
  else stages sch sgn n (ncur / 2) ((sch (ncur / 2)).foldl (column sgn n ncur (ncur / 2)) x)
termination_by ncur
decreasing_by omega

/-- The loop fft.F90:62-65 and 66, with at most `fuel` iterations: the next `j` (one-based), or `none` if the loop has not ended. -/
def nextJ : ℕ → ℕ → ℕ → Option ℕ
  | 0, _, _ => none
  | fuel + 1, k, j => if k < j then nextJ fuel (k / 2) (j - k) else some (j + k)

/-- The loop fft.F90:55-67 over `i` (one-based); `none` if the inner loop does not end. -/
def permute (fuel n : ℕ) (x : ℕ → ℂ) : Option (ℕ × (ℕ → ℂ)) :=
  (List.range' 1 (n - 1)).foldlM (fun (st : ℕ × (ℕ → ℂ)) i =>
    let (j, x) := st
    let x' := if i < j then Function.update (Function.update x (j - 1) (x (i - 1))) (i - 1) (x (j - 1)) else x
    (nextJ fuel (n / 2) j).map fun j' => (j', x')) (1, x)

/-- `fft1d_inplace`, fft.F90:17-70. -/
noncomputable def fftInplace (sch : ℕ → List ℕ) (fuel : ℕ) (sgn : ℤ) (n : ℕ) (x : ℕ → ℂ) : Option (ℕ → ℂ) :=
  (permute fuel n (stages sch sgn n n x)).map Prod.snd

/-- The loop funcs.f90:116-121: `n_cheb` at the end. -/
noncomputable def truncateCoef (coef : ℕ → ℝ) (eps : ℝ) (n : ℕ) : ℕ :=
  match (List.range n).find? (fun i => |coef i| < eps ∧ |coef (i + 1)| < eps) with
  | some i => i + 1
  | none => n

/-- `get_Fermi_cheb_coef`, funcs.f90:60-123: the coefficients and `n_cheb`.  `junk` is the contents of the array `cheb_coef`
before the call: the subroutine does not set the second half. -/
noncomputable def fermiChebCoef (sch : ℕ → List ℕ) (fuel nr : ℕ) (beta mu : ℝ) (oneMinus : Bool) (eps : ℝ) (junk : ℕ → ℝ) :
    Option ((ℕ → ℝ) × ℕ) :=
  let r0 := 2 * Real.pi / nr
  let f : ℕ → ℂ := fun i =>
    let energy := Real.cos (i * r0)
    if oneMinus then ((1 - (fermiDist beta mu energy).2 : ℝ) : ℂ) else ((fermiDist beta mu energy).2 : ℂ)
  (fftInplace sch fuel (-1) nr f).map fun y =>
    let nCheb := nr / 2
    let coef : ℕ → ℝ := fun i => if i < nCheb then jacksonKernel nCheb i * (y i).re / nCheb else junk i
    (coef, truncateCoef coef eps nCheb)

end Verif.Fft

import Mathlib.Analysis.SpecialFunctions.Pow.Real
import Mathlib.Analysis.SpecialFunctions.Trigonometric.Basic

/-!
# Model of `tbplas/cython/atom.pyx`

Atomic wave functions on a grid.  Real arithmetic is exact; `int` does not overflow.  `a / b` of two `int` is a true division
(`language_level=3`).  A division by zero, possible only for `n = 0`, is not modelled: the theorems have `n ≥ 1`.
-/

namespace Verif.Atom

/-- `_factorial` (atom.pyx:15-21). -/
noncomputable def factorial (n : ℤ) : ℝ := (List.range n.toNat).foldl (fun (y : ℝ) (i : ℕ) => y * ((i : ℝ) + 1)) 1.0

/-- `_rnl_factor` (atom.pyx:24-30). -/
noncomputable def rnlFactor (z n l : ℤ) : ℝ :=
  let a := 2.0 / ((n : ℝ) ^ 2 * factorial (2 * l + 1))
  let b := Real.sqrt (factorial (n + l) / factorial (n - l - 1))
  let c := Real.sqrt ((z : ℝ) ^ 3)
  a * b * c

/-- `_kummer` (atom.pyx:33-41); `i` is `k - 1`. -/
noncomputable def kummer (alpha gamma : ℤ) (ita : ℝ) : ℝ :=
  ((List.range (-alpha).toNat).foldl (fun (s : ℝ × ℝ) (i : ℕ) =>
    let ck := s.1 * (alpha + i) / (gamma + i) / (i + 1)
    (ck, s.2 + ck * ita ^ (i + 1))) (1.0, 1.0)).2

/-- `_radial` (atom.pyx:44-51).  `ita ** l` is an integer power for `l ≥ 0`. -/
noncomputable def radial (z n l : ℤ) (r : ℝ) : ℝ :=
  let ita := 2.0 * z / n * r
  Real.exp (-0.5 * ita) * ita ^ l * kummer (-n + l + 1) (2 * l + 2) ita

/-- `_coeff` (atom.pyx:54-56). -/
noncomputable def coeff (a b c d : ℕ) : ℝ := (a : ℝ) / b * Real.sqrt (c / (d * Real.pi))

/-- `_ylm_factor` (atom.pyx:59-105). -/
noncomputable def ylmFactor (l m : ℤ) : ℝ :=
  if l = 0 then coeff 1 2 1 1
  else if l = 1 then
    if m = -1 then coeff 1 1 3 4 else if m = 0 then coeff 1 1 3 4 else if m = 1 then coeff 1 1 3 4 else 0
  else if l = 2 then
    if m = -2 then coeff 1 2 15 1 else if m = -1 then coeff 1 2 15 1 else if m = 0 then coeff 1 4 5 1
    else if m = 1 then coeff 1 2 15 1 else if m = 2 then coeff 1 4 15 1 else 0
  else if l = 3 then
    if m = -3 then coeff 1 4 35 2 else if m = -2 then coeff 1 2 105 1 else if m = -1 then coeff 1 4 21 2
    else if m = 0 then coeff 1 4 7 1 else if m = 1 then coeff 1 4 21 2 else if m = 2 then coeff 1 4 105 1
    else if m = 3 then coeff 1 4 35 2 else 0
  else 0

/-- `_ylm` (atom.pyx:108-162). -/
noncomputable def ylm (l m : ℤ) (x y z r : ℝ) : ℝ :=
  if l = 0 then 1.0
  else if l = 1 then
    let denorm := r
    if m = -1 then 1.0 / denorm * y else if m = 0 then 1.0 / denorm * z else if m = 1 then 1.0 / denorm * x else 0.0
  else if l = 2 then
    let denorm := r ^ 2
    if m = -2 then 1.0 / denorm * (x * y)
    else if m = -1 then 1.0 / denorm * (y * z)
    else if m = 0 then 1.0 / denorm * (2 * z * z - x * x - y * y)
    else if m = 1 then 1.0 / denorm * (z * x)
    else if m = 2 then 1.0 / denorm * (x * x - y * y)
    else 0.0
  else if l = 3 then
    let denorm := r ^ 3
    if m = -3 then 1.0 / denorm * y * (3 * x * x - y * y)
    else if m = -2 then 1.0 / denorm * (x * y * z)
    else if m = -1 then 1.0 / denorm * y * (4 * z * z - x * x - y * y)
    else if m = 0 then 1.0 / denorm * z * (2 * z * z - 3 * x * x - 3 * y * y)
    else if m = 1 then 1.0 / denorm * x * (4 * z * z - x * x - y * y)
    else if m = 2 then 1.0 / denorm * z * (x * x - y * y)
    else if m = 3 then 1.0 / denorm * x * (x * x - 3 * y * y)
    else 0.0
  else 0.0

/-- Quantum numbers `z, n, l, m`. -/
structure Qn where
  z : ℤ
  n : ℤ
  l : ℤ
  m : ℤ

/-- The body of the loops of `set_cube` (atom.pyx:194-210): the value written to grid point `i, j, k`. -/
noncomputable def gridval (c0 : Fin 3 → ℝ) (q : Qn) (cubeOrigin : Fin 3 → ℝ) (res : ℝ) (i j k : ℕ) : ℝ :=
  let factor := rnlFactor q.z q.n q.l * ylmFactor q.l q.m
  let dx := cubeOrigin 0 + res * i - c0 0
  let dx2 := dx ^ 2
  let dy := cubeOrigin 1 + res * j - c0 1
  let dx2y2 := dx2 + dy ^ 2
  let dz := cubeOrigin 2 + res * k - c0 2
  let r := Real.sqrt (dx2y2 + dz ^ 2)
  if r < 1.0e-7 then 0.0
  else radial q.z q.n q.l r * ylm q.l q.m dx dy dz r * factor

/-- `set_cube` (atom.pyx:165-210): every point of the grid is written; the cube is a function of the indices, points outside the grid
keep their value. -/
noncomputable def setCube (c0 : Fin 3 → ℝ) (q : Qn) (cubeOrigin : Fin 3 → ℝ) (numGrid : Fin 3 → ℕ) (res : ℝ) (cube : ℕ → ℕ → ℕ → ℝ) :
    ℕ → ℕ → ℕ → ℝ :=
  (List.range (numGrid 0)).foldl (fun cube i =>
    (List.range (numGrid 1)).foldl (fun cube j =>
      (List.range (numGrid 2)).foldl (fun cube k =>
        fun i' j' k' => if i' = i ∧ j' = j ∧ k' = k then gridval c0 q cubeOrigin res i j k else cube i' j' k') cube) cube) cube

end Verif.Atom

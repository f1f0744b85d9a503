import Mathlib.Data.Complex.Basic
import Mathlib.Analysis.Complex.Trigonometric
import Mathlib.Analysis.SpecialFunctions.Pow.Real
import Mathlib.Data.Fintype.BigOperators
import Mathlib.Data.List.FinRange

/-!
# Model of the Fortran kernels of the tight-binding propagation method

`/repo/tbplas/fortran/csr.F90`, `math.F90`, `propagation.f90`, `funcs.f90`, `kpm.f90`.

Arithmetic is exact.  The variants without MKL and BLAS are modelled.  Arrays of length `n` are functions on `Fin n`; the
arrays of a sparse matrix are functions on the naturals, zero-based (`x(i)` of Fortran is `x (i - 1)` here).

The rows of a parallel loop are worked on in the order given by a list (`ord`, the schedule); theorems hold for every order.
An iteration touches only its own element of the output, so interleaving of single instructions adds nothing (C137).

Pointers are names of buffers in a memory `B → Fin n → ℂ`; kernels with an output argument read and write the memory, so that
input and output may be the same buffer.
-/

namespace Verif.Tbpm

/-- `SPARSE_MATRIX_T`, csr.F90:20-24. -/
structure FCsr where
  indptr : ℕ → ℕ
  indices : ℕ → ℕ
  values : ℕ → ℂ

abbrev CVec (n : ℕ) := Fin n → ℂ

variable {n : ℕ} {B : Type*} [DecidableEq B]

/-- Reading `x(k + 1)`.  Outside the array the result is undefined in Fortran; the value here is arbitrary. -/
def rd (x : CVec n) (k : ℕ) : ℂ := if h : k < n then x ⟨k, h⟩ else 0

/-- Range of the inner loops, `DO j = indptr(i) + 1, indptr(i + 1)`. -/
def FCsr.rowRange (m : FCsr) (i : ℕ) : List ℕ := List.range' (m.indptr i) (m.indptr (i + 1) - m.indptr i)

/-- One parallel loop over rows in which the output array differs from the input array. -/
def rowsPure (ord : List (Fin n)) (a : ℂ) (m : FCsr) (x : CVec n) (out : CVec n) : CVec n :=
  ord.foldl (fun out (i : Fin n) => (m.rowRange i).foldl (fun out j =>
    Function.update out i (a * m.values j * rd x (m.indices j) + out i)) out) out

/-- `csr_mv`, csr.F90:71-101; the function result is a new array.  The factor 1 is not in the source. -/
def csrMv (ord : List (Fin n)) (m : FCsr) (x : CVec n) : CVec n := rowsPure ord 1 m x 0

/-- `amv_d`, `amv_z`, csr.F90:104-171. -/
def amv (ord : List (Fin n)) (a : ℂ) (m : FCsr) (x : CVec n) : CVec n := rowsPure ord a m x 0

/-- `out(i) = v` in the buffer `p`. -/
def Mem.put (mem : B → CVec n) (p : B) (i : Fin n) (v : ℂ) : B → CVec n := Function.update mem p (Function.update (mem p) i v)

/-- `amxpy_d`, `amxpy_z`, csr.F90:174-239, with `in` and `out` in the buffers `pin` and `pout`. -/
def amxpy (ord : List (Fin n)) (a : ℂ) (m : FCsr) (pin pout : B) (mem : B → CVec n) : B → CVec n :=
  ord.foldl (fun mem (i : Fin n) => (m.rowRange i).foldl (fun mem j =>
    Mem.put mem pout i (a * m.values j * rd (mem pin) (m.indices j) + mem pout i)) mem) mem

/-- `amxpby_d`, `amxpby_z`, csr.F90:242-322. -/
def amxpby (ord : List (Fin n)) (a : ℂ) (m : FCsr) (pin : B) (b : ℂ) (pout : B) (mem : B → CVec n) : B → CVec n :=
  ord.foldl (fun mem (i : Fin n) => (m.rowRange i).foldl (fun mem j =>
    Mem.put mem pout i (a * m.values j * rd (mem pin) (m.indices j) + mem pout i)) (Mem.put mem pout i (b * mem pout i))) mem

/-- `inner_prod`, `dot_z`, math.F90:478-489; `DOT_PRODUCT` conjugates its first argument. -/
def innerProd (x y : CVec n) : ℂ := ∑ i, star (x i) * y i

/-- `norm_z`, math.F90:504-515. -/
noncomputable def normZ (x : CVec n) : ℝ := Real.sqrt (innerProd x x).re

/-- `axpbypcz`, math.F90:684-700. -/
def axpbypcz (a : ℝ) (x : CVec n) (b : ℝ) (y : CVec n) (c : ℝ) (z : CVec n) : CVec n := fun i => a * x i + b * y i + c * z i

/-- `axpy_z`, `axpy_dz`, math.F90:578-618: the new value of `Y`. -/
def axpy (a : ℂ) (x y : CVec n) : CVec n := fun i => a * x i + y i

/-- `axpby_dz`, math.F90:662-681: the new value of `Y`. -/
def axpby (a : ℂ) (x : CVec n) (b : ℂ) (y : CVec n) : CVec n := fun i => a * x i + b * y i

/-- `axpbypz`, math.F90:703-720: the new value of `Z`. -/
def axpbypz (a : ℂ) (x : CVec n) (b : ℝ) (y z : CVec n) : CVec n := fun i => a * x i + b * y i + z i

/-! ## Propagation -/

/-- Variables of the loops of `cheb_wf_timestep` and `Fermi`; the buffers `Tcheb0` and `Tcheb1` are named `false` and `true`. -/
structure ChebSt (n : ℕ) where
  mem : Bool → CVec n
  p0 : Bool
  p1 : Bool
  out : CVec n

/-- Loop body propagation.f90:43-47; `c` is `-2*img_dt`. -/
def chebBody (sch : ℕ → List (Fin n)) (c : ℂ) (m : FCsr) (bes : ℕ → ℝ) (st : ChebSt n) (i : ℕ) : ChebSt n :=
  let p2 := st.p0
  let mem := amxpy (sch i) c m st.p1 st.p0 st.mem
  ⟨mem, st.p1, p2, axpy ((2 * bes (i - 1) : ℝ) : ℂ) (mem p2) st.out⟩

/-- `cheb_wf_timestep`, propagation.f90:12-49.  `Bes(i)` is `bes (i - 1)`, `size` is `SIZE(Bes)` and `sch i` is the schedule of
the parallel loop of step `i`. -/
def chebWfTimestep (sch : ℕ → List (Fin n)) (m : FCsr) (bes : ℕ → ℝ) (size : ℕ) (wfIn : CVec n) (fwd : Bool) : CVec n :=
  let imgDt : ℂ := if fwd then Complex.I else -Complex.I
  let t0 := amv (sch 1) (-imgDt) m wfIn
  let t1 := fun i => amv (sch 2) (-2 * imgDt) m t0 i + wfIn i
  let out := axpbypcz (bes 0) wfIn (2 * bes 1) t0 (2 * bes 2) t1
  ((List.range' 4 (size - 3)).foldl (chebBody sch (-2 * imgDt) m bes)
    ⟨fun p => if p then t1 else t0, false, true, out⟩).out

/-- Loop body propagation.f90:76-80. -/
def fermiBody (sch : ℕ → List (Fin n)) (m : FCsr) (coef : ℕ → ℝ) (st : ChebSt n) (i : ℕ) : ChebSt n :=
  let p2 := st.p0
  let mem := amxpby (sch i) 2 m st.p1 (-1) st.p0 st.mem
  ⟨mem, st.p1, p2, axpy (coef (i - 1) : ℂ) (mem p2) st.out⟩

/-- `Fermi`, propagation.f90:52-82. -/
def fermiOp (sch : ℕ → List (Fin n)) (m : FCsr) (coef : ℕ → ℝ) (size : ℕ) (wfIn : CVec n) : CVec n :=
  let t0 := csrMv (sch 1) m wfIn
  let t1 := fun i => amv (sch 2) 2 m t0 i - wfIn i
  let out := axpbypcz (coef 0) wfIn (coef 1) t0 (coef 2) t1
  ((List.range' 4 (size - 3)).foldl (fermiBody sch m coef) ⟨fun p => if p then t1 else t0, false, true, out⟩).out

/-- Variables of `Haydock_coef`: the buffers `n1`, `n2`, `n_buf` are named 0, 1, 2; coefficients are zero-based. -/
structure HaySt (n : ℕ) where
  mem : Fin 3 → CVec n
  p1 : Fin 3
  p2 : Fin 3
  pbuf : Fin 3
  coefa : ℕ → ℂ
  coefb : ℕ → ℝ

/-- propagation.f90:125-134.  The initial values of `coefa`, `coefb` (undefined in Fortran) are never read. -/
noncomputable def hayInit (sch : ℕ → List (Fin n)) (m : FCsr) (rescale : ℝ) (n1 : CVec n) : HaySt n :=
  let buf := amv (sch 1) rescale m n1
  let a := innerProd n1 buf
  let buf' := axpy (-a) n1 buf
  let b := normZ buf'
  ⟨fun p => if p = 0 then n1 else if p = 1 then (fun i => buf' i / (b : ℂ)) else buf', 0, 1, 2,
    fun i => if i = 0 then a else 0, fun i => if i = 0 then b else 0⟩

/-- Loop body propagation.f90:142-153 without the progress report. -/
noncomputable def hayBody (sch : ℕ → List (Fin n)) (m : FCsr) (rescale : ℝ) (st : HaySt n) (i : ℕ) : HaySt n :=
  let mem1 := Function.update st.mem st.pbuf (amv (sch i) rescale m (st.mem st.p2))
  let a := innerProd (mem1 st.p2) (mem1 st.pbuf)
  let mem2 := Function.update mem1 st.pbuf (axpbypz (-a) (mem1 st.p2) (-st.coefb (i - 2)) (mem1 st.p1) (mem1 st.pbuf))
  let b := normZ (mem2 st.pbuf)
  let mem3 := Function.update mem2 st.pbuf (fun k => mem2 st.pbuf k / (b : ℂ))
  ⟨mem3, st.p2, st.pbuf, st.p1, Function.update st.coefa (i - 1) a, Function.update st.coefb (i - 1) b⟩

/-- `Haydock_coef`, propagation.f90:85-155, with all its variables at the end. -/
noncomputable def haydock (sch : ℕ → List (Fin n)) (m : FCsr) (rescale : ℝ) (n1 : CVec n) (depth : ℕ) : HaySt n :=
  (List.range' 2 (depth - 1)).foldl (hayBody sch m rescale) (hayInit sch m rescale n1)

/-! ## Functions -/

/-- `current_coefficient`, funcs.f90:12-33. -/
def currentCoef (hop : ℕ → ℂ) (dr : ℕ → ℝ) (value : ℝ) : ℕ → ℂ := fun i => (value * Complex.I) * hop i * dr i

/-- `Fermi_dist`, funcs.f90:36-57: the argument of `EXP` and the result. -/
noncomputable def fermiDist (beta ef energy : ℝ) : ℝ × ℝ :=
  if energy ≥ ef then
    let x := Real.exp (beta * (ef - energy))
    (beta * (ef - energy), x / (1 + x))
  else
    let x := Real.exp (beta * (energy - ef))
    (beta * (energy - ef), 1 / (1 + x))

/-- `density_coef`, funcs.f90:125-149. -/
noncomputable def densityCoef (sx sy sz : Fin n → ℝ) (q : Fin 3 → ℝ) : CVec n × CVec n :=
  let power : Fin n → ℝ := fun i => q 0 * sx i + q 1 * sy i + q 2 * sz i
  (fun i => ⟨Real.cos (power i), Real.sin (power i)⟩, fun i => ⟨Real.cos (power i), -Real.sin (power i)⟩)

/-- `green_function`, funcs.f90:152-172. -/
noncomputable def greenFunction (energy delta : ℝ) (coefa : ℕ → ℂ) (coefb : ℕ → ℝ) (depth : ℕ) : ℂ :=
  (List.range depth).reverse.foldl (fun g i => 1 / ((⟨energy, delta⟩ : ℂ) - coefa i - (coefb i : ℂ) ^ 2 * g)) 0

/-- `check_norm`, funcs.f90:175-192: whether the program stops.  Infinities and NaNs do not occur in exact arithmetic. -/
noncomputable def checkNorm (wf : CVec n) (normRef : ℂ) (eps : ℝ) : Bool := decide (‖innerProd wf wf - normRef‖ > eps)

/-- `jackson_kernel`, kpm.f90:8-29. -/
noncomputable def jacksonKernel (nk : ℕ) : ℕ → ℝ := fun k =>
  if k = 0 then 0.5 else
    let q := Real.pi / nk
    ((nk - k) * Real.cos (q * k) + Real.cos q / Real.sin q * Real.sin (q * k)) / nk

/-- `get_gamma_mn`, kpm.f90:32-56. -/
noncomputable def gammaMn (x : ℝ) (i j : ℕ) : ℂ :=
  ⟨Real.cos x, -(j * Real.sin x)⟩ * (Real.cos (i * x) : ℂ) * Complex.exp (Complex.I * j * x) +
    ⟨Real.cos x, i * Real.sin x⟩ * (Real.cos (j * x) : ℂ) * Complex.exp (-Complex.I * i * x)

/-! ## Random states and the recursion LDOS -/

/-- `random_state`, random.f90:36-69, for the pairs `(f, g)` drawn from the generator; seeding (random.f90:14-33) is not
modelled. -/
noncomputable def randomState (draw : Fin n → ℝ × ℝ) : CVec n :=
  let absSq : Fin n → ℝ := fun i => -1 * Real.log (1 - (draw i).1)
  let wf : CVec n := fun i => (Real.sqrt (absSq i) : ℂ) * Complex.exp ⟨0, 2 * Real.pi * (draw i).2⟩
  let sumSq := ∑ i, absSq i
  fun i => wf i / (Real.sqrt sumSq : ℂ)

/-- tbpm.f90:1005-1009: a state on the given sites, later entries overwriting earlier ones. -/
def siteState (sites : List (Fin n)) (wf : ℕ → ℂ) : CVec n :=
  ((List.range sites.length).zip sites).foldl (fun w p => Function.update w p.2 (wf p.1)) 0

/-- `ldos_haydock`, tbpm.f90:964-1025: the energies and the LDOS at the indices `-n_timestep..n_timestep`.  `rnd s` is the state
of sample `s`, `sch s` are the schedules of its loops.  The result is `none` if a coefficient that is divided by, to go on with
the recursion, vanishes: in Fortran the arrays then hold NaN. -/
noncomputable def ldosHaydock (sch : ℕ → ℕ → List (Fin n)) (m : FCsr) (rescale : ℝ) (sites : List (Fin n)) (rnd : ℕ → ℕ → ℂ)
    (delta eRange : ℝ) (depth nt ns : ℕ) : Option ((ℤ → ℝ) × (ℤ → ℝ)) :=
  let chain := fun s => haydock (sch s) m rescale (siteState sites (rnd s)) depth
  open Classical in
  if ∃ s < ns, ∃ i, i + 1 < depth ∧ (chain s).coefb i = 0 then none else
    let coef := (List.range ns).foldl (fun (ab : (ℕ → ℂ) × (ℕ → ℝ)) s =>
      (fun i => ab.1 i + (chain s).coefa i / ns, fun i => ab.2 i + (chain s).coefb i / ns)) (fun _ => 0, fun _ => 0)
    let energy : ℤ → ℝ := fun i => 0.5 * i * eRange / nt
    some (energy, fun i => -1 / Real.pi * (greenFunction (energy i) delta coef.1 coef.2 depth).im)

end Verif.Tbpm

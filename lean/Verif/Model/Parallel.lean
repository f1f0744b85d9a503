import Verif.Model.Bloch
import Mathlib.Algebra.BigOperators.Pi
import Mathlib.Algebra.BigOperators.Group.List.Basic
import Mathlib.Data.List.ModifyLast

/-!
# Model of the process-parallel driver code

* `/repo/tbplas/utils.py` 296-352 (`split_list`, `split_range`);
* `/repo/tbplas/parallel.py` 20-200 (`MPIEnv`: distribution and collective operations);
* `/repo/tbplas/diagonal/base.py` 20-45, 213-272, 312-521 (`DiagSolver`: bands, states and DOS
  with the LAPACK solver);
* `/repo/tbplas/tbpm/solver.py` 155-173 (`_dist_sample`), and the sample loop and seeds common to
  the drivers of `/repo/tbplas/fortran/tbpm.f90` (e.g. 50-86).

All processes run the same program on the same arguments.  The local data of all processes are a
family indexed by rank; a collective operation maps such a family to such a family.  An array is a
function of its indices, so an element which was never written keeps the value of `np.zeros`.
Exceptions are values.  Real arithmetic is exact.
-/

namespace Verif

/-! ## Splitting -/

/-- `num_item`, utils.py:342-344 and 321-323. -/
def numItems (n g : ℕ) : List ℕ :=
  (List.range (n % g)).foldl (fun l i => l.modify i (· + 1)) (List.replicate g (n / g))

/-- `split_range`, utils.py:333-352: the pair `(j0, j1)` stands for `range(j0, j1)`.  For
`num_group = 0` Python raises `ZeroDivisionError`; here the result is empty. -/
def splitRange (n g : ℕ) : List (ℕ × ℕ) :=
  (List.range g).map fun i =>
    let j0 := ((numItems n g).take i).sum
    (j0, j0 + (numItems n g).getD i 0)

/-- The elements of `range(j0, j1)`. -/
def rangeElems (r : ℕ × ℕ) : List ℕ := List.range' r.1 (r.2 - r.1)

/-- Exceptions: `AssertionError`, `IndexError`, `ValueError`, `RuntimeError`, `LinAlgError`. -/
inductive ParErr where
  | assertion | index | value | runtime | linalg | orbEmpty | hopEmpty
deriving DecidableEq, Repr

/-- Algorithm argument of `split_list`; `other` is any other string. -/
inductive SplitAlg where
  | remainder | range | other
deriving DecidableEq

/-- `[raw_list[j] for j in idx]`. -/
def pick {α : Type*} (l : List α) (idx : List ℕ) : Except ParErr (List α) :=
  idx.mapM fun j => match l[j]? with
    | none => .error .index
    | some x => .ok x

/-- `split_list`, utils.py:296-330. -/
def splitList {α : Type*} (l : List α) (g : ℕ) (alg : SplitAlg) : Except ParErr (List (List α)) :=
  if ¬ (1 ≤ g ∧ g < l.length + 1) then .error .assertion
  else match alg with
    | .other => .error .assertion
    | .remainder => (List.range g).mapM fun k =>
        pick l ((List.range l.length).filter fun i => i % g = k)
    | .range => (List.range g).mapM fun i =>
        let j0 := ((numItems l.length g).take i).sum
        pick l (List.range' j0 (j0 + (numItems l.length g).getD i 0 - j0))

/-! ## Processes -/

/-- The environment of a run, parallel.py:31-52: whether MPI is enabled and the number of processes.
Without MPI there is one process. -/
structure World where
  mpi : Bool
  size : ℕ
  pos : 0 < size
  serial : mpi = false → size = 1

/-- A run without MPI. -/
def World.one : World := ⟨false, 1, Nat.one_pos, fun _ => rfl⟩

/-- `dist_range`, parallel.py:101-108, on process `r`. -/
def distRange (w : World) (n r : ℕ) : ℕ × ℕ := (splitRange n w.size).getD r (0, 0)

/-- `dist_list`, parallel.py:89-99, on process `r`. -/
def distList {α : Type*} (w : World) (l : List α) (alg : SplitAlg) (r : ℕ) : Except ParErr (List α) :=
  match splitList l w.size alg with
  | .error e => .error e
  | .ok gs => match gs[r]? with
    | none => .error .index
    | some x => .ok x

/-- `dist_bound`, parallel.py:110-120: `min` and `max` of an empty range raise `ValueError`. -/
def distBound (w : World) (n r : ℕ) : Except ParErr (ℕ × ℕ) :=
  match (rangeElems (distRange w n r)).min?, (rangeElems (distRange w n r)).max? with
  | some a, some b => .ok (a, b)
  | _, _ => .error .value

section Collective

variable {A : Type*}

/-- `MPI_Allreduce` with `MPI_SUM`: everybody gets the sum over the processes. -/
def mpiSum [AddCommMonoid A] (P : ℕ) (d : ℕ → A) : A := ((List.range P).map d).sum

/-- `reduce`, parallel.py:122-138; `none` is Python's `None`. -/
def reduce [AddCommMonoid A] (w : World) (d : ℕ → A) : ℕ → Option A :=
  if w.mpi then fun r => if r = 0 then some (mpiSum w.size d) else none else fun r => some (d r)

/-- `all_reduce`, parallel.py:140-153. -/
def allReduce [AddCommMonoid A] (w : World) (d : ℕ → A) : ℕ → A :=
  if w.mpi then fun _ => mpiSum w.size d else d

/-- `average`, parallel.py:155-173. -/
def average {K : Type*} [Field K] [AddCommMonoid A] [Module K A] (w : World) (d : ℕ → A) : ℕ → Option A :=
  if w.mpi then fun r => if r = 0 then some ((w.size : K)⁻¹ • mpiSum w.size d) else none
  else fun r => some (d r)

/-- `all_average`, parallel.py:175-189. -/
def allAverage {K : Type*} [Field K] [AddCommMonoid A] [Module K A] (w : World) (d : ℕ → A) : ℕ → A :=
  if w.mpi then fun _ => (w.size : K)⁻¹ • mpiSum w.size d else d

/-- `bcast`, parallel.py:191-199. -/
def bcast (w : World) (d : ℕ → A) : ℕ → A := if w.mpi then fun _ => d 0 else d

/-- All processes run a local computation; if one of them raises, the run ends with the exception of
the first of them (the others are not waited for). -/
def onRanks {ε : Type*} [Inhabited A] (w : World) (f : ℕ → Except ε A) : Except ε (ℕ → A) :=
  ((List.range w.size).mapM f).map fun l r => l.getD r default

end Collective

/-! ## Diagonalisation -/

/-- What the solver needs: number of orbitals, the Hamiltonian and, if there is one, the overlap as set up by the
model into a given matrix, LAPACK (eigenvalues and matrix of column eigenvectors, or `info != 0`), `numpy.argsort`
of a vector of `num_bands` numbers. -/
structure Diag where
  nb : ℕ
  setHam : Vec3 ℝ → ℤ → IMat → Except ParErr IMat
  zheev : IMat → Option ((ℕ → ℝ) × (ℕ → ℕ → ℂ))
  argsort : (ℕ → ℝ) → List ℕ
  setOvl : Option (Vec3 ℝ → ℤ → IMat → Except ParErr IMat) := none
  zhegv : IMat → IMat → Option ((ℕ → ℝ) × (ℕ → ℕ → ℂ)) := fun _ _ => none

/-- The buffers `__h_mat` and `__s_mat` of a solver, base.py:150-151. -/
abbrev Buf := Option IMat × Option IMat

/-- A buffer before use: zeros, or multiplied by zero, base.py:247-251, 257-261. -/
def clearBuf : Option IMat → IMat
  | none => fun _ _ => 0
  | some m => fun a b => m a b * 0

/-- `_diag_ham_dense`, base.py:232-272.  The first argument and result are the buffers `__h_mat` and `__s_mat`.
(Without an overlap `__s_mat` stays `None`: the overlap of a solver is fixed at its creation, base.py:149.) -/
def diagDense (D : Diag) (buf : Buf) (k : Vec3 ℝ) (conv : ℤ) :
    Except ParErr (Buf × (ℕ → ℝ) × (ℕ → ℕ → ℂ)) :=
  match D.setHam k conv (clearBuf buf.1) with
  | .error e => .error e
  | .ok h =>
    match D.setOvl with
    | none =>
      match D.zheev h with
      | none => .error .runtime
      | some (ev, vec) => .ok ((some h, none), ev, vec)
    | some setOvl =>
      match setOvl k conv (clearBuf buf.2) with
      | .error e => .error e
      | .ok s =>
        match D.zhegv h s with
        | none => .error .runtime
        | some (ev, vec) => .ok ((some h, some s), ev, vec)

/-- Data of one process in `calc_states`: buffer, bands `(k, band)`, states `(k, band, orbital)`. -/
abbrev StSt := Buf × (ℕ → ℕ → ℝ) × (ℕ → ℕ → ℕ → ℂ)

/-- Loop body base.py:503-513. -/
def statesStep (D : Diag) (kpts : ℕ → Vec3 ℝ) (conv : ℤ) (st : StSt) (ik : ℕ) : Except ParErr StSt :=
  match diagDense D st.1 (kpts ik) conv with
  | .error e => .error e
  | .ok (b, ev, vec) => .ok (b, Function.update st.2.1 ik ev,
      Function.update st.2.2 ik (fun i o => vec o i))

/-- `calc_states`, base.py:459-521, with `solver="lapack"`.  `buf r` is the buffer left on process `r`
by earlier calls.  `_update_array` is not modelled. -/
def calcStates (D : Diag) (w : World) (buf : ℕ → Buf) (n : ℕ) (kpts : ℕ → Vec3 ℝ) (conv : ℤ)
    (allRed : Bool) : Except ParErr (ℕ → (ℕ → ℕ → ℝ) × (ℕ → ℕ → ℕ → ℂ)) :=
  (onRanks w fun r =>
    (rangeElems (distRange w n r)).foldlM (statesStep D kpts conv) ((buf r, 0, 0) : StSt)).map fun st =>
  if allRed then fun r => (allReduce w (fun r => (st r).2.1) r, allReduce w (fun r => (st r).2.2) r)
  else fun r => (st r).2

/-- `_calc_proj`, base.py:213-230, on rows of eigenstates; the indices are a list of valid orbital
numbers.  (A one-shot iterator would be exhausted after the first band; not modelled.) -/
noncomputable def calcProj (orbs : List ℕ) (vec : ℕ → ℕ → ℂ) (ib : ℕ) : ℝ :=
  orbs.foldl (fun s io => s + ‖vec ib io‖ ^ 2) 0

/-- Data of one process in `calc_bands`: buffer, bands, projection. -/
abbrev StBd := Buf × (ℕ → ℕ → ℝ) × (ℕ → ℕ → ℝ)

/-- `a[idx]` for a list of indices. -/
def fancy {A : Type*} [Zero A] (a : ℕ → A) (idx : List ℕ) : ℕ → A := fun i =>
  match idx[i]? with
  | some j => a j
  | none => 0

/-- Loop body base.py:360-378. -/
noncomputable def bandsStep (D : Diag) (kpts : ℕ → Vec3 ℝ) (conv : ℤ) (orbs : Option (List ℕ)) (st : StBd)
    (ik : ℕ) : Except ParErr StBd :=
  match diagDense D st.1 (kpts ik) conv with
  | .error e => .error e
  | .ok (b, ev, vec) =>
    let idx := (D.argsort ev).reverse
    .ok (b, Function.update st.2.1 ik (fancy ev idx),
      match orbs with
      | none => st.2.2
      | some os => Function.update st.2.2 ik (fancy (calcProj os fun i o => vec o i) idx))

/-- `calc_bands`, base.py:312-391, with `solver="lapack"`: bands and projection on every process
(`k_len` does not depend on the processes).  Without orbitals the projection array is all ones
(inside its shape) and is not reduced. -/
noncomputable def calcBands (D : Diag) (w : World) (buf : ℕ → Buf) (n : ℕ) (kpts : ℕ → Vec3 ℝ)
    (conv : ℤ) (orbs : Option (List ℕ)) : Except ParErr (ℕ → (ℕ → ℕ → ℝ) × (ℕ → ℕ → ℝ)) :=
  let proj0 : ℕ → ℕ → ℝ := match orbs with
    | none => fun _ _ => 1
    | some _ => 0
  (onRanks w fun r =>
    (rangeElems (distRange w n r)).foldlM (bandsStep D kpts conv orbs) ((buf r, 0, proj0) : StBd)).map
  fun st r => (allReduce w (fun r => (st r).2.1) r,
    match orbs with
    | none => (st r).2.2
    | some _ => allReduce w (fun r => (st r).2.2) r)

/-- `gaussian`, base.py:20-31. -/
noncomputable def gaussian (x mu sigma : ℝ) : ℝ :=
  1 / (sigma * Real.sqrt (2 * Real.pi)) * Real.exp (-(x - mu) ^ 2 / (2 * sigma ^ 2))

/-- `lorentzian`, base.py:34-45. -/
noncomputable def lorentzian (x mu sigma : ℝ) : ℝ :=
  1 / (Real.pi * sigma) * (sigma ^ 2 / ((x - mu) ^ 2 + sigma ^ 2))

/-- All entries of a two-dimensional array of the given shape, for `np.min` and `np.max`. -/
def flat2 {A : Type*} (n m : ℕ) (a : ℕ → ℕ → A) : List A :=
  (List.range n).flatMap fun i => (List.range m).map fun j => a i j

/-- `np.linspace(a, b, m + 1)`. -/
noncomputable def npLinspace (a b : ℝ) (m : ℕ) : List ℝ :=
  (List.range (m + 1)).map fun i : ℕ => a + i * ((b - a) / m)

/-- The energy grid, base.py:425-430; `np.min` of an empty array raises, as does a negative number of
points. -/
noncomputable def dosGrid (n nb : ℕ) (bands : ℕ → ℕ → ℝ) (emin emax : Option ℝ) (step : ℝ) :
    Except ParErr (List ℝ) :=
  match (match emin with | some e => some e | none => (flat2 n nb bands).min?),
    (match emax with | some e => some e | none => (flat2 n nb bands).max?) with
  | some a, some b =>
    let m : ℤ := if 0 ≤ (b - a) / step then ⌊(b - a) / step⌋ else ⌈(b - a) / step⌉
    if m < -1 then .error .value else if m = -1 then .ok [] else .ok (npLinspace a b m.toNat)
  | _, _ => .error .value

/-- `calc_dos`, base.py:393-457: energies and DOS on every process; `basis` is the basis function. -/
noncomputable def calcDos (D : Diag) (w : World) (buf : ℕ → Buf) (n : ℕ) (kpts : ℕ → Vec3 ℝ) (conv : ℤ)
    (orbs : Option (List ℕ)) (emin emax : Option ℝ) (step sigma : ℝ) (basis : ℝ → ℝ → ℝ → ℝ) (gs : ℝ) :
    Except ParErr (ℕ → List ℝ × (ℕ → ℝ)) := do
  let bd ← calcBands D w buf n kpts conv orbs
  let grid ← onRanks w fun r => dosGrid n D.nb (bd r).1 emin emax step
  let loc : ℕ → ℕ → ℝ := fun r =>
    (rangeElems (distRange w n r)).foldl (fun dos ik => (List.range D.nb).foldl (fun dos ib =>
      dos + fun x => basis ((grid r).getD x 0) ((bd r).1 ik ib) sigma * (bd r).2 ik ib) dos) 0
  let tot := allReduce w loc
  .ok fun r => (grid r, fun x => tot r x / ((n * D.nb : ℕ) : ℝ) * gs)

/-! ## Random samples -/

/-- The `while` loop of `_dist_sample`, solver.py:163-165. -/
def raiseSample (size n : ℕ) : ℕ :=
  if h : size = 0 ∨ n % size = 0 then n else raiseSample size (n + 1)
termination_by if n % size = 0 then 0 else size - n % size
decreasing_by
  push Not at h
  have h1 : n % size < size := Nat.mod_lt _ (Nat.pos_of_ne_zero h.1)
  by_cases h2 : n % size + 1 < size
  · have : (n + 1) % size = n % size + 1 := by
      rw [Nat.add_mod, Nat.mod_eq_of_lt (show 1 < size by omega), Nat.mod_eq_of_lt h2]
    rw [if_neg h.2, this, if_neg (by omega)]
    omega
  · have h3 : n % size + 1 = size := by omega
    have : (n + 1) % size = 0 := by
      rw [← Nat.mod_add_div n size, show n % size + size * (n / size) + 1 = size * (n / size + 1) by
        rw [Nat.mul_add, mul_one]; omega]
      simp
    rw [if_neg h.2, this, if_pos rfl]
    omega

/-- `_dist_sample`, solver.py:155-173: the value left in `config.generic["nr_random_samples"]` and the
number of samples of each process. -/
def distSample (w : World) (n : ℕ) : ℕ × ℕ :=
  if w.mpi then (raiseSample w.size n, raiseSample w.size n / w.size) else (n, n)

/-- Seed given to `random_state` for sample `i` (from 1) on process `r` with `m` samples per process,
e.g. tbpm.f90:57.  Overflow of 32-bit integers is not modelled. -/
def sampleSeed (seed : ℤ) (m r i : ℕ) : ℤ := seed * ((i : ℤ) + r * m)

/-- The sample loop common to the drivers, e.g. tbpm.f90:50-86: `corr` starts at zero and every sample adds
its contribution divided by the number of samples of the process.  `f s` is the contribution for seed `s`. -/
noncomputable def sampleLoop {A : Type*} [AddCommGroup A] [Module ℂ A] (f : ℤ → A) (seed : ℤ) (m r : ℕ) : A :=
  (List.range' 1 m).foldl (fun c i => c + (m : ℂ)⁻¹ • f (sampleSeed seed m r i)) 0

/-- A driver such as `calc_corr_dos`, solver.py:256-289: distribute, run the Fortran loop, average. -/
noncomputable def corrRun {A : Type*} [AddCommGroup A] [Module ℂ A] (w : World) (f : ℤ → A) (seed : ℤ)
    (n : ℕ) : ℕ → A :=
  allAverage (K := ℂ) w fun r => sampleLoop f seed (distSample w n).2 r

end Verif

import Verif.Model.Fft

/-!
# Model of the parallel loops, instruction by instruction

The loops between `!$OMP PARALLEL DO` and `!$OMP END PARALLEL DO` of `/repo/tbplas/fortran/math.F90`, `csr.F90`, `fft.F90`, `tbpm.f90`.

The body of an iteration is a sequence of loads from and stores to the shared memory; variables declared `PRIVATE`, and the counters of
loops, are bound in the continuation of a load.  A team of threads gets the iterations, each thread a list of them, and does them one after
the other; the instructions of different threads are interleaved in any way.  Every store is seen by all threads at once (there is no
weaker memory; in a loop in which a thread never touches an element another thread writes, this makes no difference).  Scheduling clauses
are not modelled: all distributions are allowed.  Arithmetic is exact.
-/

namespace Verif.Omp

open Verif.Tbpm

/-- What a thread has still to do. -/
inductive Prog (L V : Type*) where
  | done : Prog L V
  | load (l : L) (k : V → Prog L V) : Prog L V
  | store (l : L) (v : V) (k : Prog L V) : Prog L V

variable {L V T ι : Type*} [DecidableEq L] [DecidableEq T]

/-- The program on its own. -/
def Prog.run : Prog L V → (L → V) → L → V
  | .done, m => m
  | .load l k, m => (k (m l)).run m
  | .store l v k, m => k.run (Function.update m l v)

/-- One program after the other. -/
def Prog.seq : Prog L V → Prog L V → Prog L V
  | .done, q => q
  | .load l k, q => .load l fun v => (k v).seq q
  | .store l v k, q => .store l v (k.seq q)

/-- Programs one after the other. -/
def Prog.all (ps : List (Prog L V)) : Prog L V := ps.foldr Prog.seq .done

/-- One instruction of one thread. -/
inductive Step : (T → Prog L V) × (L → V) → (T → Prog L V) × (L → V) → Prop
  | load {p : T → Prog L V} {m : L → V} (t : T) {l : L} {k : V → Prog L V} (h : p t = .load l k) :
      Step (p, m) (Function.update p t (k (m l)), m)
  | store {p : T → Prog L V} {m : L → V} (t : T) {l : L} {v : V} {k : Prog L V} (h : p t = .store l v k) :
      Step (p, m) (Function.update p t k, Function.update m l v)

/-- `m'` is a possible memory after the loop with the given body, when thread `t` gets the iterations `chunks t`: there is an execution
at the end of which all threads are done. -/
def ParallelDo (body : ι → Prog L V) (chunks : T → List ι) (m m' : L → V) : Prop :=
  Relation.ReflTransGen Step (fun t => Prog.all ((chunks t).map body), m) (fun _ => .done, m')

/-! ## Loops of math.F90

Elements of array `b` are the locations `(b, i)`. -/

section Math

variable {n : ℕ} {B : Type*} [DecidableEq B]

/-- Loops `Z(i) = op(X(i))`: `dsmdv`, `dsmzv`, `zsmzv` (math.F90:191-243), `dvdds`, `zvdds`, `zvdzs` (285-337), `copy_d`, `copy_z` (517-555);
with `X` for `Z` the subroutines `dsmdv_self`, `dsmzv_self`, `zsmzv_self`, `dvdds_self`, `zvdds_self`, `zvdzs_self` (339-463) and the
normalisation of `random_state` (random.f90:64-68). -/
def unary (op : V → V) (x z : B) (i : Fin n) : Prog (B × Fin n) V := .load (x, i) fun a => .store (z, i) (op a) .done

/-- Loops `Z(i) = op(X(i), Y(i))`: `vav_d`, `vav_z`, `vsv_d`, `vsv_z`, `dvmdv`, `zvmzv` (math.F90:71-189), `dvddv`, `zvdzv` (245-283);
with `Y` for `Z` `axpy_d`, `axpy_z`, `axpy_dz` (557-618) and `axpby_d`, `axpby_z`, `axpby_dz` (620-681). -/
def binary (op : V → V → V) (x y z : B) (i : Fin n) : Prog (B × Fin n) V :=
  .load (x, i) fun a => .load (y, i) fun b => .store (z, i) (op a b) .done

/-- Loops `W(i) = op(X(i), Y(i), Z(i))`: `axpbypcz` (math.F90:684-700); with `Z` for `W` `axpbypz` (703-720). -/
def ternary (op : V → V → V → V) (x y z w : B) (i : Fin n) : Prog (B × Fin n) V :=
  .load (x, i) fun a => .load (y, i) fun b => .load (z, i) fun c => .store (w, i) (op a b c) .done

/-! ## Loops of csr.F90 -/

/-- Reading `x(k + 1)`; outside of the array the value is arbitrary, as in `rd`. -/
def loadAt (x : B) (k : ℕ) (c : ℂ → Prog (B × Fin n) ℂ) : Prog (B × Fin n) ℂ := if h : k < n then .load (x, ⟨k, h⟩) c else c 0

/-- One entry of the matrix, csr.F90:130-131: `out(i) = a * mat%values(j) * in(k) + out(i)`. -/
def entryProg (a : ℂ) (m : FCsr) (pin pout : B) (i : Fin n) (j : ℕ) : Prog (B × Fin n) ℂ :=
  loadAt pin (m.indices j) fun x => .load (pout, i) fun o => .store (pout, i) (a * m.values j * x + o) .done

/-- Body of the loops of `csr_mv`, `amv_d`, `amv_z`, `amxpy_d`, `amxpy_z`, csr.F90:93-98, 129-134, 163-168, 198-203, 231-236. -/
def rowProg (a : ℂ) (m : FCsr) (pin pout : B) (i : Fin n) : Prog (B × Fin n) ℂ :=
  Prog.all ((m.rowRange i).map (entryProg a m pin pout i))

/-- Body of the loops of `amxpby_d`, `amxpby_z`, csr.F90:273-279, 313-319. -/
def rowProgB (a : ℂ) (m : FCsr) (pin : B) (b : ℂ) (pout : B) (i : Fin n) : Prog (B × Fin n) ℂ :=
  .load (pout, i) fun o => .store (pout, i) (b * o) (rowProg a m pin pout i)

end Math

/-! ## The loop of fft.F90 -/

/-- Body of the inner loop, fft.F90:46-49; the elements are read again for the sum. -/
noncomputable def butterflyProg (sgn : ℤ) (e : ℝ) (ncur j i : ℕ) : Prog ℕ ℂ :=
  .load i fun a => .load (i + ncur) fun b => .load i fun a' => .load (i + ncur) fun b' => .store i (a' + b')
    (.store (i + ncur) ((a - b) * Complex.exp ⟨0, sgn * e * j⟩) .done)

/-- One iteration of the parallel loop, fft.F90:44-51. -/
noncomputable def columnProg (sgn : ℤ) (n ntmp ncur j : ℕ) : Prog ℕ ℂ :=
  Prog.all ((Fft.strided n j ntmp).map (butterflyProg sgn (2 * Real.pi / ntmp) ncur j))

/-! ## Loops of tbpm.f90 -/

/-- Body of the loops of `tbpm_dccond` and `tbpm_eigenstates` over the energies, tbpm.f90:629-637 and 801-809: `wf_QE(j, i)` is the
location `(i, j)`, `P` the private phase of the energy, `W` the window.  `wf_t_pos` and `wf_t_neg` are only read, and are parameters. -/
def energyProg {n : ℕ} (P : ℕ → ℂ) (W : ℂ) (pos neg : CVec n) (i : ℕ) : Prog (ℕ × Fin n) ℂ :=
  Prog.all ((List.finRange n).map fun j => .load (i, j) fun a => .store (i, j) (a + P i * pos j * W)
    (.load (i, j) fun b => .store (i, j) (b + star (P i) * neg j * W) .done))

/-- The same body if `P` were not private: `P` is the location `none`. -/
def energyShared {n : ℕ} (P : ℕ → ℂ) (W : ℂ) (pos neg : CVec n) (i : ℕ) : Prog (Option (ℕ × Fin n)) ℂ :=
  .store none (P i) (Prog.all ((List.finRange n).map fun j => .load (some (i, j)) fun a => .load none fun p => .store (some (i, j)) (a + p * pos j * W)
    (.load (some (i, j)) fun b => .load none fun p => .store (some (i, j)) (b + star p * neg j * W) .done)))

/-- Loops whose iterations only write results computed from arrays that are not changed in the loop: `current_coefficient`
(funcs.f90:28-32), the coefficients of `get_Fermi_cheb_coef` (88-93, 95-100, 111-115), `density_coef` (140-147), `jackson_kernel`
(kpm.f90:24-28), `get_gamma_mn` (48-54), `ldos_haydock` (tbpm.f90:1019-1023), `prod_dp`, `prod_dp_arb`, `dyn_pol_f`, `prod_ac`, `ac_cond_f`
(lindhard.f90:32-57, 88-112, 140-153, 216-241, 267-280).  Iteration `i` stores the values `out i`, in order. -/
def writeProg (out : ι → List (L × V)) (i : ι) : Prog L V := Prog.all ((out i).map fun q => .store q.1 q.2 .done)

/-- `corr_mu_avg(:, j) = corr_mu_avg(:, j) + g(:)*g(j)*corr_mu(:, j) / n_ran_samples`, tbpm.f90:953-957, zero-based; element `(i, j)`.
Fortran loads the whole column before it stores it; each element is loaded and stored once, so the order within a column is kept simple. -/
noncomputable def muProg (g : ℕ → ℝ) (mu : ℕ → ℕ → ℂ) (nk ns : ℕ) (j : ℕ) : Prog (ℕ × ℕ) ℂ :=
  Prog.all ((List.range nk).map fun i => .load (i, j) fun a => .store (i, j) (a + g i * g j * mu i j / ns) .done)

/-! ## Reductions -/

/-- `!$OMP PARALLEL DO REDUCTION(+: s)` (analysis.f90:42-48, 58-65; the loops with a sum of math.F90 have none): every thread adds the summands `terms i` of its iterations to a sum of its
own, which begins at zero; the sums of the threads are added to the variable in the order `fin` in which the threads come to the end. -/
def reduction {V T ι : Type*} [Add V] [Zero V] (terms : ι → List V) (chunks : T → List ι) (fin : List T) (s : V) : V :=
  fin.foldl (fun s t => s + (chunks t).foldl (fun p i => (terms i).foldl (· + ·) p) 0) s

end Verif.Omp

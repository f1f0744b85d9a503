import Verif.Model.LindhardAC
import Verif.Model.Z2
import Verif.Model.Tbpm
import Verif.Model.Analysis

/-!
# Model of the processes of a parallel run, call by call

The programs of the processes of a run with MPI, as sequences of collective operations, visible actions and exceptions; they meet only in
the collective operations.

* `/repo/tbplas/parallel.py` 140-229 (`all_reduce`, `all_average`, `bcast`, `barrier`, `print`, `log`);
* the order of the collective operations in `DiagSolver` (`/repo/tbplas/diagonal/base.py` 312-521), `Z2`, `Lindhard`, `Solver`, `Analyzer`.

The models of these functions in `Parallel`, `Lindhard`, `LindhardAC`, `Z2`, `Tbpm` and `Analysis` let all processes go in lockstep; here
every process goes on as it can.  A process which raises an exception ends (nobody catches it); that the launcher may then end the others
is not modelled.  `reduce` and `average` are used nowhere and left out.  Messages of all calls have one type `V`; arrays of different
shapes are put into it by `Payload`.
-/

namespace Verif.Mpi

/-- The collective operations. -/
inductive Coll where
  | allReduce | bcast | barrier
deriving DecidableEq

/-- What others can see of a process besides messages: text on the screen and files. -/
inductive Act where
  | print (s : String)
  | save (file : String)

/-- What a process has still to do: it ends with a value or an exception, or does something visible, or takes part in a collective
operation with its data and goes on with the result. -/
inductive Proc (V E : Type) (α : Type) where
  | ret (a : α)
  | raise (e : E)
  | act (a : Act) (k : Proc V E α)
  | coll (c : Coll) (x : V) (k : V → Proc V E α)

variable {V E α β : Type}

/-- One program after another. -/
def Proc.bind : Proc V E α → (α → Proc V E β) → Proc V E β
  | .ret a, f => f a
  | .raise e, _ => .raise e
  | .act a k, f => .act a (k.bind f)
  | .coll c x k, f => .coll c x fun v => (k v).bind f

instance : Monad (Proc V E) where
  pure := .ret
  bind := .bind

/-- A local computation. -/
def lift : Except E α → Proc V E α
  | .error e => .raise e
  | .ok a => .ret a

/-! ## The run -/

/-- The state of a run with the processes `R`: the programs, the contributions each process has made to the collective operations so far,
whether it is inside the last of them, and what it has done visibly. -/
structure State (R V E α : Type) where
  proc : R → Proc V E α
  posted : R → List (Coll × V)
  inside : R → Bool
  log : R → List Act

/-- The beginning. -/
def start {R : Type} (p : R → Proc V E α) : State R V E α := ⟨p, fun _ => [], fun _ => false, fun _ => []⟩

/-- What a collective operation gives on process `r` (`MPI_SUM` for `Allreduce`; `root` for `Bcast`). -/
def combine {R : Type} [Fintype R] [AddCommMonoid V] (root : R) (c : Coll) (x : R → V) (r : R) : V :=
  match c with
  | .allReduce => ∑ q, x q
  | .bcast => x root
  | .barrier => x r

/-- An implementation of MPI: `ready c r S` tells whether process `r` may leave the operation `c` when the processes `S` have come to it.
When all have come, everybody may leave; nobody leaves before the data needed are there, and nobody leaves a barrier before all have
come.  (Whether the root of a broadcast waits, and for whom, is up to the implementation.) -/
structure Impl (R : Type) (root : R) where
  ready : Coll → R → Set R → Prop
  all : ∀ c r, ready c r Set.univ
  own : ∀ c r S, ready c r S → r ∈ S
  sum : ∀ r S, ready .allReduce r S → S = Set.univ
  barrier : ∀ r S, ready .barrier r S → S = Set.univ
  bcast : ∀ r S, ready .bcast r S → root ∈ S

section Step

variable {R : Type} [Fintype R] [DecidableEq R] [AddCommMonoid V]

/-- One step of one process: a visible action; coming to a collective operation; leaving it.  The `n`-th operation of a process goes together
with the `n`-th operation of the others.  If these are not the same operation nobody who sees this leaves (MPI does not say what happens
then). -/
inductive Step (root : R) (I : Impl R root) : State R V E α → State R V E α → Prop
  | act {s : State R V E α} (r : R) {a : Act} {k : Proc V E α} (hp : s.proc r = .act a k) :
      Step root I s { s with proc := Function.update s.proc r k, log := Function.update s.log r (s.log r ++ [a]) }
  | arrive {s : State R V E α} (r : R) {c : Coll} {x : V} {k : V → Proc V E α} (hp : s.proc r = .coll c x k) (hi : s.inside r = false) :
      Step root I s { s with posted := Function.update s.posted r (s.posted r ++ [(c, x)]), inside := Function.update s.inside r true }
  | leave {s : State R V E α} (r : R) {c : Coll} {x : V} {k : V → Proc V E α} (hp : s.proc r = .coll c x k) (hi : s.inside r = true)
      (hk : ∀ q, ∀ e ∈ (s.posted q)[(s.posted r).length - 1]?, e.1 = c)
      (hr : I.ready c r {q | (s.posted r).length - 1 < (s.posted q).length}) :
      Step root I s { s with
        proc := Function.update s.proc r
          (k (combine root c (fun q => (((s.posted q)[(s.posted r).length - 1]?).map Prod.snd).getD 0) r))
        inside := Function.update s.inside r false }

end Step

/-! ## MPIEnv -/

/-- Arrays of type `A` as messages. -/
class Payload (A V : Type) [AddCommMonoid A] [AddCommMonoid V] where
  enc : A →+ V
  dec : V →+ A
  dec_enc : ∀ a, dec (enc a) = a

variable [AddCommMonoid V]

/-- `all_reduce`, parallel.py:140-153. -/
def pAllReduce {A : Type} [AddCommMonoid A] [Payload A V] (w : World) (x : A) : Proc V E A :=
  if w.mpi then .coll .allReduce (Payload.enc x) fun v => .ret (Payload.dec v) else .ret x

/-- `all_average`, parallel.py:175-189. -/
noncomputable def pAllAverage {A : Type} [AddCommMonoid A] [Module ℂ A] [Payload A V] (w : World) (x : A) : Proc V E A :=
  if w.mpi then .coll .allReduce (Payload.enc x) fun v => .ret ((w.size : ℂ)⁻¹ • (Payload.dec v : A)) else .ret x

/-- `bcast`, parallel.py:191-199: the new contents of the array. -/
def pBcast {A : Type} [AddCommMonoid A] [Payload A V] (w : World) (x : A) : Proc V E A :=
  if w.mpi then .coll .bcast (Payload.enc x) fun v => .ret (Payload.dec v) else .ret x

/-- `barrier`, parallel.py:201-204. -/
def pBarrier (w : World) : Proc V E Unit := if w.mpi then .coll .barrier 0 fun _ => .ret () else .ret ()

/-- `print`, parallel.py:206-217, and likewise `log`, 219-229, and `_save_data`, solver.py:236-254: on the master only (`r` is the rank). -/
def onMaster (r : ℕ) (a : Act) : Proc V E Unit := if r = 0 then .act a (.ret ()) else .ret ()

/-- The same if there is something to print or save. -/
def onMasterOpt (r : ℕ) (f : String → Act) : Option String → Proc V E Unit
  | none => .ret ()
  | some s => onMaster r (f s)

/-- `if self.is_master: ... else: ...` with a calculation on the master. -/
def masterOr {A : Type} (r : ℕ) (f : Except E A) (x : A) : Proc V E A := if r = 0 then lift f else .ret x

/-! ## Diagonalisation -/

/-- `calc_states`, base.py:459-521, on process `r` (see `calcStates`). -/
def statesProc [Payload (ℕ → ℕ → ℝ) V] [Payload (ℕ → ℕ → ℕ → ℂ) V] (D : Diag) (w : World) (buf : Buf) (n : ℕ) (kpts : ℕ → Vec3 ℝ)
    (conv : ℤ) (allRed : Bool) (r : ℕ) : Proc V ParErr ((ℕ → ℕ → ℝ) × (ℕ → ℕ → ℕ → ℂ)) := do
  let st ← lift ((rangeElems (distRange w n r)).foldlM (statesStep D kpts conv) ((buf, 0, 0) : StSt))
  if allRed then do
    let b ← pAllReduce w st.2.1
    let s ← pAllReduce w st.2.2
    pure (b, s)
  else pure st.2

/-- `calc_bands`, base.py:312-391, on process `r` (see `calcBands`). -/
noncomputable def bandsProc [Payload (ℕ → ℕ → ℝ) V] (D : Diag) (w : World) (buf : Buf) (n : ℕ) (kpts : ℕ → Vec3 ℝ) (conv : ℤ)
    (orbs : Option (List ℕ)) (r : ℕ) : Proc V ParErr ((ℕ → ℕ → ℝ) × (ℕ → ℕ → ℝ)) := do
  let proj0 : ℕ → ℕ → ℝ := match orbs with
    | none => fun _ _ => 1
    | some _ => 0
  let st ← lift ((rangeElems (distRange w n r)).foldlM (bandsStep D kpts conv orbs) ((buf, 0, proj0) : StBd))
  let b ← pAllReduce w st.2.1
  match orbs with
  | none => pure (b, st.2.2)
  | some _ => do
    let p ← pAllReduce w st.2.2
    pure (b, p)

/-- `calc_dos`, base.py:393-457, on process `r` (see `calcDos`). -/
noncomputable def dosProc [Payload (ℕ → ℕ → ℝ) V] [Payload (ℕ → ℝ) V] (D : Diag) (w : World) (buf : Buf) (n : ℕ) (kpts : ℕ → Vec3 ℝ)
    (conv : ℤ) (orbs : Option (List ℕ)) (emin emax : Option ℝ) (step sigma : ℝ) (basis : ℝ → ℝ → ℝ → ℝ) (gs : ℝ) (r : ℕ) :
    Proc V ParErr (List ℝ × (ℕ → ℝ)) := do
  let bd ← bandsProc D w buf n kpts conv orbs r
  let grid ← lift (dosGrid n D.nb bd.1 emin emax step)
  let loc : ℕ → ℝ := (rangeElems (distRange w n r)).foldl (fun dos ik => (List.range D.nb).foldl (fun dos ib =>
      dos + fun x => basis (grid.getD x 0) (bd.1 ik ib) sigma * bd.2 ik ib) dos) 0
  let tot ← pAllReduce w loc
  pure (grid, fun x => tot x / ((n * D.nb : ℕ) : ℝ) * gs)

/-- `calc_phases`, z2.py:126-188, on process `r` (see `calcPhases`). -/
noncomputable def phasesProc [Payload (ℕ → ℕ → ℝ) V] (D : Diag) (nocc : ℕ) (geev : Matrix (Fin nocc) (Fin nocc) ℂ → List ℂ) (w : World)
    (buf : Buf) (ka : List ℝ) (n : ℕ) (kb : ℕ → ℝ) (kc : ℝ) (r : ℕ) : Proc V ParErr (ℕ → ℕ → ℝ) := do
  let st ← lift ((rangeElems (distRange w n r)).foldlM (Z2.phasesStep D nocc geev ka kb kc) ((buf, 0) : Buf × (ℕ → ℕ → ℝ)))
  pAllReduce w st.2

/-! ## Response functions -/

/-- `calc_ac_cond`, lindhard.py:551-646, on process `r` (see `Lind.acCond`). -/
noncomputable def acProc [Payload (ℕ → ℕ → ℝ) V] [Payload (ℕ → ℕ → ℕ → ℂ) V] [Payload (ℕ → ℂ) V] (L : Lind) (w : World) (buf : Buf)
    (fortran : Bool) (pos : ℤ → Vec3 ℝ) (hops : List (Cell × Pair × ℂ)) (comp : Option (Fin 3 × Fin 3)) (r : ℕ) :
    Proc V ParErr (ℕ → ℂ) := do
  let kmesh ← lift (L.frac2cart ((buildKmeshGrid L.mesh).map L.grid2frac))
  let comp ← lift (match comp with
    | none => .error .value
    | some c => .ok c)
  let bs ← statesProc L.D w buf L.numKpt L.kFrac 1 false r
  let bd ← lift (distBound w L.numKpt r)
  let ac ← pAllReduce w (L.acLocal fortran bs (acHops L.lat pos hops) (fun i => kmesh.getD i 0) comp bd)
  let pre : ℂ := if L.dim = 2 then (L.gs : ℂ) * Complex.I / ((latticeArea L.lat 2 * L.numKpt : ℝ) : ℂ)
    else (L.gs : ℂ) * Complex.I / ((latticeVolume L.lat * L.numKpt : ℝ) : ℂ)
  pure fun iw => ac iw * pre / (L.ext : ℂ)

/-- Loop body of `calc_dyn_pol_regular`, lindhard.py:383-413, on one process (see `Lind.regStep`). -/
noncomputable def regProc [Payload (ℕ → ℕ → ℕ → ℝ) V] [Payload (ℕ → ℕ → ℕ → ℂ) V] [Payload (ℕ → ℕ → ℂ) V] (L : Lind) (w : World)
    (fortran : Bool) (bs : (ℕ → ℕ → ℝ) × Arr3 ℂ) (bd : ℕ × ℕ) (st : Lind.Loc) (q : (Grid × Vec3 ℝ) × ℕ) : Proc V ParErr Lind.Loc := do
  let kq := buildKqMap L.mesh (buildKmeshGrid L.mesh) q.1.1
  let pr : Arr3 ℝ × Arr3 ℂ := L.callProdDp fortran bs kq q.1.2 bd (fun i j l => st.1 i j l * 0, fun i j l => st.2.1 i j l * 0)
  let de ← pAllReduce (A := ℕ → ℕ → ℕ → ℝ) w pr.1
  let pd ← pAllReduce (A := ℕ → ℕ → ℕ → ℂ) w pr.2
  let dp ← pAllReduce w (L.callDynPol fortran de pd bd q.2 st.2.2)
  pure (de, pd, dp)

/-- `calc_dyn_pol_regular`, lindhard.py:337-421, on process `r` (see `Lind.dynPolRegular`). -/
noncomputable def dynRegProc [Payload (ℕ → ℕ → ℝ) V] [Payload (ℕ → ℕ → ℕ → ℝ) V] [Payload (ℕ → ℕ → ℕ → ℂ) V] [Payload (ℕ → ℕ → ℂ) V]
    (L : Lind) (w : World) (buf : Buf) (fortran : Bool) (qs : List Grid) (r : ℕ) : Proc V ParErr (ℕ → ℕ → ℂ) := do
  let qc ← lift (L.frac2cart (qs.map L.grid2frac))
  let bs ← statesProc L.D w buf L.numKpt L.kFrac 2 true r
  let bd ← lift (distBound w L.numKpt r)
  let st ← ((qs.zip qc).zipIdx).foldlM (regProc L w fortran bs bd) (0, 0, 0)
  let fac ← lift L.dynPolFactor
  pure fun iq iw => st.2.2 iq iw * (fac : ℂ) / (L.ext : ℂ)

/-- Loop body of `calc_dyn_pol_arbitrary`, lindhard.py:470-500, on process `r` (see `Lind.arbStep`). -/
noncomputable def arbProc [Payload (ℕ → ℕ → ℝ) V] [Payload (ℕ → ℕ → ℕ → ℂ) V] [Payload (ℕ → ℕ → ℂ) V] (L : Lind) (w : World) (buf : Buf)
    (fortran : Bool) (bs : (ℕ → ℕ → ℝ) × Arr3 ℂ) (bd : ℕ × ℕ) (r : ℕ) (st : Lind.Loc) (q : (Vec3 ℝ × Vec3 ℝ) × ℕ) : Proc V ParErr Lind.Loc := do
  let bq ← statesProc L.D w buf L.numKpt (fun i => L.kFrac i + q.1.2) 2 false r
  let pr : Arr3 ℝ × Arr3 ℂ := L.callProdDpArb fortran bs bq q.1.1 bd (fun i j l => st.1 i j l * 0, fun i j l => st.2.1 i j l * 0)
  let dp ← pAllReduce w (L.callDynPol fortran pr.1 pr.2 bd q.2 st.2.2)
  pure (pr.1, pr.2, dp)

/-- `calc_dyn_pol_arbitrary`, lindhard.py:423-510, on process `r` (see `Lind.dynPolArbitrary`). -/
noncomputable def dynArbProc [Payload (ℕ → ℕ → ℝ) V] [Payload (ℕ → ℕ → ℕ → ℂ) V] [Payload (ℕ → ℕ → ℂ) V] (L : Lind) (w : World)
    (buf : Buf) (fortran : Bool) (qs : List (Vec3 ℝ)) (r : ℕ) : Proc V ParErr (ℕ → ℕ → ℂ) := do
  let qf ← lift (L.cart2frac qs)
  let bs ← statesProc L.D w buf L.numKpt L.kFrac 2 false r
  let bd ← lift (distBound w L.numKpt r)
  let st ← ((qs.zip qf).zipIdx).foldlM (arbProc L w buf fortran bs bd r) (0, 0, 0)
  let fac ← lift L.dynPolFactor
  pure fun iq iw => st.2.2 iq iw * (fac : ℂ) / (L.ext : ℂ)

/-! ## TBPM -/

/-- The common shape of `calc_corr_dos`, `calc_corr_ldos`, `calc_corr_ac_cond`, `calc_corr_dyn_pol`, `calc_hall_mu` and
`calc_quasi_eigenstates`, solver.py:256-392, 443-505, on process `r`: the time step is printed (not in `calc_hall_mu`), the Fortran driver
works on the samples of the process, the average is taken and saved (in `calc_quasi_eigenstates` only if wanted). -/
noncomputable def corrProc {A : Type} [AddCommMonoid A] [Module ℂ A] [Payload A V] (w : World) (echo : Option String)
    (loc : ℕ → Except E A) (file : Option String) (r : ℕ) : Proc V E A := do
  onMasterOpt r .print echo
  let x ← lift (loc r)
  let c ← pAllAverage w x
  onMasterOpt r .save file
  pure c

/-- `calc_corr_dc_cond`, solver.py:393-441, on process `r`. -/
noncomputable def corrDcProc {A B : Type} [AddCommMonoid A] [Module ℂ A] [Payload A V] [AddCommMonoid B] [Module ℂ B] [Payload B V] (w : World)
    (echo : String) (loc : ℕ → Except E (A × B)) (fileA fileB : String) (r : ℕ) : Proc V E (A × B) := do
  onMaster r (.print echo)
  let x ← lift (loc r)
  let a ← pAllAverage w x.1
  let b ← pAllAverage w x.2
  onMaster r (.save fileA)
  onMaster r (.save fileB)
  pure (a, b)

/-- `set_output`, solver.py:105-141, on process `r`: the master makes the directory, which may fail, then all wait; then the master prints
and saves the parameters.  `mk` is what `os.mkdir` says. -/
def outputProc (w : World) (mk : Except E Unit) (lines : List String) (file : String) (r : ℕ) : Proc V E Unit := do
  masterOr r mk ()
  pBarrier w
  lines.forM fun s => onMaster r (.print s)
  onMaster r (.save file)

/-- The functions of `Analyzer`, analysis.py:89-573: the master calculates (which may fail), the others have zeros; then broadcast. -/
def masterProc {A : Type} [AddCommMonoid A] [Payload A V] (w : World) (f : Except E A) (r : ℕ) : Proc V E A := do
  let x ← masterOr r f 0
  pBcast w x

end Verif.Mpi

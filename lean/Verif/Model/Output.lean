import Verif.Model.Config
import Verif.Model.Parallel

/-!
# Result files of the solver

`tbplas/tbpm/solver.py`: the file names of `Solver.set_output`, `Solver.save_config`,
`Solver._save_data`, and the order in which the calculations write.  All processes
execute the same program; only the master writes results and configurations.

Simplifications: a path is the list of its components (no `..`, no links, the directory is not
the empty string and the prefix holds no `/`); what a calculation computes is a
parameter of the operation (`Tbpm.lean` models it), and a calculation that raises before it has a
result is not an operation; the final content of a text log written by Fortran is arbitrary;
permissions and full disks are not modelled.  A value is stored as the bytes of `numpy.save` or
`pickle.dump`, which are parameters.
-/

namespace Verif.Output

/-- A path: the names of the directories and of the file. -/
abbrev Path := List String

/-- What is at a path. -/
inductive Node where
  | dir
  | file (bytes : List ℕ)
  deriving DecidableEq

/-- A file system: what is at every path. -/
abbrev Fs := Path → Option Node

/-- Exceptions. -/
inductive Err where
  | notFound
  | notADirectory
  | isADirectory
  | runtime
  | config (e : ConfigErr)
  | index
  deriving DecidableEq

/-- Is there a directory at this path?  The empty path is the working directory. -/
def isDir (fs : Fs) (p : Path) : Bool := p.isEmpty || fs p == some .dir

/-- `os.path.exists`. -/
def pathExists (fs : Fs) (p : Path) : Bool := p.isEmpty || (fs p).isSome

/-- The exception for a path whose parent is not a directory. -/
def parentErr (fs : Fs) (p : Path) : Option Err :=
  if isDir fs p.dropLast then none
  else if (fs p.dropLast).isSome then some .notADirectory else some .notFound

/-- Put a node at a path. -/
def put (fs : Fs) (p : Path) (n : Node) : Fs := fun q => if q = p then some n else fs q

/-- The atomic effects on the file system. -/
inductive Act where
  | mkdir (p : Path)
  | create (p : Path)
  | write (p : Path) (byte : ℕ)

/-- One effect: `os.mkdir`, `open(p, 'wb')` (the file is empty afterwards), one byte written to an open file. -/
def act (fs : Fs) : Act → Except Err Fs
  | .mkdir p =>
    match parentErr fs p with
    | some e => .error e
    | none => .ok (put fs p .dir)
  | .create p =>
    match parentErr fs p with
    | some e => .error e
    | none => if isDir fs p then .error .isADirectory else .ok (put fs p (.file []))
  | .write p b =>
    match fs p with
    | some (.file bs) => .ok (put fs p (.file (bs ++ [b])))
    | _ => .ok fs

/-- Effects in order, up to the first exception. -/
def exec (fs : Fs) : List Act → Fs × Option Err
  | [] => (fs, none)
  | a :: as =>
    match act fs a with
    | .error e => (fs, some e)
    | .ok fs' => exec fs' as

/-- `with open(p, 'wb')`: all bytes of a value. -/
def dump (p : Path) (bytes : List ℕ) : List Act := .create p :: bytes.map (.write p)

/-- A `Solver` object (solver.py:85-102): the index of its configuration object,
`_output["directory"]`, `_output["prefix"]` of every process, and the directory and prefix in the file
names `_output[key]`, which are set later (solver.py:127-129). -/
structure Solver where
  cfg : ℕ
  dir : Path
  pre : ℕ → String
  keyDir : Path
  keyPre : ℕ → String

/-- `self._output[key]` on process `r` (solver.py:127-129): the directory and the name. -/
def Solver.name (v : Solver) (r : ℕ) (key : String) : Path := v.keyDir ++ [v.keyPre r ++ "." ++ key]

/-- The file of `_save_data` (solver.py:236-254, default format): `{file_name}.npy`, written by the master. -/
def Solver.npy (v : Solver) (key : String) : Path := v.keyDir ++ [v.keyPre 0 ++ "." ++ key ++ ".npy"]

/-- The file of `save_config` (solver.py:151-152), written by the master. -/
def Solver.pkl (v : Solver) (filename : String) : Path := v.dir ++ [v.pre 0 ++ "." ++ filename]

/-- A session: the files, the configuration objects of the user and the solvers; `over` when a process has
been terminated or waits forever. -/
structure Sess where
  fs : Fs
  cfgs : List Config
  solvers : List Solver
  over : Bool

/-- What a call does on one process. -/
inductive Outcome where
  | done
  | raised (e : Err)
  | waiting
  | aborted
  deriving DecidableEq

/-- The calculations with their results (solver.py:256-599); `save` is the argument `save_data`. -/
inductive Job (D : Type) where
  | corrDos (d : D)
  | corrLdos (d : D)
  | corrAc (d : D)
  | corrDynPol (d : D)
  | corrDc (dos dc : D)
  | hallMu (d : D)
  | quasiEigenstates (save : Bool) (d : D)
  | ldosHaydock (d : D)
  | psiT (save : Bool) (d : D)

variable {D : Type}

/-- The calls of `_save_data` in order: solver.py:283, 314, 351, 390, 439-440, 469, 504, 540, 599. -/
def Job.saves : Job D → List (String × D)
  | .corrDos d => [("corr_DOS", d)]
  | .corrLdos d => [("corr_LDOS", d)]
  | .corrAc d => [("corr_AC", d)]
  | .corrDynPol d => [("corr_dyn_pol", d)]
  | .corrDc d d' => [("corr_DOS", d), ("corr_DC", d')]
  | .hallMu d => [("hall_mu", d)]
  | .quasiEigenstates save d => if save then [("qe", d)] else []
  | .ldosHaydock d => [("ldos_haydock", d)]
  | .psiT save d => if save then [("psi_t", d)] else []

/-- The log files opened by Fortran: tbpm.f90:42, 136, 243, 418, 561-565. -/
def Job.logs : Job D → List String
  | .corrDos _ => ["corr_DOS"]
  | .corrLdos _ => ["corr_LDOS"]
  | .corrAc _ => ["corr_AC"]
  | .corrDynPol _ => ["corr_dyn_pol"]
  | .corrDc _ _ => ["corr_DOS", "corr_DC"]
  | _ => []

/-- Does the calculation call `_dist_sample`?  (solver.py:267, 300, 329, 370, 414, 455, 488.) -/
def Job.distributes : Job D → Bool
  | .ldosHaydock _ => false
  | .psiT _ _ => false
  | _ => true

/-- Does the calculation refuse several processes?  (solver.py:523-525, 565-567.) -/
def Job.serialOnly : Job D → Bool
  | .ldosHaydock _ => true
  | .psiT _ _ => true
  | _ => false

/-- `self._config.generic["nr_random_samples"] = num_sample_opt` (solver.py:155-173).  Only numbers
of samples that are natural numbers are adjusted here. -/
def adjust (w : World) (c : Config) : Config :=
  match c.generic.get? "nr_random_samples" with
  | some (.int n) =>
    if (distSample w n.toNat).1 = n.toNat then c
    else { c with generic := c.generic.set "nr_random_samples" (.int (distSample w n.toNat).1) }
  | _ => c

/-- What the user does. -/
inductive Op (D : Type) where
  /-- `Config()` followed by any edits -/
  | config (c : Config)
  /-- any edits of configuration `i` -/
  | edit (i : ℕ) (f : Config → Config)
  /-- `Solver(sample, config_i, directory=dir, prefix=prefix)`; `now r` is `int(time.time())` on process `r` -/
  | solver (i : ℕ) (dir : Path) (pre : Option String) (now : ℕ → ℕ)
  | setOutput (j : ℕ) (dir : Path) (pre : Option String) (now : ℕ → ℕ)
  | saveConfig (j : ℕ) (filename : String)
  /-- a calculation of solver `j`; `log r key` is what process `r` leaves in its log -/
  | compute (j : ℕ) (job : Job D) (log : ℕ → String → List ℕ)

/-- `prefix` on process `r` (solver.py:115-117). -/
def prefixOf (pre : Option String) (now : ℕ → ℕ) (r : ℕ) : String :=
  match pre with
  | some p => p
  | none => toString (now r)

/-- The effects of creating the directory (solver.py:123-125), by the master. -/
def mkdirActs (fs : Fs) (dir : Path) : List Act := if pathExists fs dir then [] else [.mkdir dir]

/-- The effects of `save_config` (solver.py:143-153), by the master. -/
def configActs (encC : Config → List ℕ) (v : Solver) (filename : String) (c : Config) : List Act :=
  dump (v.pkl filename) (encC c)

/-- The effects of the Fortran logs, all processes. -/
def logActs (w : World) (v : Solver) (job : Job D) (log : ℕ → String → List ℕ) : List Act :=
  (List.range w.size).flatMap fun r => job.logs.flatMap fun key => dump (v.name r key) (log r key)

/-- The effects of the calls of `_save_data`, by the master. -/
def saveActs (enc : D → List ℕ) (v : Solver) (job : Job D) : List Act :=
  job.saves.flatMap fun p => dump (v.npy p.1) (enc p.2)

/-- All processes do the same. -/
def all (o : Outcome) : ℕ → Outcome := fun _ => o

/-- The master does one thing, the others another. -/
def masterElse (a b : Outcome) : ℕ → Outcome := fun r => if r = 0 then a else b

/-- `set_output` (solver.py:104-141) for the configuration `c`: an exception in `mkdir` keeps the
other processes in the barrier; one in `save_config` is raised by the master only. -/
def setOutput (encC : Config → List ℕ) (fs : Fs) (v : Solver) (c : Config) : Fs × (ℕ → Outcome) :=
  match exec fs (mkdirActs fs v.dir) with
  | (fs1, some e) => (fs1, masterElse (.raised e) .waiting)
  | (fs1, none) =>
    match exec fs1 (configActs encC v "config.pkl" c) with
    | (fs2, some e) => (fs2, masterElse (.raised e) .done)
    | (fs2, none) => (fs2, all .done)

/-- Does some process wait forever or has been terminated? -/
def ends (w : World) (o : ℕ → Outcome) : Bool :=
  (List.range w.size).any fun r => o r == .waiting || o r == .aborted

/-- One operation.  When `mkdir` fails in `set_output`, the directory and prefix have been replaced but the
file names have not. -/
def step (w : World) (enc : D → List ℕ) (encC : Config → List ℕ) (s : Sess) (op : Op D) :
    Sess × (ℕ → Outcome) :=
  if s.over then (s, all .waiting)
  else match op with
  | .config c => ({ s with cfgs := s.cfgs ++ [c] }, all .done)
  | .edit i f => ({ s with cfgs := s.cfgs.modify i f }, all .done)
  | .solver i dir pre now =>
    match s.cfgs[i]? with
    | none => (s, all (.raised .index))
    | some c =>
      match c.checkParams with
      | .error e => (s, all (.raised (.config e)))
      | .ok () =>
        let v : Solver := ⟨i, dir, prefixOf pre now, dir, prefixOf pre now⟩
        let r := setOutput encC s.fs v c
        ({ s with fs := r.1, over := ends w r.2
                  solvers := if r.2 0 = .done then s.solvers ++ [v] else s.solvers }, r.2)
  | .setOutput j dir pre now =>
    match s.solvers[j]? with
    | none => (s, all (.raised .index))
    | some v0 =>
      match s.cfgs[v0.cfg]? with
      | none => (s, all (.raised .index))
      | some c =>
        let v : Solver := ⟨v0.cfg, dir, prefixOf pre now, dir, prefixOf pre now⟩
        let r := setOutput encC s.fs v c
        let v := if (exec s.fs (mkdirActs s.fs dir)).2 = none then v
          else { v0 with dir := dir, pre := prefixOf pre now }
        ({ s with fs := r.1, over := ends w r.2, solvers := s.solvers.set j v }, r.2)
  | .saveConfig j filename =>
    match s.solvers[j]? with
    | none => (s, all (.raised .index))
    | some v =>
      match s.cfgs[v.cfg]? with
      | none => (s, all (.raised .index))
      | some c =>
        match exec s.fs (configActs encC v filename c) with
        | (fs1, some e) => ({ s with fs := fs1 }, masterElse (.raised e) .done)
        | (fs1, none) => ({ s with fs := fs1 }, all .done)
  | .compute j job log =>
    match s.solvers[j]? with
    | none => (s, all (.raised .index))
    | some v =>
      if job.serialOnly ∧ w.size ≠ 1 then (s, all (.raised .runtime))
      else
        let cfgs := if job.distributes then s.cfgs.modify v.cfg (adjust w) else s.cfgs
        match exec s.fs (logActs w v job log) with
        | (fs1, some _) => ({ s with fs := fs1, cfgs := cfgs, over := true }, all .aborted)
        | (fs1, none) =>
          match exec fs1 (saveActs enc v job) with
          | (fs2, some e) => ({ s with fs := fs2, cfgs := cfgs }, masterElse (.raised e) .done)
          | (fs2, none) => ({ s with fs := fs2, cfgs := cfgs }, all .done)

/-- The effects of one operation in order, ignoring exceptions (the crash points lie between them). -/
def opActs (w : World) (enc : D → List ℕ) (encC : Config → List ℕ) (s : Sess) (op : Op D) : List Act :=
  if s.over then []
  else match op with
  | .config _ => []
  | .edit _ _ => []
  | .solver i dir pre now =>
    match s.cfgs[i]? with
    | none => []
    | some c =>
      match c.checkParams with
      | .error _ => []
      | .ok () => mkdirActs s.fs dir ++ configActs encC ⟨i, dir, prefixOf pre now, dir, prefixOf pre now⟩ "config.pkl" c
  | .setOutput j dir pre now =>
    match s.solvers[j]? with
    | none => []
    | some v0 =>
      match s.cfgs[v0.cfg]? with
      | none => []
      | some c => mkdirActs s.fs dir ++ configActs encC ⟨v0.cfg, dir, prefixOf pre now, dir, prefixOf pre now⟩ "config.pkl" c
  | .saveConfig j filename =>
    match s.solvers[j]? with
    | none => []
    | some v =>
      match s.cfgs[v.cfg]? with
      | none => []
      | some c => configActs encC v filename c
  | .compute j job log =>
    match s.solvers[j]? with
    | none => []
    | some v => if job.serialOnly ∧ w.size ≠ 1 then [] else logActs w v job log ++ saveActs enc v job

/-- The files left by a crash (all processes are killed) after `n` effects of an operation. -/
def crash (w : World) (enc : D → List ℕ) (encC : Config → List ℕ) (s : Sess) (op : Op D) (n : ℕ) : Fs :=
  (exec s.fs ((opActs w enc encC s op).take n)).1

/-- A history. -/
def run (w : World) (enc : D → List ℕ) (encC : Config → List ℕ) (s : Sess) (ops : List (Op D)) : Sess :=
  ops.foldl (fun s op => (step w enc encC s op).1) s

end Verif.Output

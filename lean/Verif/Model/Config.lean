import Mathlib.Data.Real.Basic
import Verif.Model.PyDict

/-!
# Parameters of a TBPM calculation

`tbplas/tbpm/config.py`: the class `Config` and `read_config`, and where
`tbpm/solver.py` and `tbpm/analysis.py` check a configuration.  A file is what `pickle` stored: the
attributes of the configuration at the time of saving (trusted).
-/

namespace Verif

/-- The values the parameters can hold. -/
inductive ParamVal where
  | int (n : ℤ)
  | float (x : ℝ)
  | bool (b : Bool)
  | ints (l : List ℤ)
  | floats (l : List ℝ)
  | points (l : List (List ℝ))
  | other (s : String)

/-- Exceptions of a configuration. -/
inductive ConfigErr where
  | undefined (group key : String)
  | keyError
  | zeroDivision
  deriving DecidableEq

/-- The six groups of parameters. -/
inductive Group where
  | generic | ldos | dcConductivity | quasiEigenstates | dynPol | dckb
  deriving DecidableEq

/-- `Config` (config.py:11-86).  `legal` is `_legal_params`; a set is a list of its elements. -/
structure Config where
  generic : PyDict String ParamVal
  ldos : PyDict String ParamVal
  dcConductivity : PyDict String ParamVal
  quasiEigenstates : PyDict String ParamVal
  dynPol : PyDict String ParamVal
  dckb : PyDict String ParamVal
  legal : PyDict String (List String)

namespace Config

/-- The Boltzmann constant in eV/K (base/constants.py:7). -/
noncomputable def KB : ℝ := 8.617333262e-5

/-- `Config.set_legal_params` (config.py:134-145). -/
def setLegalParams (c : Config) : Config :=
  { c with legal := [("generic", c.generic.keys), ("LDOS", c.ldos.keys), ("dyn_pol", c.dynPol.keys),
                     ("dckb", c.dckb.keys)] }

/-- `Config.__init__` (config.py:87-124). -/
noncomputable def init : Config :=
  setLegalParams
    { generic := [("Bessel_max", .int 250), ("Bessel_precision", .float 1.0e-14),
        ("beta", .float (1.0 / (KB * 300))), ("mu", .float 0), ("correct_spin", .bool false),
        ("nr_time_steps", .int 1024), ("nr_random_samples", .int 1), ("seed", .int 1337),
        ("wfn_check_steps", .int 128), ("wfn_check_thr", .float 1.0e-9),
        ("nr_Fermi_fft_steps", .int (2 ^ 15)), ("Fermi_cheb_precision", .float 1.0e-12)]
      ldos := [("site_indices", .ints [0]), ("wf_weights", .floats [1.0]), ("delta", .float 0.01),
        ("recursion_depth", .int 2000)]
      dcConductivity := [("energy_limits", .floats [-0.5, 0.5])]
      quasiEigenstates := [("energies", .floats [-0.1, 0, 0.1])]
      dynPol := [("q_points", .points [[1, 0, 0]]), ("coulomb_constant", .float 1.0),
        ("background_dielectric_constant", .float 1.0)]
      dckb := [("energies", .floats ((List.range 41).map fun i : ℕ => (i : ℝ) * 0.01 - 0.2)),
        ("n_kernel", .int 2048), ("direction", .int 1), ("ne_integral", .int 2048)]
      legal := [] }

/-- `config.<group>`. -/
def get (c : Config) : Group → PyDict String ParamVal
  | .generic => c.generic
  | .ldos => c.ldos
  | .dcConductivity => c.dcConductivity
  | .quasiEigenstates => c.quasiEigenstates
  | .dynPol => c.dynPol
  | .dckb => c.dckb

/-- `config.<group> = d`. -/
def put (c : Config) (g : Group) (d : PyDict String ParamVal) : Config :=
  match g with
  | .generic => { c with generic := d }
  | .ldos => { c with ldos := d }
  | .dcConductivity => { c with dcConductivity := d }
  | .quasiEigenstates => { c with quasiEigenstates := d }
  | .dynPol => { c with dynPol := d }
  | .dckb => { c with dckb := d }

/-- `Config.set_temperature` (config.py:126-132). -/
noncomputable def setTemperature (c : Config) (temperature : ℝ) : Config × Except ConfigErr Unit :=
  if KB * temperature = 0 then (c, .error .zeroDivision)
  else ({ c with generic := c.generic.set "beta" (.float (1.0 / (KB * temperature))) }, .ok ())

/-- The inner function `_check` (config.py:154-160): raises for the first key of the
difference; which one comes first in a set is not specified, here the one first in the
dictionary. -/
def checkOne (c : Config) (attr : PyDict String ParamVal) (name : String) : Except ConfigErr Unit :=
  match c.legal.get? name with
  | none => .error .keyError
  | some ref =>
    match attr.keys.filter (fun k => !ref.contains k) with
    | [] => .ok ()
    | key :: _ => .error (.undefined name key)

/-- `Config.check_params` (config.py:147-165). -/
def checkParams (c : Config) : Except ConfigErr Unit := do
  checkOne c c.generic "generic"
  checkOne c c.ldos "LDOS"
  checkOne c c.dynPol "dyn_pol"
  checkOne c c.dckb "dckb"

/-- `read_config` (config.py:168-185); the argument is the object stored in the file. -/
noncomputable def readConfig (file : Config) : Config :=
  let config := init
  let config := { config with generic := file.generic, ldos := file.ldos, dynPol := file.dynPol
                              dcConductivity := file.dcConductivity, dckb := file.dckb
                              quasiEigenstates := file.quasiEigenstates }
  config.setLegalParams

end Config
end Verif

import Verif.Model.Config

/-! # The names of the parameters, and what a user does with a configuration -/

namespace Verif.ConfigSpec

open Verif

/-- The names a configuration knows (the defaults of `Config`). -/
def names : Group → List String
  | .generic => ["Bessel_max", "Bessel_precision", "beta", "mu", "correct_spin", "nr_time_steps",
      "nr_random_samples", "seed", "wfn_check_steps", "wfn_check_thr", "nr_Fermi_fft_steps",
      "Fermi_cheb_precision"]
  | .ldos => ["site_indices", "wf_weights", "delta", "recursion_depth"]
  | .dcConductivity => ["energy_limits"]
  | .quasiEigenstates => ["energies"]
  | .dynPol => ["q_points", "coulomb_constant", "background_dielectric_constant"]
  | .dckb => ["energies", "n_kernel", "direction", "ne_integral"]

/-- The name of a group in error messages. -/
def title : Group → String
  | .generic => "generic"
  | .ldos => "LDOS"
  | .dcConductivity => "DC_conductivity"
  | .quasiEigenstates => "quasi_eigenstates"
  | .dynPol => "dyn_pol"
  | .dckb => "dckb"

/-- What a user does between creating a configuration and using it. -/
inductive Edit where
  /-- `config.<g>[key] = v` -/
  | set (g : Group) (key : String) (v : ParamVal)
  /-- `config.<g>.pop(key, None)` -/
  | pop (g : Group) (key : String)
  /-- `config.<g> = d` -/
  | assign (g : Group) (d : PyDict String ParamVal)
  /-- `config.set_temperature(T)` -/
  | temperature (T : ℝ)

/-- One edit, failing ones included. -/
noncomputable def Edit.apply (c : Config) : Edit → Config
  | .set g k v => c.put g ((c.get g).set k v)
  | .pop g k => c.put g ((c.get g).erase k)
  | .assign g d => c.put g d
  | .temperature T => (c.setTemperature T).1

/-- The configuration after a list of edits. -/
noncomputable def edited (c : Config) (es : List Edit) : Config := es.foldl Edit.apply c

/-- The default values of the documentation of `Config` (`nr_random_samples` is called `nr_ran_samples` there). -/
noncomputable def documented : Group → String → Option ParamVal
  | .generic, "Bessel_max" => some (.int 100)
  | .generic, "Bessel_precision" => some (.float 1.0e-14)
  | .generic, "beta" => some (.float (1 / (8.617333262e-5 * 300)))
  | .generic, "mu" => some (.float 0)
  | .generic, "correct_spin" => some (.bool false)
  | .generic, "nr_random_samples" => some (.int 1)
  | .generic, "nr_time_steps" => some (.int 1024)
  | .generic, "seed" => some (.int 1337)
  | .generic, "wfn_check_steps" => some (.int 128)
  | .generic, "wfn_check_thr" => some (.float 1.0e-9)
  | .generic, "Fermi_cheb_precision" => some (.float 1.0e-12)
  | .generic, "nr_Fermi_fft_steps" => some (.int 32768)
  | .ldos, "site_indices" => some (.ints [0])
  | .ldos, "wf_weights" => some (.floats [1])
  | .ldos, "delta" => some (.float 0.01)
  | .ldos, "recursion_depth" => some (.int 2000)
  | .dynPol, "background_dielectric_constant" => some (.float 1)
  | .dynPol, "coulomb_constant" => some (.float 1)
  | .dynPol, "q_points" => some (.points [[1, 0, 0]])
  | .dcConductivity, "energy_limits" => some (.floats [-0.5, 0.5])
  | .dckb, "energies" => some (.floats ((List.range 41).map fun i : ℕ => -0.2 + 0.01 * (i : ℝ)))
  | .dckb, "n_kernel" => some (.int 2048)
  | .dckb, "direction" => some (.int 1)
  | .dckb, "ne_integral" => some (.int 2048)
  | .quasiEigenstates, "energies" => some (.floats [-0.1, 0, 0.1])
  | _, _ => none

/-- An edit which concerns parameter `k` of group `g`. -/
def Edit.touches (g : Group) (k : String) : Edit → Prop
  | .set g' k' _ => g' = g ∧ k' = k
  | .pop g' k' => g' = g ∧ k' = k
  | .assign g' _ => g' = g
  | .temperature _ => g = .generic ∧ k = "beta"

end Verif.ConfigSpec

import Verif.Model.Kernel
import Verif.Model.Parallel

/-!
# Model of the analysis of correlation functions

`/repo/tbplas/tbpm/analysis.py` and `/repo/tbplas/fortran/analysis.f90`.

The local data of all processes are a family indexed by rank, as in `Verif.Model.Parallel`; rank 0 is the master.  Arrays are
functions of their indices, `np.empty` has arbitrary contents `junk`.  Real arithmetic is exact, in particular a division by zero
(for which Python raises or returns `nan`) gives 0; the theorems exclude it.  `hilbert` of SciPy is an argument, `ifft` and `trapz`
are modelled by their documented definitions.  Progress reports are omitted.
-/

namespace Verif.Analysis
open Verif.Tbpm

/-- `window_hanning`, analysis.py:20-28. -/
noncomputable def windowHanning (i tnr : ℕ) : ℝ := 0.5 * (1 + Real.cos (Real.pi * i / tnr))

/-- `window_exp`, analysis.py:31-39. -/
noncomputable def windowExp (i tnr : ℕ) : ℝ := Real.exp (-2 * ((i : ℝ) / tnr) ^ 2)

/-- `window_exp_ten`, analysis.py:42-51. -/
noncomputable def windowExpTen (i tnr : ℕ) : ℝ := (10 : ℝ) ^ (-2 * (1 * (i : ℝ) / tnr) ^ 2)

/-- What the methods read from the sample and the configuration, and the dimension given to the constructor
(analysis.py:66-87, sample.py:682-745, config.py). -/
structure Ctx where
  tnr : ℕ
  spin : Bool
  beta : ℝ
  energyRange : ℝ
  nrOrbitals : ℕ
  area : ℝ
  volume : ℝ
  extended : ℝ
  rescale : ℝ
  dimension : ℕ
  qPoints : List (Fin 3 → ℝ)
  coulomb : ℝ
  backEpsilon : ℝ
  limits : ℝ × ℝ

/-- Exceptions: `ValueError`, `ZeroDivisionError`. -/
inductive AErr where
  | value
  | zeroDivision
deriving DecidableEq

/-- `if dimension not in (2, 3): raise`, analysis.py:85-87.  The other check of the constructor, `check_params`, is not
modelled here. -/
def mkAnalyzer (c : Ctx) : Except AErr Ctx := if c.dimension = 2 ∨ c.dimension = 3 then .ok c else .error .value

/-- `area_unit_cell` in two dimensions, `volume_unit_cell` otherwise, e.g. analysis.py:200-205. -/
def Ctx.cell (c : Ctx) : ℝ := if c.dimension = 2 then c.area else c.volume

/-! ## Density of states -/

/-- `np.fft.ifft` of the first `N` elements. -/
noncomputable def ifft (N : ℕ) (x : ℕ → ℂ) (k : ℕ) : ℂ :=
  (1 / (N : ℂ)) * ∑ m ∈ Finset.range N, x m * Complex.exp (2 * Real.pi * Complex.I * k * m / N)

/-- `np.array([0.5 * i * en_range / tnr - en_range / 2. ...])`, analysis.py:116-117, 489-490. -/
noncomputable def dosEnergies (c : Ctx) : List ℝ :=
  (List.range (c.tnr * 2)).map fun i : ℕ => 0.5 * i * c.energyRange / c.tnr - c.energyRange / 2

/-- Body of the loop analysis.py:125-127. -/
noncomputable def negStep (tnr : ℕ) (window : ℕ → ℕ → ℝ) (corr : ℕ → ℂ) (x : ℕ → ℂ) (i : ℕ) : ℕ → ℂ :=
  let x1 := Function.update x (tnr + i) (window i tnr * corr (i + 1))
  Function.update x1 (tnr - i - 2) (window i tnr * star (corr (i + 1)))

/-- `corr_neg_time`, analysis.py:122-127. -/
noncomputable def corrNegTime (tnr : ℕ) (window : ℕ → ℕ → ℝ) (corr junk : ℕ → ℂ) : ℕ → ℂ :=
  let x0 := Function.update junk (tnr - 1) (corr 0)
  let x1 := Function.update x0 (2 * tnr - 1) (window (tnr - 1) tnr * corr tnr)
  (List.range (tnr - 1)).foldl (negStep tnr window corr) x1

/-- The two loops analysis.py:131-134. -/
noncomputable def dosFill (tnr : ℕ) (fft : ℕ → ℂ) : ℕ → ℝ :=
  let d1 := (List.range tnr).foldl (fun d i => Function.update d (i + tnr) ‖fft i‖) (fun _ => (0 : ℝ))
  (List.range' tnr tnr).foldl (fun d i => Function.update d (i - tnr) ‖fft i‖) d1

/-- What the master computes, analysis.py:120-139. -/
noncomputable def dosMaster (c : Ctx) (window : ℕ → ℕ → ℝ) (corr junk : ℕ → ℂ) : ℕ → ℝ :=
  let enStep := 0.5 * c.energyRange / c.tnr
  let fft := ifft (2 * c.tnr) (corrNegTime c.tnr window corr junk)
  let dos := dosFill c.tnr fft
  let total := ∑ i ∈ Finset.range (2 * c.tnr), dos i
  let dos := fun i => dos i / (total * enStep)
  if c.spin then fun i => 2 * dos i else dos

/-- `calc_dos`, analysis.py:89-143, and `calc_ldos`, analysis.py:145-159: the energies and, for each process, the DOS. -/
noncomputable def calcDos (w : World) (c : Ctx) (window : ℕ → ℕ → ℝ) (corr junk : ℕ → ℕ → ℂ) :
    Except AErr (List ℝ × (ℕ → ℕ → ℝ)) :=
  if c.tnr = 0 then .error .zeroDivision
  else .ok (dosEnergies c, bcast w fun r => if r = 0 then dosMaster c window (corr r) (junk r) else 0)

/-! ## Optical conductivity and polarization -/

/-- `omegas`, analysis.py:208-209, 285-286. -/
noncomputable def omegas (c : Ctx) : List ℝ := (List.range c.tnr).map fun i : ℕ => i * c.energyRange / c.tnr

/-- `ac_real[j, i]`, analysis.py:217-228. -/
noncomputable def acReal (c : Ctx) (window : ℕ → ℕ → ℝ) (corr : ℕ → ℂ) (i : ℕ) : ℝ :=
  let tStep := Real.pi / c.energyRange
  let pre := c.nrOrbitals / (c.cell * c.extended)
  let omega := (omegas c).getD i 0
  let acv := (List.range c.tnr).foldl (fun (acv : ℝ) (k : ℕ) =>
    acv + 2 * window (k + 1) c.tnr * Real.sin (omega * k * tStep) * (corr k).im) 0
  if omega = 0 then 0 else pre * tStep * acv * (Real.exp (-c.beta * omega) - 1) / omega

/-- `sigma`, analysis.py:234-237. -/
def acSigma (tnr : ℕ) (acRe : ℕ → ℝ) : ℕ → ℝ :=
  (List.range tnr).foldl (fun s i => Function.update (Function.update s (tnr + i) (acRe i)) (tnr - i) (acRe i)) (fun _ => 0)

/-- What the master computes, analysis.py:211-243; `hil N x` is the imaginary part of `hilbert` of the first `N` elements. -/
noncomputable def acMaster (c : Ctx) (hil : ℕ → (ℕ → ℝ) → ℕ → ℝ) (window : ℕ → ℕ → ℝ) (corr : Fin 4 → ℕ → ℂ) :
    Fin 4 → ℕ → ℂ := fun j i =>
  let re := acReal c window (corr j)
  let im := hil (2 * c.tnr) (acSigma c.tnr re) (c.tnr + i)
  let v : ℂ := re i + Complex.I * im
  if c.spin then 2 * v else v

/-- `calc_ac_cond`, analysis.py:161-243. -/
noncomputable def calcAcCond (w : World) (c : Ctx) (hil : ℕ → (ℕ → ℝ) → ℕ → ℝ) (window : ℕ → ℕ → ℝ)
    (corr : ℕ → Fin 4 → ℕ → ℂ) : List ℝ × (ℕ → Fin 4 → ℕ → ℂ) :=
  (omegas c, bcast w fun r => if r = 0 then acMaster c hil window (corr r) else 0)

/-- What the master computes, analysis.py:289-305. -/
noncomputable def dpMaster (c : Ctx) (window : ℕ → ℕ → ℝ) (corr : ℕ → ℕ → ℝ) : ℕ → ℕ → ℂ := fun iq i =>
  if iq < c.qPoints.length ∧ i < c.tnr then
    let tStep := Real.pi / c.energyRange
    let pre : ℝ := 2 * c.nrOrbitals / (c.cell * c.extended)
    let omega := (omegas c).getD i 0
    let dpv := (List.range c.tnr).foldl (fun (dpv : ℂ) (k : ℕ) =>
      let phi := k * tStep * omega
      dpv + window (k + 1) c.tnr * corr iq k * (Real.cos phi + Complex.I * Real.sin phi)) 0
    let v : ℂ := pre * tStep * dpv
    if c.spin then 2 * v else v
  else 0

/-- `calc_dyn_pol`, analysis.py:245-308. -/
noncomputable def calcDynPol (w : World) (c : Ctx) (window : ℕ → ℕ → ℝ) (corr : ℕ → ℕ → ℕ → ℝ) :
    List (Fin 3 → ℝ) × List ℝ × (ℕ → ℕ → ℕ → ℂ) :=
  (c.qPoints, omegas c, bcast w fun r => if r = 0 then dpMaster c window (corr r) else 0)

/-! ## Dielectric function -/

/-- `_get_vq`, analysis.py:310-329; `eps0` is `EPSILON0`. -/
noncomputable def getVq (c : Ctx) (eps0 : ℝ) (q : Fin 3 → ℝ) : ℝ :=
  let factor := c.coulomb / (eps0 * c.backEpsilon)
  let qNorm := Real.sqrt (∑ i, q i ^ 2)
  if qNorm = 0 then 0
  else if c.dimension = 2 then factor * 2 * Real.pi / qNorm else factor * 4 * Real.pi / qNorm ^ 2

/-- `calc_epsilon`, analysis.py:331-354. -/
noncomputable def calcEpsilon (w : World) (c : Ctx) (eps0 : ℝ) (dynPol : ℕ → ℕ → ℕ → ℂ) : ℕ → ℕ → ℕ → ℂ :=
  bcast w fun r => if r = 0 then
    (List.range c.qPoints.length).foldl (fun eps i =>
      Function.update eps i fun k => 1 - getVq c eps0 (c.qPoints.getD i 0) * dynPol r i k) (fun _ _ => (0 : ℂ))
  else 0

/-- `calc_epsilon_q0`, analysis.py:356-373. -/
noncomputable def calcEpsilonQ0 (c : Ctx) (eps0 : ℝ) (omegas : ℕ → ℝ) (ac : Fin 4 → ℕ → ℂ) : Except AErr (Fin 4 → ℕ → ℂ) :=
  if c.dimension ≠ 3 then .error .value
  else .ok fun j i => 1 + Complex.I * (4 * Real.pi / (c.backEpsilon * eps0) : ℝ) * ac j i / omegas i

/-! ## DC conductivity and diffusion -/

/-- `qe_indices`, analysis.py:424-425, 491-492. -/
noncomputable def qeIndices (c : Ctx) : List ℕ :=
  (List.range (dosEnergies c).length).filter fun i =>
    (dosEnergies c).getD i 0 ≥ c.limits.1 ∧ (dosEnergies c).getD i 0 ≤ c.limits.2

/-- The summand of analysis.py:443-447 and 504-507. -/
noncomputable def dcTerm (c : Ctx) (window : ℕ → ℕ → ℝ) (en : ℝ) (corr : ℕ → ℂ) (k : ℕ) : ℝ :=
  let tStep := 2 * Real.pi / c.energyRange
  let phi := k * tStep * en
  let cExp : ℂ := Real.cos phi - Complex.I * Real.sin phi
  window (k + 1) c.tnr * (cExp * corr k).re

/-- What the master computes, analysis.py:435-453, for the DOS `dos`. -/
noncomputable def dcMaster (c : Ctx) (window : ℕ → ℕ → ℝ) (dos : ℕ → ℝ) (corr : Fin 2 → ℕ → ℕ → ℂ) : Fin 2 → ℕ → ℝ := fun i j =>
  if j < (qeIndices c).length then
    let idx := (qeIndices c).getD j 0
    let en := (dosEnergies c).getD idx 0
    let dcVal := (List.range c.tnr).foldl (fun (v : ℝ) (k : ℕ) => v + dcTerm c window en (corr i j) k) 0
    let v := c.nrOrbitals / c.cell * (2 * Real.pi / c.energyRange) * dos idx * dcVal
    if c.spin then 2 * v else v
  else 0

/-- `calc_dc_cond`, analysis.py:375-458. -/
noncomputable def calcDcCond (w : World) (c : Ctx) (windowDos windowDc : ℕ → ℕ → ℝ) (corrDos junk : ℕ → ℕ → ℂ)
    (corrDc : ℕ → Fin 2 → ℕ → ℕ → ℂ) : Except AErr (List ℝ × (ℕ → Fin 2 → ℕ → ℝ)) := do
  let corr : ℕ → ℕ → ℂ := fun r k => if k = 0 then 1 else corrDos r (k - 1)
  let (energies, dos) ← calcDos w c windowDos corr junk
  .ok ((qeIndices c).map fun i => energies.getD i 0,
    bcast w fun r => if r = 0 then dcMaster c windowDc (dos r) (corrDc r) else 0)

/-- `trapz(y[:m], x[:m])` of SciPy. -/
noncomputable def trapz (m : ℕ) (y x : ℕ → ℝ) : ℝ := ∑ k ∈ Finset.range (m - 1), (x (k + 1) - x k) * (y (k + 1) + y k) / 2

/-- `np.linspace(0, tnr - 1, tnr) * t_step`, analysis.py:495. -/
noncomputable def diffTime (c : Ctx) (k : ℕ) : ℝ := k * (2 * Real.pi / c.energyRange)

/-- What the master computes, analysis.py:498-509. -/
noncomputable def diffMaster (c : Ctx) (window : ℕ → ℕ → ℝ) (corr : Fin 2 → ℕ → ℕ → ℂ) : Fin 2 → ℕ → ℕ → ℝ := fun i j k2 =>
  if j < (qeIndices c).length ∧ k2 < c.tnr then
    let en := (dosEnergies c).getD ((qeIndices c).getD j 0) 0
    let temp := (List.range c.tnr).foldl (fun t k => Function.update t k (dcTerm c window en (corr i j) k)) (fun _ => (0 : ℝ))
    trapz (k2 + 1) temp (diffTime c)
  else 0

/-- `calc_diff_coeff`, analysis.py:460-511. -/
noncomputable def calcDiffCoeff (w : World) (c : Ctx) (window : ℕ → ℕ → ℝ) (corr : ℕ → Fin 2 → ℕ → ℕ → ℂ) :
    Except AErr (List ℝ × (ℕ → Fin 2 → ℕ → ℕ → ℝ)) :=
  if c.tnr = 0 then .error .zeroDivision
  else .ok ((List.range c.tnr).map (diffTime c), bcast w fun r => if r = 0 then diffMaster c window (corr r) else 0)

/-! ## Hall conductivity -/

/-- `cond_from_trace`, analysis.f90:6-70.  `reds k` is the order in which the threads add the columns at the energy `k`, `red i`
the order in which they add the energies for the chemical potential `i`. -/
noncomputable def condFromTrace (mu : ℕ → ℕ → ℂ) (nk : ℕ) (mus : List ℝ) (rescale beta : ℝ) (ne : ℕ)
    (reds red : ℕ → List ℕ) : ℕ → ℝ :=
  let dE := Real.pi / ne
  let energy : ℕ → ℝ := fun k => k * dE
  let sumGamma : ℕ → ℝ := fun k => (reds k).foldl (fun s j =>
    (List.range nk).foldl (fun s i => s + (gammaMn (energy k) i j * mu i j).re) s) 0
  fun i => (red i).foldl (fun dcx k =>
    dcx + sumGamma k * (fermiDist beta (mus.getD i 0) (Real.cos (energy k) * rescale)).2 * dE / Real.sin (energy k) ^ 3) 0

/-- The unit of the Hall conductivity; `other` is any other string. -/
inductive HallUnit where
  | hBar
  | h
  | other
deriving DecidableEq

/-- `calc_hall_cond`, analysis.py:513-573. -/
noncomputable def calcHallCond (w : World) (c : Ctx) (mus : List ℝ) (ne nk : ℕ) (unit : HallUnit) (reds red : ℕ → List ℕ)
    (mu : ℕ → ℕ → ℕ → ℂ) : Except AErr (List ℝ × (ℕ → ℕ → ℝ)) :=
  if unit = .other then .error .value
  else .ok (mus, bcast w fun r => if r = 0 then
    let pre : ℝ := 16 * c.nrOrbitals / (Real.pi * c.energyRange ^ 2)
    let pre := pre / c.cell
    let pre := if unit = .h then pre * (2 * Real.pi) else pre
    let cond := fun i => condFromTrace (mu r) nk mus c.rescale c.beta ne reds red i * pre
    if c.spin then fun i => cond i * 2 else cond
  else 0)

end Verif.Analysis

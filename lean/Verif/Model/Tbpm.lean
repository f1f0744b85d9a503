import Verif.Model.Kernel
import Verif.Model.Parallel

/-!
# Model of the TBPM drivers

`/repo/tbplas/fortran/tbpm.f90` and their callers in `/repo/tbplas/tbpm/solver.py`.

Omitted everywhere: progress reports, the output of `DEBUG` builds, and saving to files.  Arrays are functions; the time index of
`corr` is the one of the source.  The results of `random_state` are an oracle `rnd` of the seed, the Fermi coefficients are
arguments.  Array accesses beyond the bounds (for zero time steps, kernels of size one) are excluded by hypotheses of the theorems.

The schedule of a parallel loop may be different at each call: `sch key` are the schedules of the call with the key `key`, made of
the process, the sample, the time and the number of the call in the body.
-/

namespace Verif.Tbpm

/-- What ends a driver: `STOP` in `check_norm`, `STOP` for a wrong direction, and the exceptions of the callers. -/
inductive TErr where
  | diverged
  | direction
  | runtime
  | value
deriving DecidableEq

/-- Arguments shared by the drivers: Hamiltonian, Bessel series and its length; `sch` see above. -/
structure Env (n : ℕ) where
  sch : List ℕ → ℕ → List (Fin n)
  ham : FCsr
  bes : ℕ → ℝ
  nbes : ℕ

variable {n : ℕ}

/-- Call of `cheb_wf_timestep`. -/
def Env.step (e : Env n) (key : List ℕ) (x : CVec n) (fwd : Bool) : CVec n := chebWfTimestep (e.sch key) e.ham e.bes e.nbes x fwd

/-- `mat * x`. -/
def Env.mul (e : Env n) (key : List ℕ) (m : FCsr) (x : CVec n) : CVec n := csrMv (e.sch key 0) m x

/-- Call of `Fermi`. -/
def Env.fermi (e : Env n) (key : List ℕ) (coef : (ℕ → ℝ) × ℕ) (x : CVec n) : CVec n := fermiOp (e.sch key) e.ham coef.1 coef.2 x

/-- `if (t == wfn_chk_step) call check_norm(wf, norm_ref, wfn_chk_thr)`. -/
noncomputable def chkNorm (chk : ℤ) (thr : ℝ) (t : ℕ) (wf : CVec n) (ref : ℂ) : Except TErr Unit :=
  if (t : ℤ) = chk ∧ checkNorm wf ref thr = true then .error .diverged else .ok ()

/-- `x(i) = x(i) + v`. -/
def addAt {A : Type*} [Add A] (x : ℕ → A) (i : ℕ) (v : A) : ℕ → A := Function.update x i (x i + v)

/-- `current_coefficient` followed by `make_csr_matrix`, e.g. tbpm.f90:249-250. -/
def FCsr.current (m : FCsr) (dr : ℕ → ℝ) (rescale : ℝ) : FCsr := { m with values := currentCoef m.values dr rescale }

/-! ## Bessel series -/

/-- The loop solver.py:208-220; `jv i` is the Bessel function of order `i` at the scaled time.  The flag is `converged`. -/
noncomputable def besselLoop (jv : ℕ → ℝ) (prec : ℝ) : List ℕ → List ℝ → List ℝ × Bool
  | [], acc => (acc, false)
  | i :: is, acc =>
    if |jv i| > prec then besselLoop jv prec is (acc ++ [jv i])
    else if |jv (i + 1)| > prec then besselLoop jv prec is (acc ++ [jv i])
    else (acc, true)

/-- `_get_bessel_series`, solver.py:194-224. -/
noncomputable def besselSeries (jv : ℕ → ℝ) (prec : ℝ) (besselMax : ℕ) : Except TErr (List ℝ) :=
  let r := besselLoop jv prec (List.range besselMax) []
  if r.2 then .ok r.1 else .error .value

/-! ## Density of states -/

/-- Body of the time loop, tbpm.f90:74-87. -/
noncomputable def dosTime (e : Env n) (chk : ℤ) (thr : ℝ) (ns r s : ℕ) (wf0 : CVec n) (ref : ℂ) (st : CVec n × (ℕ → ℂ)) (t : ℕ) :
    Except TErr (CVec n × (ℕ → ℂ)) := do
  chkNorm chk thr t st.1 ref
  let wf := e.step [r, s, t] st.1 true
  .ok (wf, addAt st.2 t (innerProd wf0 wf / ns))

/-- Body of the sample loop, tbpm.f90:50-88. -/
noncomputable def dosSample (e : Env n) (rnd : ℤ → CVec n) (seed : ℤ) (chk : ℤ) (thr : ℝ) (nt ns r : ℕ) (corr : ℕ → ℂ) (s : ℕ) :
    Except TErr (ℕ → ℂ) := do
  let wf0 := rnd (seed * (s + r * ns))
  let corr := addAt corr 0 (innerProd wf0 wf0 / ns)
  let wf := e.step [r, s, 1] wf0 true
  let corr := addAt corr 1 (innerProd wf0 wf / ns)
  let ref := innerProd wf wf
  let st ← (List.range' 2 (nt - 1)).foldlM (dosTime e chk thr ns r s wf0 ref) (wf, corr)
  .ok st.2

/-- `tbpm_dos`, tbpm.f90:6-93, on process `r`. -/
noncomputable def tbpmDos (e : Env n) (rnd : ℤ → CVec n) (seed : ℤ) (chk : ℤ) (thr : ℝ) (nt ns r : ℕ) : Except TErr (ℕ → ℂ) :=
  (List.range' 1 ns).foldlM (dosSample e rnd seed chk thr nt ns r) 0

/-- `calc_corr_dos`, solver.py:256-284: the correlation function on every process. -/
noncomputable def calcCorrDos (w : World) (e : Env n) (rnd : ℤ → CVec n) (seed : ℤ) (chk : ℤ) (thr : ℝ) (nt nsamp : ℕ) :
    Except TErr (ℕ → ℕ → ℂ) := do
  let corr ← onRanks w fun r => tbpmDos e rnd seed chk thr nt (distSample w nsamp).2 r
  .ok (allAverage (K := ℂ) w corr)

/-! ## Local density of states -/

/-- The state on the chosen sites, tbpm.f90:152-157.  The inner product is real, the square root is that of its real part. -/
noncomputable def ldosState (sites : List (Fin n)) (x : CVec n) : CVec n :=
  let wf0 : CVec n := sites.foldl (fun w i => Function.update w i (x i)) 0
  fun i => wf0 i / (Real.sqrt (innerProd wf0 wf0).re : ℂ)

/-- Body of the time loop, tbpm.f90:170-183. -/
noncomputable def ldosTime (e : Env n) (chk : ℤ) (thr : ℝ) (ns r s : ℕ) (wf0 : CVec n) (ref : ℂ) (st : CVec n × (ℕ → ℂ)) (k : ℕ) :
    Except TErr (CVec n × (ℕ → ℂ)) := do
  chkNorm chk thr k st.1 ref
  let wf := e.step [r, s, k] st.1 true
  .ok (wf, addAt st.2 k (innerProd wf0 wf / ns))

/-- Body of the sample loop, tbpm.f90:143-184. -/
noncomputable def ldosSample (e : Env n) (sites : List (Fin n)) (rnd : ℤ → CVec n) (seed : ℤ) (chk : ℤ) (thr : ℝ) (nt ns r : ℕ)
    (corr : ℕ → ℂ) (s : ℕ) : Except TErr (ℕ → ℂ) := do
  let wf0 := ldosState sites (rnd (seed * (s + r * ns)))
  let corr := addAt corr 0 (innerProd wf0 wf0 / ns)
  let st ← (List.range' 1 nt).foldlM (ldosTime e chk thr ns r s wf0 (innerProd wf0 wf0)) (wf0, corr)
  .ok st.2

/-- `tbpm_ldos`, tbpm.f90:97-189, on process `r`. -/
noncomputable def tbpmLdos (e : Env n) (sites : List (Fin n)) (rnd : ℤ → CVec n) (seed : ℤ) (chk : ℤ) (thr : ℝ) (nt ns r : ℕ) :
    Except TErr (ℕ → ℂ) :=
  (List.range' 1 ns).foldlM (ldosSample e sites rnd seed chk thr nt ns r) 0

/-- `calc_corr_ldos`, solver.py:286-315. -/
noncomputable def calcCorrLdos (w : World) (e : Env n) (sites : List (Fin n)) (rnd : ℤ → CVec n) (seed : ℤ) (chk : ℤ) (thr : ℝ)
    (nt nsamp : ℕ) : Except TErr (ℕ → ℕ → ℂ) := do
  let corr ← onRanks w fun r => tbpmLdos e sites rnd seed chk thr nt (distSample w nsamp).2 r
  .ok (allAverage (K := ℂ) w corr)

/-! ## Optical conductivity -/

/-- The four correlation values, e.g. tbpm.f90:320-327. -/
def acVals (e : Env n) (key : List ℕ) (cx cy : FCsr) (p1x p1y p2 : CVec n) : Fin 4 → ℂ :=
  ![innerProd p2 (e.mul (key ++ [11]) cx p1x), innerProd p2 (e.mul (key ++ [12]) cy p1x),
    innerProd p2 (e.mul (key ++ [13]) cx p1y), innerProd p2 (e.mul (key ++ [14]) cy p1y)]

/-- Body of the time loop, tbpm.f90:308-345. -/
noncomputable def acTime (e : Env n) (cx cy : FCsr) (chk : ℤ) (thr : ℝ) (ns r s : ℕ) (ref : ℂ)
    (st : (CVec n × CVec n × CVec n) × (ℕ → Fin 4 → ℂ)) (t : ℕ) :
    Except TErr ((CVec n × CVec n × CVec n) × (ℕ → Fin 4 → ℂ)) := do
  chkNorm chk thr t st.1.2.2 ref
  let p1x := e.step [r, s, t, 1] st.1.1 true
  let p1y := e.step [r, s, t, 2] st.1.2.1 true
  let p2 := e.step [r, s, t, 3] st.1.2.2 true
  .ok ((p1x, p1y, p2), addAt st.2 t fun c => acVals e [r, s, t] cx cy p1x p1y p2 c / ns)

/-- Body of the sample loop, tbpm.f90:268-346.  The values for the first time are computed but not stored. -/
noncomputable def acSample (e : Env n) (cx cy : FCsr) (cF cOmF : (ℕ → ℝ) × ℕ) (rnd : ℤ → CVec n) (seed : ℤ) (chk : ℤ) (thr : ℝ)
    (nt ns r : ℕ) (corr : ℕ → Fin 4 → ℂ) (s : ℕ) : Except TErr (ℕ → Fin 4 → ℂ) := do
  let wf0 := rnd (seed * (s + r * ns))
  let p1x := e.fermi [r, s, 1, 3] cOmF (e.mul [r, s, 1, 1] cx wf0)
  let p1y := e.fermi [r, s, 1, 4] cOmF (e.mul [r, s, 1, 2] cy wf0)
  let p2 := e.fermi [r, s, 1, 5] cF wf0
  let st ← (List.range' 2 (nt - 1)).foldlM (acTime e cx cy chk thr ns r s (innerProd p2 p2)) ((p1x, p1y, p2), corr)
  .ok st.2

/-- `tbpm_accond`, tbpm.f90:193-351, on process `r`. -/
noncomputable def tbpmAccond (e : Env n) (rescale : ℝ) (dx dy : ℕ → ℝ) (cF cOmF : (ℕ → ℝ) × ℕ) (rnd : ℤ → CVec n) (seed : ℤ)
    (chk : ℤ) (thr : ℝ) (nt ns r : ℕ) : Except TErr (ℕ → Fin 4 → ℂ) :=
  (List.range' 1 ns).foldlM
    (acSample e (e.ham.current dx rescale) (e.ham.current dy rescale) cF cOmF rnd seed chk thr nt ns r) 0

/-- `calc_corr_ac_cond`, solver.py:317-352. -/
noncomputable def calcCorrAcCond (w : World) (e : Env n) (rescale : ℝ) (dx dy : ℕ → ℝ) (cF cOmF : (ℕ → ℝ) × ℕ) (rnd : ℤ → CVec n)
    (seed : ℤ) (chk : ℤ) (thr : ℝ) (nt nsamp : ℕ) : Except TErr (ℕ → ℕ → Fin 4 → ℂ) := do
  let corr ← onRanks w fun r => tbpmAccond e rescale dx dy cF cOmF rnd seed chk thr nt (distSample w nsamp).2 r
  .ok (allAverage (K := ℂ) w corr)

/-! ## Dynamical polarization -/

/-- Body of the time loop, tbpm.f90:468-486. -/
noncomputable def dynTime (e : Env n) (rq : CVec n) (chk : ℤ) (thr : ℝ) (ns r iq s : ℕ) (ref : ℂ)
    (st : (CVec n × CVec n) × (ℕ → ℝ)) (t : ℕ) : Except TErr ((CVec n × CVec n) × (ℕ → ℝ)) := do
  chkNorm chk thr t st.1.2 ref
  let p1 := e.step [r, iq, s, t, 1] st.1.1 true
  let p2 := e.step [r, iq, s, t, 2] st.1.2 true
  .ok ((p1, p2), addAt st.2 t ((innerProd p2 (rq * p1)).im / ns))

/-- Body of the sample loop, tbpm.f90:440-487; `corr` is the row of the q-point. -/
noncomputable def dynSample (e : Env n) (rq rmq : CVec n) (cF cOmF : (ℕ → ℝ) × ℕ) (rnd : ℤ → CVec n) (seed : ℤ) (chk : ℤ) (thr : ℝ)
    (nt ns r iq : ℕ) (corr : ℕ → ℝ) (s : ℕ) : Except TErr (ℕ → ℝ) := do
  let wf0 := rnd (seed * (s + r * ns))
  let p1 := e.fermi [r, iq, s, 1, 1] cOmF (rmq * wf0)
  let p2 := e.fermi [r, iq, s, 1, 2] cF wf0
  let corr := addAt corr 1 ((innerProd p2 (rq * p1)).im / ns)
  let st ← (List.range' 2 (nt - 1)).foldlM (dynTime e rq chk thr ns r iq s (innerProd p2 p2)) ((p1, p2), corr)
  .ok st.2

/-- `tbpm_dyn_pol`, tbpm.f90:355-493, on process `r`: row `iq` belongs to the q-point `iq` (zero-based). -/
noncomputable def tbpmDynPol (e : Env n) (sx sy sz : Fin n → ℝ) (q : List (Fin 3 → ℝ)) (cF cOmF : (ℕ → ℝ) × ℕ) (rnd : ℤ → CVec n)
    (seed : ℤ) (chk : ℤ) (thr : ℝ) (nt ns r : ℕ) : Except TErr (ℕ → ℕ → ℝ) := do
  let rows ← (List.range q.length).mapM fun iq =>
    let rho := densityCoef sx sy sz (q.getD iq 0)
    (List.range' 1 ns).foldlM (dynSample e rho.1 rho.2 cF cOmF rnd seed chk thr nt ns r iq) (0 : ℕ → ℝ)
  .ok fun iq => rows.getD iq 0

/-- `calc_corr_dyn_pol`, solver.py:354-391. -/
noncomputable def calcCorrDynPol (w : World) (e : Env n) (sx sy sz : Fin n → ℝ) (q : List (Fin 3 → ℝ)) (cF cOmF : (ℕ → ℝ) × ℕ)
    (rnd : ℤ → CVec n) (seed : ℤ) (chk : ℤ) (thr : ℝ) (nt nsamp : ℕ) : Except TErr (ℕ → ℕ → ℕ → ℝ) := do
  let corr ← onRanks w fun r => tbpmDynPol e sx sy sz q cF cOmF rnd seed chk thr nt (distSample w nsamp).2 r
  .ok (allAverage (K := ℝ) w corr)

/-! ## Quasi-eigenstates -/

/-- Factors of the Fourier transform, e.g. tbpm.f90:798-802: the window and the phase. -/
noncomputable def hanning (nt t : ℕ) : ℝ := 0.5 * (1 + Real.cos (Real.pi * t / nt))
@[inherit_doc hanning]
noncomputable def phase (energy tstep : ℝ) (t : ℕ) : ℂ := Complex.exp (Complex.I * energy * t * tstep)

/-- Body of the time loop, tbpm.f90:786-811: the states propagated forwards and backwards, and the transform at each energy. -/
noncomputable def qeTime (e : Env n) (energies : List ℝ) (tstep : ℝ) (chk : ℤ) (thr : ℝ) (nt r s : ℕ) (ref : ℂ)
    (st : (CVec n × CVec n) × (ℕ → CVec n)) (k : ℕ) : Except TErr ((CVec n × CVec n) × (ℕ → CVec n)) := do
  chkNorm chk thr k st.1.1 ref
  chkNorm chk thr k st.1.2 ref
  let pos := e.step [r, s, k, 1] st.1.1 true
  let neg := e.step [r, s, k, 2] st.1.2 false
  let w := hanning nt k
  .ok ((pos, neg), fun i =>
    let p := phase (energies.getD i 0) tstep k
    fun j => st.2 i j + p * pos j * w + star p * neg j * w)

/-- Body of the sample loop, tbpm.f90:770-829. -/
noncomputable def qeSample (e : Env n) (energies : List ℝ) (tstep : ℝ) (rnd : ℤ → CVec n) (seed : ℤ) (chk : ℤ) (thr : ℝ)
    (nt ns r : ℕ) (qe : ℕ → Fin n → ℝ) (s : ℕ) : Except TErr (ℕ → Fin n → ℝ) := do
  let wf0 := rnd (seed * (s + r * ns))
  let st ← (List.range' 1 nt).foldlM (qeTime e energies tstep chk thr nt r s (innerProd wf0 wf0)) ((wf0, wf0), fun _ => wf0)
  .ok fun i j => qe i j + ‖st.2 i j / (normZ (st.2 i) : ℂ)‖ ^ 2 / ns

/-- `tbpm_eigenstates`, tbpm.f90:721-830, on process `r`. -/
noncomputable def tbpmEigenstates (e : Env n) (energies : List ℝ) (tstep : ℝ) (rnd : ℤ → CVec n) (seed : ℤ) (chk : ℤ) (thr : ℝ)
    (nt ns r : ℕ) : Except TErr (ℕ → Fin n → ℝ) :=
  (List.range' 1 ns).foldlM (qeSample e energies tstep rnd seed chk thr nt ns r) 0

/-- `calc_quasi_eigenstates`, solver.py:472-505. -/
noncomputable def calcQuasiEigenstates (w : World) (e : Env n) (energies : List ℝ) (tstep : ℝ) (rnd : ℤ → CVec n) (seed : ℤ)
    (chk : ℤ) (thr : ℝ) (nt nsamp : ℕ) : Except TErr (ℕ → ℕ → Fin n → ℝ) := do
  let st ← onRanks w fun r => tbpmEigenstates e energies tstep rnd seed chk thr nt (distSample w nsamp).2 r
  .ok (allAverage (K := ℝ) w st)

/-! ## DC conductivity -/

/-- Body of the first time loop, tbpm.f90:606-639: as for the quasi-eigenstates, and the DOS correlation. -/
noncomputable def dcTime (e : Env n) (energies : List ℝ) (tstep : ℝ) (chk : ℤ) (thr : ℝ) (nt ns r s : ℕ) (wf0 : CVec n) (ref : ℂ)
    (st : ((CVec n × CVec n) × (ℕ → CVec n)) × (ℕ → ℂ)) (t : ℕ) :
    Except TErr (((CVec n × CVec n) × (ℕ → CVec n)) × (ℕ → ℂ)) := do
  let q ← qeTime e energies tstep chk thr nt r s ref st.1 t
  .ok (q, addAt st.2 t (innerProd wf0 q.1.1 / ns))

/-- The loop over the energies at one time, tbpm.f90:659-673, 682-697: what is added to `dc_corr(c, i, t)`, for zero-based `i`
and `c`.  `qe i` are the normalised quasi-eigenstates. -/
noncomputable def dcVals (e : Env n) (key : List ℕ) (cx cy : FCsr) (ne ns : ℕ) (wf0 : CVec n) (qe : ℕ → CVec n)
    (jx jy : CVec n) (i : ℕ) (c : Fin 2) : ℂ :=
  if i < ne then
    let wfE : CVec n := fun j => qe i j / (‖innerProd wf0 (qe i)‖ : ℂ)
    ![innerProd jx (e.mul (key ++ [i, 1]) cx wfE), innerProd jy (e.mul (key ++ [i, 2]) cy wfE)] c / ns
  else 0

/-- Body of the second time loop, tbpm.f90:676-698. -/
noncomputable def dcTime2 (e : Env n) (cx cy : FCsr) (ne ns r s : ℕ) (wf0 : CVec n) (qe : ℕ → CVec n)
    (st : (CVec n × CVec n) × (ℕ → ℕ → Fin 2 → ℂ)) (t : ℕ) : (CVec n × CVec n) × (ℕ → ℕ → Fin 2 → ℂ) :=
  let jx := e.step [r, s, t, 3] st.1.1 true
  let jy := e.step [r, s, t, 4] st.1.2 true
  ((jx, jy), addAt st.2 t (dcVals e [r, s, t, 5] cx cy ne ns wf0 qe jx jy))

/-- Body of the sample loop, tbpm.f90:583-699; `energies` are those selected by `en_inds`. -/
noncomputable def dcSample (e : Env n) (cx cy : FCsr) (energies : List ℝ) (tstep : ℝ) (rnd : ℤ → CVec n) (seed : ℤ) (chk : ℤ)
    (thr : ℝ) (nt ns r : ℕ) (acc : (ℕ → ℂ) × (ℕ → ℕ → Fin 2 → ℂ)) (s : ℕ) :
    Except TErr ((ℕ → ℂ) × (ℕ → ℕ → Fin 2 → ℂ)) := do
  let wf0 := rnd (seed * (s + r * ns))
  let st ← (List.range' 1 nt).foldlM (dcTime e energies tstep chk thr nt ns r s wf0 (innerProd wf0 wf0))
    (((wf0, wf0), fun _ => wf0), acc.1)
  let qe : ℕ → CVec n := fun i j => st.1.2 i j / (normZ (st.1.2 i) : ℂ)
  let jx := e.mul [r, s, 0, 1] cx wf0
  let jy := e.mul [r, s, 0, 2] cy wf0
  let dc := addAt acc.2 1 (dcVals e [r, s, 1, 5] cx cy energies.length ns wf0 qe jx jy)
  .ok (st.2, ((List.range' 2 (nt - 1)).foldl (dcTime2 e cx cy energies.length ns r s wf0 qe) ((jx, jy), dc)).2)

/-- `tbpm_dccond`, tbpm.f90:497-718, on process `r`: `dos_corr` and `dc_corr`, the latter by time, energy and direction. -/
noncomputable def tbpmDccond (e : Env n) (rescale : ℝ) (dx dy : ℕ → ℝ) (energies : List ℝ) (inds : List ℕ) (tstep : ℝ)
    (rnd : ℤ → CVec n) (seed : ℤ) (chk : ℤ) (thr : ℝ) (nt ns r : ℕ) : Except TErr ((ℕ → ℂ) × (ℕ → ℕ → Fin 2 → ℂ)) :=
  (List.range' 1 ns).foldlM (dcSample e (e.ham.current dx rescale) (e.ham.current dy rescale)
    (inds.map fun k => energies.getD k 0) tstep rnd seed chk thr nt ns r) 0

/-- The energies and the indices inside the limits, solver.py:404-413. -/
noncomputable def dcEnergies (enRange : ℝ) (tnr : ℕ) : List ℝ :=
  (List.range (tnr * 2)).map fun i : ℕ => 0.5 * i * enRange / tnr - enRange / 2
@[inherit_doc dcEnergies]
noncomputable def dcIndices (energies : List ℝ) (lo hi : ℝ) : List ℕ :=
  (List.range energies.length).filter fun i => decide (energies.getD i 0 ≥ lo ∧ energies.getD i 0 ≤ hi)

/-- `calc_corr_dc_cond`, solver.py:393-441. -/
noncomputable def calcCorrDcCond (w : World) (e : Env n) (rescale enRange lo hi : ℝ) (dx dy : ℕ → ℝ) (tstep : ℝ)
    (rnd : ℤ → CVec n) (seed : ℤ) (chk : ℤ) (thr : ℝ) (nt nsamp : ℕ) :
    Except TErr ((ℕ → ℕ → ℂ) × (ℕ → ℕ → ℕ → Fin 2 → ℂ)) := do
  let energies := dcEnergies enRange nt
  let c ← onRanks w fun r => tbpmDccond e rescale dx dy energies (dcIndices energies lo hi) tstep rnd seed chk thr nt
    (distSample w nsamp).2 r
  .ok (allAverage (K := ℂ) w fun r => (c r).1, allAverage (K := ℂ) w fun r => (c r).2)

/-! ## Kubo-Bastin moments -/

/-- tbpm.f90:893-903: Chebyshev vectors, zero-based (`wf_DimKern(:, j)` is `kern (j - 1)`). -/
def kernLoop (e : Env n) (r s nk : ℕ) (wf : CVec n) : ℕ → CVec n :=
  let k1 : ℕ → CVec n := Function.update (Function.update (fun _ => 0) 0 wf) 1 (e.mul [r, s, 1, 2] e.ham wf)
  (List.range' 3 (nk - 2)).foldl (fun kern j =>
    let hx := e.mul [r, s, 1, j] e.ham (kern (j - 2))
    Function.update kern (j - 1) (axpby (-1) (kern (j - 3)) 2 hx)) k1

/-- Body of the loop tbpm.f90:937-950: two buffers with their names, and the matrix of correlations. -/
noncomputable def kbBody (e : Env n) (r s nk : ℕ) (kern : ℕ → CVec n) (st : (Bool → CVec n) × Bool × Bool × (ℕ → ℕ → ℂ)) (i : ℕ) :
    (Bool → CVec n) × Bool × Bool × (ℕ → ℕ → ℂ) :=
  let mem := amxpby (e.sch [r, s, 3, i] 0) 2 e.ham st.2.2.1 (-1) st.2.1 st.1
  let p2 := st.2.1
  (mem, st.2.2.1, p2, (List.range nk).foldl (fun c j => Function.update c (i - 1)
    (Function.update (c (i - 1)) j (innerProd (mem p2) (kern j)))) st.2.2.2)

/-- Body of the sample loop, tbpm.f90:888-959. -/
noncomputable def kbSample (e : Env n) (cx cd : FCsr) (rnd : ℤ → CVec n) (seed : ℤ) (ns r nk : ℕ) (avg : ℕ → ℕ → ℂ) (s : ℕ) :
    ℕ → ℕ → ℂ :=
  let wf := rnd (seed * (s + r * ns))
  let kern0 := kernLoop e r s nk wf
  let kern := (List.range nk).foldl (fun k j => Function.update k j (e.mul [r, s, 2, j] cd (k j))) kern0
  let wf0 := e.mul [r, s, 2, nk] cx wf
  let corr : ℕ → ℕ → ℂ := (List.range nk).foldl (fun c j => Function.update c 0 (Function.update (c 0) j (innerProd wf0 (kern j)))) 0
  let wf1 := e.mul [r, s, 2, nk + 1] e.ham wf0
  let corr := (List.range nk).foldl (fun c j => Function.update c 1 (Function.update (c 1) j (innerProd wf1 (kern j)))) corr
  let st := (List.range' 3 (nk - 2)).foldl (kbBody e r s nk kern) ((fun p => if p then wf1 else wf0), false, true, corr)
  let g := jacksonKernel nk
  fun i j => avg i j + g i * g j * st.2.2.2 i j / ns

/-- `tbpm_kbdc`, tbpm.f90:836-960, on process `r`; the moments are zero-based. -/
noncomputable def tbpmKbdc (e : Env n) (rescale : ℝ) (dx dy : ℕ → ℝ) (itype : ℤ) (rnd : ℤ → CVec n) (seed : ℤ) (ns r nk : ℕ) :
    Except TErr (ℕ → ℕ → ℂ) :=
  if ns = 0 then .ok 0
  else if itype = 1 then
    .ok ((List.range' 1 ns).foldl (kbSample e (e.ham.current dx rescale) (e.ham.current dx rescale) rnd seed ns r nk) 0)
  else if itype = 2 then
    .ok ((List.range' 1 ns).foldl (kbSample e (e.ham.current dx rescale) (e.ham.current dy rescale) rnd seed ns r nk) 0)
  else .error .direction

/-- `calc_hall_mu`, solver.py:443-470. -/
noncomputable def calcHallMu (w : World) (e : Env n) (rescale : ℝ) (dx dy : ℕ → ℝ) (itype : ℤ) (rnd : ℤ → CVec n) (seed : ℤ)
    (nsamp nk : ℕ) : Except TErr (ℕ → ℕ → ℕ → ℂ) := do
  let mu ← onRanks w fun r => tbpmKbdc e rescale dx dy itype rnd seed (distSample w nsamp).2 r nk
  .ok (allAverage (K := ℂ) w mu)

/-! ## Time-dependent wave functions -/

/-- Body of the time loop, tbpm.f90:1071-1089; the pointer is zero-based. -/
noncomputable def psiTime (e : Env n) (tlog : List ℤ) (chk : ℤ) (thr : ℝ) (ref : ℂ) (st : CVec n × ℕ × (ℕ → CVec n)) (t : ℕ) :
    Except TErr (CVec n × ℕ × (ℕ → CVec n)) := do
  let hit := tlog.getD st.2.1 0 = (t : ℤ) - 1
  let out := if hit then Function.update st.2.2 st.2.1 st.1 else st.2.2
  let ptr := if hit then (if st.2.1 + 1 < tlog.length then st.2.1 + 1 else st.2.1) else st.2.1
  chkNorm chk thr t st.1 ref
  .ok (e.step [t] st.1 true, ptr, out)

/-- `tbpm_psi_t`, tbpm.f90:1029-1093; `init` is what the output array holds at first (undefined in Fortran). -/
noncomputable def tbpmPsiT (e : Env n) (psi0 : CVec n) (tlog : List ℤ) (nt : ℕ) (chk : ℤ) (thr : ℝ) (init : ℕ → CVec n) :
    Except TErr (ℕ → CVec n) := do
  let st ← (List.range' 1 nt).foldlM (psiTime e tlog chk thr (innerProd psi0 psi0)) (psi0, 0, init)
  .ok (if tlog.getD st.2.1 0 = (nt : ℤ) then Function.update st.2.2 st.2.1 st.1 else st.2.2)

/-- `calc_psi_t`, solver.py:543-600: the rows of the result.  `sortSet` is the conversion of `time_log` by `list(set(...))` and `sort`;
an empty list ends in an out-of-bounds access in Fortran.  `e` holds the Bessel series for the scaled time step. -/
noncomputable def calcPsiT (w : World) (e : Env n) (psi0 : CVec n) (sortSet : List ℤ → List ℤ) (timeLog : List ℤ) (nt : ℕ) (chk : ℤ)
    (thr : ℝ) (init : ℕ → CVec n) : Except TErr (List (CVec n)) := do
  if w.size ≠ 1 then .error .runtime else
  let psi : CVec n := fun i => psi0 i / (normZ psi0 : ℂ)
  let tlog := sortSet timeLog
  if ∃ t ∈ tlog, ¬(0 ≤ t ∧ t < (nt : ℤ) + 1) then .error .value else
  let out ← tbpmPsiT e psi tlog nt chk thr init
  .ok ((List.range tlog.length).map out)

end Verif.Tbpm

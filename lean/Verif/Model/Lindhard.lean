import Verif.Model.Parallel
import Verif.Model.Base

/-!
# Model of the Lindhard calculator

* `/repo/tbplas/cython/lindhard.pyx` 20-424 (kernels);
* `/repo/tbplas/fortran/lindhard.f90` (the same kernels for `use_fortran=True`);
* `/repo/tbplas/diagonal/lindhard.py` 198-646 (`Lindhard`: coordinates, dynamic polarizability for
  regular and arbitrary q-points, AC conductivity).

Arrays are functions of their indices.  The arrays of all processes are families indexed by rank,
see `Model/Parallel.lean`.  Fortran arrays are transposed views with indices from one.  Arithmetic is exact.
-/

namespace Verif

/-- Three-dimensional array. -/
abbrev Arr3 (A : Type*) := ℕ → ℕ → ℕ → A

/-- `a[i, j, l] = v`. -/
def put3 {A : Type*} (a : Arr3 A) (i j l : ℕ) (v : A) : Arr3 A :=
  fun i' j' l' => if i' = i ∧ j' = j ∧ l' = l then v else a i' j' l'

/-- `a[i, j] = v`. -/
def put2 {A : Type*} (a : ℕ → ℕ → A) (i j : ℕ) (v : A) : ℕ → ℕ → A :=
  fun i' j' => if i' = i ∧ j' = j then v else a i' j'

/-- Grid coordinates. -/
abbrev Grid := ℤ × ℤ × ℤ

/-! ## Mesh -/

/-- `build_kmesh_grid`, lindhard.pyx:20-48 (`ptr` counts the rows written). -/
def buildKmeshGrid (m : ℕ × ℕ × ℕ) : List Grid :=
  (List.range m.1).flatMap fun ka : ℕ => (List.range m.2.1).flatMap fun kb : ℕ =>
    (List.range m.2.2).map fun kc : ℕ => ((ka : ℤ), (kb : ℤ), (kc : ℤ))

/-- Loop body of `build_kq_map`, lindhard.pyx:78-81; `%` has the sign of the divisor (the module does not set
`cdivision`). -/
def kqIndex (m : ℕ × ℕ × ℕ) (q k : Grid) : ℤ :=
  let ka := (q.1 + k.1).fmod m.1
  let kb := (q.2.1 + k.2.1).fmod m.2.1
  let kc := (q.2.2 + k.2.2).fmod m.2.2
  ka * m.2.1 * m.2.2 + kb * m.2.2 + kc

/-- `build_kq_map`, lindhard.pyx:53-82. -/
def buildKqMap (m : ℕ × ℕ × ℕ) (grid : List Grid) (q : Grid) : List ℤ := grid.map (kqIndex m q)

/-- `while k < 0.0: k += 1.0`, lindhard.py:214-215. -/
noncomputable def wrapUpFrac (k : ℝ) : ℝ := if k < 0 then wrapUpFrac (k + 1) else k
termination_by ⌈-k⌉.toNat
decreasing_by
  rename_i h
  have h1 : 0 < ⌈-k⌉ := Int.ceil_pos.2 (by linarith)
  have h2 : ⌈-(k + 1)⌉ = ⌈-k⌉ - 1 := by
    rw [show -(k + 1) = -k - 1 by ring, Int.ceil_sub_one]
  omega

/-- `while k >= 1.0: k -= 1.0`, lindhard.py:216-217. -/
noncomputable def wrapDownFrac (k : ℝ) : ℝ := if 1 ≤ k then wrapDownFrac (k - 1) else k
termination_by ⌊k⌋.toNat
decreasing_by
  rename_i h
  have h1 : 1 ≤ ⌊k⌋ := Int.le_floor.2 (by exact_mod_cast h)
  have h2 : ⌊k - 1⌋ = ⌊k⌋ - 1 := Int.floor_sub_one k
  omega

/-- `wrap_frac`, lindhard.py:198-219. -/
noncomputable def wrapFrac (ks : List (Vec3 ℝ)) : List (Vec3 ℝ) := ks.map fun k x => wrapDownFrac (wrapUpFrac (k x))

/-- `wrap_grid`, lindhard.py:221-237. -/
def wrapGrid (m : ℕ × ℕ × ℕ) (ks : List Grid) : List Grid :=
  ks.map fun k => (k.1.fmod m.1, k.2.1.fmod m.2.1, k.2.2.fmod m.2.2)

/-! ## Kernels (Cython) -/

/-- `1.0 / (1.0 + exp(beta * (eng - mu)))`. -/
noncomputable def fermiOcc (beta mu e : ℝ) : ℝ := 1 / (1 + Real.exp (beta * (e - mu)))

/-- `phase[ib]`, lindhard.pyx:132-136. -/
noncomputable def qPhase (q : Vec3 ℝ) (orbPos : ℕ → Vec3 ℝ) (ib : ℕ) : ℂ :=
  eiPhase (q 0 * orbPos ib 0 + q 1 * orbPos ib 1 + q 2 * orbPos ib 2)

/-- The inner loop `prod += ...`, lindhard.pyx:150-152, for two rows of states. -/
noncomputable def overlapSum (nb : ℕ) (ph : ℕ → ℂ) (vq v : ℕ → ℂ) : ℂ :=
  (List.range nb).foldl (fun s ib => s + star (vq ib) * v ib * ph ib) 0

/-- `for ik in range(k_min, k_max+1): for jj in range(num_orb): for ll in range(num_orb)` with assignments
to the two arrays. -/
def fill2 {A B : Type*} (nb kmin kmax : ℕ) (f : ℕ → ℕ → ℕ → A) (g : ℕ → ℕ → ℕ → B) (a : Arr3 A × Arr3 B) : Arr3 A × Arr3 B :=
  (List.range' kmin (kmax + 1 - kmin)).foldl (fun st ik =>
    (List.range nb).foldl (fun st jj =>
      (List.range nb).foldl (fun (st : Arr3 A × Arr3 B) ll =>
        (put3 st.1 ik jj ll (f ik jj ll), put3 st.2 ik jj ll (g ik jj ll))) st) st) a

/-- `prod_dp`, lindhard.pyx:87-154. -/
noncomputable def prodDp (nb : ℕ) (bands : ℕ → ℕ → ℝ) (states : Arr3 ℂ) (kq : ℕ → ℕ) (beta mu : ℝ) (q : Vec3 ℝ)
    (orbPos : ℕ → Vec3 ℝ) (kmin kmax : ℕ) (a : Arr3 ℝ × Arr3 ℂ) : Arr3 ℝ × Arr3 ℂ :=
  fill2 nb kmin kmax (fun ik jj ll => bands ik jj - bands (kq ik) ll)
    (fun ik jj ll =>
      let prod := overlapSum nb (qPhase q orbPos) (states (kq ik) ll) (states ik jj)
      prod * star prod * ((fermiOcc beta mu (bands ik jj) - fermiOcc beta mu (bands (kq ik) ll) : ℝ) : ℂ)) a

/-- `prod_dp_arb`, lindhard.pyx:159-228. -/
noncomputable def prodDpArb (nb : ℕ) (bands : ℕ → ℕ → ℝ) (states : Arr3 ℂ) (bandsQ : ℕ → ℕ → ℝ) (statesQ : Arr3 ℂ)
    (beta mu : ℝ) (q : Vec3 ℝ) (orbPos : ℕ → Vec3 ℝ) (kmin kmax : ℕ) (a : Arr3 ℝ × Arr3 ℂ) : Arr3 ℝ × Arr3 ℂ :=
  fill2 nb kmin kmax (fun ik jj ll => bands ik jj - bandsQ ik ll)
    (fun ik jj ll =>
      let prod := overlapSum nb (qPhase q orbPos) (statesQ ik ll) (states ik jj)
      prod * star prod * ((fermiOcc beta mu (bands ik jj) - fermiOcc beta mu (bandsQ ik ll) : ℝ) : ℂ)) a

/-- The triple sum of `dyn_pol` and `ac_cond`, e.g. lindhard.pyx:275-280. -/
noncomputable def kjlSum (nb kmin kmax : ℕ) (f : ℕ → ℕ → ℕ → ℂ) : ℂ :=
  (List.range' kmin (kmax + 1 - kmin)).foldl (fun s ik =>
    (List.range nb).foldl (fun s jj =>
      (List.range nb).foldl (fun s ll => s + f ik jj ll) s) s) 0

/-- `dyn_pol`, lindhard.pyx:233-281. -/
noncomputable def dynPolKernel (nb : ℕ) (de : Arr3 ℝ) (pd : Arr3 ℂ) (omegas : List ℝ) (delta : ℝ) (kmin kmax iq : ℕ)
    (dp : ℕ → ℕ → ℂ) : ℕ → ℕ → ℂ :=
  omegas.zipIdx.foldl (fun dp w => put2 dp iq w.2 (kjlSum nb kmin kmax fun ik jj ll =>
    pd ik jj ll / ((de ik jj ll : ℂ) + (w.1 : ℂ) + Complex.I * (delta : ℂ)))) dp

/-! ## Kernels (Fortran) -/

/-- The transposed view with indices from one of a three-dimensional array. -/
def toF3 {A : Type*} (a : Arr3 A) : Arr3 A := fun l j k => a (k - 1) (j - 1) (l - 1)
/-- Back to the NumPy array. -/
def ofF3 {A : Type*} (a : Arr3 A) : Arr3 A := fun k j l => a (l + 1) (j + 1) (k + 1)
/-- The transposed view of a two-dimensional array. -/
def toF2 {A : Type*} (a : ℕ → ℕ → A) : ℕ → ℕ → A := fun j k => a (k - 1) (j - 1)
/-- Back to the NumPy array. -/
def ofF2 {A : Type*} (a : ℕ → ℕ → A) : ℕ → ℕ → A := fun k j => a (j + 1) (k + 1)
/-- View of a one-dimensional array with indices from one. -/
def toF1 {A : Type*} (a : ℕ → A) : ℕ → A := fun i => a (i - 1)

/-- `do i_k = k_min, k_max; do jj = 1, num_orb; do ll = 1, num_orb` with assignments to element `(ll, jj, i_k)`. -/
def fill2F {A B : Type*} (nb kmin kmax : ℕ) (f : ℕ → ℕ → ℕ → A) (g : ℕ → ℕ → ℕ → B) (a : Arr3 A × Arr3 B) :
    Arr3 A × Arr3 B :=
  (List.range' kmin (kmax + 1 - kmin)).foldl (fun st ik =>
    (List.range' 1 nb).foldl (fun st jj =>
      (List.range' 1 nb).foldl (fun (st : Arr3 A × Arr3 B) ll =>
        (put3 st.1 ll jj ik (f ik jj ll), put3 st.2 ll jj ik (g ik jj ll))) st) st) a

/-- The inner product of lindhard.f90:49-51. -/
noncomputable def overlapSumF (nb : ℕ) (ph : ℕ → ℂ) (vq v : ℕ → ℂ) : ℂ :=
  (List.range' 1 nb).foldl (fun s ib => s + star (vq ib) * v ib * ph ib) 0

/-- `prod_dp`, lindhard.f90:7-57. -/
noncomputable def prodDpF (nb : ℕ) (eng : ℕ → ℕ → ℝ) (wfn : Arr3 ℂ) (kq : ℕ → ℕ) (beta mu : ℝ) (q : Vec3 ℝ)
    (orbPos : ℕ → Vec3 ℝ) (kmin kmax : ℕ) (a : Arr3 ℝ × Arr3 ℂ) : Arr3 ℝ × Arr3 ℂ :=
  fill2F nb kmin kmax (fun ik jj ll => eng jj ik - eng ll (kq ik))
    (fun ik jj ll =>
      let prod := overlapSumF nb (qPhase q orbPos) (fun ib => wfn ib ll (kq ik)) (fun ib => wfn ib jj ik)
      prod * star prod * ((fermiOcc beta mu (eng jj ik) - fermiOcc beta mu (eng ll (kq ik)) : ℝ) : ℂ)) a

/-- `prod_dp_arb`, lindhard.f90:61-110. -/
noncomputable def prodDpArbF (nb : ℕ) (eng : ℕ → ℕ → ℝ) (wfn : Arr3 ℂ) (engQ : ℕ → ℕ → ℝ) (wfnQ : Arr3 ℂ)
    (beta mu : ℝ) (q : Vec3 ℝ) (orbPos : ℕ → Vec3 ℝ) (kmin kmax : ℕ) (a : Arr3 ℝ × Arr3 ℂ) : Arr3 ℝ × Arr3 ℂ :=
  fill2F nb kmin kmax (fun ik jj ll => eng jj ik - engQ ll ik)
    (fun ik jj ll =>
      let prod := overlapSumF nb (qPhase q orbPos) (fun ib => wfnQ ib ll ik) (fun ib => wfn ib jj ik)
      prod * star prod * ((fermiOcc beta mu (eng jj ik) - fermiOcc beta mu (engQ ll ik) : ℝ) : ℂ)) a

/-- The triple sum of `dyn_pol_f`, lindhard.f90:141-149. -/
noncomputable def kjlSumF (nb kmin kmax : ℕ) (f : ℕ → ℕ → ℕ → ℂ) : ℂ :=
  (List.range' kmin (kmax + 1 - kmin)).foldl (fun s ik =>
    (List.range' 1 nb).foldl (fun s jj =>
      (List.range' 1 nb).foldl (fun s ll => s + f ik jj ll) s) s) 0

/-- `dyn_pol_f`, lindhard.f90:114-154. -/
noncomputable def dynPolKernelF (nb : ℕ) (de : Arr3 ℝ) (pd : Arr3 ℂ) (omegas : List ℝ) (delta : ℝ) (kmin kmax iq : ℕ)
    (dp : ℕ → ℕ → ℂ) : ℕ → ℕ → ℂ :=
  (omegas.zipIdx 1).foldl (fun dp w => put2 dp w.2 iq (kjlSumF nb kmin kmax fun ik jj ll =>
    pd ll jj ik / ((de ll jj ik : ℂ) + (w.1 : ℂ) + (0 + Complex.I * (delta : ℂ))))) dp

/-! ## Calculator -/

/-- The parameters of a `Lindhard` object, lindhard.py:100-196: the diagonalisation of the cell, lattice vectors and
Cartesian orbital positions in nm, mesh, frequencies, `beta`, `mu`, broadening, spin degeneracy, `extended`, dimension. -/
structure Lind where
  D : Diag
  lat : Mat3 ℝ
  orbPos : ℕ → Vec3 ℝ
  mesh : ℕ × ℕ × ℕ
  omegas : List ℝ
  beta : ℝ
  mu : ℝ
  delta : ℝ
  gs : ℝ
  ext : ℝ
  dim : ℕ

namespace Lind

/-- `grid2frac`, lindhard.py:277-291, one row. -/
noncomputable def grid2frac (L : Lind) (g : Grid) : Vec3 ℝ :=
  ![(g.1 : ℝ) / L.mesh.1, (g.2.1 : ℝ) / L.mesh.2.1, (g.2.2 : ℝ) / L.mesh.2.2]

/-- `frac2cart`, lindhard.py:239-255, with `unit=NM`. -/
noncomputable def frac2cart (L : Lind) (fs : List (Vec3 ℝ)) : Except ParErr (List (Vec3 ℝ)) :=
  match genReciprocal L.lat with
  | none => .error .linalg
  | some B => .ok (Verif.frac2cart B fs 0)

/-- `cart2frac`, lindhard.py:257-275, with `unit=NM`. -/
noncomputable def cart2frac (L : Lind) (cs : List (Vec3 ℝ)) : Except ParErr (List (Vec3 ℝ)) :=
  match genReciprocal L.lat with
  | none => .error .linalg
  | some B => match Verif.cart2frac B cs 0 with
    | none => .error .linalg
    | some fs => .ok fs

/-- `_get_dnk`, lindhard.py:311-325. -/
noncomputable def getDnk (L : Lind) : Except ParErr ℝ :=
  match genReciprocal L.lat with
  | none => .error .linalg
  | some B =>
    let g : Mat3 ℝ := Matrix.of fun i j => B i j / (![(L.mesh.1 : ℝ), L.mesh.2.1, L.mesh.2.2] i)
    .ok (if L.dim = 2 then norm3 (crossProduct (g 0) (g 1)) else latticeVolume g)

/-- `_get_dyn_pol_factor`, lindhard.py:327-335. -/
noncomputable def dynPolFactor (L : Lind) : Except ParErr ℝ :=
  L.getDnk.map fun dnk => L.gs * dnk / (2 * Real.pi) ^ L.dim

/-- Number of k-points. -/
def numKpt (L : Lind) : ℕ := (buildKmeshGrid L.mesh).length

/-- Row `i` of `kmesh_frac`. -/
noncomputable def kFrac (L : Lind) (i : ℕ) : Vec3 ℝ := L.grid2frac ((buildKmeshGrid L.mesh).getD i (0, 0, 0))

/-- Local arrays of one process: `delta_eng`, `prod_df`, `dyn_pol`. -/
abbrev Loc := Arr3 ℝ × Arr3 ℂ × (ℕ → ℕ → ℂ)

/-- One call of `prod_dp` by either backend. -/
noncomputable def callProdDp (L : Lind) (fortran : Bool) (bs : (ℕ → ℕ → ℝ) × Arr3 ℂ) (kq : List ℤ) (q : Vec3 ℝ)
    (bd : ℕ × ℕ) (a : Arr3 ℝ × Arr3 ℂ) : Arr3 ℝ × Arr3 ℂ :=
  if fortran then
    let r := prodDpF L.D.nb (toF2 bs.1) (toF3 bs.2) (toF1 fun i => ((kq.map (· + 1)).getD i 0).toNat) L.beta L.mu q
      (toF1 L.orbPos) (bd.1 + 1) (bd.2 + 1) (toF3 a.1, toF3 a.2)
    (ofF3 r.1, ofF3 r.2)
  else prodDp L.D.nb bs.1 bs.2 (fun i => (kq.getD i 0).toNat) L.beta L.mu q L.orbPos bd.1 bd.2 a

/-- One call of `prod_dp_arb` by either backend. -/
noncomputable def callProdDpArb (L : Lind) (fortran : Bool) (bs bq : (ℕ → ℕ → ℝ) × Arr3 ℂ) (q : Vec3 ℝ)
    (bd : ℕ × ℕ) (a : Arr3 ℝ × Arr3 ℂ) : Arr3 ℝ × Arr3 ℂ :=
  if fortran then
    let r := prodDpArbF L.D.nb (toF2 bs.1) (toF3 bs.2) (toF2 bq.1) (toF3 bq.2) L.beta L.mu q
      (toF1 L.orbPos) (bd.1 + 1) (bd.2 + 1) (toF3 a.1, toF3 a.2)
    (ofF3 r.1, ofF3 r.2)
  else prodDpArb L.D.nb bs.1 bs.2 bq.1 bq.2 L.beta L.mu q L.orbPos bd.1 bd.2 a

/-- One call of `dyn_pol` / `dyn_pol_f`. -/
noncomputable def callDynPol (L : Lind) (fortran : Bool) (de : Arr3 ℝ) (pd : Arr3 ℂ) (bd : ℕ × ℕ) (iq : ℕ)
    (dp : ℕ → ℕ → ℂ) : ℕ → ℕ → ℂ :=
  if fortran then ofF2 (dynPolKernelF L.D.nb (toF3 de) (toF3 pd) L.omegas L.delta (bd.1 + 1) (bd.2 + 1) (iq + 1) (toF2 dp))
  else dynPolKernel L.D.nb de pd L.omegas L.delta bd.1 bd.2 iq dp

/-- Loop body of `calc_dyn_pol_regular`, lindhard.py:383-413, on all processes in lockstep. -/
noncomputable def regStep (L : Lind) (w : World) (fortran : Bool) (bs : ℕ → (ℕ → ℕ → ℝ) × Arr3 ℂ) (bd : ℕ → ℕ × ℕ)
    (st : ℕ → Loc) (q : (Grid × Vec3 ℝ) × ℕ) : ℕ → Loc :=
  let kq := buildKqMap L.mesh (buildKmeshGrid L.mesh) q.1.1
  let pr : ℕ → Arr3 ℝ × Arr3 ℂ := fun r => L.callProdDp fortran (bs r) kq q.1.2 (bd r)
    (fun i j l => (st r).1 i j l * 0, fun i j l => (st r).2.1 i j l * 0)
  let de := allReduce w fun r => (pr r).1
  let pd := allReduce w fun r => (pr r).2
  let dp := allReduce w fun r => L.callDynPol fortran (de r) (pd r) (bd r) q.2 (st r).2.2
  fun r => (de r, pd r, dp r)

/-- `calc_dyn_pol_regular`, lindhard.py:337-421: the array `dyn_pol` of every process. -/
noncomputable def dynPolRegular (L : Lind) (w : World) (buf : ℕ → Buf) (fortran : Bool) (qs : List Grid) :
    Except ParErr (ℕ → ℕ → ℕ → ℂ) := do
  let qc ← L.frac2cart (qs.map L.grid2frac)
  let bs ← calcStates L.D w buf L.numKpt L.kFrac 2 true
  let bd ← onRanks w fun r => distBound w L.numKpt r
  let st := ((qs.zip qc).zipIdx).foldl (L.regStep w fortran bs bd) (fun _ => (0, 0, 0))
  let fac ← L.dynPolFactor
  .ok fun r iq iw => (st r).2.2 iq iw * (fac : ℂ) / (L.ext : ℂ)

/-- Loop body of `calc_dyn_pol_arbitrary`, lindhard.py:470-500, on all processes in lockstep. -/
noncomputable def arbStep (L : Lind) (w : World) (buf : ℕ → Buf) (fortran : Bool) (bs : ℕ → (ℕ → ℕ → ℝ) × Arr3 ℂ)
    (bd : ℕ → ℕ × ℕ) (st : ℕ → Loc) (q : (Vec3 ℝ × Vec3 ℝ) × ℕ) : Except ParErr (ℕ → Loc) :=
  match calcStates L.D w buf L.numKpt (fun i => L.kFrac i + q.1.2) 2 false with
  | .error e => .error e
  | .ok bq =>
    let pr : ℕ → Arr3 ℝ × Arr3 ℂ := fun r => L.callProdDpArb fortran (bs r) (bq r) q.1.1 (bd r)
      (fun i j l => (st r).1 i j l * 0, fun i j l => (st r).2.1 i j l * 0)
    let dp := allReduce w fun r => L.callDynPol fortran (pr r).1 (pr r).2 (bd r) q.2 (st r).2.2
    .ok fun r => ((pr r).1, (pr r).2, dp r)

/-- `calc_dyn_pol_arbitrary`, lindhard.py:423-510.  (The contents of the solver's buffer between the calls of
`calc_states` do not matter, see `diagDense_buf`, and are not tracked.) -/
noncomputable def dynPolArbitrary (L : Lind) (w : World) (buf : ℕ → Buf) (fortran : Bool) (qs : List (Vec3 ℝ)) :
    Except ParErr (ℕ → ℕ → ℕ → ℂ) := do
  let qf ← L.cart2frac qs
  let bs ← calcStates L.D w buf L.numKpt L.kFrac 2 false
  let bd ← onRanks w fun r => distBound w L.numKpt r
  let st ← ((qs.zip qf).zipIdx).foldlM (L.arbStep w buf fortran bs bd) (fun _ => (0, 0, 0))
  let fac ← L.dynPolFactor
  .ok fun r iq iw => (st r).2.2 iq iw * (fac : ℂ) / (L.ext : ℂ)

end Lind
end Verif

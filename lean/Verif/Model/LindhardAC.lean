import Verif.Model.Lindhard

/-!
# Model of the AC conductivity of the Lindhard calculator

`/repo/tbplas/cython/lindhard.pyx` 286-424, `/repo/tbplas/fortran/lindhard.f90` 157-289 (kernels),
`/repo/tbplas/diagonal/lindhard.py` 551-646 (`calc_ac_cond`), `/repo/tbplas/builder/primitive.py` 1076-1105 (`dr_nm`).
-/

namespace Verif

/-- A hopping term as the kernels see it: orbital pair, energy, Cartesian distance. -/
abbrev AcHop := Pair × ℂ × Vec3 ℝ

/-- `dr` and `dr_nm`, primitive.py:1076-1105. -/
noncomputable def hopDrNm (lat : Mat3 ℝ) (pos : ℤ → Vec3 ℝ) (t : Cell × Pair × ℂ) : Vec3 ℝ :=
  frac2cartRow lat 0 (fun x => pos t.2.1.2 x + (![(t.1.1 : ℝ), (t.1.2.1 : ℝ), (t.1.2.2 : ℝ)] x) - pos t.2.1.1 x)

/-- `hop_ind[:, 3:5]`, `hop_eng` and `dr_nm` side by side. -/
noncomputable def acHops (lat : Mat3 ℝ) (pos : ℤ → Vec3 ℝ) (hops : List (Cell × Pair × ℂ)) : List AcHop :=
  hops.map fun t => (t.2.1, t.2.2, hopDrNm lat pos t)

/-- Loop body lindhard.pyx:345-354 for one of the two velocity matrices (component `c`). -/
noncomputable def velStep (k : Vec3 ℝ) (c : Fin 3) (v : IMat) (h : AcHop) : IMat :=
  let phase := eiPhase (k 0 * h.2.2 0 + k 1 * h.2.2 1 + k 2 * h.2.2 2) * h.2.1
  let v1 := v.put h.1.1 h.1.2 (v h.1.1 h.1.2 + Complex.I * phase * (h.2.2 c : ℂ))
  v1.put h.1.2 h.1.1 (v1 h.1.2 h.1.1 - Complex.I * star phase * (h.2.2 c : ℂ))

/-- `vmat` at one k-point, lindhard.pyx:340-354. -/
noncomputable def velMat (hops : List AcHop) (k : Vec3 ℝ) (c : Fin 3) : IMat :=
  hops.foldl (velStep k c) (fun _ _ => 0)

/-- The double loop `prod1 += ...`, lindhard.pyx:365-368. -/
noncomputable def sandwich (nb : ℕ) (v : IMat) (u u' : ℕ → ℂ) : ℂ :=
  (List.range nb).foldl (fun s (ib1 : ℕ) => (List.range nb).foldl (fun s (ib2 : ℕ) => s + star (u ib1) * v ib1 ib2 * u' ib2) s) 0

/-- The loops of `prod_ac`: an unconditional and a conditional assignment. -/
def fillC {A B : Type*} (nb kmin kmax : ℕ) (f : ℕ → ℕ → ℕ → A) (c : ℕ → ℕ → ℕ → Prop) [∀ i j l, Decidable (c i j l)]
    (g : ℕ → ℕ → ℕ → B) (a : Arr3 A × Arr3 B) : Arr3 A × Arr3 B :=
  (List.range' kmin (kmax + 1 - kmin)).foldl (fun st ik =>
    (List.range nb).foldl (fun st jj =>
      (List.range nb).foldl (fun (st : Arr3 A × Arr3 B) ll =>
        (put3 st.1 ik jj ll (f ik jj ll), if c ik jj ll then put3 st.2 ik jj ll (g ik jj ll) else st.2)) st) st) a

open Classical in
/-- `prod_ac`, lindhard.pyx:286-375. -/
noncomputable def prodAc (nb : ℕ) (bands : ℕ → ℕ → ℝ) (states : Arr3 ℂ) (hops : List AcHop) (kmesh : ℕ → Vec3 ℝ)
    (beta mu : ℝ) (comp : Fin 3 × Fin 3) (kmin kmax : ℕ) (a : Arr3 ℝ × Arr3 ℂ) : Arr3 ℝ × Arr3 ℂ :=
  fillC nb kmin kmax (fun ik mm nn => bands ik mm - bands ik nn)
    (fun ik mm nn => (1e-7 : ℝ) ≤ |bands ik mm - bands ik nn|)
    (fun ik mm nn =>
      let prod1 := sandwich nb (velMat hops (kmesh ik) comp.1) (states ik nn) (states ik mm)
      let prod2 := sandwich nb (velMat hops (kmesh ik) comp.2) (states ik mm) (states ik nn)
      prod1 * prod2 * ((fermiOcc beta mu (bands ik mm) - fermiOcc beta mu (bands ik nn) : ℝ) : ℂ) /
        ((bands ik mm - bands ik nn : ℝ) : ℂ)) a

/-- `a[i] = v`. -/
def put1 {A : Type*} (a : ℕ → A) (i : ℕ) (v : A) : ℕ → A := fun i' => if i' = i then v else a i'

/-- `ac_cond`, lindhard.pyx:380-424. -/
noncomputable def acCondKernel (nb : ℕ) (de : Arr3 ℝ) (pd : Arr3 ℂ) (omegas : List ℝ) (delta : ℝ) (kmin kmax : ℕ)
    (ac : ℕ → ℂ) : ℕ → ℂ :=
  omegas.zipIdx.foldl (fun ac w => put1 ac w.2 (kjlSum nb kmin kmax fun ik mm nn =>
    pd ik mm nn / ((de ik mm nn : ℂ) - (w.1 : ℂ) - Complex.I * (delta : ℂ)))) ac

/-! ## Fortran -/

/-- `hop_ind += 1`. -/
def shiftInd (hops : List AcHop) : List AcHop := hops.map fun h => ((h.1.1 + 1, h.1.2 + 1), h.2)

/-- The double loop lindhard.f90:227-232. -/
noncomputable def sandwichF (nb : ℕ) (v : IMat) (u u' : ℕ → ℂ) : ℂ :=
  (List.range' 1 nb).foldl (fun s (ib1 : ℕ) => (List.range' 1 nb).foldl (fun s (ib2 : ℕ) => s + star (u ib1) * v ib1 ib2 * u' ib2) s) 0

/-- The loops of `prod_ac` in Fortran. -/
def fillCF {A B : Type*} (nb kmin kmax : ℕ) (f : ℕ → ℕ → ℕ → A) (c : ℕ → ℕ → ℕ → Prop) [∀ i j l, Decidable (c i j l)]
    (g : ℕ → ℕ → ℕ → B) (a : Arr3 A × Arr3 B) : Arr3 A × Arr3 B :=
  (List.range' kmin (kmax + 1 - kmin)).foldl (fun st ik =>
    (List.range' 1 nb).foldl (fun st jj =>
      (List.range' 1 nb).foldl (fun (st : Arr3 A × Arr3 B) ll =>
        (put3 st.1 ll jj ik (f ik jj ll), if c ik jj ll then put3 st.2 ll jj ik (g ik jj ll) else st.2)) st) st) a

open Classical in
/-- `prod_ac`, lindhard.f90:157-243; the two arrays are set to zero first.  `comp` numbers the components from zero in
this model. -/
noncomputable def prodAcF (nb : ℕ) (eng : ℕ → ℕ → ℝ) (wfn : Arr3 ℂ) (hops : List AcHop) (kmesh : ℕ → Vec3 ℝ)
    (beta mu : ℝ) (comp : Fin 3 × Fin 3) (kmin kmax : ℕ) : Arr3 ℝ × Arr3 ℂ :=
  fillCF nb kmin kmax (fun ik mm nn => eng mm ik - eng nn ik)
    (fun ik mm nn => (1e-7 : ℝ) ≤ |eng mm ik - eng nn ik|)
    (fun ik mm nn =>
      let prod1 := sandwichF nb (velMat hops (kmesh ik) comp.1) (fun ib => wfn ib nn ik) (fun ib => wfn ib mm ik)
      let prod2 := sandwichF nb (velMat hops (kmesh ik) comp.2) (fun ib => wfn ib mm ik) (fun ib => wfn ib nn ik)
      prod1 * prod2 * ((fermiOcc beta mu (eng mm ik) - fermiOcc beta mu (eng nn ik) : ℝ) : ℂ) /
        ((eng mm ik - eng nn ik : ℝ) : ℂ)) (fun _ _ _ => 0, fun _ _ _ => 0)

/-- `ac_cond_f`, lindhard.f90:247-289. -/
noncomputable def acCondKernelF (nb : ℕ) (de : Arr3 ℝ) (pd : Arr3 ℂ) (omegas : List ℝ) (delta : ℝ) (kmin kmax : ℕ)
    (ac : ℕ → ℂ) : ℕ → ℂ :=
  (omegas.zipIdx 1).foldl (fun ac w => put1 ac w.2 (kjlSumF nb kmin kmax fun ik mm nn =>
    pd nn mm ik / ((de nn mm ik : ℂ) - (w.1 : ℂ) - (0 + Complex.I * (delta : ℂ))))) ac

/-! ## Calculation -/

namespace Lind

/-- `ac_cond` of one process after the two kernels, lindhard.py:611-630. -/
noncomputable def acLocal (L : Lind) (fortran : Bool) (bs : (ℕ → ℕ → ℝ) × Arr3 ℂ) (hops : List AcHop)
    (kmesh : ℕ → Vec3 ℝ) (comp : Fin 3 × Fin 3) (bd : ℕ × ℕ) : ℕ → ℂ :=
  if fortran then
    let r := prodAcF L.D.nb (toF2 bs.1) (toF3 bs.2) (shiftInd hops) (toF1 kmesh) L.beta L.mu comp (bd.1 + 1) (bd.2 + 1)
    fun i => acCondKernelF L.D.nb r.1 r.2 L.omegas L.delta (bd.1 + 1) (bd.2 + 1) (toF1 fun _ => 0) (i + 1)
  else
    let r := prodAc L.D.nb bs.1 bs.2 hops kmesh L.beta L.mu comp bd.1 bd.2 (fun _ _ _ => 0, fun _ _ _ => 0)
    acCondKernel L.D.nb r.1 r.2 L.omegas L.delta bd.1 bd.2 (fun _ => 0)

/-- `calc_ac_cond`, lindhard.py:551-646, on every process; `comp` is `none` for an illegal component, `pos` and `hops` are
the arrays of the cell.  `get_lattice_area("c")` uses the vectors `a` and `b`. -/
noncomputable def acCond (L : Lind) (w : World) (buf : ℕ → Buf) (fortran : Bool) (pos : ℤ → Vec3 ℝ)
    (hops : List (Cell × Pair × ℂ)) (comp : Option (Fin 3 × Fin 3)) : Except ParErr (ℕ → ℕ → ℂ) := do
  let kmesh ← L.frac2cart ((buildKmeshGrid L.mesh).map L.grid2frac)
  let comp ← match comp with
    | none => .error .value
    | some c => .ok c
  let bs ← calcStates L.D w buf L.numKpt L.kFrac 1 false
  let bd ← onRanks w fun r => distBound w L.numKpt r
  let ac := allReduce w fun r => L.acLocal fortran (bs r) (acHops L.lat pos hops) (fun i => kmesh.getD i 0) comp (bd r)
  let pre : ℂ := if L.dim = 2 then (L.gs : ℂ) * Complex.I / ((latticeArea L.lat 2 * L.numKpt : ℝ) : ℂ)
    else (L.gs : ℂ) * Complex.I / ((latticeVolume L.lat * L.numKpt : ℝ) : ℂ)
  .ok fun r iw => ac r iw * pre / (L.ext : ℂ)

end Lind
end Verif

import Verif.Model.Sample
import Verif.Model.Base
import Mathlib.Analysis.Complex.Norm

/-!
# Model of the plotting of models and scalar fields

`tbplas/builder/visual.py` (`ModelViewer`), `PrimitiveCell.plot` (`tbplas/builder/primitive.py:607-723`) with `dr` and `dr_nm` (1081-1106),
`SuperCell.plot` and `SCInterHopping.plot` (`tbplas/builder/super.py:585-660, 1007-1054`), `Sample.plot` (`tbplas/builder/sample.py:463-522`) and
`plot_scalar` (`tbplas/visual.py:274-357`).

A figure is the list of drawing commands given to matplotlib.  Of the style of a command only the part that tells hopping terms from cells is kept.
The user-defined colouring of orbitals (`orb_color`) is left out: orbitals are coloured by their energy.
-/

namespace Verif.Plot

/-- Exceptions: `ValueError`, `IndexError`, and those of supercells and samples. -/
inductive Err where
  | value
  | index
  | samp (e : SampErr)

/-- Style of a command. -/
inductive Style where
  | hop
  | cell
deriving DecidableEq

/-- Commands of matplotlib: `axes.scatter`, `axes.arrow`, `axes.add_collection(LineCollection)`. -/
inductive Cmd where
  | scatter (pts : List (ℝ × ℝ)) (colors : List ℝ)
  | arrow (st : Style) (x y dx dy : ℝ)
  | lines (st : Style) (segs : List ((ℝ × ℝ) × (ℝ × ℝ)))

/-- Options of the `plot` methods. -/
structure Opts where
  withOrb : Bool := true
  withCells : Bool := true
  withConj : Bool := true
  arrows : Bool := true
  cutoff : ℝ := 1e-5
  view : String := "ab"

/-- Attributes of `ModelViewer`, visual.py:12-32. -/
structure Viewer where
  dimX : Fin 3
  dimY : Fin 3
  dimZ : Fin 3
  lat : Mat3 ℝ
  origin : Vec3 ℝ

/-- `dim_dict`, visual.py:53. -/
def dimDict (c : Char) : Fin 3 := if c = 'a' then 0 else if c = 'b' then 1 else 2

/-- `ModelViewer.__init__`, visual.py:33-57. -/
def newViewer (lat : Mat3 ℝ) (origin : Vec3 ℝ) (view : String) : Except Err Viewer :=
  if view ∉ ["ab", "bc", "ca", "ba", "cb", "ac"] then .error .value else
  match view.toList with
  | [p, q] =>
    let x := dimDict p
    let y := dimDict q
    .ok ⟨x, y, (([0, 1, 2] : List (Fin 3)).filter fun d => d ≠ x ∧ d ≠ y).headD 0, lat, origin⟩
  | _ => .error .value

namespace Viewer

/-- `_proj_coord`, visual.py:59-72. -/
def proj (v : Viewer) (p : Vec3 ℝ) : ℝ × ℝ := (p v.dimX, p v.dimY)

/-- `_restore_coord`, visual.py:74-88. -/
def restore (v : Viewer) (a b : ℤ) : Cell := if v.dimZ = 0 then (0, a, b) else if v.dimZ = 1 then (a, 0, b) else (a, b, 0)

/-- `np.matmul(rn, lat_vec)`. -/
def cellPos (lat : Mat3 ℝ) (R : Cell) : Vec3 ℝ := Matrix.vecMul ![(R.1 : ℝ), (R.2.1 : ℝ), (R.2.2 : ℝ)] lat

/-- `self._proj_coord(np.matmul(x, self._lat_vec) + self._origin)` of a restored coordinate. -/
def corner (v : Viewer) (a b : ℤ) : ℝ × ℝ := v.proj (cellPos v.lat (v.restore a b) + v.origin)

/-- `range(lo, hi + 1)`. -/
def ints (lo hi : ℤ) : List ℤ := (List.range (hi + 1 - lo).toNat).map fun (i : ℕ) => lo + (i : ℤ)

/-- `add_grid`, visual.py:143-164. -/
def grid (v : Viewer) (aMin aMax bMin bMax : ℤ) : List ((ℝ × ℝ) × (ℝ × ℝ)) :=
  ((ints aMin aMax).map fun ia => (v.corner ia bMin, v.corner ia bMax)) ++ (ints bMin bMax).map fun ib => (v.corner aMin ib, v.corner aMax ib)

/-- `plot_arrow`, visual.py:102-118. -/
def arrow (v : Viewer) (p q : Vec3 ℝ) : Cmd :=
  let a := v.proj p
  let b := v.proj q
  .arrow .hop a.1 a.2 (b.1 - a.1) (b.2 - a.2)

/-- `plot_lat_vec`, visual.py:175-187. -/
def latVec (v : Viewer) : List Cmd :=
  let x0 := v.proj v.origin
  ([(0, 1), (1, 0)] : List (ℤ × ℤ)).map fun x =>
    let x1 := v.corner x.1 x.2
    .arrow .cell x0.1 x0.2 (x1.1 - x0.1) (x1.2 - x0.2)

end Viewer

/-- `orb_pos[i]`; an index of type float raises `IndexError`. -/
def row (fl : Bool) (pos : List (Vec3 ℝ)) (i : ℤ) : Except Err (Vec3 ℝ) :=
  if fl then .error .index else
  match pyIndex pos.length i with
  | none => .error .index
  | some k => .ok (pos.getD k 0)

/-- Ends of the arrows of one term, primitive.py:681-698, super.py:630-647 and 1035-1052. -/
noncomputable def termEnds (o : Opts) (fl : Bool) (posBra posKet : List (Vec3 ℝ)) (t : SCHop ℝ ℂ) : Except Err (List (Vec3 ℝ × Vec3 ℝ)) :=
  if ‖t.v‖ ≥ o.cutoff then do
    let p ← row fl posBra t.i
    if o.withConj then do
      let q ← row fl posKet t.j
      .ok [(p, p + t.dr), (q, q - t.dr)]
    else .ok [(p, p + t.dr)]
  else .ok []

/-- The loop over hopping terms, primitive.py:680-700, super.py:629-649 and 1034-1054. -/
noncomputable def hopCmds (v : Viewer) (o : Opts) (fl : Bool) (posBra posKet : List (Vec3 ℝ)) (ts : List (SCHop ℝ ℂ)) : Except Err (List Cmd) := do
  let ends ← ts.mapM (termEnds o fl posBra posKet)
  .ok (if o.arrows then ends.flatten.map fun s => v.arrow s.1 s.2 else [.lines .hop (ends.flatten.map fun s => (v.proj s.1, v.proj s.2))])

/-- Cells, primitive.py:703-712 and super.py:652-660: `r` holds the bounds given to `add_grid` per direction. -/
def cellCmds (v : Viewer) (view : String) (r : Fin 3 → ℤ × ℤ) : List Cmd :=
  let p : Fin 3 × Fin 3 := if view = "ab" ∨ view = "ba" then (0, 1) else if view = "bc" ∨ view = "cb" then (1, 2) else (0, 2)
  .lines .cell (v.grid (r p.1).1 (r p.1).2 (r p.2).1 (r p.2).2) :: v.latVec

/-- Component of a cell index. -/
def comp (R : Cell) (c : Fin 3) : ℤ := ![R.1, R.2.1, R.2.2] c

/-- `min()`/`max()` of a column of `hop_ind`; `none` for an empty array. -/
def colRange (ind : List Cell) (c : Fin 3) : Option (ℤ × ℤ) :=
  match ind with
  | [] => none
  | R :: Rs => some (Rs.foldl (fun a S => min a (comp S c)) (comp R c), Rs.foldl (fun a S => max a (comp S c)) (comp R c))

/-- `rn_range`, primitive.py:646-657. -/
def rnRange (conj : Bool) (numHop : ℕ) (ind : List Cell) : Except Err (Fin 3 → ℤ × ℤ) :=
  if numHop > 0 then
    match colRange ind 0, colRange ind 1, colRange ind 2 with
    | some a, some b, some c =>
      let f := fun r : ℤ × ℤ =>
        if conj then (min r.1 (min r.2 (min (-r.1) (-r.2))), max r.1 (max r.2 (max (-r.1) (-r.2)))) else r
      .ok ![f a, f b, f c]
    | _, _, _ => .error .value
  else .ok fun _ => (0, 0)

/-- The cells whose orbitals are plotted, primitive.py:670-672. -/
def cellsIn (r : Fin 3 → ℤ × ℤ) : List Cell :=
  (Viewer.ints (r 0).1 (r 0).2).flatMap fun a => (Viewer.ints (r 1).1 (r 1).2).flatMap fun b => (Viewer.ints (r 2).1 (r 2).2).map fun c => (a, b, c)

variable {Λ : Type*}

/-- `dr`, primitive.py:1081-1095, of the synchronised cell. -/
noncomputable def dr (s : PrimCell ℝ ℂ Λ) : Except Err (List (Vec3 ℝ)) :=
  s.arrInd.mapM fun t => do
    let q ← row false s.arrPos t.2.2
    let p ← row false s.arrPos t.2.1
    .ok (q + ![(t.1.1 : ℝ), (t.1.2.1 : ℝ), (t.1.2.2 : ℝ)] - p)

/-- `dr_nm`, primitive.py:1097-1106. -/
noncomputable def drNm (s : PrimCell ℝ ℂ Λ) : Except Err (List (Vec3 ℝ)) := do
  let d ← dr s
  .ok (frac2cart s.lat d 0)

/-- The hopping terms of a primitive cell, primitive.py:677-700. -/
noncomputable def cellHops (v : Viewer) (o : Opts) (pos : List (Vec3 ℝ)) (s : PrimCell ℝ ℂ Λ) : Except Err (List Cmd) :=
  if s.hops.numHop > 0 then do
    let d ← drNm s
    hopCmds v o false pos pos (List.zipWith (fun t d => ⟨t.1.2.1, t.1.2.2, t.2, d⟩) (List.zip s.arrInd s.arrHop) d)
  else .ok []

/-- `PrimitiveCell.plot`, primitive.py:607-723.  The repeated synchronisations by the properties do nothing. -/
noncomputable def plotCell (H : HashFns ℝ ℂ Λ) (s : PrimCell ℝ ℂ Λ) (o : Opts) : PrimCell ℝ ℂ Λ × Except Err (List Cmd) :=
  let s1 := (s.syncOrb H false).syncHop H false
  (s1, do
    let v ← newViewer s1.lat s1.origin o.view
    let r ← rnRange o.withConj s1.hops.numHop (s1.arrInd.map Prod.fst)
    let pos := frac2cart s1.lat s1.arrPos s1.origin
    let pts := if s1.numOrb > 0 ∧ o.withOrb = true then
      (cellsIn r).map fun R => Cmd.scatter (pos.map fun p => v.proj (p + Viewer.cellPos s1.lat R)) s1.arrEng else []
    let hops ← cellHops v o pos s1
    .ok (pts ++ hops ++ if o.withCells then cellCmds v o.view fun c => ((r c).1, (r c).2 + 1) else []))

/-- `SuperCell.plot`, super.py:585-660.  If `get_hop` has turned the indices into floats, they cannot be used as indices. -/
noncomputable def plotSC (H : HashFns ℝ ℂ Λ) (HS : SCHash ℝ ℂ Λ) (s : SCell ℝ ℂ Λ) (o : Opts) : SCell ℝ ℂ Λ × Except Err (List Cmd) :=
  match newViewer s.pc.lat s.pc.origin o.view with
  | .error e => (s, .error e)
  | .ok v =>
  match s.getOrbPos H HS with
  | (s1, .error e) => (s1, .error (.samp (.sc e)))
  | (s1, .ok pos) =>
  match s1.getOrbEng H HS with
  | (s2, .error e) => (s2, .error (.samp (.sc e)))
  | (s2, .ok eng) =>
  match s2.getHop H HS with
  | (s3, .error e) => (s3, .error (.samp (.sc e)))
  | (s3, .ok out) =>
    (s3, do
      let hops ← hopCmds v o out.idxFloat pos pos out.terms
      .ok ((if o.withOrb then [Cmd.scatter (pos.map v.proj) eng] else []) ++ hops ++
        if o.withCells then cellCmds v o.view ![(0, (s3.dim.a : ℤ)), (0, (s3.dim.b : ℤ)), (0, (s3.dim.c : ℤ))] else []))

/-- `SCInterHopping.plot`, super.py:1007-1054. -/
noncomputable def plotInter (H : HashFns ℝ ℂ Λ) (HS : SCHash ℝ ℂ Λ) (hp : SCHeap ℝ ℂ Λ) (h : InterSC ℂ) (o : Opts) :
    SCHeap ℝ ℂ Λ × Except Err (List Cmd) :=
  match newViewer (hp h.bra).pc.lat (hp h.bra).pc.origin o.view with
  | .error e => (hp, .error e)
  | .ok v =>
  match (hp h.bra).getOrbPos H HS with
  | (s1, .error e) => (heapSet hp h.bra s1, .error (.samp (.sc e)))
  | (s1, .ok pb) =>
  let hp1 := heapSet hp h.bra s1
  match (if o.withConj then ((hp1 h.ket).getOrbPos H HS).map (heapSet hp1 h.ket) id else (hp1, .ok [])) with
  | (hp2, .error e) => (hp2, .error (.samp (.sc e)))
  | (hp2, .ok pk) =>
  match interGetHop H HS hp2 h with
  | (hp3, .error e) => (hp3, .error (.samp e))
  | (hp3, .ok ts) => (hp3, hopCmds v o false pb pk ts)

/-- The loop over supercells, sample.py:501-503. -/
noncomputable def plotSCs (H : HashFns ℝ ℂ Λ) (HS : SCHash ℝ ℂ Λ) (o : Opts) :
    SCHeap ℝ ℂ Λ → List ℕ → SCHeap ℝ ℂ Λ × Except Err (List Cmd)
  | hp, [] => (hp, .ok [])
  | hp, id :: ids =>
    match plotSC H HS (hp id) o with
    | (s', .error e) => (heapSet hp id s', .error e)
    | (s', .ok a) =>
      match plotSCs H HS o (heapSet hp id s') ids with
      | (hp', .error e) => (hp', .error e)
      | (hp', .ok b) => (hp', .ok (a ++ b))

/-- The loop over inter-hoppings, sample.py:507-508. -/
noncomputable def plotInters (H : HashFns ℝ ℂ Λ) (HS : SCHash ℝ ℂ Λ) (o : Opts) :
    SCHeap ℝ ℂ Λ → List (InterSC ℂ) → SCHeap ℝ ℂ Λ × Except Err (List Cmd)
  | hp, [] => (hp, .ok [])
  | hp, h :: hs =>
    match plotInter H HS hp h o with
    | (hp', .error e) => (hp', .error e)
    | (hp', .ok a) =>
      match plotInters H HS o hp' hs with
      | (hp'', .error e) => (hp'', .error e)
      | (hp'', .ok b) => (hp'', .ok (a ++ b))

/-- `Sample.plot`, sample.py:463-522. -/
noncomputable def plotSample (H : HashFns ℝ ℂ Λ) (HS : SCHash ℝ ℂ Λ) (hp : SCHeap ℝ ℂ Λ) (s : Sample ℝ ℂ) (o : Opts) :
    SCHeap ℝ ℂ Λ × Except Err (List Cmd) :=
  match plotSCs H HS o hp s.cells with
  | (hp', .error e) => (hp', .error e)
  | (hp', .ok a) =>
    match plotInters H HS o hp' s.inters with
    | (hp'', .error e) => (hp'', .error e)
    | (hp'', .ok b) => (hp'', .ok (a ++ b))

/-- The image drawn by `imshow`: rows from bottom to top (`origin="lower"`), and the extent. -/
structure Image where
  rows : List (List ℝ)
  xMin : ℝ
  xMax : ℝ
  yMin : ℝ
  yMax : ℝ

/-- `numpy.reshape` to two dimensions, in C order. -/
def reshape2 {α : Type*} (l : List α) (n m : ℕ) : List (List α) := (List.range n).map fun i => (l.drop (i * m)).take m

/-- `plot_scalar` with `scatter=False`, visual.py:334-344.  `interp` is the interpolation by `griddata`, which works point by point.
`none`: `np.min` of an empty array raises `ValueError`. -/
noncomputable def plotScalar (interp : ℝ → ℝ → ℝ) (x y : List ℝ) (nx ny : ℕ) : Option Image :=
  match x.min?, x.max?, y.min?, y.max? with
  | some x0, some x1, some y0, some y1 =>
    let xs := linspace x0 x1 nx
    let ys := linspace y0 y1 ny
    let xy := ys.flatMap fun b => xs.map fun a => (a, b)
    some ⟨reshape2 (xy.map fun p => interp p.1 p.2) nx ny, x0, x1, y0, y1⟩
  | _, _, _, _ => none

end Verif.Plot

import Verif.Model.Plot

/-!
# Model of the class `Visualizer`

`/repo/tbplas/visual.py`: `plot_bands` (102-160), `_plot_model` (239-272), `plot_vector` (359-425) and `plot_wfc` (427-455); `plot_scalar` without
interpolation (`scatter=True`, 322-330).  The interpolated picture is in Plot.lean, the cube files in Cube.lean.

A figure is the list of drawing commands given to matplotlib; labels of the axes, colours of lines, sizes and the beautifier are left out.  Processes
other than the master draw nothing.  Of the models with which data are plotted,
only primitive cells are treated here.
-/

namespace Verif.Visual

open Plot

/-- Commands of matplotlib: `axes.plot`, `axes.axvline`, `axes.set_xlim`, `axes.set_xticks` with `axes.set_xticklabels`, `LineCollection`,
`axes.scatter`, `axes.quiver` (position, direction and number giving the colour). -/
inductive VCmd where
  | curve (pts : List (ℝ × ℝ))
  | vline (x : ℝ)
  | xlim (lo hi : ℝ)
  | ticks (l : List (ℝ × String))
  | lines (segs : List ((ℝ × ℝ) × (ℝ × ℝ)))
  | dots (pts : List ((ℝ × ℝ) × ℝ))
  | arrows (l : List ((ℝ × ℝ) × (ℝ × ℝ) × Option ℝ))

/-- `k_len[idx]`. -/
def tickAt (kLen : List ℝ) (idx : ℤ) : Except Err ℝ :=
  match pyIndex kLen.length idx with
  | some k => .ok (kLen.getD k 0)
  | none => .error .index

/-- `ax.plot(k_len, bands[:, i])`, visual.py:137-138; matplotlib refuses arrays of different lengths. -/
def bandCurve (kLen : List ℝ) (bands : List (List ℝ)) (i : ℕ) : Except Err VCmd :=
  if kLen.length = bands.length then .ok (.curve (kLen.zip (bands.map fun r => r.getD i 0))) else .error .value

/-- `plot_bands`, visual.py:102-160; `bands` are the rows of an array with `nb` columns.  `np.amax` refuses an empty array, `set_xticklabels` a wrong
number of labels. -/
noncomputable def plotBands (master : Bool) (kLen : List ℝ) (nb : ℕ) (bands : List (List ℝ)) (kIdx : List ℤ) (labels : List String) :
    Except Err (List VCmd) :=
  if master = false then .ok [] else do
  let curves ← (List.range nb).mapM (bandCurve kLen bands)
  let marks ← kIdx.mapM (tickAt kLen)
  match kLen.max? with
  | none => .error .value
  | some m =>
    if marks.length ≠ labels.length then .error .value
    else .ok (curves ++ marks.map .vline ++ [.xlim 0 m, .ticks (marks.zip labels)])

/-- The loop of `_plot_model`, visual.py:262-269: `pos_i` and `pos_i + dr`, first two components. -/
noncomputable def modelLines (pos : List (Vec3 ℝ)) (hops : List (ℤ × Vec3 ℝ)) : Except Err (List ((ℝ × ℝ) × (ℝ × ℝ))) :=
  hops.mapM fun h => do
    let p ← row false pos h.1
    .ok ((p 0, p 1), ((p + h.2) 0, (p + h.2) 1))

variable {Λ : Type*}

/-- `_plot_model`, visual.py:239-272, for a primitive cell: `hop_ind[:, 3]` of a cell without hopping terms is an `IndexError`, because an empty list
makes a one-dimensional array (base.py:382-391). -/
noncomputable def plotModelCell (H : HashFns ℝ ℂ Λ) (s : PrimCell ℝ ℂ Λ) : PrimCell ℝ ℂ Λ × Except Err (List VCmd) :=
  let s1 := (s.syncOrb H false).syncHop H false
  (s1,
    if s1.arrInd.length = 0 then .error .index
    else do
      let d ← drNm s1
      let l ← modelLines (frac2cart s1.lat s1.arrPos s1.origin) (List.zip (s1.arrInd.map fun t => t.2.1) d)
      .ok [.lines l])

/-- `plot_wfc`, visual.py:427-455, for a primitive cell, with `plot_scalar(scatter=True)`: matplotlib refuses a number of values different from the
number of points.  The model is drawn first (visual.py:319-320). -/
noncomputable def plotWfcCell (H : HashFns ℝ ℂ Λ) (s : PrimCell ℝ ℂ Λ) (master withModel : Bool) (wfc : List ℝ) :
    PrimCell ℝ ℂ Λ × Except Err (List VCmd) :=
  let s1 := s.syncOrb H false
  let pos := frac2cart s1.lat s1.arrPos s1.origin
  if master = false then (s1, .ok []) else
  let r := if withModel then plotModelCell H s1 else (s1, .ok [])
  (r.1, do
    let m ← r.2
    if pos.length = wfc.length then .ok (m ++ [.dots ((pos.map fun p => (p 0, p 1)).zip wfc)])
    else .error .value)

/-- The colour of an arrow, visual.py:409: `np.sqrt(np.abs(u)**2 + np.abs(v)**2)`. -/
noncomputable def arrowColor (u v : ℝ) : ℝ := Real.sqrt (|u| ^ 2 + |v| ^ 2)

/-- `plot_vector` without a model, visual.py:403-412; the four arrays are given row by row. -/
noncomputable def plotVector (master cmap : Bool) (l : List ((ℝ × ℝ) × (ℝ × ℝ))) : List VCmd :=
  if master = false then []
  else [.arrows (l.map fun p => (p.1, p.2, if cmap then some (arrowColor p.2.1 p.2.2) else none))]

end Verif.Visual

import Verif.Model.Base
import Mathlib.Data.Complex.Basic
import Mathlib.Analysis.Real.Sqrt

/-!
# Model of the Slater-Koster formula

`/repo/tbplas/builder/advanced.py` 477-984 (class `SK`).  Direction cosines and tabulated factors are complex numbers here
(they are real and multiplied by complex parameters in the code).
-/

namespace Verif

/-- The characters `x`, `y`, `z` in labels. -/
inductive LabAxis where
  | x | y | z
deriving DecidableEq, Repr

/-- Orbital labels: `"s"`, `"p?"`, `"d??"`, `"dx2-y2"`, `"dz2"` and anything else. -/
inductive OrbLabel where
  | s | p (a : LabAxis) | d (a b : LabAxis) | dx2y2 | dz2 | other
deriving DecidableEq, Repr

/-- `ValueError` or `KeyError`. -/
inductive SkErr where
  | value | key
deriving DecidableEq, Repr

namespace SK
open OrbLabel

/-- `_p_labels` and the check `_check_p_labels`, advanced.py:497, 504-514. -/
def isP : OrbLabel → Bool
  | p _ => true
  | _ => false

/-- `_d_labels` and the check `_check_d_labels`, advanced.py:498-499, 516-526. -/
def isD : OrbLabel → Bool
  | d .x .y => true
  | d .y .z => true
  | d .z .x => true
  | dx2y2 => true
  | dz2 => true
  | _ => false

/-- `_perm_vector`, advanced.py:528-545. -/
def permVector (r : Vec3 ℝ) : LabAxis → Vec3 ℝ
  | .x => r
  | .y => ![r 1, r 2, r 0]
  | .z => ![r 2, r 0, r 1]

/-- `map_table`, advanced.py:560-567. -/
def mapTable : LabAxis → LabAxis → LabAxis
  | .x, c => c
  | .y, .x => .z
  | .y, .y => .x
  | .y, .z => .y
  | .z, .x => .y
  | .z, .y => .z
  | .z, .z => .x

/-- `_remap_label`, advanced.py:547-573; the characters `2` and `-` are not in the table. -/
def remapLabel (lab : OrbLabel) (xNew : LabAxis) : Except SkErr OrbLabel :=
  if xNew = .x then .ok lab
  else match lab with
    | s => .ok s
    | p a => .ok (p (mapTable xNew a))
    | d a b => .ok (d (mapTable xNew a) (mapTable xNew b))
    | _ => .error .key

/-- `_eval_dir_cos`, advanced.py:575-589. -/
noncomputable def dirCos (r : Vec3 ℝ) : Except SkErr (ℂ × ℂ × ℂ) :=
  if norm3 r ≤ 1.0e-15 then .error .value
  else .ok (((r 0 / norm3 r : ℝ) : ℂ), ((r 1 / norm3 r : ℝ) : ℂ), ((r 2 / norm3 r : ℝ) : ℂ))

/-- `_sqrt3`, advanced.py:500. -/
noncomputable def sqrt3 : ℂ := ((Real.sqrt 3 : ℝ) : ℂ)

/-- `_half_sqrt3`, advanced.py:501. -/
noncomputable def halfSqrt3 : ℂ := sqrt3 * 0.5

/-- `ss`, advanced.py:591-599. -/
def ss (vSss : ℂ) : Except SkErr ℂ := .ok vSss

/-- `sp`, advanced.py:601-622. -/
noncomputable def sp (r : Vec3 ℝ) (lp : OrbLabel) (vSps : ℂ) : Except SkErr ℂ := do
  if ¬ isP lp then .error .value
  let (l, m, n) ← dirCos r
  if lp = p .x then .ok (l * vSps)
  else if lp = p .y then .ok (m * vSps)
  else .ok (n * vSps)

/-- `sd`, advanced.py:624-658. -/
noncomputable def sd (r : Vec3 ℝ) (ld : OrbLabel) (vSds : ℂ) : Except SkErr ℂ := do
  if ¬ isD ld then .error .value
  let xNew : LabAxis := if ld = d .y .z then .y else if ld = d .z .x then .z else .x
  let r := permVector r xNew
  let ld ← remapLabel ld xNew
  let (l, m, n) ← dirCos r
  if ld = d .x .y then .ok (sqrt3 * l * m * vSds)
  else if ld = dx2y2 then .ok (halfSqrt3 * (l ^ 2 - m ^ 2) * vSds)
  else if ld = dz2 then .ok ((n ^ 2 - 0.5 * (l ^ 2 + m ^ 2)) * vSds)
  else .error .value

/-- `label[1]` of a p label. -/
def axisOf : OrbLabel → LabAxis
  | p a => a
  | _ => .x

/-- `pp`, advanced.py:660-697. -/
noncomputable def pp (r : Vec3 ℝ) (li lj : OrbLabel) (vPps vPpp : ℂ) : Except SkErr ℂ := do
  if ¬ (isP li ∧ isP lj) then .error .value
  let xNew := axisOf li
  let r := permVector r xNew
  let li ← remapLabel li xNew
  let lj ← remapLabel lj xNew
  if li ≠ p .x then .error .value
  let (l, m, n) ← dirCos r
  if lj = p .x then .ok (l ^ 2 * vPps + (1 - l ^ 2) * vPpp)
  else if lj = p .y then .ok (l * m * (vPps - vPpp))
  else .ok (l * n * (vPps - vPpp))

/-- `pd`, advanced.py:699-760. -/
noncomputable def pd (r : Vec3 ℝ) (lp ld : OrbLabel) (vPds vPdp : ℂ) : Except SkErr ℂ := do
  if ¬ isP lp then .error .value
  if ¬ isD ld then .error .value
  let perm : Bool := ld = d .x .y ∨ ld = d .y .z ∨ ld = d .z .x
  let xNew := axisOf lp
  let r := if perm then permVector r xNew else r
  let lp ← if perm then remapLabel lp xNew else .ok lp
  let ld ← if perm then remapLabel ld xNew else .ok ld
  let (l, m, n) ← dirCos r
  let l2 := l ^ 2
  let m2 := m ^ 2
  let n2 := n ^ 2
  let l2pm2 := l2 + m2
  let l2mm2 := l2 - m2
  if lp = p .x then
    if ld = d .x .y then .ok (sqrt3 * l2 * m * vPds + m * (1 - 2 * l2) * vPdp)
    else if ld = d .y .z then .ok (l * m * n * (sqrt3 * vPds - 2 * vPdp))
    else if ld = d .z .x then .ok (sqrt3 * l2 * n * vPds + n * (1 - 2 * l2) * vPdp)
    else if ld = dx2y2 then .ok (halfSqrt3 * l * l2mm2 * vPds + l * (1 - l2mm2) * vPdp)
    else .ok (l * (n2 - 0.5 * l2pm2) * vPds - sqrt3 * l * n2 * vPdp)
  else if lp = p .y then
    if ld = dx2y2 then .ok (halfSqrt3 * m * l2mm2 * vPds - m * (1 + l2mm2) * vPdp)
    else if ld = dz2 then .ok (m * (n2 - 0.5 * l2pm2) * vPds - sqrt3 * m * n2 * vPdp)
    else .error .value
  else
    if ld = dx2y2 then .ok (halfSqrt3 * n * l2mm2 * vPds - n * l2mm2 * vPdp)
    else if ld = dz2 then .ok (n * (n2 - 0.5 * l2pm2) * vPds + sqrt3 * n * l2pm2 * vPdp)
    else .error .value

/-- `d_labels.index(label)`, advanced.py:788-790. -/
def dIndex : OrbLabel → ℕ
  | d .x .y => 0
  | d .y .z => 1
  | d .z .x => 2
  | dx2y2 => 3
  | _ => 4

/-- The table of `dd` after permutation, advanced.py:806-886: `factor`, `t1`, `t2`, `t3`. -/
noncomputable def ddTable (l m n : ℂ) (li lj : OrbLabel) : Except SkErr (ℂ × ℂ × ℂ × ℂ) :=
  let l2 := l ^ 2
  let m2 := m ^ 2
  let n2 := n ^ 2
  let l2pm2 := l2 + m2
  let l2mm2 := l2 - m2
  let lm := l * m
  let mn := m * n
  let nl := n * l
  let l2m2 := l2 * m2
  if li = d .x .y then
    if lj = d .x .y then .ok (1, 3 * l2m2, l2pm2 - 4 * l2m2, n2 + l2m2)
    else if lj = d .y .z then .ok (nl, 3 * m2, 1 - 4 * m2, m2 - 1)
    else if lj = d .z .x then .ok (mn, 3 * l2, 1 - 4 * l2, l2 - 1)
    else if lj = dx2y2 then .ok (lm * l2mm2, 1.5, -2, 0.5)
    else .ok (sqrt3 * lm, n2 - 0.5 * l2pm2, -2 * n2, 0.5 * (1 + n2))
  else if li = d .y .z then
    if lj = dx2y2 then .ok (mn, 1.5 * l2mm2, -(1 + 2 * l2mm2), 1 + 0.5 * l2mm2)
    else if lj = dz2 then .ok (sqrt3 * mn, n2 - 0.5 * l2pm2, l2pm2 - n2, -0.5 * l2pm2)
    else .error .value
  else if li = d .z .x then
    if lj = dx2y2 then .ok (nl, 1.5 * l2mm2, 1 - 2 * l2mm2, -1 * (1 - 0.5 * l2mm2))
    else if lj = dz2 then .ok (sqrt3 * nl, n2 - 0.5 * l2pm2, l2pm2 - n2, -0.5 * l2pm2)
    else .error .value
  else if li = dx2y2 then
    if lj = dx2y2 then .ok (1, 0.75 * l2mm2 ^ 2, l2pm2 - l2mm2 ^ 2, n2 + 0.25 * l2mm2 ^ 2)
    else if lj = dz2 then .ok (sqrt3 * l2mm2, 0.5 * (n2 - 0.5 * l2pm2), -n2, 0.25 * (1 + n2))
    else .error .value
  else
    if lj = dz2 then .ok (1, (n2 - 0.5 * l2pm2) ^ 2, 3 * n2 * l2pm2, 0.75 * l2pm2 ^ 2)
    else .error .value

/-- The branch `id_i <= id_j` of `dd`, advanced.py:796-887. -/
noncomputable def ddUpper (r : Vec3 ℝ) (li lj : OrbLabel) (vDds vDdp vDdd : ℂ) : Except SkErr ℂ := do
  let xNew : LabAxis := if li = d .y .z ∧ (lj = d .y .z ∨ lj = d .z .x) then .y
    else if li = d .z .x ∧ lj = d .z .x then .z else .x
  let r := permVector r xNew
  let li ← remapLabel li xNew
  let lj ← remapLabel lj xNew
  let (l, m, n) ← dirCos r
  let (factor, t1, t2, t3) ← ddTable l m n li lj
  .ok (factor * (t1 * vDds + t2 * vDdp + t3 * vDdd))

/-- `dd`, advanced.py:762-888 (the recursion has depth one). -/
noncomputable def dd (r : Vec3 ℝ) (li lj : OrbLabel) (vDds vDdp vDdd : ℂ) : Except SkErr ℂ :=
  if ¬ (isD li ∧ isD lj) then .error .value
  else if dIndex li > dIndex lj then (ddUpper (-r) lj li vDds vDdp vDdd).map star
  else ddUpper r li lj vDds vDdp vDdd

/-- `ps`, advanced.py:890-903. -/
noncomputable def ps (r : Vec3 ℝ) (lp : OrbLabel) (vSps : ℂ) : Except SkErr ℂ := (sp (-r) lp vSps).map star

/-- `ds`, advanced.py:905-918. -/
noncomputable def ds (r : Vec3 ℝ) (ld : OrbLabel) (vSds : ℂ) : Except SkErr ℂ := (sd (-r) ld vSds).map star

/-- `dp`, advanced.py:920-938. -/
noncomputable def dp (r : Vec3 ℝ) (lp ld : OrbLabel) (vPds vPdp : ℂ) : Except SkErr ℂ := (pd (-r) lp ld vPds vPdp).map star

/-- The parameters of `eval`. -/
structure Par where
  sss : ℂ
  sps : ℂ
  sds : ℂ
  pps : ℂ
  ppp : ℂ
  pds : ℂ
  pdp : ℂ
  dds : ℂ
  ddp : ℂ
  ddd : ℂ

/-- `eval`, advanced.py:940-984. -/
noncomputable def eval (v : Par) (r : Vec3 ℝ) (li lj : OrbLabel) : Except SkErr ℂ :=
  if li = s then
    if lj = s then ss v.sss
    else if isP lj then sp r lj v.sps
    else sd r lj v.sds
  else if isP li then
    if lj = s then ps r li v.sps
    else if isP lj then pp r li lj v.pps v.ppp
    else pd r li lj v.pds v.pdp
  else
    if lj = s then ds r li v.sds
    else if isP lj then dp r lj li v.pds v.pdp
    else dd r li lj v.dds v.ddp v.ddd

end SK
end Verif

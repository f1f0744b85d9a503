import Verif.Model.Neighbors
import Verif.Model.SlaterKoster
import Verif.Model.Soc
import Verif.Model.Materials
import Verif.Model.Advanced

/-!
# Model of the cells built from Slater-Koster parameters

`make_graphene_sp`, `/repo/tbplas/materials/graphene.py:75-122`, and `make_mos2_soc`, `/repo/tbplas/materials/xs2.py:420-519`.
Real arithmetic is exact.  The k-d tree is an argument, as in Model/Neighbors.
-/

namespace Verif.Materials

open PrimCell

/-- Exceptions of the functions: of the primitive cell, of the neighbour search, of the Slater-Koster formula or the spin-orbit
coupling, of `merge_prim_cell`, `ValueError` of `make_graphene_sp`, `KeyError`, and `ValueError` of unpacking a label. -/
inductive SkCellErr where
  | pc (e : PCErr) | nb (e : NbErr) | sk (e : SkErr) | adv (e : AdvErr) | value | key

/-- Orbital names. -/
def skLabel : String → OrbLabel
  | "s" => .s
  | "px" => .p .x
  | "py" => .p .y
  | "pz" => .p .z
  | "dxy" => .d .x .y
  | "dyz" => .d .y .z
  | "dzx" => .d .z .x
  | "dx2-y2" => .dx2y2
  | "dz2" => .dz2
  | _ => .other

variable {Λ : Type*}

/-- The body of the loop over the neighbours, graphene.py:103-121 and xs2.py:478-487: `lm` extracts the name of the orbital from
its label and `par` chooses the parameters from the distance, `none` standing for `ValueError`. -/
noncomputable def skStep (H : HashFns ℝ ℂ Λ) (lm : Λ → OrbLabel) (par : ℝ → Option SK.Par) (s : PrimCell ℝ ℂ Λ) (t : NbTerm) :
    Except SkCellErr (PrimCell ℝ ℂ Λ) :=
  match s.getOrbital t.pair.1 with
  | .error e => .error (.pc e)
  | .ok oi =>
    match s.getOrbital t.pair.2 with
    | .error e => .error (.pc e)
    | .ok oj =>
      match par t.distance with
      | none => .error .value
      | some v =>
        match SK.eval v t.rij (lm oi.label) (lm oj.label) with
        | .error e => .error (.sk e)
        | .ok hop =>
          match step H s (.addHopping [t.rn.1, t.rn.2.1, t.rn.2.2] t.pair.1 t.pair.2 hop) with
          | (_, .error e) => .error (.pc e)
          | (s', .ok ()) => .ok s'

/-- `find_neighbors(cell, a_max, b_max, max_distance=...)` and the loop over what it returns, graphene.py:98-121 and
xs2.py:473-487.  The search reads `orb_pos_nm` of the cell twice and thereby updates its arrays. -/
noncomputable def skHoppings (H : HashFns ℝ ℂ Λ) (HS : SCHash ℝ ℂ Λ) (tree : DistMatrix) (lm : Λ → OrbLabel)
    (par : ℝ → Option SK.Par) (a b c : ℤ) (dmax : ℝ) (s : PrimCell ℝ ℂ Λ) : Except SkCellErr (PrimCell ℝ ℂ Λ) :=
  match findNeighbors H HS tree (.prim s) none a b c dmax with
  | .error e => .error (.nb e)
  | .ok terms => terms.foldlM (skStep H lm par) (primPosNm H (primPosNm H s).1).1

/-- Parameters of s and p orbitals. -/
def parSp (sss sps pps ppp : ℂ) : SK.Par := ⟨sss, sps, 0, pps, ppp, 0, 0, 0, 0, 0⟩

open Classical in
/-- The parameters of `make_graphene_sp`, graphene.py:99-100, 112-117. -/
noncomputable def graphenePar (d : ℝ) : Option SK.Par :=
  if |d - 0.14202816622064793| < 1.0e-5 then some (parSp (-5.729) 5.618 6.050 (-3.070))
  else if |d - 0.24599999999999997| < 1.0e-5 then some (parSp 0.102 (-0.171) (-0.377) 0.070)
  else none

/-- The orbitals of `make_graphene_sp`, graphene.py:87-95. -/
noncomputable def grapheneSpOrbs : List (List ℝ × ℝ × String) :=
  [[0.0, 0.0, 0.0], [1 / 3, 1 / 3, 0.0]].flatMap fun pos =>
    [("s", -8.370), ("px", 0.0), ("py", 0.0), ("pz", 0.0)].map fun q : String × ℝ => (pos, q.2, q.1)

/-- `make_graphene_sp`, graphene.py:75-122. -/
noncomputable def grapheneSp (H : HashFns ℝ ℂ String) (HS : SCHash ℝ ℂ String) (tree : DistMatrix) (c : ℝ) :
    Except SkCellErr (PrimCell ℝ ℂ String) :=
  match genLatticeVectors 0.246 0.246 c 90 90 60 with
  | none => .error .value
  | some lat =>
    match runOk H (init H lat 0) (grapheneSpOrbs.map fun q => .addOrbital q.1 q.2.1 q.2.2) with
    | .error e => .error (.pc e)
    | .ok s => skHoppings H HS tree skLabel graphenePar 5 5 0 0.25 s

/-! `make_mos2_soc`.  A label such as `"Mo:dz2"` is represented by the list of its fields, so `split(":")` is the identity and
appending `":up"` appends a field. -/

/-- The lattice, xs2.py:430-434, in nanometer (`unit=ANG`). -/
noncomputable def mosLat : Mat3 ℝ :=
  (0.1 : ℝ) • !![3.16, 0, 0; -1.579999, 2.736640276, 0; 0, 0, 3.172]

/-- The orbital energies, xs2.py:453-455. -/
noncomputable def mosEnergy : PyDict String ℝ :=
  [("dz2", -1.512), ("dzx", 0.419), ("dyz", 0.419), ("dx2-y2", -3.025), ("dxy", -3.025), ("px", -1.276), ("py", -1.276),
   ("pz", -8.236)]

/-- Coordinates and labels, xs2.py:437-450. -/
noncomputable def mosSites : List (List ℝ × List String) :=
  (["dz2", "dzx", "dyz", "dx2-y2", "dxy"].map fun q => ([0.66667, 0.33333, 0.5], ["Mo", q])) ++
  (["px", "py", "pz"].map fun q => ([0.0, -0.0, 0.0], ["S1", q])) ++
  (["px", "py", "pz"].map fun q => ([0.0, -0.0, 1], ["S2", q]))

/-- `label.split(":")[1]`. -/
def mosLm (l : List String) : String := l.getD 1 ""

/-- The parameters, xs2.py:458-460. -/
noncomputable def mosPar : SK.Par := ⟨0, 0, 0, 0.696, 0.278, -2.619, -1.396, -0.933, -0.478, -0.442⟩

/-- `soc_lambda`, xs2.py:463. -/
noncomputable def mosLambda : PyDict String ℝ := [("Mo", 0.075), ("S1", 0.052), ("S2", 0.052)]

/-- Spin names. -/
def spinLabel : String → SpinLabel
  | "up" => .up
  | "down" => .down
  | _ => .other

/-- One round of the loops of xs2.py:496-501: add the spin to the label. -/
noncomputable def mosSpin (H : HashFns ℝ ℂ (List String)) (spin : String) (s : PrimCell ℝ ℂ (List String)) (i : ℕ) :
    Except SkCellErr (PrimCell ℝ ℂ (List String)) :=
  match s.getOrbital i with
  | .error e => .error (.pc e)
  | .ok o =>
    match step H s (.setOrbital i none none (some (o.label ++ [spin]))) with
    | (_, .error e) => .error (.pc e)
    | (s', .ok ()) => .ok s'

open Classical in
/-- The body of the inner loop, xs2.py:508-518: the sum `energy` is computed and not used. -/
noncomputable def mosSocStep (H : HashFns ℝ ℂ (List String)) (i : ℕ) (s : PrimCell ℝ ℂ (List String)) (j : ℕ) :
    Except SkCellErr (PrimCell ℝ ℂ (List String)) :=
  match s.getOrbital i, s.getOrbital j with
  | .ok oi, .ok oj =>
    match oi.label, oj.label with
    | [atomI, lmI, spinI], [atomJ, lmJ, spinJ] =>
      if atomJ = atomI then
        match Soc.eval (skLabel lmI) (spinLabel spinI) (skLabel lmJ) (spinLabel spinJ) with
        | .error e => .error (.sk e)
        | .ok v =>
          match PyDict.get? mosLambda atomJ with
          | none => .error .key
          | some lam =>
            if ‖v * (lam : ℂ)‖ ≥ 1.0e-15 then
              match step H s (.addHopping [0, 0, 0] i j (v * (lam : ℂ))) with
              | (_, .error e) => .error (.pc e)
              | (s', .ok ()) => .ok s'
            else .ok s
      else .ok s
    | _, _ => .error .value
  | .error e, _ => .error (.pc e)
  | _, .error e => .error (.pc e)

/-- The loops of xs2.py:505-518; `num_orb_total` is read before them. -/
noncomputable def mosSoc (H : HashFns ℝ ℂ (List String)) (numOrb : ℕ) (s : PrimCell ℝ ℂ (List String)) :
    Except SkCellErr (PrimCell ℝ ℂ (List String)) :=
  (List.range numOrb).foldlM (fun s i => ((List.range numOrb).filter fun j => i < j).foldlM (mosSocStep H i) s) s

/-- One call of `add_orbital`, xs2.py:467-469. -/
noncomputable def mosOp (q : List ℝ × List String) : Except SkCellErr (Op ℝ ℂ (List String)) :=
  match PyDict.get? mosEnergy (mosLm q.2) with
  | none => .error .key
  | some e => .ok (.addOrbital q.1 e q.2)

/-- `make_mos2_soc`, xs2.py:420-519.  The two arguments of `merge_prim_cell` are the same object. -/
noncomputable def mos2Soc (H : HashFns ℝ ℂ (List String)) (HS : SCHash ℝ ℂ (List String)) (tree : DistMatrix) :
    Except SkCellErr (PrimCell ℝ ℂ (List String)) := do
  let orbs ← mosSites.mapM mosOp
  let s0 ← match runOk H (init H mosLat 0) orbs with
    | .error e => (.error (.pc e) : Except SkCellErr (PrimCell ℝ ℂ (List String)))
    | .ok s => .ok s
  let s1 ← skHoppings H HS tree (fun l => skLabel (mosLm l)) (fun _ => some mosPar) 2 2 0 0.32 s0
  let s2 ← match (mergePrimCell H (fun _ => ⟨s1, 1⟩) [.pc 0, .pc 0]).2 with
    | .error e => (.error (.adv e) : Except SkCellErr (PrimCell ℝ ℂ (List String)))
    | .ok t => .ok t.cell
  let half := s2.numOrb / 2
  let s3 ← (List.range half).foldlM (mosSpin H "up") s2
  let s4 ← ((List.range s2.numOrb).filter fun i => half ≤ i).foldlM (mosSpin H "down") s3
  mosSoc H s2.numOrb s4

end Verif.Materials

import Verif.Model.Prim
import Verif.Model.Base
import Verif.Model.Reshape
import Mathlib.Analysis.Complex.Basic

/-!
# Model of the material repository

`/repo/tbplas/materials/graphene.py` (without `make_graphene_sp`).  Real and complex
arithmetic is exact.  The functions raise no exception of their own; an exception of a cell method propagates.
-/

namespace Verif.Materials

open PrimCell

variable {F E Λ : Type*} [Field F] [DecidableEq F] [Star E]

/-- Successive method calls on a cell; the first exception propagates. -/
noncomputable def runOk (H : HashFns F E Λ) (s : PrimCell F E Λ) : List (Op F E Λ) → Except PCErr (PrimCell F E Λ)
  | [] => .ok s
  | op :: ops =>
    match step H s op with
    | (s', .ok ()) => runOk H s' ops
    | (_, .error e) => .error e

/-- The calls of `make_graphene_diamond`, graphene.py:26-30. -/
noncomputable def diamondCalls (t : ℂ) : List (Op ℝ ℂ String) :=
  [.addOrbital [0, 0] 0 "C_pz", .addOrbital [1/3, 1/3] 0 "C_pz",
   .addHopping [0, 0] 0 1 t, .addHopping [1, 0] 1 0 t, .addHopping [0, 1] 1 0 t]

/-- `make_graphene_diamond`, graphene.py:16-31. -/
noncomputable def grapheneDiamond (H : HashFns ℝ ℂ String) (c : ℝ) (t : ℂ) : Except PCErr (PrimCell ℝ ℂ String) :=
  match genLatticeVectors 0.246 0.246 c 90 90 60 with
  | none => .error .value
  | some lat => runOk H (init H lat 0) (diamondCalls t)

/-- The calls of `make_graphene_rect(from_scratch=True)`, graphene.py:56-67. -/
noncomputable def rectCalls (t : ℂ) : List (Op ℝ ℂ String) :=
  [.addOrbital [0, 0] 0 "C_pz", .addOrbital [0, 2/3] 0 "C_pz", .addOrbital [1/2, 1/6] 0 "C_pz",
   .addOrbital [1/2, 1/2] 0 "C_pz",
   .addHopping [0, 0] 0 2 t, .addHopping [0, 0] 2 3 t, .addHopping [0, 0] 3 1 t, .addHopping [0, 1] 1 0 t,
   .addHopping [1, 0] 3 1 t, .addHopping [1, 0] 2 0 t]

/-- `make_graphene_rect` with `from_scratch=True`, graphene.py:47-67. -/
noncomputable def grapheneRect (H : HashFns ℝ ℂ String) (c : ℝ) (t : ℂ) : Except PCErr (PrimCell ℝ ℂ String) :=
  let ccBond : ℝ := Real.sqrt 3 / 3 * 0.246
  match genLatticeVectors (Real.sqrt 3 * ccBond) (3 * ccBond) c 90 90 90 with
  | none => .error .value
  | some lat => runOk H (init H lat 0) (rectCalls t)

/-- `make_graphene_rect` with `from_scratch=False`, graphene.py:68-71; `delta` and `pos_tol` of `reshape_prim_cell` have their
default values. -/
noncomputable def grapheneRectReshaped (H : HashFns ℝ ℂ String) (query : BallQuery ℝ) (_c : ℝ) (t : ℂ) :
    Except AdvErr (PrimCell ℝ ℂ String) :=
  match grapheneDiamond H 1 t with
  | .error e => .error (.pc e)
  | .ok s =>
    match reshapePrimCell H query ⟨s, 1⟩ !![1, 0, 0; -1, 2, 0; 0, 0, 1] 1e-2 1e-5 with
    | .error e => .error e
    | .ok t => .ok t.cell

open Classical in
/-- The nonzero elements of one matrix of a `HopDict`, in the order of `coo_matrix` (rows, then columns): `HopDict.to_spare`,
base.py:591-603, and the loop of `add_hopping_dict`, primitive.py:397-402. -/
noncomputable def cooEntries (n : ℕ) (R : Cell) (M : ℕ → ℕ → ℂ) : List (Cell × ℤ × ℤ × ℂ) :=
  (List.range n).flatMap fun i => ((List.range n).filter fun j => M i j ≠ 0).map fun j : ℕ => (R, (i : ℤ), (j : ℤ), M i j)

/-- A 4 × 4 matrix of zeros with a 2 × 2 block at row `r` and column `c`, as in graphene.py:183-184. -/
def putBlock (r c : ℕ) (B : ℕ → ℕ → ℂ) (M : ℕ → ℕ → ℂ) : ℕ → ℕ → ℂ := fun i j =>
  if r ≤ i ∧ i < r + 2 ∧ c ≤ j ∧ j < c + 2 then B (i - r) (j - c) else M i j

/-- The parameters of `make_graphene_soc`, graphene.py:137-144: `t`, `lamb_so`, `lamb_r`, `lamb_nu`. -/
noncomputable def socParams (isQsh : Bool) : ℝ × ℝ × ℝ × ℝ :=
  let t : ℝ := -1
  (t, 0.06 * t, 0.05 * t, if isQsh then 0.1 * t else 0.4 * t)

/-- `_hop_1st`, graphene.py:159-163. -/
noncomputable def hop1st (t lambR : ℝ) (vec : Vec3 ℝ) : ℕ → ℕ → ℂ := fun i j =>
  let a : ℂ := vec 1 + Complex.I * vec 0
  let ac : ℂ := vec 1 - Complex.I * vec 0
  match i, j with
  | 0, 0 => t
  | 0, 1 => Complex.I * a * lambR
  | 1, 0 => Complex.I * ac * lambR
  | 1, 1 => t
  | _, _ => 0

/-- `np.cross(v, w)[2]`. -/
def crossZ (v w : Vec3 ℝ) : ℝ := v 0 * w 1 - v 1 * w 0

/-- `_hop_2nd`, graphene.py:165-168. -/
noncomputable def hop2nd (lambSo : ℝ) (v w : Vec3 ℝ) : ℕ → ℕ → ℂ := fun i j =>
  let b : ℝ := 2 / Real.sqrt 3 * crossZ v w
  match i, j with
  | 0, 0 => Complex.I * b * lambSo
  | 1, 1 => -Complex.I * b * lambSo
  | _, _ => 0

/-- `ac_vec`, graphene.py:171-173. -/
noncomputable def acVec : ℕ → Vec3 ℝ
  | 0 => ![1, 0, 0]
  | 1 => ![-0.5, Real.sqrt 3 / 2, 0]
  | _ => ![-0.5, -Real.sqrt 3 / 2, 0]

/-- `bc_vec`, graphene.py:174-176. -/
noncomputable def bcVec : ℕ → Vec3 ℝ
  | 0 => ![-1, 0, 0]
  | 1 => ![0.5, -Real.sqrt 3 / 2, 0]
  | _ => ![0.5, Real.sqrt 3 / 2, 0]

/-- The matrices of `hop_dict`, graphene.py:183-214, in the order of insertion. -/
noncomputable def socBlocks (isQsh : Bool) : List (Cell × (ℕ → ℕ → ℂ)) :=
  let (t, lambSo, lambR, _) := socParams isQsh
  let z : ℕ → ℕ → ℂ := fun _ _ => 0
  [((0, 0, 0), putBlock 0 2 (hop1st t lambR (acVec 0)) z),
   ((-1, 0, 0), putBlock 0 2 (hop1st t lambR (acVec 1)) z),
   ((0, -1, 0), putBlock 0 2 (hop1st t lambR (acVec 2)) z),
   ((0, 1, 0), putBlock 2 2 (hop2nd lambSo (bcVec 2) (acVec 0)) (putBlock 0 0 (hop2nd lambSo (acVec 0) (bcVec 2)) z)),
   ((1, 0, 0), putBlock 2 2 (hop2nd lambSo (bcVec 1) (acVec 0)) (putBlock 0 0 (hop2nd lambSo (acVec 0) (bcVec 1)) z)),
   ((1, -1, 0), putBlock 2 2 (hop2nd lambSo (bcVec 1) (acVec 2)) (putBlock 0 0 (hop2nd lambSo (acVec 2) (bcVec 1)) z))]

open Classical in
/-- `make_graphene_soc`, graphene.py:125-218.  The default label is `"X"`.  `PrimitiveCell(vectors)` without a unit takes the vectors
in angstrom. -/
noncomputable def grapheneSoc (H : HashFns ℝ ℂ String) (isQsh : Bool) : Except PCErr (PrimCell ℝ ℂ String) :=
  let nu := (socParams isQsh).2.2.2
  runOk H (init H ((0.1 : ℝ) • !![0.5 * Real.sqrt 3, -0.5, 0; 0.5 * Real.sqrt 3, 0.5, 0; 0, 0, 1]) 0)
    [.addOrbital [0, 0] nu "X", .addOrbital [0, 0] nu "X", .addOrbital [1/3, 1/3] (-nu) "X", .addOrbital [1/3, 1/3] (-nu) "X",
     .addHoppingDict (fun e => decide (1e-5 ≤ ‖e‖)) ((socBlocks isQsh).flatMap fun b => cooEntries 4 b.1 b.2)]

end Verif.Materials

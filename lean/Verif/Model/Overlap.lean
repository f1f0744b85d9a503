import Verif.Model.Bloch
import Verif.Model.Parallel

/-!
# Model of orbital overlaps and of the solver of the general eigenvalue problem

`/repo/tbplas/builder/overlap.py` and `/repo/tbplas/diagonal/base.py` 122-272.
-/

namespace Verif

namespace Overlap

open PrimCell

variable {Λ : Type*}

/-- `Overlap.__init__`, overlap.py:24-30: an empty cell with the lattice of the model, to which the orbitals of the model are
appended with on-site overlap one. -/
noncomputable def init (H : HashFns ℝ ℂ Λ) (model : PrimCell ℝ ℂ Λ) : PrimCell ℝ ℂ Λ :=
  { PrimCell.init H model.lat model.origin with orbs := model.orbs.map fun o => ⟨o.position, 1, o.label⟩ }

/-- `set_onsite`, overlap.py:32-41. -/
noncomputable def setOnsite (o : PrimCell ℝ ℂ Λ) (i : ℤ) (x : ℝ) : PrimCell ℝ ℂ Λ × Res := setOrbital o i none (some x) none

/-- `add_offsite`, overlap.py:43-60. -/
noncomputable def addOffsite (o : PrimCell ℝ ℂ Λ) (rn : List ℤ) (i j : ℤ) (x : ℂ) : PrimCell ℝ ℂ Λ × Res := addHopping o rn i j x

/-- `set_overlap_dense`, overlap.py:62-83, on a zero matrix. -/
noncomputable def setOverlapDense (o : PrimCell ℝ ℂ Λ) (k : Vec3 ℝ) (conv : ℤ) : Except PCErr IMat := setHamDense o k conv

/-- `set_overlap_csr`, overlap.py:85-100. -/
noncomputable def setOverlapCsr (o : PrimCell ℝ ℂ Λ) (k : Vec3 ℝ) (conv : ℤ) : Except PCErr IMat := setHamCsr o k conv

end Overlap

/-- `set_ham_dense`, primitive.py:811-836, on the matrix `h`. -/
noncomputable def hamInto {Λ : Type*} (s : PrimCell ℝ ℂ Λ) (k : Vec3 ℝ) (conv : ℤ) (h : IMat) : Except ParErr IMat :=
  if ¬ (conv = 1 ∨ conv = 2) then .error .value
  else if s.numOrb = 0 then .error .orbEmpty
  else if s.hops.numHop = 0 then .error .hopEmpty
  else .ok (setHam s.posAt s.arrEng s.hopRows conv k h)

/-- `DiagSolver.__init__`, base.py:137-152 and 198-211, for a primitive cell: the arrays of the cell and of the overlap are
synchronised; number of orbitals and matrices are those of the cell and the overlap. -/
noncomputable def cellSolver {Λ : Type*} (H : HashFns ℝ ℂ Λ) (s : PrimCell ℝ ℂ Λ) (o : Option (PrimCell ℝ ℂ Λ))
    (zheev : IMat → Option ((ℕ → ℝ) × (ℕ → ℕ → ℂ))) (zhegv : IMat → IMat → Option ((ℕ → ℝ) × (ℕ → ℕ → ℂ)))
    (argsort : (ℕ → ℝ) → List ℕ) : Diag where
  nb := s.numOrb
  setHam := hamInto (PrimCell.syncArray H s)
  zheev := zheev
  argsort := argsort
  setOvl := o.map fun o => hamInto (PrimCell.syncArray H o)
  zhegv := zhegv

end Verif

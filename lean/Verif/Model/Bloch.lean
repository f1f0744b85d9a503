import Verif.Model.Prim
import Mathlib.Analysis.SpecialFunctions.Trigonometric.Basic

/-!
# Model of the Bloch Hamiltonian

`/repo/tbplas/cython/primitive.pyx` 18-84 (`set_ham`) and
`/repo/tbplas/builder/primitive.py` 811-879 (`set_ham_dense`, `set_ham_csr`).

A matrix is a function of two integer indices; writing an element is a function
update.  Real arithmetic is exact.
-/

namespace Verif

/-- A matrix as indexed by the loops. -/
abbrev IMat := ℤ → ℤ → ℂ

/-- `ham[i, j] = v`. -/
def IMat.put (m : IMat) (i j : ℤ) (v : ℂ) : IMat := fun a b => if a = i ∧ b = j then v else m a b

/-- `cos(phase) + 1j * sin(phase)`, primitive.pyx:82. -/
noncomputable def eiPhase (phase : ℝ) : ℂ := (Real.cos phase : ℂ) + Complex.I * (Real.sin phase : ℂ)

/-- `k_dot_r` of primitive.pyx:72-77.  `pos` looks up the orbital position array. -/
noncomputable def kDotR (pos : ℤ → Vec3 ℝ) (conv : ℤ) (k : Vec3 ℝ) (R : Cell) (i j : ℤ) : ℝ :=
  if conv = 1 then
    k 0 * (R.1 + pos j 0 - pos i 0) + k 1 * (R.2.1 + pos j 1 - pos i 1)
      + k 2 * (R.2.2 + pos j 2 - pos i 2)
  else k 0 * R.1 + k 1 * R.2.1 + k 2 * R.2.2

/-- `phase`, primitive.pyx:78. -/
noncomputable def hopPhase (pos : ℤ → Vec3 ℝ) (conv : ℤ) (k : Vec3 ℝ) (R : Cell) (i j : ℤ) : ℝ :=
  2 * Real.pi * kDotR pos conv k R i j

/-- On-site loop, primitive.pyx:62-63. -/
noncomputable def setDiag (eng : List ℝ) (ham : IMat) : IMat :=
  eng.zipIdx.foldl (fun h q => h.put q.2 q.2 (q.1 : ℂ)) ham

/-- Body of the hopping loop, primitive.pyx:67-84: two successive updates. -/
noncomputable def addHop (pos : ℤ → Vec3 ℝ) (conv : ℤ) (k : Vec3 ℝ) (h : IMat)
    (t : Cell × Pair × ℂ) : IMat :=
  let hij := t.2.2 * eiPhase (hopPhase pos conv k t.1 t.2.1.1 t.2.1.2)
  let h1 := h.put t.2.1.1 t.2.1.2 (h t.2.1.1 t.2.1.2 + hij)
  h1.put t.2.1.2 t.2.1.1 (h1 t.2.1.2 t.2.1.1 + star hij)

/-- `set_ham`, primitive.pyx:18-84. -/
noncomputable def setHam (pos : ℤ → Vec3 ℝ) (eng : List ℝ) (hops : List (Cell × Pair × ℂ))
    (conv : ℤ) (k : Vec3 ℝ) (ham : IMat) : IMat :=
  hops.foldl (addHop pos conv k) (setDiag eng ham)

/-- The zero matrix callers pass in (e.g. `diagonal/base.py` 232-272). -/
def IMat.zero : IMat := fun _ _ => 0

namespace PrimCell

variable {Λ : Type*}

/-- Look-up in the cached position array `_orb_pos`. -/
def posAt (s : PrimCell ℝ ℂ Λ) (i : ℤ) : Vec3 ℝ := s.arrPos.getD i.toNat 0

/-- Cached hopping arrays `_hop_ind`, `_hop_eng` row by row. -/
def hopRows (s : PrimCell ℝ ℂ Λ) : List (Cell × Pair × ℂ) :=
  List.zipWith (fun a e => (a.1, a.2, e)) s.arrInd s.arrHop

/-- `set_ham_dense`, primitive.py:811-836, on a zero matrix. -/
noncomputable def setHamDense (s : PrimCell ℝ ℂ Λ) (k : Vec3 ℝ) (conv : ℤ) : Except PCErr IMat :=
  if ¬ (conv = 1 ∨ conv = 2) then .error .value
  else if s.numOrb = 0 then .error .pcOrbEmpty
  else if s.hops.numHop = 0 then .error .pcHopEmpty
  else .ok (setHam s.posAt s.arrEng s.hopRows conv k IMat.zero)

/-- Accumulation loop of `set_ham_csr`, primitive.py:864-873, over the live hopping dict. -/
noncomputable def csrHalf (s : PrimCell ℝ ℂ Λ) (k : Vec3 ℝ) (conv : ℤ) : IMat :=
  (s.hops.flatMap (fun q => q.2.map (fun pe => (q.1, pe.1, pe.2)))).foldl
    (fun (h : IMat) (t : Cell × Pair × ℂ) => h.put t.2.1.1 t.2.1.2 (h t.2.1.1 t.2.1.2 +
      eiPhase (hopPhase s.posAt conv k t.1 t.2.1.1 t.2.1.2) * t.2.2)) IMat.zero

/-- `set_ham_csr`, primitive.py:838-879: the matrix represented by
`ham_dia + ham_half + ham_half.getH()`. -/
noncomputable def setHamCsr (s : PrimCell ℝ ℂ Λ) (k : Vec3 ℝ) (conv : ℤ) : Except PCErr IMat :=
  if ¬ (conv = 1 ∨ conv = 2) then .error .value
  else if s.numOrb = 0 then .error .pcOrbEmpty
  else if s.hops.numHop = 0 then .error .pcHopEmpty
  else .ok (fun a b => (setDiag s.arrEng IMat.zero) a b + s.csrHalf k conv a b
    + star (s.csrHalf k conv b a))

/-- `sync_array`, primitive.py:576-585. -/
noncomputable def syncArray (H : HashFns ℝ ℂ Λ) (s : PrimCell ℝ ℂ Λ) : PrimCell ℝ ℂ Λ :=
  syncHop H (syncOrb H s false) false

end PrimCell
end Verif

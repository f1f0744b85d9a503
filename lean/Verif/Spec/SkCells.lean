import Verif.Spec.SlaterKoster
import Verif.Spec.Crystal
import Verif.Spec.CellMul

/-! # Crystals with two-centre hopping -/

namespace Verif

open SK PrimCell

variable {Λ : Type*}

/-- The kind of orbital `i`, given what the labels mean. -/
def orbLab (lm : Λ → OrbLabel) (s : PrimCell ℝ ℂ Λ) (i : ℕ) : OrbLabel := s.orbs[i]?.elim .other fun o => lm o.label

/-- The energy of orbital `i`. -/
noncomputable def orbEnergy (s : PrimCell ℝ ℂ Λ) (i : ℕ) : ℝ := s.orbs[i]?.elim 0 Orbital.energy

/-- The vector from orbital `i` of cell 0 to orbital `j` of cell `R`. -/
noncomputable def skVec (s : PrimCell ℝ ℂ Λ) (R : Cell) (i j : ℕ) : Vec3 ℝ := sitePos s R j - sitePos s 0 i

/-- The cells with indices up to `a`, `b`, `c`. -/
def SkBox (a b c : ℤ) (R : Cell) : Prop := |R.1| ≤ a ∧ |R.2.1| ≤ b ∧ |R.2.2| ≤ c

/-- The bond is searched for and has a positive length up to `dmax`. -/
def SkBond (s : PrimCell ℝ ℂ Λ) (a b c : ℤ) (dmax : ℝ) (R : Cell) (i j : ℕ) : Prop :=
  SkBox a b c R ∧ 0 < norm3 (skVec s R i j) ∧ norm3 (skVec s R i j) ≤ dmax

/-- The two-centre integral of a bond. -/
noncomputable def skHop (lm : Λ → OrbLabel) (par : ℝ → Option Par) (s : PrimCell ℝ ℂ Λ) (R : Cell) (i j : ℕ) : ℂ :=
  (par (norm3 (skVec s R i j))).elim 0 fun v =>
    twoCentre v (fun x => skVec s R i j x / norm3 (skVec s R i j)) (tensD (orbLab lm s i)) (tensD (orbLab lm s j))

/-- The operation `x ↦ Q x + v`, `Q` orthogonal, is a symmetry of the arrangement of atoms and orbitals: the atom `p` with the
orbitals `i`, `site i = p`, goes to the atom `σ p`, from cell `R` to cell `A R + τ i`; every orbital that occurs when the shell
of an orbital is rotated exists once at the new (and at the old) place; the orbitals mixed by `Q` have equal energies; and the
range of the search for bonds respects the symmetry. -/
structure SpaceSym (lm : Λ → OrbLabel) (s : PrimCell ℝ ℂ Λ) (a b c : ℤ) (dmax : ℝ) (Q : Mat3 ℝ) (v : Vec3 ℝ)
    (A : Matrix (Fin 3) (Fin 3) ℤ) (τ : ℕ → Cell) (site σ : ℕ → ℕ) : Prop where
  orth : Q * Q.transpose = 1
  unimod : IsUnit A.det
  legal : ∀ i < s.numOrb, tens (orbLab lm s i) ≠ none
  pos : ∀ i < s.numOrb, ∀ a < s.numOrb, site a = σ (site i) → ∀ R,
    sitePos s (Props.cellMul A R + τ i) a = Q.mulVec (sitePos s R i) + v
  fwd : ∀ i < s.numOrb, ∀ l ∈ shell (orbLab lm s i), ∃! a, a < s.numOrb ∧ orbLab lm s a = l ∧ site a = σ (site i)
  bwd : ∀ a < s.numOrb, ∀ l ∈ shell (orbLab lm s a), ∃! i, i < s.numOrb ∧ orbLab lm s i = l ∧ site a = σ (site i)
  energy : ∀ i < s.numOrb, ∀ a < s.numOrb, site a = σ (site i) → rotCoef Q (orbLab lm s a) (orbLab lm s i) ≠ 0 →
    orbEnergy s a = orbEnergy s i
  range : ∀ R, ∀ i < s.numOrb, ∀ j < s.numOrb, ∀ p < s.numOrb, ∀ q < s.numOrb, site p = σ (site i) → site q = σ (site j) →
    (SkBond s a b c dmax R i j ↔ SkBond s a b c dmax (Props.cellMul A R + τ j - τ i) p q)

/-- What the operation does to the orbitals: the shell of `i` is rotated and moved to the atom `σ (site i)`. -/
noncomputable def symMat (lm : Λ → OrbLabel) (s : PrimCell ℝ ℂ Λ) (Q : Mat3 ℝ) (site σ : ℕ → ℕ) :
    Matrix (Fin s.numOrb) (Fin s.numOrb) ℂ := fun a i =>
  if site a = σ (site i) ∧ orbLab lm s a ∈ shell (orbLab lm s i) then (rotCoef Q (orbLab lm s a) (orbLab lm s i) : ℂ) else 0

end Verif

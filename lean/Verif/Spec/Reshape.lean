import Verif.Model.Reshape
import Mathlib.Algebra.BigOperators.Fin

/-! # Specification notions for reshaped cells -/

namespace Verif

/-- What is assumed about `query_ball_point`: the indices of the points at a distance of at most `r`, in any order. -/
def IsBallQuery {F : Type*} [Field F] [LinearOrder F] (query : BallQuery F) : Prop :=
  ∀ (pts : List (Vec3 F)) (x : Vec3 F) (r : F), 0 ≤ r → ∀ k : ℕ,
    k ∈ query pts x r ↔ ∃ p, pts[k]? = some p ∧ ∑ i, (p i - x i) ^ 2 ≤ r ^ 2

/-- The cell `m` of the reshaped lattice in units of the original lattice vectors; the rows of `L` are the new lattice vectors. -/
def rowMul (m : Cell) (L : Matrix (Fin 3) (Fin 3) ℤ) : Cell :=
  (m.1 * L 0 0 + m.2.1 * L 1 0 + m.2.2 * L 2 0, m.1 * L 0 1 + m.2.1 * L 1 1 + m.2.2 * L 2 1,
    m.1 * L 0 2 + m.2.1 * L 1 2 + m.2.2 * L 2 2)

/-- The arrays read by the function are those of the present orbitals and hoppings (C08 tells when). -/
def SyncFresh {F E Λ : Type*} [Field F] [DecidableEq F] [Star E] (H : HashFns F E Λ) (s : PrimCell F E Λ) : Prop :=
  (s.syncOrb H false).arrPos = s.orbs.map Orbital.position ∧
  ((s.syncOrb H false).syncHop H false).arrInd = s.hops.toList.map (fun t => (t.1, t.2.1)) ∧
  ((s.syncOrb H false).syncHop H false).arrHop = s.hops.toList.map (fun t => t.2.2)

/-- A cell index as a vector. -/
def cellVec (F : Type*) [Field F] (R : Cell) : Vec3 F := ![(R.1 : F), (R.2.1 : F), (R.2.2 : F)]

/-- The tolerance of the search is smaller than the distance, in reshaped coordinates, of two copies of an orbital. -/
def TolSep {F : Type*} [Field F] [LinearOrder F] (Lz : Matrix (Fin 3) (Fin 3) ℤ) (tol : F) : Prop :=
  0 ≤ tol ∧ ∀ v : Cell, v ≠ 0 →
    tol ^ 2 < ∑ x, (Matrix.vecMul (cellVec F v) (Lz.map (fun z : ℤ => (z : F)))⁻¹ x) ^ 2

end Verif

import Verif.Model.Sample
import Verif.Spec.SuperCell
import Verif.Spec.Csr
import Mathlib.Algebra.BigOperators.Fin
import Mathlib.Analysis.Complex.Exponential

/-! # Specification notions for samples -/

namespace Verif

variable {F E Λ : Type*} [Field F] [DecidableEq F] [Star E]

/-- Number of orbitals in the first `k` supercells: where the block of supercell `k` starts. -/
def blockStart (hp : SCHeap F E Λ) (cells : List ℕ) (k : ℕ) : ℤ :=
  ((cells.take k).map fun id => (hp id).numOrbSc).sum

/-- A supercell reached by some history of calls, made from a primitive cell reached by some history
of calls, whose position modifier keeps the number of positions. -/
def ReachCell (H : HashFns F E Λ) (HS : SCHash F E Λ) (s : SCell F E Λ) : Prop :=
  (∃ pc0, PrimCell.Reach H pc0 ∧ SCell.Reach H HS pc0 s) ∧ ∀ l, (s.posMod l).length = l.length

/-- The terms of an inter-hopping refer to existing orbitals of its two supercells. -/
def InterInRange (hp : SCHeap F E Λ) (h : InterSC E) : Prop :=
  ∀ t ∈ h.hop.toList, (0 ≤ t.2.1.1 ∧ t.2.1.1 < (hp h.bra).numOrbSc) ∧
    (0 ≤ t.2.1.2 ∧ t.2.1.2 < (hp h.ket).numOrbSc)

/-- The Cartesian vector from orbital `i` of the bra supercell to orbital `j` of the image of the ket
supercell displaced by `R` of its own (super)lattice vectors. -/
def interBond (ket : SCell F E Λ) (posBra posKet : List (Vec3 F)) (t : Cell × Pair × E) : Vec3 F := fun x =>
  (posKet.getD t.2.1.2.toNat 0 x + ((t.1.1 * ket.dim.a : ℤ) : F) * ket.pc.lat 0 x
    + ((t.1.2.1 * ket.dim.b : ℤ) : F) * ket.pc.lat 1 x + ((t.1.2.2 * ket.dim.c : ℤ) : F) * ket.pc.lat 2 x)
  - posBra.getD t.2.1.1.toNat 0 x

end Verif

namespace Verif

/-- Matrix element of `diag(eng)`. -/
noncomputable def engMat (eng : List ℝ) (a b : ℤ) : ℂ :=
  if a = b ∧ 0 ≤ a then ((eng[a.toNat]?.getD 0 : ℝ) : ℂ) else 0

/-- The Hermitian Hamiltonian of energies and hopping terms: `diag(eng) + T + Tᴴ`, where `T` is the matrix of
the terms. -/
noncomputable def hamSpec (eng : List ℝ) (hops : List (SCHop ℝ ℂ)) (a b : ℤ) : ℂ :=
  engMat eng a b + hopMat hops a b + star (hopMat hops b a)

/-- The Bloch matrix of a sample at fractional k-point `k`: `diag(e) + T_k + T_kᴴ`, where a term of
fractional displacement `r` contributes `v exp(2 pi i k.r)`. -/
noncomputable def blochSpec (eng : List ℝ) (hops : List (SCHop ℝ ℂ)) (r : SCHop ℝ ℂ → Vec3 ℝ) (k : Vec3 ℝ)
    (a b : ℤ) : ℂ :=
  engMat eng a b +
    ((hops.filter fun h => h.i = a ∧ h.j = b).map fun h =>
      h.v * Complex.exp (2 * Real.pi * Complex.I * (k 0 * r h 0 + k 1 * r h 1 + k 2 * r h 2))).sum +
    star ((hops.filter fun h => h.i = b ∧ h.j = a).map fun h =>
      h.v * Complex.exp (2 * Real.pi * Complex.I * (k 0 * r h 0 + k 1 * r h 1 + k 2 * r h 2))).sum

/-- `lam` is an eigenvalue of the `n × n` matrix `M`. -/
def IsEigenvalue (n : ℕ) (M : ℤ → ℤ → ℂ) (lam : ℂ) : Prop :=
  ∃ x : Fin n → ℂ, x ≠ 0 ∧ ∀ a : Fin n, ∑ b : Fin n, M (a : ℕ) (b : ℕ) * x b = lam * x a

/-- A walk along hopping terms: positions in the list of terms, each with a flag telling if the term is
followed from bra to ket (`true`) or backwards (`false`). -/
abbrev Walk := List (ℕ × Bool)

/-- The walk goes from orbital `a` to orbital `b` along terms whose displacement is the difference of the
positions of their ends (terms which do not leave the sample). -/
def IsWalk (pos : ℤ → Vec3 ℝ) (hops : List (SCHop ℝ ℂ)) : Walk → ℤ → ℤ → Prop
  | [], a, b => a = b
  | (k, fwd) :: w, a, b => ∃ h, hops[k]? = some h ∧ (∀ x, h.dr x = pos h.j x - pos h.i x) ∧
      a = (if fwd then h.i else h.j) ∧ IsWalk pos hops w (if fwd then h.j else h.i) b

/-- Product of the hoppings along a walk, conjugated when followed backwards. -/
noncomputable def walkProd (hops : List (SCHop ℝ ℂ)) (w : Walk) : ℂ :=
  (w.map fun q => let v := (hops[q.1]?.map SCHop.v).getD 0; if q.2 then v else star v).prod

/-- Signed area in the xy plane enclosed by a closed walk (shoelace formula). -/
noncomputable def walkArea (pos : ℤ → Vec3 ℝ) (hops : List (SCHop ℝ ℂ)) (w : Walk) : ℝ :=
  (w.map fun q => match hops[q.1]? with
    | none => 0
    | some h =>
      let p := pos (if q.2 then h.i else h.j)
      let r := pos (if q.2 then h.j else h.i)
      (p 0 * r 1 - r 0 * p 1) / 2).sum

end Verif

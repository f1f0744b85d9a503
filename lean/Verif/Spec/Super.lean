import Verif.Model.Super

/-! # Specification notions for supercells -/

namespace Verif

/-- Legal indices in primitive cell representation. -/
def LegalId (d : Dim) (n : ℕ) (q : IdPc) : Prop :=
  (0 ≤ q.1 ∧ q.1 < d.a) ∧ (0 ≤ q.2.1 ∧ q.2.1 < d.b) ∧ (0 ≤ q.2.2.1 ∧ q.2.2.1 < d.c) ∧
    (0 ≤ q.2.2.2 ∧ q.2.2.2 < n)

/-- A legal vacancy set. -/
structure LegalVacs (d : Dim) (n : ℕ) (vacs : List IdPc) : Prop where
  nodup : vacs.Nodup
  legal : ∀ q ∈ vacs, LegalId d n q

/-- Image of a cell index under the boundary condition of one direction: reduced
modulo the size if periodic, dropped if it leaves the cell otherwise. -/
def wrapImage (pbc : Bool) (n : ℕ) (x : ℤ) : Option ℤ :=
  if pbc then some (x % n) else if 0 ≤ x ∧ x < n then some x else none

/-- Where a primitive hopping `t` starting from the orbital `q` ends; `none` if it
leaves the supercell through an open boundary. -/
def ketImage {E : Type*} (d : Dim) (pbc : Pbc) (q : IdPc) (t : Cell × Pair × E) : Option IdPc :=
  match wrapImage pbc.1 d.a (q.1 + t.1.1), wrapImage pbc.2.1 d.b (q.2.1 + t.1.2.1),
      wrapImage pbc.2.2 d.c (q.2.2.1 + t.1.2.2) with
  | some a, some b, some c => some (a, b, c, t.2.1.2)
  | _, _, _ => none

/-- The hopping connects existing orbitals of a cell with `n` orbitals. -/
def HopsInRange {E : Type*} (n : ℕ) (hops : List (Cell × Pair × E)) : Prop :=
  ∀ t ∈ hops, (0 ≤ t.2.1.1 ∧ t.2.1.1 < n) ∧ (0 ≤ t.2.1.2 ∧ t.2.1.2 < n)

/-- A reduced list of hopping terms: no term twice, no on-site term, and never a
term together with its conjugate. -/
structure Reduced {E : Type*} (hops : List (Cell × Pair × E)) : Prop where
  nodup : (hops.map (fun t => (t.1, t.2.1))).Nodup
  offDiag : ∀ t ∈ hops, ¬ (t.1 = 0 ∧ t.2.1.1 = t.2.1.2)
  noConj : ∀ t ∈ hops, ∀ u ∈ hops, ¬ (u.1 = -t.1 ∧ u.2.1 = (t.2.1.2, t.2.1.1))

/-- The size condition of the constructor: `dim >= 2 * max|R| + 1`. -/
def LargeEnough {E : Type*} (d : Dim) (hops : List (Cell × Pair × E)) : Prop :=
  ∀ t ∈ hops, 2 * |t.1.1| + 1 ≤ d.a ∧ 2 * |t.1.2.1| + 1 ≤ d.b ∧ 2 * |t.1.2.2| + 1 ≤ d.c

/-- The bond vector `R + r_j - r_i` in Cartesian coordinates. -/
def bondVec {F E : Type*} [Field F] (lat : Mat3 F) (pcPos : ℤ → Vec3 F) (t : Cell × Pair × E) : Vec3 F :=
  frac2cartRow lat 0 (fun x => (![(t.1.1 : F), t.1.2.1, t.1.2.2] x) + pcPos t.2.1.2 x - pcPos t.2.1.1 x)

/-- Decode a supercell index by the table of orbitals. -/
def siteAt (sites : List IdPc) (i : ℤ) : Option IdPc := if 0 ≤ i then sites[i.toNat]? else none

/-- The hoppings of a supercell in terms of orbitals instead of indices: for every orbital `q`
present and every primitive hopping starting from it, the image of the hopping unless it
leaves through an open boundary or ends on a vacancy. -/
def imageTerms {E : Type*} (d : Dim) (pbc : Pbc) (vacs sites : List IdPc) (hops : List (Cell × Pair × E)) :
    List (Option IdPc × Option IdPc × E) :=
  sites.flatMap (fun q => hops.filterMap (fun t =>
    if q.2.2.2 = t.2.1.1 then
      match ketImage d pbc q t with
      | none => none
      | some k => if k ∈ vacs then none else some (some q, some k, t.2.2)
    else none))

end Verif

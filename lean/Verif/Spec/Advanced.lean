import Verif.Model.Lattice
import Verif.Model.Hopping
import Verif.Spec.HopMap

/-! # Specification notions for extended and merged cells -/

namespace Verif

/-- `I` is one of the `da*db*dc` translations inside the extended cell. -/
def InBox (d I : Cell) : Prop :=
  (0 ≤ I.1 ∧ I.1 < d.1) ∧ (0 ≤ I.2.1 ∧ I.2.1 < d.2.1) ∧ (0 ≤ I.2.2 ∧ I.2.2 < d.2.2)

/-- Number, in the extended cell, of the image of orbital `i` translated by `I`, when the
original cell has `n` orbitals: row-major in `(I_a, I_b, I_c, i)`. -/
def extIdx (d : Cell) (n : ℤ) (I : Cell) (i : ℤ) : ℤ :=
  ((I.1 * d.2.1 + I.2.1) * d.2.2 + I.2.2) * n + i

/-- Translation, in units of the original lattice vectors, of the extended-cell index `N`. -/
def scaleCell (d N : Cell) : Cell := (N.1 * d.1, N.2.1 * d.2.1, N.2.2 * d.2.2)

/-- Component of a cell index as a function of the direction. -/
def cellAt (R : Cell) : Fin 3 → ℤ := ![R.1, R.2.1, R.2.2]

/-- Number of the first orbital of block `p` when blocks of sizes `ns` are put one after another. -/
def mergeStart (ns : List ℕ) (p : ℕ) : ℤ := ((ns.take p).sum : ℕ)

/-- Hoppings of a merged cell: those of every component, and those given between pairs
of components (`(p, q, m)`: from block `p` to block `q`) together with their conjugates. -/
inductive MergedHop {E : Type*} [Star E] (ns : List ℕ) (intra : List (HopMap E))
    (inter : List (ℕ × ℕ × HopMap E)) : Cell → ℤ → ℤ → E → Prop
  | intra {p : ℕ} {m : HopMap E} {R : Cell} {i j : ℤ} {e : E} : intra[p]? = some m → m R i j = some e →
      MergedHop ns intra inter R (mergeStart ns p + i) (mergeStart ns p + j) e
  | inter {p q : ℕ} {m : HopMap E} {R : Cell} {i j : ℤ} {e : E} : (p, q, m) ∈ inter → m R i j = some e →
      MergedHop ns intra inter R (mergeStart ns p + i) (mergeStart ns q + j) e
  | conj {p q : ℕ} {m : HopMap E} {R : Cell} {i j : ℤ} {e : E} : (p, q, m) ∈ inter → m R i j = some e →
      MergedHop ns intra inter (-R) (mergeStart ns q + j) (mergeStart ns p + i) (star e)

end Verif

import Verif.Model.Wannier

/-!
# Specification of the Wannier90 interface

The contents of the files written by Wannier90, and the Wigner-Seitz correction of the hopping
terms: the term of cell `R` is spread evenly over the cells `R + T` listed for it.
-/

namespace Verif.Wannier

variable {E : Type*} [Field E]

/-- Total amplitude of the terms with a given index. -/
def amp (table : List ((Cell × Pair) × E)) (y : Cell × Pair) : E :=
  ((table.filter fun t => t.1 = y).map Prod.snd).sum

/-- Total amplitude of the terms between two given orbitals. -/
def total (table : List ((Cell × Pair) × E)) (p : Pair) : E :=
  ((table.filter fun t => t.1.2 = p).map Prod.snd).sum

/-- Shifts listed for an index; a term which is not listed stays where it is. -/
def shifts (ws : PyDict (Cell × Pair) (List Cell)) (x : Cell × Pair) : List Cell :=
  (PyDict.get? ws x).getD [0]

/-- Corrected amplitude at index `y`: every term contributes its share for every shift which
moves it to `y`. -/
def corrected (ws : PyDict (Cell × Pair) (List Cell)) (table : List ((Cell × Pair) × E))
    (y : Cell × Pair) : E :=
  (table.map fun t =>
    (((shifts ws t.1).filter fun v => (t.1.1 + v, t.1.2) = y).length : E) *
      (t.2 / (shifts ws t.1).length)).sum

/-- No two images coincide, and no term is moved onto another listed term or onto a term with a
nonzero amplitude. -/
def NoOverlap (ws : PyDict (Cell × Pair) (List Cell)) (g : Cell × Pair → E) : Prop :=
  ∀ q ∈ ws, q.2 ≠ [] ∧ q.2.Nodup ∧ ∀ v ∈ q.2, v ≠ 0 →
    ((q.1.1 + v, q.1.2) ∉ PyDict.keys ws) ∧ g (q.1.1 + v, q.1.2) = 0 ∧
      ∀ q' ∈ ws, ∀ v' ∈ q'.2, (q'.1.1 + v', q'.1.2) = (q.1.1 + v, q.1.2) → q' = q

/-! ## Contents of the files -/

/-- A line of three integers. -/
def cellLine (R : Cell) : Line := [.int R.1, .int R.2.1, .int R.2.2]

/-- A line with a cell and two orbitals, counted from one. -/
def indexLine (x : Cell × Pair) : Line :=
  cellLine x.1 ++ [.int (x.2.1 + 1), .int (x.2.2 + 1)]

/-- `seed_name_wsvec.dat`: a comment and one block per term. -/
def wsvecFile (comment : Line) (ws : List ((Cell × Pair) × List Cell)) : List Line :=
  comment :: ws.flatMap fun q => indexLine q.1 :: [.int q.2.length] :: q.2.map cellLine

/-- Fifteen degeneracies per line. -/
def degLines (deg : List ℤ) : List Line :=
  (List.range ((deg.length + 14) / 15)).map fun i =>
    ((deg.drop (15 * i)).take 15).map Tok.int

/-- `seed_name_hr.dat`: a comment, the number of orbitals, the number of cells, the degeneracies
of the cells and one line per term. -/
noncomputable def hrFile (comment : Line) (numOrb : ℤ) (deg : List ℤ)
    (table : List ((Cell × Pair) × ℂ)) : List Line :=
  comment :: [.int numOrb] :: [.int deg.length] :: (degLines deg ++
    table.map fun t => indexLine t.1 ++ [.num t.2.re, .num t.2.im])

/-- A line of three numbers. -/
def vecLine3 (v : Vec3 ℝ) : Line := [.num (v 0), .num (v 1), .num (v 2)]

/-- `seed_name_centres.xyz`: the centres carry the label `X`, the atoms other labels. -/
def centresFile (head comment : Line) (sites : List (String × Vec3 ℝ)) : List Line :=
  head :: comment :: sites.map fun s => .word s.1 :: vecLine3 s.2

/-- `seed_name.win`: a block with the lattice vectors and an optional line with the unit, between
other lines. -/
def winFile (before : List Line) (unit : Option String) (lat : Mat3 ℝ) (after : List Line) :
    List Line :=
  before ++ [[.word "begin", .word "unit_cell_cart"]] ++
    (match unit with | none => [] | some u => [[.word u]]) ++
    [vecLine3 (lat 0), vecLine3 (lat 1), vecLine3 (lat 2)] ++
    [[.word "end", .word "unit_cell_cart"]] ++ after

/-- A line which neither begins nor ends the block of lattice vectors. -/
def Plain (l : Line) : Prop :=
  ∀ rest, l ≠ .word "begin" :: .word "unit_cell_cart" :: rest ∧
    l ≠ .word "end" :: .word "unit_cell_cart" :: rest

/-- Number of Angstroms in the unit of the lattice vectors; the default is Angstrom. -/
def UnitIs (unit : Option String) (f : ℝ) : Prop :=
  ((unit = none ∨ unit = some "Ang" ∨ unit = some "ang") ∧ f = 1) ∨
    ((unit = some "Bohr" ∨ unit = some "bohr") ∧ f = 0.529177210671212)

/-- `<i,0|H|j,R>` and `<j,0|H|i,-R>` are conjugate. -/
def HermTable (A : Cell × Pair → ℂ) : Prop :=
  ∀ R i j, A (-R, (j, i)) = star (A (R, (i, j)))

end Verif.Wannier

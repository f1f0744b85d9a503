import Verif.Model.Plot
import Verif.Spec.Crystal
import Verif.Spec.SuperCell
import Verif.Spec.Super

/-!
# What can be seen in a figure, independently of the code
-/

namespace Verif.PlotSpec

open Plot

/-- The letters of the directions. -/
def letter : Fin 3 → Char := ![ 'a', 'b', 'c' ]

/-- The view named by the letters of two different directions. -/
def Shows (view : String) (x y : Fin 3) : Prop := x ≠ y ∧ view = String.ofList [letter x, letter y]

/-- The point of the figure where a point of space is seen. -/
def seen (x y : Fin 3) (p : Vec3 ℝ) : ℝ × ℝ := (p x, p y)

/-- The segments visible in a figure, from start to end. -/
def segs (st : Style) (fig : List Cmd) : List ((ℝ × ℝ) × (ℝ × ℝ)) :=
  fig.flatMap fun c => match c with
  | .scatter _ _ => []
  | .arrow st' x y dx dy => if st' = st then [((x, y), (x + dx, y + dy))] else []
  | .lines st' l => if st' = st then l else []

/-- The dots visible in a figure, with the number giving the colour. -/
def dots (fig : List Cmd) : List ((ℝ × ℝ) × ℝ) :=
  fig.flatMap fun c => match c with
  | .scatter pts cs => pts.zip cs
  | .arrow _ _ _ _ _ => []
  | .lines _ _ => []

/-- Component of a cell index. -/
def along (c : Fin 3) (R : Cell) : ℤ := ![R.1, R.2.1, R.2.2] c

variable {Λ : Type*}

/-- What should be seen of a hopping term: the bond from orbital `i` of cell 0 to orbital `j` of cell `R`, and with conjugates the bond from orbital `j`
of cell 0 to orbital `i` of cell `-R`; nothing if the energy is below the cutoff. -/
noncomputable def bonds (s : PrimCell ℝ ℂ Λ) (o : Opts) (t : Cell × Pair × ℂ) : List (Vec3 ℝ × Vec3 ℝ) :=
  if o.cutoff ≤ ‖t.2.2‖ then
    (sitePos s 0 t.2.1.1.toNat, sitePos s t.1 t.2.1.2.toNat) ::
      (if o.withConj then [(sitePos s 0 t.2.1.2.toNat, sitePos s (-t.1) t.2.1.1.toNat)] else [])
  else []

/-- The cells whose orbitals should be seen: those within the reach of the hopping terms (with conjugates: in both directions). -/
def Shown (s : PrimCell ℝ ℂ Λ) (o : Opts) (R : Cell) : Prop :=
  if o.withConj = true ∨ s.hops.toList = [] then ∀ c, along c R = 0 ∨ ∃ t ∈ s.hops.toList, |along c R| ≤ |along c t.1|
  else ∀ c, ∃ t ∈ s.hops.toList, ∃ u ∈ s.hops.toList, along c t.1 ≤ along c R ∧ along c R ≤ along c u.1

/-- The corner of the cell with indices `a` and `b` along the two directions of the view, the first in the order `a`, `b`, `c`. -/
noncomputable def gridPoint (lat : Mat3 ℝ) (origin : Vec3 ℝ) (x y : Fin 3) (a b : ℤ) : ℝ × ℝ :=
  seen x y (origin + (a : ℝ) • lat (min x y) + (b : ℝ) • lat (max x y))

/-- The lines of the cells from `lo` to `hi` along the two directions, and the two lattice vectors at the origin. -/
def IsCellLine (lat : Mat3 ℝ) (origin : Vec3 ℝ) (x y : Fin 3) (lo hi : Fin 3 → ℤ) (l : (ℝ × ℝ) × (ℝ × ℝ)) : Prop :=
  (∃ a, lo (min x y) ≤ a ∧ a ≤ hi (min x y) + 1 ∧
    l = (gridPoint lat origin x y a (lo (max x y)), gridPoint lat origin x y a (hi (max x y) + 1))) ∨
  (∃ b, lo (max x y) ≤ b ∧ b ≤ hi (max x y) + 1 ∧
    l = (gridPoint lat origin x y (lo (min x y)) b, gridPoint lat origin x y (hi (min x y) + 1) b)) ∨
  l = (seen x y origin, seen x y (origin + lat x)) ∨ l = (seen x y origin, seen x y (origin + lat y))

/-- The cell of a site of a supercell. -/
def cellOf (q : IdPc) : Cell := (q.1, q.2.1, q.2.2.1)

/-- The position of a site of a supercell. -/
noncomputable def siteOf (pc : PrimCell ℝ ℂ Λ) (q : IdPc) : Vec3 ℝ := sitePos pc (cellOf q) q.2.2.2.toNat

/-- The sites of a supercell: all orbitals of all its cells but for the vacancies. -/
def Present (s : SCell ℝ ℂ Λ) (pc : PrimCell ℝ ℂ Λ) (q : IdPc) : Prop := LegalId s.dim pc.numOrb q ∧ q ∉ s.vacs

/-- What should be seen of the hopping terms of a supercell: from every site, every hopping term of the primitive cell starting there, unless it leaves
the supercell through an open boundary or ends at a vacancy.  A bond across a periodic boundary is seen leaving the supercell at its start, and with
conjugates also at its end. -/
def IsBond (s : SCell ℝ ℂ Λ) (pc : PrimCell ℝ ℂ Λ) (o : Opts) (l : Vec3 ℝ × Vec3 ℝ) : Prop :=
  ∃ t ∈ pc.hops.toList, o.cutoff ≤ ‖t.2.2‖ ∧ ∃ q k : IdPc, Present s pc q ∧ Present s pc k ∧ q.2.2.2 = t.2.1.1 ∧ ketImage s.dim s.pbc q t = some k ∧
    (l = (siteOf pc q, sitePos pc (cellOf q + t.1) t.2.1.2.toNat) ∨
      o.withConj = true ∧ l = (siteOf pc k, sitePos pc (cellOf k - t.1) t.2.1.1.toNat))

/-- What should be seen of a hopping term between two supercells with the orbitals at `pb` and `pk`: the bond from orbital `i` of the first to orbital `j` of
the copy `R` of the second, and with conjugates the bond from orbital `j` of the second to orbital `i` of the copy `-R` of the first; the copies are
displaced by vectors of the superlattice of the second. -/
noncomputable def interBonds (ket : SCell ℝ ℂ Λ) (pb pk : List (Vec3 ℝ)) (o : Opts) (t : Cell × Pair × ℂ) : List (Vec3 ℝ × Vec3 ℝ) :=
  let d : Vec3 ℝ := ((t.1.1 * ket.dim.a : ℤ) : ℝ) • ket.pc.lat 0 + ((t.1.2.1 * ket.dim.b : ℤ) : ℝ) • ket.pc.lat 1 + ((t.1.2.2 * ket.dim.c : ℤ) : ℝ) • ket.pc.lat 2
  if o.cutoff ≤ ‖t.2.2‖ then
    (pb.getD t.2.1.1.toNat 0, pk.getD t.2.1.2.toNat 0 + d) ::
      (if o.withConj then [(pk.getD t.2.1.2.toNat 0, pb.getD t.2.1.1.toNat 0 - d)] else [])
  else []

/-- The colour of the pixel in row `r` from the bottom and column `c` from the left. -/
def pixel (img : Image) (r c : ℕ) : Option ℝ := img.rows[r]?.bind fun row => row[c]?

/-- Point `i` of `n` equidistant points from `lo` to `hi`. -/
noncomputable def gridAt (lo hi : ℝ) (n i : ℕ) : ℝ := lo + i / (n - 1 : ℝ) * (hi - lo)

/-- Centre of pixel `i` of `n` pixels filling the interval from `lo` to `hi`. -/
noncomputable def pixelAt (lo hi : ℝ) (n i : ℕ) : ℝ := lo + (i + 1 / 2) / n * (hi - lo)

end Verif.PlotSpec

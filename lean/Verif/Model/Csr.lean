import Verif.Model.SuperCell
import Mathlib.Algebra.Order.Group.Unbundled.Abs

/-!
# Model of the CSR kernels of `Sample`

`/repo/tbplas/cython/sample.pyx` 117-439.

The kernels run without bounds checks, so an array is a function from all
integers; the field `writes` records the positions written, in order, which lets
theorems state that all of them are inside the allocated range.  The four arrays
`indices, hop, dx, dy` are always accessed at the same position and are modelled
as one array of records.  `ι` is the conversion of a real energy to a complex one.
`numpy.argsort` is a parameter (its default algorithm is not stable; see
`ArgsortOK` for the contract).
-/

namespace Verif

/-- `a[k] = v`. -/
def arrPut {α : Type*} (f : ℤ → α) (k : ℤ) (v : α) : ℤ → α := fun x => if x = k then v else f x

/-- `a[k] = a[k] + 1`. -/
def arrBump (f : ℤ → ℤ) (k : ℤ) : ℤ → ℤ := arrPut f k (f k + 1)

/-- One position of the arrays `indices, hop, dx, dy`. -/
structure CsrEnt (F E : Type*) where
  col : ℤ
  v : E
  dx : F
  dy : F
deriving DecidableEq

/-- Result of the builders: `indptr` (defined on `0 .. n`), the data arrays and the
positions that have been written. -/
structure Csr (F E : Type*) where
  indptr : ℤ → ℤ
  ent : ℤ → CsrEnt F E
  writes : List ℤ

/-- The loop turning counts into row pointers, sample.pyx:219-221 and 377-379. -/
def prefixLoop (n : ℕ) (p : ℤ → ℤ) : ℤ → ℤ :=
  (List.range n).foldl (fun (p : ℤ → ℤ) (k : ℕ) => arrPut p ((k : ℤ) + 1) (p k + p ((k : ℤ) + 1)))
    (arrPut p 0 0)

variable {F E : Type*} [Field F] [LinearOrder F] [Star E]

/-- The test `abs(orb_eng[io]) >= cutoff`. -/
def keepEng (cutoff e : F) : Bool := decide (|e| ≥ cutoff)

/-- Counting part of `build_ham_dxy_fast`, sample.pyx:206-218. -/
def fastCount (cutoff : F) (eng : List F) (hops : List (SCHop F E)) : ℤ → ℤ :=
  hops.foldl (fun p h => arrBump (arrBump p (h.i + 1)) (h.j + 1))
    (eng.zipIdx.foldl (fun p q => if keepEng cutoff q.1 then arrBump p ((q.2 : ℤ) + 1) else p)
      (fun _ => 0))

/-- Data arrays under construction: `num_data_count`, the data and the writes. -/
structure Fill (F E : Type*) where
  cnt : ℤ → ℤ
  ent : ℤ → CsrEnt F E
  writes : List ℤ

/-- `_get_free_ptr` (sample.pyx:117-145) followed by the four writes at that position. -/
def csrPush {F E : Type*} (indptr : ℤ → ℤ) (st : Fill F E) (row : ℤ) (e : CsrEnt F E) : Fill F E :=
  let ptr := indptr row + st.cnt row
  ⟨arrBump st.cnt row, arrPut st.ent ptr e, st.writes ++ [ptr]⟩

/-- `build_ham_dxy_fast`, sample.pyx:148-257; `junk` is the value of an array at
positions never written. -/
def buildFast (ι : F → E) (junk : CsrEnt F E) (cutoff : F) (eng : List F) (hops : List (SCHop F E)) :
    Csr F E :=
  let indptr := prefixLoop eng.length (fastCount cutoff eng hops)
  let st1 := eng.zipIdx.foldl (fun st q =>
    if keepEng cutoff q.1 then csrPush indptr st q.2 ⟨q.2, ι q.1, 0, 0⟩ else st)
    (⟨fun _ => 0, fun _ => junk, []⟩ : Fill F E)
  let st2 := hops.foldl (fun st h =>
    csrPush indptr (csrPush indptr st h.i ⟨h.j, h.v, h.dr 0, h.dr 1⟩) h.j
      ⟨h.i, star h.v, -h.dr 0, -h.dr 1⟩) st1
  ⟨indptr, st2.ent, st2.writes⟩

/-- The unsorted arrays `hop_i_full, hop_j_full, hop, dx, dy` of
`build_ham_dxy_safe`, sample.pyx:318-360: diagonal part, original part, conjugate
part. -/
def safeFull (ι : F → E) (cutoff : F) (eng : List F) (hops : List (SCHop F E)) :
    List (ℤ × CsrEnt F E) :=
  (eng.zipIdx.filter (fun q => keepEng cutoff q.1)).map
      (fun q => ((q.2 : ℤ), (⟨q.2, ι q.1, 0, 0⟩ : CsrEnt F E))) ++
    hops.map (fun h => (h.i, ⟨h.j, h.v, h.dr 0, h.dr 1⟩)) ++
    hops.map (fun h => (h.j, ⟨h.i, star h.v, -h.dr 0, -h.dr 1⟩))

/-- `build_ham_dxy_safe`, sample.pyx:260-382.  Fancy indexing writes the positions
`0, 1, ..` in order. -/
def buildSafe (argsort : List ℤ → List ℕ) (ι : F → E) (junk : CsrEnt F E) (cutoff : F) (eng : List F)
    (hops : List (SCHop F E)) : Csr F E :=
  let full := safeFull ι cutoff eng hops
  let sorted := (argsort (full.map Prod.fst)).map (fun k => full.getD k (0, junk))
  let cnt := sorted.foldl (fun p t => arrBump p (t.1 + 1)) (fun _ => 0)
  ⟨prefixLoop eng.length cnt, fun k => if 0 ≤ k then (sorted.getD k.toNat (0, junk)).2 else junk,
    (List.range sorted.length).map (fun k : ℕ => (k : ℤ))⟩

/-- The slice `[ptr0:ptr1]` of the data arrays. -/
def csrSlice {F E : Type*} (ent : ℤ → CsrEnt F E) (p0 p1 : ℤ) : List (CsrEnt F E) :=
  (List.range (p1 - p0).toNat).map (fun k : ℕ => ent (p0 + k))

/-- Loop body of `sort_col_csr`, sample.pyx:421-439. -/
def sortRow {F E : Type*} (argsort : List ℤ → List ℕ) (indptr : ℤ → ℤ) (ent : ℤ → CsrEnt F E) (r : ℕ) :
    ℤ → CsrEnt F E :=
  let p0 := indptr r
  let p1 := indptr ((r : ℤ) + 1)
  let buf := csrSlice ent p0 p1
  (argsort (buf.map CsrEnt.col)).zipIdx.foldl
    (fun en q => arrPut en (p0 + (q.2 : ℤ)) (buf.getD q.1 (ent p0))) ent

/-- `sort_col_csr`, sample.pyx:385-439, for a matrix with `n` rows. -/
def sortCol {F E : Type*} (argsort : List ℤ → List ℕ) (n : ℕ) (c : Csr F E) : Csr F E :=
  { c with ent := (List.range n).foldl (sortRow argsort c.indptr) c.ent }

end Verif

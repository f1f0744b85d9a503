import Verif.Model.Csr
import Mathlib.Algebra.BigOperators.Group.List.Basic

/-! # Specification notions for sparse matrices -/

namespace Verif

/-- The contract of `numpy.argsort`: a permutation of the positions which sorts the keys. -/
structure ArgsortOK (f : List ℤ → List ℕ) : Prop where
  perm : ∀ l, (f l).Perm (List.range l.length)
  sorted : ∀ l, ((f l).map (fun k => l.getD k 0)).Pairwise (· ≤ ·)

/-- Entries of row `r` of a CSR matrix. -/
def Csr.row {F E : Type*} (c : Csr F E) (r : ℤ) : List (CsrEnt F E) :=
  csrSlice c.ent (c.indptr r) (c.indptr (r + 1))

/-- Matrix element `(a, b)` represented by a CSR matrix (repeated columns add up). -/
def Csr.mat {F E : Type*} [AddMonoid E] (c : Csr F E) (a b : ℤ) : E :=
  (((c.row a).filter (fun e => e.col = b)).map CsrEnt.v).sum

/-- Same for the matrices `dx` and `dy`. -/
def Csr.dxMat {F E : Type*} [AddMonoid F] (c : Csr F E) (a b : ℤ) : F :=
  (((c.row a).filter (fun e => e.col = b)).map CsrEnt.dx).sum
@[inherit_doc Csr.dxMat]
def Csr.dyMat {F E : Type*} [AddMonoid F] (c : Csr F E) (a b : ℤ) : F :=
  (((c.row a).filter (fun e => e.col = b)).map CsrEnt.dy).sum

/-- A structurally valid CSR matrix with `n` rows: the row pointers start at zero and do not
decrease, every position of the data arrays is written exactly once, and all
column indices are legal. -/
structure Csr.Valid {F E : Type*} (c : Csr F E) (n : ℕ) : Prop where
  zero : c.indptr 0 = 0
  mono : ∀ r : ℕ, r < n → c.indptr r ≤ c.indptr ((r : ℤ) + 1)
  writes : c.writes.Perm ((List.range (c.indptr n).toNat).map (fun k : ℕ => (k : ℤ)))
  cols : ∀ r : ℕ, r < n → ∀ e ∈ c.row r, 0 ≤ e.col ∧ e.col < n

variable {F E : Type*}

/-- All hopping terms connect orbitals `0 .. n-1`. -/
def TermsInRange (n : ℕ) (hops : List (SCHop F E)) : Prop :=
  ∀ h ∈ hops, (0 ≤ h.i ∧ h.i < n) ∧ (0 ≤ h.j ∧ h.j < n)

/-- Matrix element of `T`, the matrix of the hopping terms (repeated terms add up). -/
def hopMat [AddMonoid E] (hops : List (SCHop F E)) (a b : ℤ) : E :=
  ((hops.filter (fun h => h.i = a ∧ h.j = b)).map SCHop.v).sum

/-- Same for a component of the displacements. -/
def drMat [AddMonoid F] (x : Fin 3) (hops : List (SCHop F E)) (a b : ℤ) : F :=
  ((hops.filter (fun h => h.i = a ∧ h.j = b)).map (fun h => h.dr x)).sum

/-- Matrix element of `diag(eng)` without the energies below the cutoff. -/
def diagMat [Field F] [LinearOrder F] [Zero E] (ι : F → E) (cutoff : F) (eng : List F) (a b : ℤ) : E :=
  if a = b ∧ 0 ≤ a ∧ a < eng.length ∧ cutoff ≤ |eng.getD a.toNat 0| then ι (eng.getD a.toNat 0) else 0

end Verif

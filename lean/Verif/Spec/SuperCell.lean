import Verif.Spec.Super
import Verif.Spec.Prim
import Verif.Model.SuperCell

/-! # Specification notions for supercell objects -/

namespace Verif

namespace PrimCell

variable {F E Λ : Type*} [Star E]

/-- The hash bookkeeping of the cell is truthful: if the stored hashes equal the hashes of the
current contents then the cached arrays are those of the current contents.  (What C08 proves
for histories without hash collisions.) -/
structure SyncOK (H : HashFns F E Λ) (s : PrimCell F E Λ) : Prop where
  orb : s.hashOrb = H.orb s.orbs →
    s.arrPos = s.orbs.map Orbital.position ∧ s.arrEng = s.orbs.map Orbital.energy
  hop : s.hashHop = H.hop s.hops.toList →
    s.arrInd = s.hops.toList.map (fun t => (t.1, t.2.1)) ∧ s.arrHop = s.hops.toList.map (fun t => t.2.2)

end PrimCell

namespace PrimCell

variable {F E Λ : Type*} [Field F] [DecidableEq F] [Star E]

/-- The cell is the result of some history of calls on a new cell, in which orbitals are removed
by existing indices only and no two states met have colliding hashes. -/
def Reach (H : HashFns F E Λ) (s : PrimCell F E Λ) : Prop :=
  ∃ (lat : Mat3 F) (o : Vec3 F) (cs : List (Call F E Λ)),
    s = run H (init H lat o) cs ∧ InRange H (init H lat o) cs ∧
    Set.InjOn H.orb {l | ∃ pre, pre <+: cs ∧ l = (run H (init H lat o) pre).orbs} ∧
    Set.InjOn H.hop {l | ∃ pre, pre <+: cs ∧ l = (run H (init H lat o) pre).hops.toList}

end PrimCell

namespace SCell

variable {F E Λ : Type*} [Field F] [DecidableEq F] [Star E]

/-- The tables of the supercell agree with its vacancies and primitive cell. -/
structure Fresh (s : SCell F E Λ) : Prop where
  vac : s.vacSc = vacIdSc s.dim s.pc.numOrb s.vacs
  orb : s.orbId = buildOrbIdPc s.dim s.pc.numOrb s.vacSc

/-- The hash distinguishes the given vacancy sets. -/
def VacHashOK (HS : SCHash F E Λ) (V : Set (List IdPc)) : Prop :=
  ∀ v ∈ V, ∀ w ∈ V, HS.vac v = HS.vac w → v.Perm w

/-- The primitive cell is not unlocked behind the back of the supercell. -/
def NoUnlock : List (Op F E Λ) → Prop := fun ops => ∀ op ∈ ops, op ≠ .pcUnlock

/-- All vacancy sets seen in a history (and the empty one of the constructor). -/
def Visited (H : HashFns F E Λ) (HS : SCHash F E Λ) (s : SCell F E Λ) (ops : List (Op F E Λ)) :
    Set (List IdPc) := {v | v = [] ∨ ∃ pre, pre <+: ops ∧ v = (run H HS s pre).vacs}

/-- The supercell is the result of some history of calls on a new supercell made from the cell
`pc0`: the cell is not unlocked in between and no two vacancy sets met have colliding
hashes. -/
def Reach (H : HashFns F E Λ) (HS : SCHash F E Λ) (pc0 : PrimCell F E Λ) (s : SCell F E Λ) : Prop :=
  ∃ dim pbc vacancies posMod pc' s0 ops,
    new H HS pc0 dim pbc vacancies posMod = (pc', .ok s0) ∧ NoUnlock ops ∧
    VacHashOK HS (Visited H HS s0 ops) ∧ s = run H HS s0 ops

/-- Effect of a modifier on one term: energy and displacement of the modifier's entry for the
same pair of orbitals, conjugated and reversed if stored the other way round. -/
def overridden (scLat : Mat3 F) (pos : ℤ → Vec3 F) (m : List (Cell × Pair × E)) (h : SCHop F E) :
    SCHop F E :=
  match m.find? (fun t => t.2.1 = (h.i, h.j)) with
  | some t => ⟨h.i, h.j, t.2.2, modDr scLat pos t⟩
  | none =>
    match m.find? (fun t => t.2.1 = (h.j, h.i)) with
    | some t => ⟨h.i, h.j, star t.2.2, -modDr scLat pos t⟩
    | none => h

/-- Two pairs of orbitals are the same up to order. -/
def SamePair (p q : Pair) : Prop := p = q ∨ p = (q.2, q.1)

instance (p q : Pair) : Decidable (SamePair p q) := by unfold SamePair; infer_instance

end SCell
end Verif

import Verif.Model.Prim

/-! # Specification notions for histories of a primitive cell -/

namespace Verif.PrimCell

/-- What is left of a list after deleting the positions in `L`, order kept. -/
def survivors {α : Type*} (orbs : List α) (L : List ℤ) : List α :=
  (orbs.zipIdx.filter (fun q => decide ((q.2 : ℤ) ∉ L))).map Prod.fst

variable {F E Λ : Type*} [Field F] [DecidableEq F] [Star E]

/-- A removal call only names existing orbitals. -/
def OpInRange (s : PrimCell F E Λ) : Op F E Λ → Prop
  | .removeOrbital i => 0 ≤ i ∧ i < s.numOrb
  | .removeOrbitals L => ∀ x ∈ L, 0 ≤ x ∧ x < s.numOrb
  | _ => True

/-- Every removal call in the history names orbitals existing at the time of the call. -/
def InRange (H : HashFns F E Λ) (s : PrimCell F E Λ) (cs : List (Call F E Λ)) : Prop :=
  ∀ pre op post, cs = pre ++ .inl op :: post → OpInRange (run H s pre) op

end Verif.PrimCell

namespace Verif.PrimCell

/-- The cached arrays agree with the orbitals and hoppings of the cell. -/
structure ArraysFresh {F E Λ : Type*} [Star E] (s : PrimCell F E Λ) : Prop where
  pos : s.arrPos = s.orbs.map Orbital.position
  eng : s.arrEng = s.orbs.map Orbital.energy
  ind : s.arrInd = s.hops.toList.map (fun t => (t.1, t.2.1))
  hop : s.arrHop = s.hops.toList.map (fun t => t.2.2)

end Verif.PrimCell

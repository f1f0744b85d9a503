import Verif.Props.Super

/-! # C21: energies and displacements of the terms of a modifier -/

namespace Verif.Props

open SCell

variable {F E Λ : Type*} [Field F] [DecidableEq F] [InvolutiveStar E]

theorem same_once {l : List (Cell × Pair × E)} (hd : l.Pairwise (fun t u => ¬ SamePair t.2.1 u.2.1)) {t u : Cell × Pair × E} (ht : t ∈ l) (hu : u ∈ l)
    (h : SamePair t.2.1 u.2.1) : t = u := by
  have h' : SamePair u.2.1 t.2.1 := by
    rcases h with h | h
    · exact Or.inl h.symm
    · exact Or.inr (by rw [h])
  induction l with
  | nil => cases ht
  | cons a l ih =>
    rw [List.pairwise_cons] at hd
    rcases List.mem_cons.1 ht with e | m
    · rcases List.mem_cons.1 hu with e' | m'
      · rw [e, e']
      · exact absurd (e ▸ h) (hd.1 _ m')
    · rcases List.mem_cons.1 hu with e' | m'
      · exact absurd (e' ▸ h') (hd.1 _ m)
      · exact ih hd.2 m m'

/-- **C21 (partial).** Every entry of the modifier is among the terms of `get_hop`: with its energy and the vector from its first orbital to its
second one in the given supercell, or reversed.  Missing: modifiers with several entries for the same pair, see `C21_modifier_partial`.
The hypotheses are those of that theorem; the ring of five sites in Props/Super.lean is a case. -/
theorem C21_bond_partial {H : HashFns F E Λ} {HS : SCHash F E Λ} {pc0 : PrimCell F E Λ} {s s1 : SCell F E Λ}
    {out : HopOut F E} (hp : PrimCell.Reach H pc0) (h : SCell.Reach H HS pc0 s)
    (hd : s.modi.toList.Pairwise (fun t u => ¬ SamePair t.2.1 u.2.1))
    (hg : getHop H HS s = (s1, .ok out)) (R : Cell) (i j : ℤ) (v : E) (ht : (R, (i, j), v) ∈ s.modi.toList) (bond : Vec3 F)
    (hb : ∀ x, bond x = rowAt (s1.orbPos H) j x + ((R.1 : F) * scLatVec pc0.lat s.dim 0 x + (R.2.1 : F) * scLatVec pc0.lat s.dim 1 x +
      (R.2.2 : F) * scLatVec pc0.lat s.dim 2 x) - rowAt (s1.orbPos H) i x) :
    (⟨i, j, v, bond⟩ : SCHop F E) ∈ out.terms ∨ (⟨j, i, star v, -bond⟩ : SCHop F E) ∈ out.terms := by
  obtain ⟨base, -, ho⟩ := C21_modifier_partial hp h hd hg
  have hm : modDr (scLatVec pc0.lat s.dim) (rowAt (s1.orbPos H)) (R, (i, j), v) = bond := by
    funext x
    rw [hb]
    rfl
  by_cases hx : ∀ x ∈ base.terms, ¬ SamePair ((R, (i, j), v) : Cell × Pair × E).2.1 (x.i, x.j)
  · left
    rw [ho]
    refine List.mem_append_right _ (List.mem_map.2 ⟨(R, (i, j), v), List.mem_filter.2 ⟨ht, by simpa using hx⟩, ?_⟩)
    rw [hm]
  · push_neg at hx
    obtain ⟨x, hxb, hxs⟩ := hx
    have hmem : overridden (scLatVec pc0.lat s.dim) (rowAt (s1.orbPos H)) s.modi.toList x ∈ out.terms := by
      rw [ho]
      exact List.mem_append_left _ (List.mem_map.2 ⟨x, hxb, rfl⟩)
    unfold overridden at hmem
    split at hmem
    · rename_i t ht'
      have e := List.find?_some ht'
      have e : t.2.1 = (x.i, x.j) := by simpa using e
      obtain rfl := same_once hd ht (List.mem_of_find?_eq_some ht') (by rw [e]; exact hxs)
      obtain ⟨e1, e2⟩ := Prod.mk.inj e
      left
      rw [hm, ← e1, ← e2] at hmem
      exact hmem
    · rename_i hno
      have n0 : ((i, j) : Pair) ≠ (x.i, x.j) := fun e => by
        have := List.find?_eq_none.1 hno _ ht
        simp [e] at this
      have e0 : ((i, j) : Pair) = (x.j, x.i) := hxs.resolve_left n0
      split at hmem
      · rename_i t ht'
        have e := List.find?_some ht'
        have e : t.2.1 = (x.j, x.i) := by simpa using e
        obtain rfl := same_once hd ht (List.mem_of_find?_eq_some ht') (Or.inl (by rw [e]; exact e0))
        obtain ⟨e1, e2⟩ := Prod.mk.inj e0
        right
        rw [hm, ← e1, ← e2] at hmem
        exact hmem
      · rename_i hno'
        have := List.find?_eq_none.1 hno' _ ht
        simp [e0] at this

end Verif.Props

import Verif.Proof.Prim

/-! Helper lemmas on the hash-gated array synchronisation. -/

set_option linter.unusedSectionVars false

namespace Verif.PrimCell

variable {F E Λ : Type*} [Field F] [DecidableEq F] [InvolutiveStar E]

/-- The cached orbital arrays were computed from `o`. -/
def CachedOrb (H : HashFns F E Λ) (s : PrimCell F E Λ) (o : List (Orbital F Λ)) : Prop :=
  H.orb o = s.hashOrb ∧ s.arrPos = o.map Orbital.position ∧ s.arrEng = o.map Orbital.energy

/-- The cached hopping arrays were computed from `l`. -/
def CachedHop (H : HashFns F E Λ) (s : PrimCell F E Λ) (l : List (Cell × Pair × E)) : Prop :=
  H.hop l = s.hashHop ∧ s.arrInd = l.map (fun t => (t.1, t.2.1)) ∧ s.arrHop = l.map (fun t => t.2.2)

/-- Same caches. -/
def SameCache (s s' : PrimCell F E Λ) : Prop :=
  s'.hashOrb = s.hashOrb ∧ s'.arrPos = s.arrPos ∧ s'.arrEng = s.arrEng ∧
  s'.hashHop = s.hashHop ∧ s'.arrInd = s.arrInd ∧ s'.arrHop = s.arrHop

theorem SameCache.refl (s : PrimCell F E Λ) : SameCache s s := ⟨rfl, rfl, rfl, rfl, rfl, rfl⟩

theorem SameCache.trans {a b c : PrimCell F E Λ} (h : SameCache a b) (h' : SameCache b c) :
    SameCache a c := by
  obtain ⟨h1, h2, h3, h4, h5, h6⟩ := h
  obtain ⟨k1, k2, k3, k4, k5, k6⟩ := h'
  exact ⟨k1.trans h1, k2.trans h2, k3.trans h3, k4.trans h4, k5.trans h5, k6.trans h6⟩

theorem same_addOrbital (s : PrimCell F E Λ) (p : List F) (e : F) (l : Λ) :
    SameCache s (addOrbital s p e l).1 := by
  unfold addOrbital
  split_ifs
  · exact .refl s
  · split <;> exact .refl s

theorem same_addOrbitalCart (s : PrimCell F E Λ) (p : List F) (u e : F) (l : Λ) :
    SameCache s (addOrbitalCart s p u e l).1 := by
  unfold addOrbitalCart
  split_ifs
  · exact .refl s
  · split
    · exact .refl s
    · split
      · exact same_addOrbital s _ _ _
      · exact .refl s

theorem same_setOrbitalAt (s : PrimCell F E Λ) (i : ℤ) (p : Option (Vec3 F)) (e : Option F)
    (l : Option Λ) : SameCache s (setOrbitalAt s i p e l).1 := by
  unfold setOrbitalAt
  split <;> exact .refl s

theorem same_setOrbital (s : PrimCell F E Λ) (i : ℤ) (p : Option (List F)) (e : Option F)
    (l : Option Λ) : SameCache s (setOrbital s i p e l).1 := by
  unfold setOrbital
  split_ifs
  · exact .refl s
  · split
    · exact same_setOrbitalAt s _ _ _ _
    · split
      · exact .refl s
      · exact same_setOrbitalAt s _ _ _ _

theorem same_setOrbitalCart (s : PrimCell F E Λ) (i : ℤ) (p : Option (List F)) (u : F)
    (e : Option F) (l : Option Λ) : SameCache s (setOrbitalCart s i p u e l).1 := by
  unfold setOrbitalCart
  split_ifs
  · exact .refl s
  · split
    · exact same_setOrbital s _ _ _ _
    · split
      · exact .refl s
      · split
        · exact same_setOrbital s _ _ _ _
        · exact .refl s

theorem same_removeOrbitals (s : PrimCell F E Λ) (L : List ℤ) :
    SameCache s (removeOrbitals s L).1 := by
  unfold removeOrbitals
  split_ifs
  · exact .refl s
  · simp only
    split_ifs <;> exact .refl s

theorem same_removeOrbital (s : PrimCell F E Λ) (i : ℤ) :
    SameCache s (removeOrbital s i).1 := by
  unfold removeOrbital
  split_ifs
  · exact .refl s
  · exact same_removeOrbitals s _

theorem same_addHopping (s : PrimCell F E Λ) (rn : List ℤ) (i j : ℤ) (e : E) :
    SameCache s (addHopping s rn i j e).1 := by
  unfold addHopping
  split_ifs
  · exact .refl s
  · split <;> exact .refl s

theorem same_addHoppings (l : List (Cell × ℤ × ℤ × E)) (s : PrimCell F E Λ) :
    SameCache s (addHoppings s l).1 := by
  induction l generalizing s with
  | nil => exact .refl s
  | cons t l ih =>
    obtain ⟨R, i, j, e⟩ := t
    have h1 := same_addHopping s [R.1, R.2.1, R.2.2] i j e
    simp only [addHoppings]
    split
    · rename_i s' heq
      rw [heq] at h1
      exact h1.trans (ih s')
    · rename_i s' err heq
      rw [heq] at h1
      exact h1

theorem same_addHoppingDict (s : PrimCell F E Λ) (b : E → Bool) (l : List (Cell × ℤ × ℤ × E)) :
    SameCache s (addHoppingDict s b l).1 := by
  unfold addHoppingDict
  split_ifs
  · exact .refl s
  · exact .refl s
  · exact same_addHoppings l s

theorem same_removeHopping (s : PrimCell F E Λ) (rn : List ℤ) (i j : ℤ) :
    SameCache s (removeHopping s rn i j).1 := by
  unfold removeHopping
  split_ifs
  · exact .refl s
  · split
    · exact .refl s
    · simp only
      split_ifs <;> exact .refl s

theorem same_trim (s : PrimCell F E Λ) : SameCache s (trim s).1 := by
  unfold trim
  split_ifs
  · exact .refl s
  · split
    · exact .refl s
    · exact same_removeOrbitals s _

theorem same_applyPbc (s : PrimCell F E Λ) (p : List Bool) : SameCache s (applyPbc s p).1 := by
  unfold applyPbc
  split_ifs
  · exact .refl s
  · split <;> exact .refl s

theorem same_resetLattice (H : HashFns F E Λ) (s : PrimCell F E Λ)
    (l : Option (List (List F))) (o : Option (List F)) (u : F) (f : Bool) :
    SameCache s (resetLattice H s l o u f).1 ∨
    SameCache (syncOrb H s false) (resetLattice H s l o u f).1 := by
  unfold resetLattice
  split_ifs with h1 h2
  · exact Or.inl (.refl s)
  all_goals
    split
    · exact Or.inl (.refl s)
    · split
      · exact Or.inl (.refl s)
      · first
        | exact Or.inl (.refl s)
        | (simp only
           split
           · exact Or.inr (.refl _)
           · split_ifs
             · exact Or.inr (.refl _)
             · exact Or.inr (.refl _))

theorem step_cache (H : HashFns F E Λ) (s : PrimCell F E Λ) (op : Op F E Λ) :
    SameCache s (step H s op).1 ∨ SameCache (syncOrb H s false) (step H s op).1 := by
  cases op with
  | addOrbital p e l => exact Or.inl (same_addOrbital ..)
  | addOrbitalCart p u e l => exact Or.inl (same_addOrbitalCart ..)
  | setOrbital i p e l => exact Or.inl (same_setOrbital ..)
  | setOrbitalCart i p u e l => exact Or.inl (same_setOrbitalCart ..)
  | removeOrbital i => exact Or.inl (same_removeOrbital ..)
  | removeOrbitals L => exact Or.inl (same_removeOrbitals ..)
  | addHopping rn i j e => exact Or.inl (same_addHopping ..)
  | addHoppingDict b d => exact Or.inl (same_addHoppingDict ..)
  | removeHopping rn i j => exact Or.inl (same_removeHopping ..)
  | trim => exact Or.inl (same_trim s)
  | applyPbc p => exact Or.inl (same_applyPbc ..)
  | resetLattice l o u f => exact same_resetLattice ..

theorem cachedOrb_of_same {H : HashFns F E Λ} {s s' : PrimCell F E Λ} {o : List (Orbital F Λ)}
    (h : SameCache s s') (hc : CachedOrb H s o) : CachedOrb H s' o :=
  ⟨hc.1.trans h.1.symm, h.2.1.trans hc.2.1, h.2.2.1.trans hc.2.2⟩

theorem cachedHop_of_same {H : HashFns F E Λ} {s s' : PrimCell F E Λ} {l : List (Cell × Pair × E)}
    (h : SameCache s s') (hc : CachedHop H s l) : CachedHop H s' l :=
  ⟨hc.1.trans h.2.2.2.1.symm, h.2.2.2.2.1.trans hc.2.1, h.2.2.2.2.2.trans hc.2.2⟩

theorem cachedOrb_syncOrb {H : HashFns F E Λ} {s : PrimCell F E Λ} {o : List (Orbital F Λ)}
    (hc : CachedOrb H s o) (f : Bool) :
    CachedOrb H (syncOrb H s f) s.orbs ∨ (CachedOrb H (syncOrb H s f) o ∧ H.orb o = H.orb s.orbs) := by
  unfold syncOrb
  simp only
  split_ifs with h
  · exact Or.inl ⟨rfl, rfl, rfl⟩
  · simp only [not_or, not_not] at h
    exact Or.inr ⟨⟨by rw [hc.1]; exact h.2, hc.2⟩, by rw [hc.1]; exact h.2⟩

theorem cachedHop_syncOrb {H : HashFns F E Λ} {s : PrimCell F E Λ} {l : List (Cell × Pair × E)}
    (hc : CachedHop H s l) (f : Bool) : CachedHop H (syncOrb H s f) l := by
  unfold syncOrb
  simp only
  split_ifs <;> exact hc

theorem cachedOrb_syncHop {H : HashFns F E Λ} {s : PrimCell F E Λ} {o : List (Orbital F Λ)}
    (hc : CachedOrb H s o) (f : Bool) : CachedOrb H (syncHop H s f) o := by
  unfold syncHop
  simp only
  split_ifs <;> exact hc

theorem cachedHop_syncHop {H : HashFns F E Λ} {s : PrimCell F E Λ} {l : List (Cell × Pair × E)}
    (hc : CachedHop H s l) (f : Bool) :
    CachedHop H (syncHop H s f) s.hops.toList ∨
    (CachedHop H (syncHop H s f) l ∧ H.hop l = H.hop s.hops.toList) := by
  unfold syncHop
  simp only
  split_ifs with h
  · exact Or.inl ⟨rfl, rfl, rfl⟩
  · simp only [not_or, not_not] at h
    exact Or.inr ⟨⟨by rw [hc.1]; exact h.2, hc.2⟩, by rw [hc.1]; exact h.2⟩

theorem call_cachedOrb {H : HashFns F E Λ} {s : PrimCell F E Λ} {o : List (Orbital F Λ)}
    (hc : CachedOrb H s o) (c : Call F E Λ) :
    CachedOrb H (call H s c) o ∨ CachedOrb H (call H s c) s.orbs := by
  cases c with
  | inl op =>
    rcases step_cache H s op with h | h
    · exact Or.inl (cachedOrb_of_same h hc)
    · rcases cachedOrb_syncOrb hc false with h' | h'
      · exact Or.inr (cachedOrb_of_same h h')
      · exact Or.inl (cachedOrb_of_same h h'.1)
  | inr r =>
    cases r with
    | syncOrb f =>
      rcases cachedOrb_syncOrb hc f with h' | h'
      · exact Or.inr h'
      · exact Or.inl h'.1
    | syncHop f => exact Or.inl (cachedOrb_syncHop hc f)

theorem call_cachedHop {H : HashFns F E Λ} {s : PrimCell F E Λ} {l : List (Cell × Pair × E)}
    (hc : CachedHop H s l) (c : Call F E Λ) :
    CachedHop H (call H s c) l ∨ CachedHop H (call H s c) s.hops.toList := by
  cases c with
  | inl op =>
    rcases step_cache H s op with h | h
    · exact Or.inl (cachedHop_of_same h hc)
    · exact Or.inl (cachedHop_of_same h (cachedHop_syncOrb hc false))
  | inr r =>
    cases r with
    | syncOrb f => exact Or.inl (cachedHop_syncOrb hc f)
    | syncHop f =>
      rcases cachedHop_syncHop hc f with h' | h'
      · exact Or.inr h'
      · exact Or.inl h'.1

theorem run_snoc (H : HashFns F E Λ) (s : PrimCell F E Λ) (cs : List (Call F E Λ)) (c : Call F E Λ) :
    run H s (cs ++ [c]) = call H (run H s cs) c := by
  simp [run, List.foldl_append]

theorem run_cached (H : HashFns F E Λ) (s : PrimCell F E Λ) (o : List (Orbital F Λ))
    (l : List (Cell × Pair × E)) (ho : CachedOrb H s o) (hl : CachedHop H s l)
    (hso : o = s.orbs) (hsl : l = s.hops.toList) (cs : List (Call F E Λ)) :
    (∃ pre, pre <+: cs ∧ CachedOrb H (run H s cs) (run H s pre).orbs) ∧
    (∃ pre, pre <+: cs ∧ CachedHop H (run H s cs) (run H s pre).hops.toList) := by
  induction cs using List.reverseRecOn with
  | nil => exact ⟨⟨[], List.prefix_refl _, hso ▸ ho⟩, ⟨[], List.prefix_refl _, hsl ▸ hl⟩⟩
  | append_singleton cs c ih =>
    obtain ⟨⟨p1, hp1, h1⟩, ⟨p2, hp2, h2⟩⟩ := ih
    rw [run_snoc]
    constructor
    · rcases call_cachedOrb h1 c with h | h
      · exact ⟨p1, hp1.trans (List.prefix_append _ _), h⟩
      · exact ⟨cs, List.prefix_append _ _, h⟩
    · rcases call_cachedHop h2 c with h | h
      · exact ⟨p2, hp2.trans (List.prefix_append _ _), h⟩
      · exact ⟨cs, List.prefix_append _ _, h⟩

theorem toList_purge (h : IntraHop E) : IntraHop.toList h.purge = IntraHop.toList h := by
  unfold IntraHop.toList IntraHop.purge
  rw [List.filter_filter]
  simp

end Verif.PrimCell

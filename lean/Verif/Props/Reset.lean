import Verif.Props.Prim
import Verif.Props.Base

/-! # Property C74: `reset_lattice` -/

set_option linter.unusedSectionVars false

namespace Verif.Props

open PrimCell

variable {F E Λ : Type*} [Field F] [DecidableEq F] [InvolutiveStar E]

theorem setPositions_spec : ∀ (orbs : List (Orbital F Λ)) (pos : List (Vec3 F)), orbs.length = pos.length →
    (setPositions orbs pos).2 = true ∧ (setPositions orbs pos).1.map Orbital.position = pos ∧
    (setPositions orbs pos).1.map Orbital.energy = orbs.map Orbital.energy ∧
    (setPositions orbs pos).1.map Orbital.label = orbs.map Orbital.label
  | [], [], _ => by simp [setPositions]
  | o :: orbs, p :: pos, h => by
    obtain ⟨h1, h2, h3, h4⟩ := setPositions_spec orbs pos (by simpa using h)
    simp [setPositions, h1, h2, h3, h4]

/-- The lattice vectors passed to `reset_lattice` (the old ones if omitted), in nm. -/
def newLat (old : Mat3 F) (unit : F) : Option (List (List F)) → Option (Mat3 F)
  | none => some old
  | some [[a, b, c], [d, e, f], [g, h, i]] =>
    some !![unit * a, unit * b, unit * c; unit * d, unit * e, unit * f; unit * g, unit * h, unit * i]
  | some _ => none

/-- The origin passed to `reset_lattice` (the old one if omitted), in nm. -/
def newOrigin (old : Vec3 F) (unit : F) : Option (List F) → Option (Vec3 F)
  | none => some old
  | some [a, b, c] => some ![unit * a, unit * b, unit * c]
  | some _ => none

theorem newLat_eq (old : Mat3 F) (unit : F) (l : Option (List (List F))) :
    (match l with | none => some old | some l => (latOfList l).map (fun m => unit • m)) = newLat old unit l := by
  cases l with
  | none => rfl
  | some l =>
    simp only
    unfold latOfList
    split
    · simp only [Option.map_some, newLat]
      congr 1
      ext i j
      fin_cases i <;> fin_cases j <;> simp
    · rename_i h
      unfold newLat
      split
      · rename_i h'; simp at h'
      · rename_i h'
        simp only [Option.some.injEq] at h'
        exact absurd h' (h _ _ _ _ _ _ _ _ _)
      · rfl

theorem newOrigin_eq (old : Vec3 F) (unit : F) (l : Option (List F)) :
    (match l with | none => some old | some l => (vecOfList l).map (fun v => unit • v)) = newOrigin old unit l := by
  cases l with
  | none => rfl
  | some l =>
    simp only
    unfold vecOfList
    split
    · simp only [Option.map_some, newOrigin]
      congr 1
      ext i
      fin_cases i <;> simp
    · rename_i h
      unfold newOrigin
      split
      · rename_i h'; simp at h'
      · rename_i h'
        simp only [Option.some.injEq] at h'
        exact absurd h' (h _ _ _)
      · rfl

/-- Hash functions for the concrete case. -/
def lenHash0 : HashFns ℚ GInt Unit := ⟨fun l => l.length, fun l => l.length⟩

/-- What a successful `reset_lattice` does, when the synchronised position array is up to date. -/
theorem reset_state {H : HashFns F E Λ} {s : PrimCell F E Λ}
    (hfresh : (syncOrb H s false).arrPos = s.orbs.map Orbital.position)
    {l : Option (List (List F))} {og : Option (List F)} {unit : F} {fixOrb : Bool} {s' : PrimCell F E Λ}
    (h : resetLattice H s l og unit fixOrb = (s', .ok ())) :
    newLat s.lat unit l = some s'.lat ∧
    newOrigin s.origin unit og = some s'.origin ∧
    s'.hops = s.hops ∧
    s'.orbs.map Orbital.energy = s.orbs.map Orbital.energy ∧
    s'.orbs.map Orbital.label = s.orbs.map Orbital.label ∧
    (fixOrb = true → frac2cart s'.lat (s'.orbs.map Orbital.position) s'.origin =
      frac2cart s.lat (s.orbs.map Orbital.position) s.origin) ∧
    (fixOrb = false → s'.orbs = s.orbs) := by
  unfold resetLattice at h
  rw [if_neg (by intro hl; simp [hl] at h)] at h
  split at h
  · simp at h
  · rename_i L hL0
    have hL : newLat s.lat unit l = some L := (newLat_eq _ _ _).symm.trans hL0
    split at h
    · simp at h
    · rename_i O hO0
      have hO : newOrigin s.origin unit og = some O := (newOrigin_eq _ _ _).symm.trans hO0
      rw [hL, hO]
      have hs1 : (syncOrb H s false).orbs = s.orbs ∧ (syncOrb H s false).hops = s.hops := by
        unfold syncOrb; simp only; constructor <;> split <;> rfl
      by_cases hf : fixOrb = true ∧ s.numOrb > 0
      · rw [if_pos hf] at h
        simp only at h
        rw [hfresh] at h
        cases hc : cart2frac L (frac2cart s.lat (s.orbs.map Orbital.position) s.origin) O with
        | none => rw [hc] at h; simp at h
        | some pos =>
          rw [hc] at h
          simp only at h
          have hback := (C36_cart_frac_cart L O _).1 pos hc
          have hlen : s.orbs.length = pos.length := by
            have := congrArg List.length hback
            simpa [frac2cart] using this.symm
          obtain ⟨q1, q2, q3, q4⟩ := setPositions_spec s.orbs pos hlen
          rw [hs1.1, if_pos q1] at h
          simp only [Prod.mk.injEq, and_true] at h
          subst h
          refine ⟨rfl, rfl, hs1.2, q3, q4, ?_, ?_⟩
          · intro _
            simp only
            rw [q2, hback]
          · intro hff; rw [hf.1] at hff; cases hff
      · rw [if_neg hf] at h
        simp only [Prod.mk.injEq, and_true] at h
        subst h
        refine ⟨rfl, rfl, rfl, rfl, rfl, ?_, fun _ => rfl⟩
        intro hff
        have : s.orbs = [] := by
          by_contra hne
          exact hf ⟨hff, by unfold numOrb; exact List.length_pos_iff.2 hne⟩
        simp [this, frac2cart]

/-- **C74.** After any history (with a hash that does not collide on the states met), a successful
`reset_lattice` installs the given lattice vectors and origin, in nm, and keeps hoppings,
energies and labels.  With `fix_orb` the Cartesian positions of all orbitals stay where they are;
without it the fractional ones do. -/
theorem C74_reset_lattice {H : HashFns F E Λ} {lat : Mat3 F} {o : Vec3 F} {cs : List (Call F E Λ)}
    (hinjO : Set.InjOn H.orb {l | ∃ pre, pre <+: cs ∧ l = (run H (init H lat o) pre).orbs})
    (hinjH : Set.InjOn H.hop {l | ∃ pre, pre <+: cs ∧ l = (run H (init H lat o) pre).hops.toList})
    {l : Option (List (List F))} {og : Option (List F)} {unit : F} {fixOrb : Bool} {s' : PrimCell F E Λ}
    (h : resetLattice H (run H (init H lat o) cs) l og unit fixOrb = (s', .ok ())) :
    newLat (run H (init H lat o) cs).lat unit l = some s'.lat ∧
    newOrigin (run H (init H lat o) cs).origin unit og = some s'.origin ∧
    s'.hops = (run H (init H lat o) cs).hops ∧
    s'.orbs.map Orbital.energy = (run H (init H lat o) cs).orbs.map Orbital.energy ∧
    s'.orbs.map Orbital.label = (run H (init H lat o) cs).orbs.map Orbital.label ∧
    (fixOrb = true → frac2cart s'.lat (s'.orbs.map Orbital.position) s'.origin =
      frac2cart (run H (init H lat o) cs).lat ((run H (init H lat o) cs).orbs.map Orbital.position)
        (run H (init H lat o) cs).origin) ∧
    (fixOrb = false → s'.orbs = (run H (init H lat o) cs).orbs) := by
  exact reset_state (C08_arrays_fresh_partial H lat o cs false hinjO hinjH).1 h

/-- A concrete case: one orbital, the lattice doubled in the first direction and the origin moved;
the call succeeds. -/
example : (resetLattice lenHash0 (run lenHash0 (init lenHash0 unitLat 0)
      [.inl (.addOrbital [1/2, 0] 3 ())]) (some [[2, 0, 0], [0, 1, 0], [0, 0, 1]])
      (some [1, 0, 0]) 1 true).2 = .ok () ∧
    Set.InjOn lenHash0.orb {l | ∃ pre, pre <+: [.inl (.addOrbital [1/2, 0] 3 ())] ∧
      l = (run lenHash0 (init lenHash0 unitLat 0) pre).orbs} := by
  constructor
  · have : ((resetLattice lenHash0 (run lenHash0 (init lenHash0 unitLat 0)
      [.inl (.addOrbital [1/2, 0] 3 ())]) (some [[2, 0, 0], [0, 1, 0], [0, 0, 1]])
      (some [1, 0, 0]) 1 true).2).toOption = some () := by decide +kernel
    rcases h : (resetLattice lenHash0 (run lenHash0 (init lenHash0 unitLat 0)
      [.inl (.addOrbital [1/2, 0] 3 ())]) (some [[2, 0, 0], [0, 1, 0], [0, 0, 1]])
      (some [1, 0, 0]) 1 true).2 with e | u
    · rw [h] at this; simp [Except.toOption] at this
    · rfl
  · have h0 : (run lenHash0 (init lenHash0 unitLat 0) []).orbs = [] := rfl
    have h1 : (run lenHash0 (init lenHash0 unitLat 0) [.inl (.addOrbital [1/2, 0] 3 ())]).orbs.length = 1 := by
      decide +kernel
    have hp : ∀ pre : List (Call ℚ GInt Unit), pre <+: [.inl (.addOrbital [1/2, 0] 3 ())] →
        pre = [] ∨ pre = [.inl (.addOrbital [1/2, 0] 3 ())] := by
      rintro pre ⟨post, h⟩
      rcases pre with _ | ⟨a, _ | ⟨b, pre⟩⟩ <;> simp_all
    rintro l ⟨p, hp1, rfl⟩ l' ⟨p', hp2, rfl⟩ he
    rcases hp p hp1 with rfl | rfl <;> rcases hp p' hp2 with rfl | rfl <;> simp_all [lenHash0]

end Verif.Props

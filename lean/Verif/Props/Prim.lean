import Verif.Proof.PrimSync
import Verif.Model.InterHop
import Verif.Props.Hopping
import Mathlib.Data.Rat.Defs
import Mathlib.Algebra.Field.Rat

/-!
# Properties of the primitive cell (C04, C05, C06, C07, C08)
-/

set_option linter.unusedSectionVars false

namespace Verif.Props

open PrimCell

variable {F E Λ : Type*} [Field F] [DecidableEq F] [InvolutiveStar E]

/-! ### C04: locks -/

/-- **C04.** On a locked cell every mutating method raises `LockError` and leaves the
complete state untouched. -/
theorem C04_locked_cell_unchanged (H : HashFns F E Λ) (s : PrimCell F E Λ) (op : PrimCell.Op F E Λ)
    (hl : s.locked = true) : step H s op = (s, .error .lock) := by
  cases op <;>
    simp [step, addOrbital, addOrbitalCart, setOrbital, setOrbitalCart, removeOrbital,
      PrimCell.removeOrbitals, addHopping, addHoppingDict, removeHopping, trim, applyPbc,
      resetLattice, hl]

/-- **C04 (histories).** Whatever sequence of mutations and reads is applied to a locked cell,
lattice, origin, orbitals and all hoppings stay what they were. -/
theorem C04_locked_history (H : HashFns F E Λ) (s : PrimCell F E Λ) (hs : IntraHop.Inv s.hops)
    (hl : s.locked = true) (cs : List (Call F E Λ)) :
    (run H s cs).locked = true ∧ (run H s cs).lat = s.lat ∧ (run H s cs).origin = s.origin ∧
    (run H s cs).orbs = s.orbs ∧ (run H s cs).hops.get = s.hops.get := by
  have key : IntraHop.Inv (run H s cs).hops ∧ (run H s cs).locked = true ∧
      (run H s cs).lat = s.lat ∧ (run H s cs).origin = s.origin ∧
      (run H s cs).orbs = s.orbs ∧ (run H s cs).hops.get = s.hops.get := by
    induction cs using List.reverseRecOn with
    | nil => exact ⟨hs, hl, rfl, rfl, rfl, rfl⟩
    | append_singleton cs c ih =>
      rw [run_snoc]
      obtain ⟨h0, h1, h2, h3, h4, h5⟩ := ih
      cases c with
      | inl op =>
        simp only [call, C04_locked_cell_unchanged H _ op h1]
        exact ⟨h0, h1, h2, h3, h4, h5⟩
      | inr r =>
        cases r with
        | syncOrb f =>
          simp only [call, PrimCell.read, syncOrb]
          split_ifs <;> exact ⟨h0, h1, h2, h3, h4, h5⟩
        | syncHop f =>
          simp only [call, PrimCell.read, syncHop]
          split_ifs <;>
            exact ⟨IntraHop.Inv_purge h0, h1, h2, h3, h4, (IntraHop.get_purge h0).trans h5⟩
  exact key.2

/-- Locking needs a registered subscriber and then takes effect. -/
theorem C04_lock_takes_effect (s : LockState) (name : String) :
    (name ∈ s.subscribers → (s.lock name).1.locked = true) ∧
    (name ∉ s.subscribers → s.lock name = (s, .error .value)) := by
  unfold LockState.lock
  constructor <;> intro h <;> simp [h]

/-- **C04 fails for inter-hopping containers**: a locked `InterHopping` whose only hopping is
removed by `remove_hopping`, without an exception. -/
theorem C04_inter_hopping_lock_ignored :
    ∃ (s : InterHop ℤ) (op : InterHop.Op ℤ), s.locked = true ∧
      (InterHop.step s op).2 = .ok () ∧ s.get [0, 0, 0] 0 1 = some 5 ∧
      (InterHop.step s op).1.get [0, 0, 0] 0 1 = none :=
  ⟨⟨true, [((0, 0, 0), [((0, 1), 5)])]⟩, .remove [0, 0, 0] 0 1, by
    refine ⟨rfl, ?_, ?_, ?_⟩ <;> decide⟩

/-- The part of C04 which holds for inter-hopping containers: `add_hopping` respects the
lock.  Missing: `remove_hopping`, `remove_orbital(s)`, `remove_rn` and `purge` do not. -/
theorem C04_inter_hopping_add_partial (s : InterHop E) (rn : List ℤ) (i j : ℤ) (e : E)
    (hl : s.locked = true) : InterHop.step s (.add rn i j e) = (s, .error .lock) := by
  simp [InterHop.step, InterHop.add, hl]

/-! ### C05: a cell is well formed after any history -/

/-- **C05 (partial).** After any history of calls, failing ones included, every stored hopping
connects existing orbitals, is not an on-site term, and the stored and the conjugate
spellings agree.  Missing: histories in which `remove_orbital(s)` is called with an index
outside `0 .. num_orb-1`, for which the claim is false (see below). -/
theorem C05_well_formed_partial (H : HashFns F E Λ) (lat : Mat3 F) (o : Vec3 F)
    (cs : List (Call F E Λ)) (hr : InRange H (init H lat o) cs) :
    (∀ R i j e, (run H (init H lat o) cs).hops.get R i j = some e →
      (0 ≤ i ∧ i < (run H (init H lat o) cs).orbs.length) ∧
      (0 ≤ j ∧ j < (run H (init H lat o) cs).orbs.length) ∧
      ¬ (R = 0 ∧ i = j) ∧
      (run H (init H lat o) cs).hops.get (-R) j i = some (star e)) ∧
    (∀ R i j e, (R, (i, j), e) ∈ (run H (init H lat o) cs).hops.toList →
      (run H (init H lat o) cs).hops.get R i j = some e) := by
  have hw := WF_run H (WF_init H lat o) cs hr
  constructor
  · intro R i j e hg
    obtain ⟨h1, h2, h3⟩ := rng_of_get hw hg
    refine ⟨h1, h2, h3, ?_⟩
    rw [IntraHop.get_conjSymm _ R i j h3, hg]; rfl
  · intro R i j e hm
    exact get_of_look hw.inv ((IntraHop.mem_toList hw.inv _ _ _).1 hm)

/-- **C05 (removal).** In any such history, removing existing orbitals succeeds, keeps the other
orbitals in order with their data, deletes the hoppings touching removed orbitals and
renumbers the others. -/
theorem C05_remove_orbitals (H : HashFns F E Λ) (lat : Mat3 F) (o : Vec3 F)
    (cs : List (Call F E Λ)) (hr : InRange H (init H lat o) cs) (L : List ℤ)
    (hl : (run H (init H lat o) cs).locked = false)
    (hL : ∀ x ∈ L, 0 ≤ x ∧ x < (run H (init H lat o) cs).numOrb) :
    (PrimCell.removeOrbitals (run H (init H lat o) cs) L).2 = .ok () ∧
    (PrimCell.removeOrbitals (run H (init H lat o) cs) L).1.orbs =
      survivors (run H (init H lat o) cs).orbs L ∧
    HopMap.IsRemoval (run H (init H lat o) cs).hops.get L
      (PrimCell.removeOrbitals (run H (init H lat o) cs) L).1.hops.get := by
  have hw := WF_run H (WF_init H lat o) cs hr
  rw [removeOrbitals_eq hl L hL]
  exact ⟨rfl, rfl, IntraHop.get_removeOrbitals hw.inv L⟩

/-- `add_hopping` succeeds exactly on an unlocked cell for in-range, non-diagonal terms given by
two or three cell indices, and then has the effect of the abstract map. -/
theorem C05_add_hopping (s : PrimCell F E Λ) (R : Cell) (i j : ℤ) (e : E) :
    ((addHopping s [R.1, R.2.1, R.2.2] i j e).2 = .ok () ↔
      s.locked = false ∧ (0 ≤ i ∧ i < s.orbs.length) ∧ (0 ≤ j ∧ j < s.orbs.length) ∧
        ¬ (R = 0 ∧ i = j)) ∧
    ((addHopping s [R.1, R.2.1, R.2.2] i j e).2 = .ok () →
      (addHopping s [R.1, R.2.1, R.2.2] i j e).1.hops.get = HopMap.add s.hops.get R i j e) ∧
    ((addHopping s [R.1, R.2.1, R.2.2] i j e).2 ≠ .ok () →
      (addHopping s [R.1, R.2.1, R.2.2] i j e).1 = s) := by
  have hR0 : (R = (0, 0, 0)) ↔ R = 0 := Iff.rfl
  unfold addHopping checkHopIndex
  simp only [checkLen]
  cases hl : s.locked
  · by_cases h1 : 0 ≤ i ∧ i < s.numOrb
    · by_cases h2 : 0 ≤ j ∧ j < s.numOrb
      · by_cases h3 : R = 0 ∧ i = j
        · obtain ⟨rfl, rfl⟩ := h3
          simp [h1, Prod.zero_eq_mk]
        · have h3' : ¬ (R = (0, 0, 0) ∧ i = j) := h3
          simp only [h1, h2, h3', not_true, if_false, Bool.false_eq_true]
          simp only [numOrb] at h1 h2
          refine ⟨by simp [h1, h2, h3], ?_, ?_⟩
          · intro _
            simpa using IntraHop.get_add (h := s.hops) R i j e h3
          · simp
      · simp only [numOrb] at h2
        simp [h1, h2, numOrb]
    · simp only [numOrb] at h1
      simp [h1, numOrb]
  · simp

/-- Hash functions used in the concrete examples (constant; irrelevant there). -/
def trivialHash : HashFns ℚ GInt Unit := ⟨fun _ => 0, fun _ => 0⟩

/-- Unit lattice used in the concrete examples. -/
def unitLat : Mat3 ℚ := !![1, 0, 0; 0, 1, 0; 0, 0, 1]

/-- Two orbitals connected by one hopping. -/
noncomputable def dimer : List (Call ℚ GInt Unit) :=
  [.inl (.addOrbital [0, 0] 0 ()), .inl (.addOrbital [1/2, 0] 0 ()),
   .inl (.addHopping [0, 0, 0] 0 1 ⟨2, 1⟩)]

/-- **C05 fails for negative indices**: `remove_orbital(-1)` succeeds and leaves a hopping
whose orbital index is negative. -/
theorem C05_negative_index_breaks :
    (PrimCell.removeOrbital (run trivialHash (init trivialHash unitLat 0) dimer) (-1)).2 = .ok () ∧
    ((0, 0, 0), (-1, 0), (⟨2, 1⟩ : GInt)) ∈
      (PrimCell.removeOrbital (run trivialHash (init trivialHash unitLat 0) dimer) (-1)).1.hops.toList := by
  decide +kernel

/-- **C05 fails for out-of-range removals**: `remove_orbitals([0, 5])` raises
`PCOrbIndexError` after having popped orbital 0, so the hopping (0,1) now names an orbital
which does not exist. -/
theorem C05_out_of_range_breaks :
    (PrimCell.removeOrbitals (run trivialHash (init trivialHash unitLat 0) dimer) [0, 5]).2
      = .error .pcOrbIndex ∧
    (PrimCell.removeOrbitals (run trivialHash (init trivialHash unitLat 0) dimer) [0, 5]).1.orbs.length = 1 ∧
    ((0, 0, 0), (0, 1), (⟨2, 1⟩ : GInt)) ∈
      (PrimCell.removeOrbitals (run trivialHash (init trivialHash unitLat 0) dimer) [0, 5]).1.hops.toList := by
  decide +kernel

/-- The hypothesis of `C05_well_formed_partial` is met by a history with removals and failing calls. -/
example : InRange trivialHash (init trivialHash unitLat 0)
    (dimer ++ [.inl (.addHopping [0, 0, 0] 0 7 ⟨1, 0⟩), .inl (.removeOrbital 1), .inr (.syncHop false)]) := by
  intro pre op post h
  have hlen := congrArg List.length h
  simp [dimer] at hlen
  rcases pre with _ | ⟨c1, _ | ⟨c2, _ | ⟨c3, _ | ⟨c4, _ | ⟨c5, _ | ⟨c6, pre⟩⟩⟩⟩⟩⟩ <;>
    simp [dimer] at h
  all_goals try (obtain ⟨rfl, -⟩ := h; trivial)
  all_goals try (obtain ⟨-, rfl, -⟩ := h; trivial)
  all_goals try (obtain ⟨-, -, rfl, -⟩ := h; trivial)
  all_goals try (obtain ⟨-, -, -, rfl, -⟩ := h; trivial)
  · obtain ⟨rfl, rfl, rfl, rfl, rfl, -⟩ := h
    constructor <;> decide +kernel

/-! ### C06: apply_pbc -/

/-- **C06.** After any (in-range) history, `apply_pbc` keeps precisely the hoppings with a
vanishing cell index in every open direction, and changes no energy. -/
theorem C06_apply_pbc (H : HashFns F E Λ) (lat : Mat3 F) (o : Vec3 F)
    (cs : List (Call F E Λ)) (hr : InRange H (init H lat o) cs)
    (hl : (run H (init H lat o) cs).locked = false) (pa pb pc : Bool) (R : Cell) (i j : ℤ) :
    (applyPbc (run H (init H lat o) cs) [pa, pb, pc]).2 = .ok () ∧
    (applyPbc (run H (init H lat o) cs) [pa, pb, pc]).1.orbs = (run H (init H lat o) cs).orbs ∧
    (applyPbc (run H (init H lat o) cs) [pa, pb, pc]).1.hops.get R i j =
      if (pa = false → R.1 = 0) ∧ (pb = false → R.2.1 = 0) ∧ (pc = false → R.2.2 = 0)
      then (run H (init H lat o) cs).hops.get R i j else none := by
  have hw := WF_run H (WF_init H lat o) cs hr
  refine ⟨by simp [applyPbc, hl], by simp [applyPbc, hl], ?_⟩
  have h1 : (applyPbc (run H (init H lat o) cs) [pa, pb, pc]).1.hops =
      (PyDict.keys (run H (init H lat o) cs).hops).foldl
        (fun (h : IntraHop E) R => if keepRn (pa, pb, pc) R then h else (h.removeRn R).1)
        (run H (init H lat o) cs).hops := by simp [applyPbc, hl]
  rw [h1, get_applyPbc hw.inv]
  have h2 : (keepRn (pa, pb, pc) R = true) ↔
      ((pa = false → R.1 = 0) ∧ (pb = false → R.2.1 = 0) ∧ (pc = false → R.2.2 = 0)) := by
    cases pa <;> cases pb <;> cases pc <;> simp [keepRn, and_assoc]
  simp only [h2]

/-- **C06.** `apply_pbc` is idempotent and calls commute (as far as hoppings are concerned). -/
theorem C06_idempotent_commute (H : HashFns F E Λ) (lat : Mat3 F) (o : Vec3 F)
    (cs : List (Call F E Λ)) (hr : InRange H (init H lat o) cs)
    (hl : (run H (init H lat o) cs).locked = false) (p q : Bool × Bool × Bool) :
    (run H (init H lat o) (cs ++ [.inl (.applyPbc [p.1, p.2.1, p.2.2]),
      .inl (.applyPbc [p.1, p.2.1, p.2.2])])).hops.get =
    (run H (init H lat o) (cs ++ [.inl (.applyPbc [p.1, p.2.1, p.2.2])])).hops.get ∧
    (run H (init H lat o) (cs ++ [.inl (.applyPbc [p.1, p.2.1, p.2.2]),
      .inl (.applyPbc [q.1, q.2.1, q.2.2])])).hops.get =
    (run H (init H lat o) (cs ++ [.inl (.applyPbc [q.1, q.2.1, q.2.2]),
      .inl (.applyPbc [p.1, p.2.1, p.2.2])])).hops.get := by
  have hw := WF_run H (WF_init H lat o) cs hr
  have one : ∀ (s : PrimCell F E Λ) (_ : WF s) (_ : s.locked = false) (p : Bool × Bool × Bool),
      (applyPbc s [p.1, p.2.1, p.2.2]).1.hops.get =
        (fun R i j => if keepRn p R then s.hops.get R i j else none) ∧
      WF (applyPbc s [p.1, p.2.1, p.2.2]).1 ∧ (applyPbc s [p.1, p.2.1, p.2.2]).1.locked = false := by
    intro s hs hl p
    refine ⟨?_, WF_applyPbc hs _, by simp [applyPbc, hl]⟩
    have h1 : (applyPbc s [p.1, p.2.1, p.2.2]).1.hops = (PyDict.keys s.hops).foldl
        (fun (h : IntraHop E) R => if keepRn (p.1, p.2.1, p.2.2) R then h else (h.removeRn R).1)
        s.hops := by simp [applyPbc, hl]
    rw [h1, get_applyPbc hs.inv]
  have two : ∀ p q : Bool × Bool × Bool,
      (run H (init H lat o) (cs ++ [.inl (.applyPbc [p.1, p.2.1, p.2.2]),
      .inl (.applyPbc [q.1, q.2.1, q.2.2])])).hops.get =
      fun R i j => if keepRn q R then (if keepRn p R then
        (run H (init H lat o) cs).hops.get R i j else none) else none := by
    intro p q
    have : run H (init H lat o) (cs ++ [.inl (.applyPbc [p.1, p.2.1, p.2.2]),
        .inl (.applyPbc [q.1, q.2.1, q.2.2])]) =
        (applyPbc (applyPbc (run H (init H lat o) cs) [p.1, p.2.1, p.2.2]).1 [q.1, q.2.1, q.2.2]).1 := by
      simp [run, List.foldl_append, call, step]
    rw [this]
    obtain ⟨a1, a2, a3⟩ := one _ hw hl p
    obtain ⟨b1, -, -⟩ := one _ a2 a3 q
    rw [b1, a1]
  constructor
  · rw [two p p, run_snoc]
    simp only [call, step]
    rw [(one _ hw hl p).1]
    funext R i j
    cases keepRn p R <;> simp
  · rw [two p q, two q p]
    funext R i j
    cases keepRn p R <;> cases keepRn q R <;> simp

/-! ### C07: trim -/

/-- **C07.** After any (in-range) history, `trim` succeeds and removes exactly the orbitals with
at most one neighbour `(R, j)` in the hopping map; the rest is kept and renumbered. -/
theorem C07_trim (H : HashFns F E Λ) (lat : Mat3 F) (o : Vec3 F)
    (cs : List (Call F E Λ)) (hr : InRange H (init H lat o) cs)
    (hl : (run H (init H lat o) cs).locked = false) :
    ∃ L : List ℤ,
      (∀ x, x ∈ L ↔ (0 ≤ x ∧ x < (run H (init H lat o) cs).orbs.length) ∧
        Set.ncard {q : Cell × ℤ | (run H (init H lat o) cs).hops.get q.1 x q.2 ≠ none} ≤ 1) ∧
      (trim (run H (init H lat o) cs)).2 = .ok () ∧
      (trim (run H (init H lat o) cs)).1.orbs = survivors (run H (init H lat o) cs).orbs L ∧
      HopMap.IsRemoval (run H (init H lat o) cs).hops.get L (trim (run H (init H lat o) cs)).1.hops.get := by
  have hw := WF_run H (WF_init H lat o) cs hr
  obtain ⟨L, hL, hm⟩ := trim_eq hw hl
  refine ⟨L, hm, ?_⟩
  rw [hL, removeOrbitals_eq hl L (fun x hx => ((hm x).1 hx).1)]
  exact ⟨rfl, rfl, IntraHop.get_removeOrbitals hw.inv L⟩

/-- The set of neighbours counted in `C07_trim` is always finite, so its `ncard` is the
true number of neighbours. -/
theorem C07_neighbours_finite (h : IntraHop E) (x : ℤ) :
    {q : Cell × ℤ | h.get q.1 x q.2 ≠ none}.Finite := by
  have hfin : ((fun t : Cell × Pair => (t.1, t.2.2)) '' {t | t ∈ h.flatMap (fun q => q.2.map (fun p => (q.1, p.1)))} ∪
      (fun t : Cell × Pair => (-t.1, t.2.1)) '' {t | t ∈ h.flatMap (fun q => q.2.map (fun p => (q.1, p.1)))}).Finite :=
    ((List.finite_toSet _).image _).union ((List.finite_toSet _).image _)
  refine hfin.subset ?_
  rintro ⟨R, j⟩ hq
  simp only [Set.mem_setOf_eq] at hq
  rw [IntraHop.get_eq_look] at hq
  have aux : ∀ S p, IntraHop.look h S p ≠ none →
      (S, p) ∈ h.flatMap (fun q => q.2.map (fun p => (q.1, p.1))) := by
    intro S p hne
    obtain ⟨e, he⟩ := Option.ne_none_iff_exists'.1 hne
    unfold IntraHop.look at he
    obtain ⟨d, hd, hp⟩ := Option.bind_eq_some_iff.1 he
    refine List.mem_flatMap.2 ⟨(S, d), PyDict.mem_of_get? hd, ?_⟩
    exact List.mem_map.2 ⟨(p, e), PyDict.mem_of_get? hp, rfl⟩
  cases hc : checkConj R x j
  · simp only [hc, Bool.false_eq_true, if_false] at hq
    exact Or.inl ⟨(R, (x, j)), aux _ _ hq, rfl⟩
  · simp only [hc, if_true] at hq
    refine Or.inr ⟨(-R, (j, x)), aux (-R) (j, x) ?_, by simp⟩
    intro hh; rw [hh] at hq; exact hq rfl

/-- A chain 0-1-2: orbital 1 has two neighbours and survives, the ends are removed. -/
example : (trim (run trivialHash (init trivialHash unitLat 0)
    (dimer ++ [.inl (.addOrbital [0, 1/2] 3 ()), .inl (.addHopping [1, 0] 1 2 ⟨1, 0⟩)]))).1.orbs.map
      Orbital.position = [![1/2, 0, 0]] := by
  decide +kernel

/-! ### C08: cached arrays -/

/-- **C08 (partial).** After any history, synchronised arrays equal the current orbital and
hopping data, provided Python's `hash` does not collide on the states met in the history.
Missing: the unconditional claim, which is false (see below). -/
theorem C08_arrays_fresh_partial (H : HashFns F E Λ) (lat : Mat3 F) (o : Vec3 F)
    (cs : List (Call F E Λ)) (force : Bool)
    (hinjO : Set.InjOn H.orb {l | ∃ pre, pre <+: cs ∧ l = (run H (init H lat o) pre).orbs})
    (hinjH : Set.InjOn H.hop {l | ∃ pre, pre <+: cs ∧ l = (run H (init H lat o) pre).hops.toList}) :
    (syncOrb H (run H (init H lat o) cs) force).arrPos =
      (run H (init H lat o) cs).orbs.map Orbital.position ∧
    (syncOrb H (run H (init H lat o) cs) force).arrEng =
      (run H (init H lat o) cs).orbs.map Orbital.energy ∧
    (syncHop H (run H (init H lat o) cs) force).arrInd =
      (run H (init H lat o) cs).hops.toList.map (fun t => (t.1, t.2.1)) ∧
    (syncHop H (run H (init H lat o) cs) force).arrHop =
      (run H (init H lat o) cs).hops.toList.map (fun t => t.2.2) := by
  obtain ⟨⟨p1, hp1, h1⟩, ⟨p2, hp2, h2⟩⟩ :=
    run_cached H (init H lat o) [] [] ⟨rfl, rfl, rfl⟩ ⟨rfl, rfl, rfl⟩ rfl rfl cs
  have a : CachedOrb H (syncOrb H (run H (init H lat o) cs) force) (run H (init H lat o) cs).orbs := by
    rcases cachedOrb_syncOrb h1 force with h | ⟨h, he⟩
    · exact h
    · rw [hinjO ⟨p1, hp1, rfl⟩ ⟨cs, List.prefix_refl _, rfl⟩ he] at h
      exact h
  have b : CachedHop H (syncHop H (run H (init H lat o) cs) force)
      (run H (init H lat o) cs).hops.toList := by
    rcases cachedHop_syncHop h2 force with h | ⟨h, he⟩
    · exact h
    · rw [hinjH ⟨p2, hp2, rfl⟩ ⟨cs, List.prefix_refl _, rfl⟩ he] at h
      exact h
  exact ⟨a.2.1, a.2.2, b.2.1, b.2.2⟩

/-- **C08 (forced).** `sync_array(force_sync=True)` is always fresh. -/
theorem C08_force_sync_fresh (H : HashFns F E Λ) (s : PrimCell F E Λ) :
    (syncOrb H s true).arrPos = s.orbs.map Orbital.position ∧
    (syncOrb H s true).arrEng = s.orbs.map Orbital.energy ∧
    (syncHop H s true).arrInd = s.hops.toList.map (fun t => (t.1, t.2.1)) ∧
    (syncHop H s true).arrHop = s.hops.toList.map (fun t => t.2.2) := by
  simp [syncOrb, syncHop]

/-- **C08 is false for CPython.** If the hash of the orbital tuple is computed from the hashes
of its elements and `hash(-1.0) == hash(-2.0)` (as in CPython), then there is a history
after which reading `orb_eng` returns outdated energies. -/
theorem C08_stale_array (H : HashFns ℚ GInt Unit) (f : List (ℤ × ℤ × ℤ) → ℤ)
    (hp : Vec3 ℚ → ℤ) (he : ℚ → ℤ) (hl : Unit → ℤ)
    (hH : ∀ l, H.orb l = f (l.map (fun o => (hp o.position, he o.energy, hl o.label))))
    (hcol : he (-1) = he (-2)) :
    ∃ cs : List (Call ℚ GInt Unit),
      (syncOrb H (run H (init H unitLat 0) cs) false).arrEng ≠
        (run H (init H unitLat 0) cs).orbs.map Orbital.energy := by
  by_cases h0 : H.orb [] = H.orb [⟨![0, 0, 0], -1, ()⟩]
  · refine ⟨[.inl (.addOrbital [0, 0, 0] (-1) ())], ?_⟩
    simp [run, call, step, addOrbital, init, checkLen, syncOrb, vec3, h0]
  · refine ⟨[.inl (.addOrbital [0, 0, 0] (-1) ()), .inr (.syncOrb false),
      .inl (.setOrbital 0 none (some (-2)) none)], ?_⟩
    have h1 : H.orb [⟨![0, 0, 0], -1, ()⟩] = H.orb [⟨![0, 0, 0], -2, ()⟩] := by
      rw [hH, hH]; simp [hcol]
    rw [h1] at h0
    simp [run, call, step, addOrbital, init, checkLen, syncOrb, vec3, h0, PrimCell.read, setOrbital,
      setOrbitalAt, pyIndex, numOrb, h1]

end Verif.Props

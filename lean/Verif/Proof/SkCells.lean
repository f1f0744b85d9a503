import Verif.Model.SkCells
import Verif.Spec.SkCells
import Verif.Proof.Build
import Verif.Proof.HopDict
import Verif.Props.Neighbors
import Verif.Props.SlaterKoster

/-! # Loops over the neighbours -/

namespace Verif.Materials

open PrimCell SK

variable {Λ : Type*}

theorem sync_orb_same (H : HashFns ℝ ℂ Λ) (s : PrimCell ℝ ℂ Λ) (f : Bool) : (syncOrb H s f).orbs = s.orbs ∧ (syncOrb H s f).lat = s.lat ∧
    (syncOrb H s f).origin = s.origin ∧ (syncOrb H s f).hops = s.hops ∧ (syncOrb H s f).locked = s.locked ∧
    (syncOrb H s f).hashHop = s.hashHop ∧ (syncOrb H s f).hashOrb = H.orb s.orbs := by
  unfold syncOrb
  dsimp only
  split <;> exact ⟨rfl, rfl, rfl, rfl, rfl, rfl, rfl⟩

theorem sync_orb_twice (H : HashFns ℝ ℂ Λ) (s : PrimCell ℝ ℂ Λ) : syncOrb H (syncOrb H s false) false = syncOrb H s false := by
  unfold syncOrb
  by_cases h : s.hashOrb = H.orb s.orbs <;> simp [h]

theorem get_orbital_nat (s : PrimCell ℝ ℂ Λ) (i : ℕ) (o : Orbital ℝ Λ) (h : s.orbs[i]? = some o) : s.getOrbital i = .ok o := by
  have hi : i < s.numOrb := (List.getElem?_eq_some_iff.1 h).1
  unfold getOrbital pyIndex
  simp [hi, h]

/-- Loop over a list of neighbours whose hoppings are known. -/
theorem skLoop_spec (H : HashFns ℝ ℂ Λ) (lm : Λ → OrbLabel) (par : ℝ → Option Par) (val : NbTerm → ℂ) (orbs : List (Orbital ℝ Λ))
    (l : List NbTerm) (hv : ∀ t ∈ l, ∃ oi oj v, orbs[t.pair.1]? = some oi ∧ orbs[t.pair.2]? = some oj ∧ par t.distance = some v ∧
      SK.eval v t.rij (lm oi.label) (lm oj.label) = .ok (val t) ∧ ¬ (t.rn = 0 ∧ t.pair.1 = t.pair.2))
    (s : PrimCell ℝ ℂ Λ) (hw : WF s) (hl : s.locked = false) (ho : s.orbs = orbs) :
    ∃ hops, l.foldlM (skStep H lm par) s = .ok { s with hops := hops } ∧ WF { s with hops := hops } ∧
      hops.get = (l.map fun t => (t.rn, (t.pair.1 : ℤ), (t.pair.2 : ℤ), val t)).foldl
        (fun m q => HopMap.add m q.1 q.2.1 q.2.2.1 q.2.2.2) s.hops.get := by
  induction l generalizing s with
  | nil => exact ⟨s.hops, rfl, hw, rfl⟩
  | cons t l ih =>
    obtain ⟨oi, oj, v, h1, h2, h3, h4, h5⟩ := hv t List.mem_cons_self
    have hi : t.pair.1 < s.numOrb := by rw [numOrb, ho]; exact (List.getElem?_eq_some_iff.1 h1).1
    have hj : t.pair.2 < s.numOrb := by rw [numOrb, ho]; exact (List.getElem?_eq_some_iff.1 h2).1
    have h5' : ¬ (t.rn = (0, 0, 0) ∧ (t.pair.1 : ℤ) = t.pair.2) := fun h => h5 ⟨h.1, by exact_mod_cast h.2⟩
    have hci : checkHopIndex s [t.rn.1, t.rn.2.1, t.rn.2.2] t.pair.1 t.pair.2 = .ok t.rn := by
      unfold checkHopIndex
      have : checkLen 0 [t.rn.1, t.rn.2.1, t.rn.2.2] = some t.rn := rfl
      rw [this]
      simp only
      rw [if_neg (not_not.2 ⟨by omega, by omega⟩), if_neg (not_not.2 ⟨by omega, by omega⟩), if_neg h5']
    have hs : addHopping s [t.rn.1, t.rn.2.1, t.rn.2.2] t.pair.1 t.pair.2 (val t) =
        ({ s with hops := s.hops.add t.rn t.pair.1 t.pair.2 (val t) }, .ok ()) := by
      simp [addHopping, hl, hci]
    have hstep : skStep H lm par s t = .ok { s with hops := s.hops.add t.rn t.pair.1 t.pair.2 (val t) } := by
      unfold skStep
      rw [get_orbital_nat s _ oi (by rw [ho]; exact h1), get_orbital_nat s _ oj (by rw [ho]; exact h2)]
      simp only [h3, h4, step, hs]
    have hw' : WF { s with hops := s.hops.add t.rn t.pair.1 t.pair.2 (val t) } := by
      have := WF_addHopping hw [t.rn.1, t.rn.2.1, t.rn.2.2] t.pair.1 t.pair.2 (val t)
      rwa [hs] at this
    obtain ⟨hops, e1, e2, e3⟩ := ih (fun t' ht' => hv t' (List.mem_cons_of_mem _ ht')) _ hw' hl ho
    refine ⟨hops, ?_, e2, ?_⟩
    · rw [List.foldlM_cons, hstep]
      exact e1
    · rw [e3, List.map_cons, List.foldl_cons, IntraHop.get_add _ _ _ _ h5']

/-- The cell with the given orbitals and no hoppings. -/
theorem orbs_cell (H : HashFns ℝ ℂ Λ) (hO : ∀ l, l ≠ [] → H.orb l ≠ H.orb []) (lat : Mat3 ℝ) (orbs : List (Orbital ℝ Λ)) (hn : orbs ≠ [])
    (s : PrimCell ℝ ℂ Λ) (hs : s = { init H lat 0 with orbs := orbs }) :
    WF s ∧ s.locked = false ∧ s.orbs = orbs ∧ s.lat = lat ∧ s.origin = 0 ∧ (∀ R i j, s.hops.get R i j = none) ∧
      syncOrb H s false = { s with
        hashOrb := H.orb s.orbs
        arrPos := s.orbs.map Orbital.position
        arrEng := s.orbs.map Orbital.energy } := by
  subst hs
  refine ⟨WF_mono (WF_init H lat 0) rfl (by simp [numOrb, init]), rfl, rfl, rfl, rfl, fun R i j => get_empty R i j, ?_⟩
  unfold syncOrb
  have : (init H lat 0 : PrimCell ℝ ℂ Λ).hashOrb ≠ H.orb orbs := (hO _ hn).symm
  simp [this]

/-- `build_ham` for a cell whose orbital arrays are already up to date. -/
theorem synced_ham {H : HashFns ℝ ℂ Λ} {s : PrimCell ℝ ℂ Λ} (hw : WF s) (hO : ∀ l, l ≠ [] → H.orb l ≠ H.orb [])
    (hP : ∀ l, l ≠ [] → H.hop l ≠ H.hop []) (h1 : s.hashOrb = H.orb s.orbs) (h2 : s.hashHop = H.hop []) (hn : s.orbs ≠ [])
    (hp : s.arrPos = s.orbs.map Orbital.position) (he : s.arrEng = s.orbs.map Orbital.energy)
    (R0 : Cell) (i0 j0 : ℤ) (hg : s.hops.get R0 i0 j0 ≠ none) :
    WF (syncArray H s) ∧ ArraysFresh (syncArray H s) ∧ (syncArray H s).orbs = s.orbs ∧
      (syncArray H s).hops.get = s.hops.get ∧ (syncArray H s).lat = s.lat ∧
      (∀ k conv, conv = 1 ∨ conv = 2 → ∃ ham, setHamDense (syncArray H s) k conv = .ok ham) ∧ SyncFresh H s := by
  have e1 : syncOrb H s false = s := by
    unfold syncOrb
    rw [h1]
    simp [← h1]
  have e2 : syncOrb H { s with hashOrb := H.orb [] } false = s := by
    unfold syncOrb
    have : H.orb [] ≠ H.orb s.orbs := (hO _ hn).symm
    simp [this, ← h1, ← hp, ← he]
  have e3 : syncArray H { s with hashOrb := H.orb [] } = syncArray H s := by
    unfold syncArray
    rw [e1, e2]
  obtain ⟨a1, a2, a3, a4, a5, a6, a7, a8, a9⟩ := build_ham (H := H) (s := { s with hashOrb := H.orb [] })
    (WF_mono hw rfl (le_refl _)) hO hP rfl h2 hn R0 i0 j0 hg
  rw [e3] at a1 a2 a3 a4 a5 a6
  rw [e2] at a7 a8 a9
  exact ⟨a1, a2, a3, a4, a5, a6, by rw [SyncFresh, e1]; exact ⟨a7, a8, a9⟩⟩

end Verif.Materials

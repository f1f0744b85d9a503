import Verif.Spec.Prim
import Verif.Proof.Hopping
import Mathlib.Data.Set.Card
import Mathlib.Data.List.NodupEquivFin
import Mathlib.Tactic.Tauto

/-! Helper lemmas for the primitive cell. -/

set_option linter.unusedSectionVars false

namespace Verif

theorem pyIndex_some {n : ℕ} {i : ℤ} {k : ℕ} (h : pyIndex n i = some k) : k < n := by
  unfold pyIndex at h
  split_ifs at h with h1 h2
  · simp only [Option.some.injEq] at h; omega
  · simp only [Option.some.injEq] at h; omega

theorem pyIndex_of_nonneg {n : ℕ} {i : ℤ} (h0 : 0 ≤ i) (h1 : i < n) : pyIndex n i = some i.toNat := by
  unfold pyIndex; simp [h0, h1]

namespace PrimCell

/-- Popping in-range, ascending indices one by one with the shift removes exactly
those positions. -/
theorem popLoop_spec {α : Type*} : ∀ (xs : List ℤ) (i : ℤ) (orbs : List α),
    xs.Pairwise (· < ·) → (∀ x ∈ xs, i ≤ x ∧ x - i < orbs.length) →
    popLoop i orbs xs =
      ((orbs.zipIdx.filter (fun q => decide (((q.2 : ℤ) + i) ∉ xs))).map Prod.fst, true) := by
  intro xs
  induction xs with
  | nil =>
    intro i orbs _ _
    simp [popLoop]
  | cons x xs ih =>
    intro i orbs hs hr
    obtain ⟨hx1, hx2⟩ := hr x (by simp)
    rw [List.pairwise_cons] at hs
    have hpi : pyIndex orbs.length (x - i) = some (x - i).toNat :=
      pyIndex_of_nonneg (by omega) hx2
    simp only [popLoop, hpi]
    set k := (x - i).toNat with hk
    have hkx : (k : ℤ) = x - i := by omega
    have hkl : k < orbs.length := by omega
    have hlen : (orbs.eraseIdx k).length = orbs.length - 1 := List.length_eraseIdx_of_lt hkl
    rw [ih (i + 1) (orbs.eraseIdx k) hs.2 ?_]
    · congr 1
      obtain ⟨A, a, B, hAB, hA⟩ : ∃ A a B, orbs = A ++ a :: B ∧ A.length = k := by
        refine ⟨orbs.take k, orbs[k], orbs.drop (k + 1), ?_, by simp; omega⟩
        simp
      have hE : orbs.eraseIdx k = A ++ B := by
        rw [hAB, ← hA, List.eraseIdx_append_of_length_le (le_refl _)]; simp
      rw [hE, hAB]
      rw [List.zipIdx_append, List.zipIdx_append, List.zipIdx_cons, List.filter_append,
        List.filter_append, List.map_append, List.map_append]
      congr 1
      · congr 1
        have keep1 : ∀ q ∈ A.zipIdx, decide (((q.2 : ℤ) + (i + 1)) ∉ xs) = true := by
          intro q hq
          have := List.snd_lt_of_mem_zipIdx hq
          simp only [decide_eq_true_eq]
          intro hm
          have := hs.1 _ hm
          omega
        have keep2 : ∀ q ∈ A.zipIdx, decide (((q.2 : ℤ) + i) ∉ x :: xs) = true := by
          intro q hq
          have := List.snd_lt_of_mem_zipIdx hq
          simp only [decide_eq_true_eq, List.mem_cons, not_or]
          refine ⟨by omega, ?_⟩
          intro hm
          have := hs.1 _ hm
          omega
        rw [List.filter_eq_self.2 keep1, List.filter_eq_self.2 keep2]
      · simp only [Nat.zero_add, hA]
        have hdrop : decide ((((a, k) : α × ℕ).2 : ℤ) + i ∉ x :: xs) = false := by
          simp; intro hh; omega
        rw [List.filter_cons_of_neg (by simpa using hdrop)]
        have : ∀ (B : List α) (m : ℕ), m ≥ k →
            ((B.zipIdx m).filter (fun q => decide (((q.2 : ℤ) + (i + 1)) ∉ xs))).map Prod.fst =
            ((B.zipIdx (m + 1)).filter (fun q => decide (((q.2 : ℤ) + i) ∉ x :: xs))).map Prod.fst := by
          intro B
          induction B with
          | nil => intro m _; rfl
          | cons b B ihB =>
            intro m hm
            have e : ((m + 1 : ℕ) : ℤ) + i = (m : ℤ) + (i + 1) := by push_cast; ring
            have hne : (m : ℤ) + (i + 1) ≠ x := by omega
            rw [List.zipIdx_cons, List.zipIdx_cons]
            by_cases hmem : (m : ℤ) + (i + 1) ∈ xs
            · rw [List.filter_cons_of_neg (by simp [hmem]),
                List.filter_cons_of_neg (by rw [e]; simp [hmem])]
              exact ihB (m + 1) (by omega)
            · rw [List.filter_cons_of_pos (by simp [hmem]),
                List.filter_cons_of_pos (by rw [e]; simp [hmem, hne])]
              rw [List.map_cons, List.map_cons, ihB (m + 1) (by omega)]
        exact this B k (le_refl _)
    · intro y hy
      have h1 := hs.1 y hy
      have h2 := hr y (by simp [hy])
      rw [hlen]
      omega

theorem popLoop_length {α : Type*} : ∀ (xs : List ℤ) (i : ℤ) (orbs : List α),
    (popLoop i orbs xs).2 = true → (popLoop i orbs xs).1.length + xs.length = orbs.length := by
  intro xs
  induction xs with
  | nil => intro i orbs _; simp [popLoop]
  | cons x xs ih =>
    intro i orbs h
    simp only [popLoop] at h ⊢
    cases hp : pyIndex orbs.length (x - i) with
    | none => simp [hp] at h
    | some k =>
      simp only [hp] at h ⊢
      have hk := pyIndex_some hp
      have := ih (i + 1) (orbs.eraseIdx k) h
      rw [List.length_eraseIdx_of_lt hk] at this
      simp only [List.length_cons]
      omega

theorem sortedSet_pairwise (L : List ℤ) : (sortedSet L).Pairwise (· < ·) := by
  have h1 : (sortedSet L).Pairwise (· ≤ ·) := by
    unfold sortedSet
    exact List.pairwise_insertionSort (· ≤ ·) L.dedup
  have h2 := IntraHop.nodup_sortedSet L
  rw [List.Nodup] at h2
  exact (h1.and h2).imp (fun ⟨a, b⟩ => lt_of_le_of_ne a b)

theorem popLoop_sortedSet {α : Type*} (orbs : List α) (L : List ℤ)
    (h : ∀ x ∈ L, 0 ≤ x ∧ x < orbs.length) :
    popLoop 0 orbs (sortedSet L) = (survivors orbs L, true) := by
  rw [popLoop_spec _ 0 orbs (sortedSet_pairwise L)]
  · unfold survivors
    congr 2
    apply List.filter_congr
    intro q _
    simp [IntraHop.mem_sortedSet]
  · intro x hx
    have := h x ((IntraHop.mem_sortedSet L x).1 hx)
    omega

theorem length_survivors {α : Type*} (orbs : List α) (L : List ℤ)
    (h : ∀ x ∈ L, 0 ≤ x ∧ x < orbs.length) :
    (survivors orbs L).length + L.toFinset.card = orbs.length := by
  have h1 := popLoop_sortedSet orbs L h
  have h2 := popLoop_length (sortedSet L) 0 orbs (by rw [h1])
  rw [h1] at h2
  have h3 : (sortedSet L).length = L.toFinset.card := by
    rw [← List.toFinset_card_of_nodup (IntraHop.nodup_sortedSet L)]
    congr 1
    ext y; simp [IntraHop.mem_sortedSet]
  rw [← h3]; exact h2

variable {F E Λ : Type*} [Field F] [DecidableEq F] [InvolutiveStar E]

/-- Well-formedness of the stored data. -/
structure WF (s : PrimCell F E Λ) : Prop where
  inv : IntraHop.Inv s.hops
  rng : ∀ R i j e, IntraHop.look s.hops R (i, j) = some e →
    (0 ≤ i ∧ i < s.numOrb) ∧ (0 ≤ j ∧ j < s.numOrb) ∧ ¬ (R = 0 ∧ i = j)

theorem WF_init (H : HashFns F E Λ) (lat : Mat3 F) (o : Vec3 F) : WF (init H lat o) :=
  ⟨IntraHop.Inv_empty, fun R i j e h => by simp [init, IntraHop.look, IntraHop.empty] at h⟩

/-- Same hoppings, at least as many orbitals. -/
theorem WF_mono {s s' : PrimCell F E Λ} (h : WF s) (hh : s'.hops = s.hops)
    (hn : s.numOrb ≤ s'.numOrb) : WF s' := by
  refine ⟨hh ▸ h.inv, ?_⟩
  intro R i j e hl
  rw [hh] at hl
  obtain ⟨h1, h2, h3⟩ := h.rng R i j e hl
  exact ⟨⟨h1.1, by omega⟩, ⟨h2.1, by omega⟩, h3⟩

theorem WF_addOrbital {s : PrimCell F E Λ} (h : WF s) (p : List F) (e : F) (l : Λ) :
    WF (addOrbital s p e l).1 := by
  unfold addOrbital
  split_ifs
  · exact h
  · cases checkLen 0 p with
    | none => exact h
    | some q => exact WF_mono h rfl (by simp [numOrb])

theorem WF_addOrbitalCart {s : PrimCell F E Λ} (h : WF s) (p : List F) (u e : F) (l : Λ) :
    WF (addOrbitalCart s p u e l).1 := by
  unfold addOrbitalCart
  split_ifs
  · exact h
  · cases checkLen 0 p with
    | none => exact h
    | some q =>
      simp only
      split
      · exact WF_addOrbital h _ _ _
      · exact h

theorem WF_setOrbitalAt {s : PrimCell F E Λ} (h : WF s) (i : ℤ) (p : Option (Vec3 F))
    (e : Option F) (l : Option Λ) : WF (setOrbitalAt s i p e l).1 := by
  unfold setOrbitalAt
  cases pyIndex s.numOrb i with
  | none => exact h
  | some k => exact WF_mono h rfl (by simp [numOrb])

theorem WF_setOrbital {s : PrimCell F E Λ} (h : WF s) (i : ℤ) (p : Option (List F))
    (e : Option F) (l : Option Λ) : WF (setOrbital s i p e l).1 := by
  unfold setOrbital
  split_ifs
  · exact h
  · cases p with
    | none => exact WF_setOrbitalAt h _ _ _ _
    | some q =>
      simp only
      cases checkLen 0 q with
      | none => exact h
      | some r => exact WF_setOrbitalAt h _ _ _ _

theorem WF_setOrbitalCart {s : PrimCell F E Λ} (h : WF s) (i : ℤ) (p : Option (List F)) (u : F)
    (e : Option F) (l : Option Λ) : WF (setOrbitalCart s i p u e l).1 := by
  unfold setOrbitalCart
  split_ifs
  · exact h
  · cases p with
    | none => exact WF_setOrbital h _ _ _ _
    | some q =>
      simp only
      cases checkLen 0 q with
      | none => exact h
      | some r =>
        simp only
        split
        · exact WF_setOrbital h _ _ _ _
        · exact h

theorem removeOrbitals_eq {s : PrimCell F E Λ} (hl : s.locked = false) (L : List ℤ)
    (hL : ∀ x ∈ L, 0 ≤ x ∧ x < s.numOrb) :
    removeOrbitals s L =
      ({ s with orbs := survivors s.orbs L, hops := s.hops.removeOrbitals L }, .ok ()) := by
  unfold removeOrbitals
  rw [popLoop_sortedSet s.orbs L hL]
  simp [hl]

theorem WF_removeOrbitals {s : PrimCell F E Λ} (h : WF s) (L : List ℤ)
    (hL : ∀ x ∈ L, 0 ≤ x ∧ x < s.numOrb) : WF (removeOrbitals s L).1 := by
  cases hlk : s.locked
  · rw [removeOrbitals_eq hlk L hL]
    refine ⟨IntraHop.Inv_removeOrbitals h.inv L, ?_⟩
    intro R a b e hl
    obtain ⟨i, j, hiL, hjL, hq, hl'⟩ := (IntraHop.look_removeOrbitals h.inv L R (a, b) e).1 hl
    obtain ⟨h1, h2, h3⟩ := h.rng R i j e hl'
    simp only [Prod.mk.injEq] at hq
    obtain ⟨rfl, rfl⟩ := hq
    have hlen := length_survivors s.orbs L hL
    have hn : ((survivors s.orbs L).length : ℤ) = (s.numOrb : ℤ) - L.toFinset.card := by
      simp only [numOrb] at *
      omega
    simp only [numOrb] at hn ⊢
    rw [hn]
    refine ⟨⟨HopMap.rank_nonneg (fun r hr => (hL r hr).1) h1.1,
        HopMap.rank_lt hiL h1.2 (fun r hr => (hL r hr).2)⟩,
      ⟨HopMap.rank_nonneg (fun r hr => (hL r hr).1) h2.1,
        HopMap.rank_lt hjL h2.2 (fun r hr => (hL r hr).2)⟩, ?_⟩
    rintro ⟨hR, heq⟩
    exact h3 ⟨hR, HopMap.rank_inj hiL hjL heq⟩
  · have : removeOrbitals s L = (s, .error .lock) := by simp [removeOrbitals, hlk]
    rw [this]; exact h

theorem WF_removeOrbital {s : PrimCell F E Λ} (h : WF s) (i : ℤ)
    (hi : 0 ≤ i ∧ i < s.numOrb) : WF (removeOrbital s i).1 := by
  unfold removeOrbital
  split_ifs
  · exact h
  · exact WF_removeOrbitals h [i] (by simpa using hi)

theorem checkHopIndex_ok {s : PrimCell F E Λ} {rn : List ℤ} {i j : ℤ} {R : Cell}
    (h : checkHopIndex s rn i j = .ok R) :
    (0 ≤ i ∧ i < s.numOrb) ∧ (0 ≤ j ∧ j < s.numOrb) ∧ ¬ (R = 0 ∧ i = j) := by
  unfold checkHopIndex at h
  cases hc : checkLen 0 rn with
  | none => simp [hc] at h
  | some R' =>
    simp only [hc] at h
    split_ifs at h with h1 h2 h3
    simp only [Except.ok.injEq] at h
    subst h
    exact ⟨h1, h2, h3⟩

theorem WF_addHopping {s : PrimCell F E Λ} (h : WF s) (rn : List ℤ) (i j : ℤ) (e : E) :
    WF (addHopping s rn i j e).1 := by
  unfold addHopping
  split_ifs
  · exact h
  · cases hc : checkHopIndex s rn i j with
    | error err => exact h
    | ok R =>
      obtain ⟨h1, h2, h3⟩ := checkHopIndex_ok hc
      refine ⟨IntraHop.Inv_add h.inv R i j e, ?_⟩
      intro R' a b e' hl
      simp only at hl
      rw [IntraHop.look_add] at hl
      split_ifs at hl with hk
      · unfold IntraHop.nkey at hk
        cases hcc : checkConj R i j
        · simp only [hcc, Bool.false_eq_true, if_false, Prod.mk.injEq] at hk
          obtain ⟨rfl, rfl, rfl⟩ := hk
          exact ⟨h1, h2, h3⟩
        · simp only [hcc, if_true, Prod.mk.injEq] at hk
          obtain ⟨rfl, rfl, rfl⟩ := hk
          refine ⟨h2, h1, ?_⟩
          rintro ⟨hR, hab⟩
          exact h3 ⟨neg_eq_zero.1 hR, hab.symm⟩
      · have hk' := hk
        unfold IntraHop.nkey at hk
        cases hcc : checkConj R i j
        · simp only [hcc, Bool.false_eq_true, if_false, Prod.mk.injEq] at hk
          obtain ⟨rfl, rfl, rfl⟩ := hk
          exact ⟨h1, h2, h3⟩
        · simp only [hcc, if_true, Prod.mk.injEq] at hk
          obtain ⟨rfl, rfl, rfl⟩ := hk
          refine ⟨h2, h1, ?_⟩
          rintro ⟨hR, hab⟩
          exact h3 ⟨neg_eq_zero.1 hR, hab.symm⟩
      · exact h.rng R' a b e' hl

theorem WF_addHoppings (l : List (Cell × ℤ × ℤ × E)) {s : PrimCell F E Λ} (h : WF s) :
    WF (addHoppings s l).1 := by
  induction l generalizing s with
  | nil => exact h
  | cons t l ih =>
    obtain ⟨R, i, j, e⟩ := t
    have h1 := WF_addHopping h [R.1, R.2.1, R.2.2] i j e
    simp only [addHoppings]
    split
    · rename_i s' heq
      rw [heq] at h1
      exact ih h1
    · rename_i s' err heq
      rw [heq] at h1
      exact h1

theorem WF_addHoppingDict {s : PrimCell F E Λ} (h : WF s) (b : E → Bool)
    (l : List (Cell × ℤ × ℤ × E)) : WF (addHoppingDict s b l).1 := by
  unfold addHoppingDict
  split_ifs
  · exact h
  · exact h
  · exact WF_addHoppings l h

theorem WF_hops_sub {s : PrimCell F E Λ} (h : WF s) (hops' : IntraHop E)
    (hi : IntraHop.Inv hops')
    (hsub : ∀ R p e, IntraHop.look hops' R p = some e → IntraHop.look s.hops R p = some e) :
    WF { s with hops := hops' } :=
  ⟨hi, fun R i j e hl => h.rng R i j e (hsub R (i, j) e hl)⟩

theorem WF_removeHopping {s : PrimCell F E Λ} (h : WF s) (rn : List ℤ) (i j : ℤ) :
    WF (removeHopping s rn i j).1 := by
  unfold removeHopping
  split_ifs with hlk
  · exact h
  · cases hc : checkHopIndex s rn i j with
    | error err => exact h
    | ok R =>
      have hw : WF { s with hops := (s.hops.remove R i j).1 } := by
        refine WF_hops_sub h _ (IntraHop.Inv_remove h.inv R i j) ?_
        intro R' p e hl
        rw [IntraHop.look_remove h.inv] at hl
        split_ifs at hl
        exact hl
      simp only
      split_ifs
      · exact hw
      · exact hw

theorem foldl_removeRn {h : IntraHop E} (hi : IntraHop.Inv h) (keep : Cell → Bool) (Rs : List Cell) :
    IntraHop.Inv (Rs.foldl (fun (h : IntraHop E) R => if keep R then h else (h.removeRn R).1) h) ∧
    IntraHop.get (Rs.foldl (fun (h : IntraHop E) R => if keep R then h else (h.removeRn R).1) h) =
      fun R i j => if ∃ S ∈ Rs, keep S = false ∧ (R = S ∨ R = -S) then none
        else IntraHop.get h R i j := by
  induction Rs generalizing h with
  | nil => exact ⟨hi, by simp⟩
  | cons S Rs ih =>
    rw [List.foldl_cons]
    cases hk : keep S
    · simp only [Bool.false_eq_true, if_false]
      obtain ⟨h1, h2⟩ := ih (IntraHop.Inv_removeRn hi S)
      refine ⟨h1, ?_⟩
      rw [h2]
      funext R i j
      rw [IntraHop.get_removeRn hi S, HopMap.removeRn]
      by_cases ha : ∃ S ∈ Rs, keep S = false ∧ (R = S ∨ R = -S)
      · have : ∃ S' ∈ S :: Rs, keep S' = false ∧ (R = S' ∨ R = -S') := by
          obtain ⟨T, hT, hT2⟩ := ha
          exact ⟨T, List.mem_cons_of_mem _ hT, hT2⟩
        rw [if_pos ha, if_pos this]
      · rw [if_neg ha]
        by_cases hb : R = S ∨ R = -S
        · have : ∃ S' ∈ S :: Rs, keep S' = false ∧ (R = S' ∨ R = -S') :=
            ⟨S, by simp, hk, hb⟩
          rw [if_pos hb, if_pos this]
        · have : ¬ ∃ S' ∈ S :: Rs, keep S' = false ∧ (R = S' ∨ R = -S') := by
            rintro ⟨T, hT, hT2, hT3⟩
            rcases List.mem_cons.1 hT with rfl | hT
            · exact hb hT3
            · exact ha ⟨T, hT, hT2, hT3⟩
          rw [if_neg hb, if_neg this]
    · simp only [if_true]
      obtain ⟨h1, h2⟩ := ih hi
      refine ⟨h1, ?_⟩
      rw [h2]
      funext R i j
      have : (∃ S' ∈ S :: Rs, keep S' = false ∧ (R = S' ∨ R = -S')) ↔
          ∃ S' ∈ Rs, keep S' = false ∧ (R = S' ∨ R = -S') := by
        constructor
        · rintro ⟨T, hT, hT2, hT3⟩
          rcases List.mem_cons.1 hT with rfl | hT
          · rw [hk] at hT2; exact absurd hT2 (by simp)
          · exact ⟨T, hT, hT2, hT3⟩
        · rintro ⟨T, hT, hT2⟩; exact ⟨T, List.mem_cons_of_mem _ hT, hT2⟩
      simp only [this]

theorem keepRn_neg (pbc : Bool × Bool × Bool) (R : Cell) : keepRn pbc (-R) = keepRn pbc R := by
  simp [keepRn]

theorem mem_keys_of_get {h : IntraHop E} {R : Cell} {i j : ℤ} (hg : IntraHop.get h R i j ≠ none) :
    R ∈ PyDict.keys h ∨ -R ∈ PyDict.keys h := by
  rw [IntraHop.get_eq_look] at hg
  have aux : ∀ S p, IntraHop.look h S p ≠ none → S ∈ PyDict.keys h := by
    intro S p hne
    by_contra hn
    exact hne (by rw [IntraHop.look, (PyDict.get?_eq_none_iff h S).2 hn]; rfl)
  cases hc : checkConj R i j
  · simp only [hc, Bool.false_eq_true, if_false] at hg
    exact Or.inl (aux R _ hg)
  · simp only [hc, if_true] at hg
    exact Or.inr (aux (-R) (j, i) (by intro hh; rw [hh] at hg; exact hg rfl))

/-- `apply_pbc` on the hopping map. -/
theorem get_applyPbc {h : IntraHop E} (hi : IntraHop.Inv h) (pbc : Bool × Bool × Bool) :
    IntraHop.get ((PyDict.keys h).foldl
      (fun (h : IntraHop E) R => if keepRn pbc R then h else (h.removeRn R).1) h) =
    fun R i j => if keepRn pbc R then IntraHop.get h R i j else none := by
  rw [(foldl_removeRn hi (keepRn pbc) (PyDict.keys h)).2]
  funext R i j
  cases hk : keepRn pbc R
  · simp only [Bool.false_eq_true, if_false]
    split_ifs with hex
    · rfl
    · by_contra hne
      apply hex
      rcases mem_keys_of_get (hne) with hm | hm
      · exact ⟨R, hm, hk, Or.inl rfl⟩
      · exact ⟨-R, hm, by rw [keepRn_neg]; exact hk, Or.inr (by rw [neg_neg])⟩
  · simp only [if_true]
    rw [if_neg]
    rintro ⟨S, _, hS, rfl | rfl⟩
    · rw [hk] at hS; exact absurd hS (by simp)
    · rw [keepRn_neg, hS] at hk; exact absurd hk (by simp)

/-- A stored term is visible through `get`. -/
theorem get_of_look {h : IntraHop E} (hi : IntraHop.Inv h) {R : Cell} {i j : ℤ} {e : E}
    (hl : IntraHop.look h R (i, j) = some e) : IntraHop.get h R i j = some e := by
  rw [IntraHop.get_eq_look, if_neg]
  · exact hl
  · rw [IntraHop.look_norm hi hl]; simp

theorem rng_of_get {s : PrimCell F E Λ} (h : WF s) {R : Cell} {i j : ℤ} {e : E}
    (hg : IntraHop.get s.hops R i j = some e) :
    (0 ≤ i ∧ i < s.numOrb) ∧ (0 ≤ j ∧ j < s.numOrb) ∧ ¬ (R = 0 ∧ i = j) := by
  rw [IntraHop.get_eq_look] at hg
  split_ifs at hg with hc
  · obtain ⟨e', he', -⟩ := Option.map_eq_some_iff.1 hg
    obtain ⟨h1, h2, h3⟩ := h.rng _ _ _ _ he'
    refine ⟨h2, h1, ?_⟩
    rintro ⟨rfl, rfl⟩
    exact h3 ⟨neg_zero, rfl⟩
  · exact h.rng _ _ _ _ hg

/-- Well-formedness expressed on the visible map. -/
theorem WF_of_get {s : PrimCell F E Λ} (hi : IntraHop.Inv s.hops)
    (h : ∀ R i j e, IntraHop.get s.hops R i j = some e →
      (0 ≤ i ∧ i < s.numOrb) ∧ (0 ≤ j ∧ j < s.numOrb) ∧ ¬ (R = 0 ∧ i = j)) : WF s :=
  ⟨hi, fun R i j e hl => h R i j e (get_of_look hi hl)⟩

theorem WF_applyPbc {s : PrimCell F E Λ} (h : WF s) (pbc : List Bool) :
    WF (applyPbc s pbc).1 := by
  unfold applyPbc
  split_ifs
  · exact h
  · split
    · rename_i a b c
      refine WF_of_get (foldl_removeRn h.inv (keepRn (a, b, c)) _).1 ?_
      intro R i j e hg
      simp only at hg
      rw [get_applyPbc h.inv (a, b, c)] at hg
      cases hk : keepRn (a, b, c) R
      · simp [hk] at hg
      · simp only [hk, if_true] at hg
        exact rng_of_get h hg
    · exact h

theorem setPositions_length : ∀ (orbs : List (Orbital F Λ)) (pos : List (Vec3 F)),
    (setPositions orbs pos).1.length = orbs.length := by
  intro orbs
  induction orbs with
  | nil => intro pos; cases pos <;> simp [setPositions]
  | cons o orbs ih =>
    intro pos
    cases pos with
    | nil => simp [setPositions]
    | cons p pos => simp [setPositions, ih]

theorem syncOrb_orbs (H : HashFns F E Λ) (s : PrimCell F E Λ) (f : Bool) :
    (syncOrb H s f).orbs = s.orbs ∧ (syncOrb H s f).hops = s.hops := by
  unfold syncOrb; simp only; split_ifs <;> simp

theorem WF_syncOrb {s : PrimCell F E Λ} (H : HashFns F E Λ) (h : WF s) (f : Bool) :
    WF (syncOrb H s f) :=
  WF_mono h (syncOrb_orbs H s f).2 (by simp [numOrb, (syncOrb_orbs H s f).1])

theorem WF_syncHop {s : PrimCell F E Λ} (H : HashFns F E Λ) (h : WF s) (f : Bool) :
    WF (syncHop H s f) := by
  have hw : WF { s with hops := s.hops.purge } :=
    WF_hops_sub h _ (IntraHop.Inv_purge h.inv) (fun R p e hl => by
      rwa [IntraHop.look_purge h.inv] at hl)
  unfold syncHop
  simp only
  split_ifs
  · exact ⟨hw.inv, hw.rng⟩
  · exact ⟨hw.inv, hw.rng⟩

theorem WF_resetLattice {s : PrimCell F E Λ} (H : HashFns F E Λ) (h : WF s)
    (l : Option (List (List F))) (o : Option (List F)) (u : F) (f : Bool) :
    WF (resetLattice H s l o u f).1 := by
  unfold resetLattice
  split_ifs with h1 h2
  · exact h
  all_goals
    split
    · exact h
    · split
      · exact h
      · first
        | exact WF_mono h rfl (le_refl _)
        | (simp only
           split
           · exact WF_syncOrb H h false
           · split_ifs
             · exact WF_mono (WF_syncOrb H h false) rfl (by simp [numOrb, setPositions_length])
             · exact WF_mono (WF_syncOrb H h false) rfl (by simp [numOrb, setPositions_length]))

/-! ### Counting hoppings -/

theorem bump_length {c c' : List ℕ} {x : ℤ} (h : bump c x = some c') : c'.length = c.length := by
  unfold bump at h
  obtain ⟨k, _, rfl⟩ := Option.map_eq_some_iff.1 h
  simp

theorem bump_get {c : List ℕ} {x : ℤ} (h0 : 0 ≤ x) (h1 : x < c.length) :
    ∃ c', bump c x = some c' ∧ c'.length = c.length ∧
      ∀ k : ℕ, c'.getD k 0 = c.getD k 0 + if (k : ℤ) = x then 1 else 0 := by
  refine ⟨c.modify x.toNat (· + 1), by simp [bump, pyIndex_of_nonneg h0 h1], by simp, ?_⟩
  intro k
  rw [List.getD_eq_getElem?_getD, List.getD_eq_getElem?_getD, List.getElem?_modify]
  by_cases hk : x.toNat = k
  · have hx : (k : ℤ) = x := by omega
    have hkl : k < c.length := by omega
    simp [hk, hx, hkl]
  · have hx : ¬ (k : ℤ) = x := by omega
    simp [hk, hx]

theorem countLoop_spec : ∀ (ps : List Pair) (c : List ℕ),
    (∀ p ∈ ps, (0 ≤ p.1 ∧ p.1 < (c.length : ℤ)) ∧ (0 ≤ p.2 ∧ p.2 < (c.length : ℤ))) →
    ∃ c', countLoop c ps = some c' ∧ c'.length = c.length ∧
      ∀ k : ℕ, c'.getD k 0 = c.getD k 0 + ps.countP (fun p => p.1 = (k : ℤ)) + ps.countP (fun p => p.2 = (k : ℤ)) := by
  intro ps
  induction ps with
  | nil => intro c _; exact ⟨c, rfl, rfl, by simp⟩
  | cons p ps ih =>
    intro c h
    obtain ⟨hp1, hp2⟩ := h p (by simp)
    obtain ⟨c1, e1, l1, g1⟩ := bump_get hp1.1 hp1.2
    obtain ⟨c2, e2, l2, g2⟩ := bump_get (c := c1) hp2.1 (by rw [l1]; exact hp2.2)
    obtain ⟨c3, e3, l3, g3⟩ := ih c2 (by
      intro q hq; rw [l2, l1]; exact h q (by simp [hq]))
    refine ⟨c3, by simp [countLoop, e1, e2, e3], by rw [l3, l2, l1], ?_⟩
    intro k
    rw [g3, g2, g1, List.countP_cons, List.countP_cons]
    have a1 : (if (k : ℤ) = p.1 then 1 else 0) = if (decide (p.1 = (k : ℤ))) = true then 1 else 0 := by
      by_cases hh : (k : ℤ) = p.1
      · simp [hh]
      · simp [hh, Ne.symm hh]
    have a2 : (if (k : ℤ) = p.2 then 1 else 0) = if (decide (p.2 = (k : ℤ))) = true then 1 else 0 := by
      by_cases hh : (k : ℤ) = p.2
      · simp [hh]
      · simp [hh, Ne.symm hh]
    rw [a1, a2]
    omega

theorem flatMap_pairs (h : IntraHop E) :
    h.flatMap (fun q => q.2.map Prod.fst) = (IntraHop.toList h).map (fun t => t.2.1) := by
  unfold IntraHop.toList IntraHop.purge
  induction h with
  | nil => rfl
  | cons q h ih =>
    cases hq : q.2 with
    | nil => simp [hq, ih]
    | cons a d =>
      rw [List.flatMap_cons, ih, List.filter_cons_of_pos (by simp [hq]), List.flatMap_cons,
        List.map_append, List.map_map, hq]
      rfl

/-- Number of hopping ends at orbital `x`, as counted by `trim`, is the number of neighbours
`(R, j)` of `x` in the conjugate-symmetric hopping map. -/
theorem degree_eq {s : PrimCell F E Λ} (h : WF s) (x : ℤ) :
    ((IntraHop.toList s.hops).map (fun t => t.2.1)).countP (fun p => p.1 = x) +
    ((IntraHop.toList s.hops).map (fun t => t.2.1)).countP (fun p => p.2 = x) =
    Set.ncard {q : Cell × ℤ | IntraHop.get s.hops q.1 x q.2 ≠ none} := by
  set T := IntraHop.toList s.hops with hT
  have hnd := IntraHop.toList_keys_nodup h.inv
  rw [← hT] at hnd
  set A := (T.filter (fun t => decide (t.2.1.1 = x))).map (fun t => ((t.1, t.2.1.2) : Cell × ℤ)) with hA
  set B := (T.filter (fun t => decide (t.2.1.2 = x))).map (fun t => ((-t.1, t.2.1.1) : Cell × ℤ)) with hB
  have hlenA : A.length = (T.map (fun t => t.2.1)).countP (fun p => p.1 = x) := by
    rw [hA, List.length_map, List.countP_map, List.countP_eq_length_filter]; rfl
  have hlenB : B.length = (T.map (fun t => t.2.1)).countP (fun p => p.2 = x) := by
    rw [hB, List.length_map, List.countP_map, List.countP_eq_length_filter]; rfl
  have memA : ∀ q, q ∈ A ↔ ∃ e, (q.1, (x, q.2), e) ∈ T := by
    intro q
    rw [hA, List.mem_map]
    constructor
    · rintro ⟨⟨R, ⟨i, j⟩, e⟩, ht, rfl⟩
      obtain ⟨h1, h2⟩ := List.mem_filter.1 ht
      simp only [decide_eq_true_eq] at h2
      subst h2
      exact ⟨e, h1⟩
    · rintro ⟨e, he⟩
      exact ⟨(q.1, (x, q.2), e), List.mem_filter.2 ⟨he, by simp⟩, rfl⟩
  have memB : ∀ q, q ∈ B ↔ ∃ e, (-q.1, (q.2, x), e) ∈ T := by
    intro q
    rw [hB, List.mem_map]
    constructor
    · rintro ⟨⟨R, ⟨i, j⟩, e⟩, ht, rfl⟩
      obtain ⟨h1, h2⟩ := List.mem_filter.1 ht
      simp only [decide_eq_true_eq] at h2
      subst h2
      exact ⟨e, by simpa using h1⟩
    · rintro ⟨e, he⟩
      exact ⟨(-q.1, (q.2, x), e), List.mem_filter.2 ⟨he, by simp⟩, by simp⟩
  have ndA : A.Nodup := by
    rw [hA]
    refine List.Nodup.map_on ?_ (List.Nodup.filter _ (List.Nodup.of_map _ hnd))
    rintro ⟨R, ⟨i, j⟩, e⟩ ht ⟨R', ⟨i', j'⟩, e'⟩ ht' heq
    obtain ⟨h1, h2⟩ := List.mem_filter.1 ht
    obtain ⟨h1', h2'⟩ := List.mem_filter.1 ht'
    simp only [decide_eq_true_eq] at h2 h2'
    simp only [Prod.mk.injEq] at heq
    obtain ⟨rfl, rfl⟩ := heq
    subst h2; subst h2'
    rw [hT, IntraHop.mem_toList h.inv] at h1 h1'
    rw [h1] at h1'
    simp only [Option.some.injEq] at h1'
    rw [h1']
  have ndB : B.Nodup := by
    rw [hB]
    refine List.Nodup.map_on ?_ (List.Nodup.filter _ (List.Nodup.of_map _ hnd))
    rintro ⟨R, ⟨i, j⟩, e⟩ ht ⟨R', ⟨i', j'⟩, e'⟩ ht' heq
    obtain ⟨h1, h2⟩ := List.mem_filter.1 ht
    obtain ⟨h1', h2'⟩ := List.mem_filter.1 ht'
    simp only [decide_eq_true_eq] at h2 h2'
    simp only [Prod.mk.injEq] at heq
    obtain ⟨hR, rfl⟩ := heq
    have hR' := neg_injective hR
    subst hR'
    subst h2; subst h2'
    rw [hT, IntraHop.mem_toList h.inv] at h1 h1'
    rw [h1] at h1'
    simp only [Option.some.injEq] at h1'
    rw [h1']
  have disj : ∀ a ∈ A, ∀ b ∈ B, a ≠ b := by
    rintro a ha b hb rfl
    obtain ⟨e, he⟩ := (memA a).1 ha
    obtain ⟨e', he'⟩ := (memB a).1 hb
    rw [hT, IntraHop.mem_toList h.inv] at he he'
    have n1 := IntraHop.look_norm h.inv he
    have n2 := IntraHop.look_norm h.inv he'
    have nd := (h.rng _ _ _ _ he).2.2
    simp only at n1 n2
    rw [checkConj_swap nd, n1] at n2
    exact absurd n2 (by simp)
  have ndAB : (A ++ B).Nodup := List.nodup_append.2 ⟨ndA, ndB, disj⟩
  have hset : {q : Cell × ℤ | IntraHop.get s.hops q.1 x q.2 ≠ none} =
      ((A ++ B).toFinset : Set (Cell × ℤ)) := by
    ext q
    simp only [Set.mem_setOf_eq, List.coe_toFinset, List.mem_append]
    rw [memA, memB, IntraHop.get_eq_look]
    simp only [hT, IntraHop.mem_toList h.inv]
    cases hc : checkConj q.1 x q.2
    · simp only [Bool.false_eq_true, if_false]
      constructor
      · intro hne; exact Or.inl (Option.ne_none_iff_exists'.1 hne)
      · rintro (⟨e, he⟩ | ⟨e, he⟩)
        · rw [he]; simp
        · have n2 := IntraHop.look_norm h.inv he
          have nd := (h.rng _ _ _ _ he).2.2
          have := checkConj_swap nd
          simp only [neg_neg] at this n2
          rw [hc, n2] at this
          exact absurd this (by simp)
    · simp only [if_true]
      constructor
      · intro hne
        refine Or.inr (Option.ne_none_iff_exists'.1 ?_)
        intro hh; rw [hh] at hne; exact hne rfl
      · rintro (⟨e, he⟩ | ⟨e, he⟩)
        · have n1 := IntraHop.look_norm h.inv he
          simp only at n1
          rw [hc] at n1
          exact absurd n1 (by simp)
        · rw [he]; simp
  rw [hset, Set.ncard_coe_finset, List.toFinset_card_of_nodup ndAB, List.length_append, hlenA, hlenB]

theorem mem_orbIdTrim (c : List ℕ) (x : ℤ) :
    x ∈ orbIdTrim c ↔ 0 ≤ x ∧ x < c.length ∧ c.getD x.toNat 0 ≤ 1 := by
  unfold orbIdTrim
  simp only [List.mem_map, List.mem_filter, decide_eq_true_eq, Prod.exists,
    List.mem_zipIdx_iff_getElem?]
  constructor
  · rintro ⟨a, k, ⟨hm, hle⟩, rfl⟩
    obtain ⟨hk, hka⟩ := List.getElem?_eq_some_iff.1 hm
    refine ⟨by omega, by omega, ?_⟩
    simp [List.getD_eq_getElem?_getD, hk, hka, hle]
  · rintro ⟨h0, h1, h2⟩
    refine ⟨c[x.toNat]'(by omega), x.toNat, ⟨by simp, ?_⟩, by omega⟩
    rw [List.getD_eq_getElem?_getD, List.getElem?_eq_getElem (by omega)] at h2
    simpa using h2

/-- Under well-formedness `trim` never fails and removes the low-degree orbitals. -/
theorem trim_eq {s : PrimCell F E Λ} (h : WF s) (hl : s.locked = false) :
    ∃ L, trim s = removeOrbitals s L ∧
      ∀ x, x ∈ L ↔ (0 ≤ x ∧ x < s.numOrb) ∧
        Set.ncard {q : Cell × ℤ | IntraHop.get s.hops q.1 x q.2 ≠ none} ≤ 1 := by
  have hps : ∀ p ∈ s.hops.flatMap (fun q => q.2.map Prod.fst),
      (0 ≤ p.1 ∧ p.1 < ((List.replicate s.numOrb 0 : List ℕ).length : ℤ)) ∧
      (0 ≤ p.2 ∧ p.2 < ((List.replicate s.numOrb 0 : List ℕ).length : ℤ)) := by
    intro p hp
    rw [flatMap_pairs] at hp
    obtain ⟨⟨R, ⟨i, j⟩, e⟩, ht, rfl⟩ := List.mem_map.1 hp
    rw [IntraHop.mem_toList h.inv] at ht
    obtain ⟨h1, h2, -⟩ := h.rng _ _ _ _ ht
    rw [List.length_replicate]
    exact ⟨h1, h2⟩
  obtain ⟨c, hc, hlen, hget⟩ := countLoop_spec _ _ hps
  refine ⟨orbIdTrim c, by simp [trim, hl, hc], ?_⟩
  intro x
  rw [mem_orbIdTrim, hlen, List.length_replicate, and_assoc]
  refine and_congr_right (fun h0 => and_congr_right (fun h1 => ?_))
  rw [hget, ← degree_eq h x, flatMap_pairs]
  have : ((x.toNat : ℕ) : ℤ) = x := Int.toNat_of_nonneg h0
  rw [this]
  simp [List.getD_eq_getElem?_getD, List.getElem?_replicate]
  split_ifs <;> simp

theorem trim_cases {s : PrimCell F E Λ} :
    (trim s).1 = s ∨ ∃ L, trim s = removeOrbitals s L ∧
      ∀ x ∈ L, 0 ≤ x := by
  unfold trim
  split_ifs
  · exact Or.inl rfl
  · split
    · exact Or.inl rfl
    · rename_i c hc
      exact Or.inr ⟨_, rfl, fun x hx => ((mem_orbIdTrim c x).1 hx).1⟩

theorem WF_trim {s : PrimCell F E Λ} (h : WF s) : WF (trim s).1 := by
  cases hl : s.locked
  · obtain ⟨L, hL, hm⟩ := trim_eq h hl
    rw [hL]
    exact WF_removeOrbitals h L (fun x hx => ((hm x).1 hx).1)
  · have : trim s = (s, .error .lock) := by simp [trim, hl]
    rw [this]; exact h

theorem WF_step {s : PrimCell F E Λ} (H : HashFns F E Λ) (h : WF s) (op : Op F E Λ)
    (hr : OpInRange s op) : WF (step H s op).1 := by
  cases op with
  | addOrbital p e l => exact WF_addOrbital h _ _ _
  | addOrbitalCart p u e l => exact WF_addOrbitalCart h _ _ _ _
  | setOrbital i p e l => exact WF_setOrbital h _ _ _ _
  | setOrbitalCart i p u e l => exact WF_setOrbitalCart h _ _ _ _ _
  | removeOrbital i => exact WF_removeOrbital h i hr
  | removeOrbitals L => exact WF_removeOrbitals h L hr
  | addHopping rn i j e => exact WF_addHopping h _ _ _ _
  | addHoppingDict b d => exact WF_addHoppingDict h _ _
  | removeHopping rn i j => exact WF_removeHopping h _ _ _
  | trim => exact WF_trim h
  | applyPbc p => exact WF_applyPbc h p
  | resetLattice l o u f => exact WF_resetLattice H h l o u f

theorem WF_call {s : PrimCell F E Λ} (H : HashFns F E Λ) (h : WF s) (c : Call F E Λ)
    (hr : ∀ op, c = .inl op → OpInRange s op) : WF (call H s c) := by
  cases c with
  | inl op => exact WF_step H h op (hr op rfl)
  | inr r =>
    cases r with
    | syncOrb f => exact WF_syncOrb H h f
    | syncHop f => exact WF_syncHop H h f

theorem WF_run {s : PrimCell F E Λ} (H : HashFns F E Λ) (h : WF s) (cs : List (Call F E Λ))
    (hr : InRange H s cs) : WF (run H s cs) := by
  induction cs generalizing s with
  | nil => exact h
  | cons c cs ih =>
    have h1 : WF (call H s c) := WF_call H h c (by
      rintro op rfl
      exact hr [] op cs rfl)
    refine ih h1 ?_
    intro pre op post he
    exact hr (c :: pre) op post (by rw [he]; rfl)

end PrimCell
end Verif

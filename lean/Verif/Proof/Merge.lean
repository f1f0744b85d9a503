import Verif.Proof.Advanced
import Verif.Proof.InterHop
import Verif.Props.Reset
import Verif.Props.Base

/-! # Proofs about `merge_prim_cell` -/

set_option linter.unusedSectionVars false

namespace Verif

/-! ### Adding a consistent list of hoppings -/

section Add

variable {F E Λ : Type*} [Field F] [DecidableEq F] [InvolutiveStar E]

/-- One call of `add_hopping` on the cell under construction. -/
def addTerm (c : PrimCell F E Λ) (t : Cell × Pair × E) : Except AdvErr (PrimCell F E Λ) :=
  propagate (c.addHopping [t.1.1, t.1.2.1, t.1.2.2] t.2.1.1 t.2.1.2 t.2.2)

theorem addTerms_spec {n : ℕ} {T : Cell → ℤ → ℤ → E → Prop}
    (hfun : ∀ R x y e e', T R x y e → T R x y e' → e = e')
    (hconj : ∀ R x y e, T R x y e → T (-R) y x (star e))
    (hrng : ∀ R x y e, T R x y e → (0 ≤ x ∧ x < n) ∧ (0 ≤ y ∧ y < n) ∧ ¬ (R = 0 ∧ x = y)) :
    ∀ (l : List (Cell × Pair × E)) (c : PrimCell F E Λ), c.locked = false → c.numOrb = n →
      IntraHop.Inv c.hops → (∀ R x y e, IntraHop.get c.hops R x y = some e → T R x y e) →
      (∀ R x y e, (R, (x, y), e) ∈ l → T R x y e) →
      ∃ h', l.foldlM addTerm c = .ok { c with hops := h' } ∧ IntraHop.Inv h' ∧
        ∀ R x y e, IntraHop.get h' R x y = some e ↔ IntraHop.get c.hops R x y = some e ∨
          (R, (x, y), e) ∈ l ∨ ∃ e', (-R, (y, x), e') ∈ l ∧ e = star e'
  | [], c, _, _, hi, _, _ => ⟨c.hops, rfl, hi, by simp⟩
  | (R0, (a, b), e0) :: l, c, hl, hn, hi, hsub, hT => by
    have h0 : T R0 a b e0 := hT _ _ _ _ (by simp)
    obtain ⟨ra, rb, hnd⟩ := hrng _ _ _ _ h0
    have hstep : addTerm c (R0, (a, b), e0) = .ok { c with hops := c.hops.add R0 a b e0 } :=
      addHopping_legal e0 hl (by rw [hn]; exact ra) (by rw [hn]; exact rb) hnd
    have hone : ∀ R x y e, IntraHop.get (c.hops.add R0 a b e0) R x y = some e ↔
        IntraHop.get c.hops R x y = some e ∨ (R = R0 ∧ x = a ∧ y = b ∧ e = e0) ∨
          (R = -R0 ∧ x = b ∧ y = a ∧ e = star e0) := by
      intro R x y e
      rw [IntraHop.get_add R0 a b e0 hnd]
      unfold HopMap.add
      split_ifs with h1 h2
      · obtain ⟨rfl, rfl, rfl⟩ := h1
        constructor
        · intro h; exact Or.inr (Or.inl ⟨rfl, rfl, rfl, (Option.some.inj h).symm⟩)
        · rintro (h | h | ⟨h1, h2, h3, rfl⟩)
          · rw [hfun _ _ _ _ _ (hsub _ _ _ _ h) h0]
          · rw [h.2.2.2]
          · have := hconj _ _ _ _ h0
            subst h2
            rw [← h1] at this
            exact congrArg some (hfun _ _ _ _ _ h0 this)
      · obtain ⟨rfl, rfl, rfl⟩ := h2
        constructor
        · intro h; exact Or.inr (Or.inr ⟨rfl, rfl, rfl, (Option.some.inj h).symm⟩)
        · rintro (h | h | h)
          · rw [hfun _ _ _ _ _ (hsub _ _ _ _ h) (hconj _ _ _ _ h0)]
          · exact absurd ⟨h.1, h.2.1, h.2.2.1⟩ h1
          · rw [h.2.2.2]
      · constructor
        · intro h; exact Or.inl h
        · rintro (h | h | h)
          · exact h
          · exact absurd ⟨h.1, h.2.1, h.2.2.1⟩ h1
          · exact absurd ⟨h.1, h.2.1, h.2.2.1⟩ h2
    obtain ⟨h', q1, q2, q3⟩ := addTerms_spec hfun hconj hrng l { c with hops := c.hops.add R0 a b e0 }
      hl hn (IntraHop.Inv_add hi _ _ _ _) (by
        intro R x y e he
        rcases (hone R x y e).1 he with h | ⟨rfl, rfl, rfl, rfl⟩ | ⟨rfl, rfl, rfl, rfl⟩
        · exact hsub _ _ _ _ h
        · exact h0
        · exact hconj _ _ _ _ h0) (fun R x y e he => hT R x y e (by simp [he]))
    refine ⟨h', ?_, q2, ?_⟩
    · rw [List.foldlM_cons, hstep]; exact q1
    · intro R x y e
      rw [q3]
      simp only [hone, List.mem_cons, Prod.mk.injEq]
      constructor
      · rintro ((h | ⟨rfl, rfl, rfl, rfl⟩ | ⟨rfl, rfl, rfl, rfl⟩) | h | ⟨e', h, rfl⟩)
        · exact Or.inl h
        · exact Or.inr (Or.inl (Or.inl ⟨rfl, ⟨rfl, rfl⟩, rfl⟩))
        · exact Or.inr (Or.inr ⟨e0, Or.inl ⟨by simp, ⟨rfl, rfl⟩, rfl⟩, rfl⟩)
        · exact Or.inr (Or.inl (Or.inr h))
        · exact Or.inr (Or.inr ⟨e', Or.inr h, rfl⟩)
      · rintro (h | (⟨rfl, ⟨rfl, rfl⟩, rfl⟩ | h) | ⟨e', (⟨h1, ⟨rfl, rfl⟩, rfl⟩ | h), rfl⟩)
        · exact Or.inl (Or.inl h)
        · exact Or.inl (Or.inr (Or.inl ⟨rfl, rfl, rfl, rfl⟩))
        · exact Or.inr (Or.inl h)
        · exact Or.inl (Or.inr (Or.inr ⟨by rw [← h1, neg_neg], rfl, rfl, rfl⟩))
        · exact Or.inr (Or.inr ⟨e', h, rfl⟩)

/-- Nested loops flattened. -/
theorem foldlM_flatMap {α β γ ε : Type*} (f : β → γ → Except ε β) (g : α → List γ) :
    ∀ (l : List α) (b : β), l.foldlM (fun b a => (g a).foldlM f b) b = (l.flatMap g).foldlM f b
  | [], b => rfl
  | a :: l, b => by
    rw [List.foldlM_cons, List.flatMap_cons, List.foldlM_append]
    congr 1
    funext b'
    exact foldlM_flatMap f g l b'

/-- A list of terms with shifted orbital indices. -/
def shiftTerms (oi oj : ℤ) (l : List (Cell × Pair × E)) : List (Cell × Pair × E) :=
  l.map (fun t => (t.1, (t.2.1.1 + oi, t.2.1.2 + oj), t.2.2))

theorem mem_shiftTerms (oi oj : ℤ) (l : List (Cell × Pair × E)) (R : Cell) (x y : ℤ) (e : E) :
    (R, (x, y), e) ∈ shiftTerms oi oj l ↔ (R, (x - oi, y - oj), e) ∈ l := by
  unfold shiftTerms
  rw [List.mem_map]
  constructor
  · rintro ⟨⟨R', ⟨i, j⟩, e'⟩, hm, he⟩
    simp only [Prod.mk.injEq] at he
    obtain ⟨rfl, ⟨rfl, rfl⟩, rfl⟩ := he
    simpa using hm
  · intro hm
    exact ⟨_, hm, by simp⟩

end Add

/-- Indexing a concatenation of blocks. -/
theorem flatMap_block {α β : Type*} (f : α → List β) : ∀ (l : List α) (p : ℕ) (x : α) (a : ℕ),
    l[p]? = some x → a < (f x).length →
    (l.flatMap f)[((l.map (fun y => (f y).length)).take p).sum + a]? = (f x)[a]?
  | [], p, x, a, h, _ => by simp at h
  | y :: l, 0, x, a, h, ha => by
    simp only [List.getElem?_cons_zero, Option.some.injEq] at h
    subst h
    simp only [List.take_zero, List.sum_nil, Nat.zero_add, List.flatMap_cons]
    rw [List.getElem?_append_left ha]
  | y :: l, p + 1, x, a, h, ha => by
    simp only [List.getElem?_cons_succ] at h
    rw [List.flatMap_cons, List.map_cons, List.take_succ_cons, List.sum_cons,
      List.getElem?_append_right (by omega), ← flatMap_block f l p x a h ha]
    congr 1
    omega

theorem mergeStart_succ (ns : List ℕ) (p : ℕ) (h : p < ns.length) :
    mergeStart ns (p + 1) = mergeStart ns p + ns[p] := by
  unfold mergeStart
  rw [List.take_succ_eq_append_getElem h, List.sum_append]
  simp

theorem mergeStart_mono (ns : List ℕ) {p q : ℕ} (h : p ≤ q) : mergeStart ns p ≤ mergeStart ns q := by
  unfold mergeStart
  have : (ns.take p).sum ≤ (ns.take q).sum := by
    have := List.take_take (i := p) (j := q) (l := ns)
    rw [min_eq_left h] at this
    rw [← this]
    calc ((ns.take q).take p).sum ≤ ((ns.take q).take p).sum + ((ns.take q).drop p).sum := by omega
      _ = _ := List.sum_take_add_sum_drop _ _
  exact_mod_cast this

theorem mergeStart_le_sum (ns : List ℕ) (p : ℕ) : mergeStart ns p ≤ (ns.sum : ℕ) := by
  unfold mergeStart
  have := List.sum_take_add_sum_drop ns p
  omega

/-- Position inside the blocks determines block and offset. -/
theorem block_inj {ns : List ℕ} {p q : ℕ} {i j : ℤ} (hp : p < ns.length) (hq : q < ns.length)
    (hi : 0 ≤ i ∧ i < ns[p]) (hj : 0 ≤ j ∧ j < ns[q]) (h : mergeStart ns p + i = mergeStart ns q + j) :
    p = q ∧ i = j := by
  have h1 := mergeStart_succ ns p hp
  have h2 := mergeStart_succ ns q hq
  rcases lt_trichotomy p q with hlt | rfl | hlt
  · have := mergeStart_mono ns (show p + 1 ≤ q from hlt)
    omega
  · exact ⟨rfl, by omega⟩
  · have := mergeStart_mono ns (show q + 1 ≤ p from hlt)
    omega

theorem block_range {ns : List ℕ} {p : ℕ} {i : ℤ} (hp : p < ns.length) (hi : 0 ≤ i ∧ i < ns[p]) :
    0 ≤ mergeStart ns p + i ∧ mergeStart ns p + i < (ns.sum : ℕ) := by
  have h1 := mergeStart_succ ns p hp
  have h2 := mergeStart_le_sum ns (p + 1)
  have h3 : 0 ≤ mergeStart ns p := by unfold mergeStart; omega
  omega

section Merge

variable {F E Λ : Type*} [Field F] [LinearOrder F] [InvolutiveStar E]

open PrimCell

theorem latOfList_rows (m : Mat3 F) : latOfList (latRows m) = some m := by
  unfold latOfList latRows
  simp only [Option.some.injEq]
  ext i j
  fin_cases i <;> fin_cases j <;> rfl

theorem vecOfList_vec (v : Vec3 F) : vecOfList [v 0, v 1, v 2] = some v := by
  unfold vecOfList
  simp only [Option.some.injEq]
  ext i
  fin_cases i <;> rfl

/-- The cell left in memory by the call of `reset_lattice` inside the merge. -/
noncomputable def resetCell (H : HashFns F E Λ) (lat : Mat3 F) (o : Vec3 F) (s : PrimCell F E Λ) :
    PrimCell F E Λ :=
  (s.resetLattice H (some (latRows lat)) (some [o 0, o 1, o 2]) 1 true).1

theorem reset_ok {H : HashFns F E Λ} {lat : Mat3 F} {o : Vec3 F} {s : PrimCell F E Λ}
    (hl : s.locked = false) (hd : lat.det ≠ 0 ∨ s.numOrb = 0)
    (hfresh : (syncOrb H s false).arrPos = s.orbs.map Orbital.position) :
    s.resetLattice H (some (latRows lat)) (some [o 0, o 1, o 2]) 1 true =
        (resetCell H lat o s, .ok ()) ∧
      (resetCell H lat o s).lat = lat ∧ (resetCell H lat o s).origin = o := by
  have key : (s.resetLattice H (some (latRows lat)) (some [o 0, o 1, o 2]) 1 true).2 = .ok () ∧
      (s.resetLattice H (some (latRows lat)) (some [o 0, o 1, o 2]) 1 true).1.lat = lat ∧
      (s.resetLattice H (some (latRows lat)) (some [o 0, o 1, o 2]) 1 true).1.origin = o := by
    unfold resetLattice
    rw [if_neg (by simp [hl])]
    simp only [latOfList_rows, vecOfList_vec, Option.map_some, one_smul, true_and]
    by_cases hn : s.numOrb > 0
    · rw [if_pos hn]
      have hd' : lat.det ≠ 0 := by rcases hd with h | h; exact h; omega
      have hlen : (s.orbs.length) = (List.map (cart2fracRow lat o)
          (frac2cart s.lat (syncOrb H s false).arrPos s.origin)).length := by
        rw [hfresh]; simp [frac2cart]
      unfold cart2frac
      rw [Matrix.det_transpose, if_neg hd']
      simp only
      have hs := Props.setPositions_spec s.orbs _ hlen
      rw [(syncOrb_orbs H s false).1, if_pos hs.1]
      simp
    · rw [if_neg hn]; simp
  refine ⟨Prod.ext rfl key.1, key.2.1, key.2.2⟩

theorem addOrbital_ok (c : PrimCell F E Λ) (hl : c.locked = false) (o : Orbital F Λ) :
    propagate (c.addOrbital [o.position 0, o.position 1, o.position 2] o.energy o.label) =
      .ok { c with orbs := c.orbs ++ [o] } := by
  have : (⟨vec3 (o.position 0, o.position 1, o.position 2), o.energy, o.label⟩ : Orbital F Λ) = o := by
    have hv : vec3 (o.position 0, o.position 1, o.position 2) = o.position := by
      ext i; fin_cases i <;> rfl
    rw [hv]
  simp [addOrbital, hl, checkLen, propagate, this]

theorem mergeOrbs_eq : ∀ (orbs : List (Orbital F Λ)) (c : PrimCell F E Λ), c.locked = false →
    mergeOrbs c orbs = .ok { c with orbs := c.orbs ++ orbs }
  | [], c, _ => by simp [mergeOrbs, pure, Except.pure]
  | o :: orbs, c, hl => by
    have ih := mergeOrbs_eq orbs { c with orbs := c.orbs ++ [o] } hl
    unfold mergeOrbs at ih ⊢
    rw [List.foldlM_cons, addOrbital_ok c hl o]
    refine Eq.trans ih ?_
    simp

theorem mergeOrbLoop_eq {H : HashFns F E Λ} {lat : Mat3 F} {o : Vec3 F} :
    ∀ (refs : List ℕ) (hp : Heap F E Λ) (m : PrimCell F E Λ), refs.Nodup → m.locked = false →
      (∀ r ∈ refs, (hp r).cell.resetLattice H (some (latRows lat)) (some [o 0, o 1, o 2]) 1 true =
        (resetCell H lat o (hp r).cell, .ok ())) →
      mergeOrbLoop H lat o hp m refs =
        (fun r => if r ∈ refs then { hp r with cell := resetCell H lat o (hp r).cell } else hp r,
          .ok { m with orbs := m.orbs ++ refs.flatMap (fun r => (resetCell H lat o (hp r).cell).orbs) })
  | [], hp, m, _, _, _ => by simp [mergeOrbLoop]
  | r :: refs, hp, m, hnd, hl, hok => by
    have hr := hok r (by simp)
    obtain ⟨hnot, hnd'⟩ := List.nodup_cons.1 hnd
    simp only [mergeOrbLoop]
    rw [hr]
    simp only
    rw [mergeOrbs_eq _ _ hl]
    simp only
    have hput : ∀ r' ∈ refs, (hp.put r (resetCell H lat o (hp r).cell)) r' = hp r' := by
      intro r' hr'
      unfold Heap.put
      rw [if_neg (by rintro rfl; exact hnot hr')]
    rw [mergeOrbLoop_eq refs _ { m with orbs := m.orbs ++ (resetCell H lat o (hp r).cell).orbs } hnd' hl (by
      intro r' hr'
      rw [hput r' hr']
      exact hok r' (by simp [hr']))]
    refine Prod.ext ?_ ?_
    · funext r'
      simp only
      by_cases h1 : r' ∈ refs
      · rw [if_pos h1, if_pos (by simp [h1]), hput r' h1]
      · rw [if_neg h1]
        unfold Heap.put
        by_cases h2 : r' = r
        · subst h2; simp
        · rw [if_neg h2, if_neg (by simp [h1, h2])]
    · simp only [List.flatMap_cons, List.append_assoc]
      congr 3
      congr 1
      refine List.flatMap_congr (fun r' hr' => ?_)
      rw [hput r' hr']

/-- Resetting a cell to its own lattice and origin leaves lattice, origin, orbitals and hoppings, and doing it again changes nothing. -/
theorem reset_self {H : HashFns F E Λ} {s : PrimCell F E Λ} (hl : s.locked = false) (hd : s.lat.det ≠ 0)
    (hfresh : (syncOrb H s false).arrPos = s.orbs.map Orbital.position) :
    (resetCell H s.lat s.origin s).resetLattice H (some (latRows s.lat)) (some [s.origin 0, s.origin 1, s.origin 2]) 1 true =
      (resetCell H s.lat s.origin s, .ok ()) := by
  have key : ∀ c : PrimCell F E Λ, c.locked = false → c.lat = s.lat → c.origin = s.origin →
      (syncOrb H c false).arrPos = c.orbs.map Orbital.position →
      resetCell H s.lat s.origin c = if c.numOrb > 0 then syncOrb H c false else c := by
    intro c hcl hc1 hc2 hcf
    unfold resetCell resetLattice
    rw [if_neg (by simp [hcl])]
    simp only [latOfList_rows, vecOfList_vec, Option.map_some, one_smul, true_and]
    by_cases hn : c.numOrb > 0
    · rw [if_pos hn, if_pos hn]
      rw [hc1, hc2, hcf, C36_frac_cart_frac hd]
      simp only
      have hs := Props.setPositions_spec c.orbs (c.orbs.map Orbital.position) (by simp)
      rw [(syncOrb_orbs H c false).1, if_pos hs.1]
      have ho : (setPositions c.orbs (c.orbs.map Orbital.position)).1 = c.orbs := by
        obtain ⟨-, q2, q3, q4⟩ := hs
        have hlen := congrArg List.length q2
        simp only [List.length_map] at hlen
        refine List.ext_getElem hlen fun k h1 h2 => ?_
        have e1 := congrArg (fun l => l[k]?) q2
        have e2 := congrArg (fun l => l[k]?) q3
        have e3 := congrArg (fun l => l[k]?) q4
        simp only [List.getElem?_map, List.getElem?_eq_getElem h1, List.getElem?_eq_getElem h2, Option.map_some, Option.some.injEq] at e1 e2 e3
        cases h : (setPositions c.orbs (c.orbs.map Orbital.position)).1[k]
        cases h' : c.orbs[k]
        rw [h, h'] at e1 e2 e3
        simp_all
      rw [ho]
      have hsame : (syncOrb H c false).orbs = c.orbs ∧ (syncOrb H c false).lat = c.lat ∧ (syncOrb H c false).origin = c.origin := by
        unfold syncOrb
        dsimp only
        split_ifs <;> exact ⟨rfl, rfl, rfl⟩
      rw [← hc1, ← hc2, ← hcf, ← hsame.2.1, ← hsame.2.2, ← hsame.1]
    · rw [if_neg hn, if_neg hn, ← hc1, ← hc2]
  have h1 := key s hl rfl rfl hfresh
  have htw : syncOrb H (syncOrb H s false) false = syncOrb H s false := by
    unfold syncOrb
    by_cases h : s.hashOrb = H.orb s.orbs <;> simp [h]
  have hsame : (syncOrb H s false).orbs = s.orbs ∧ (syncOrb H s false).lat = s.lat ∧ (syncOrb H s false).origin = s.origin ∧
      (syncOrb H s false).locked = s.locked := by
    unfold syncOrb
    dsimp only
    split_ifs <;> exact ⟨rfl, rfl, rfl, rfl⟩
  by_cases hn : s.numOrb > 0
  · rw [if_pos hn] at h1
    rw [h1]
    have hf2 : (syncOrb H (syncOrb H s false) false).arrPos = (syncOrb H s false).orbs.map Orbital.position := by
      rw [htw, hsame.1]; exact hfresh
    have h2 := key (syncOrb H s false) (hsame.2.2.2.trans hl) hsame.2.1 hsame.2.2.1 hf2
    rw [if_pos (by rw [numOrb, hsame.1]; exact hn), htw] at h2
    have h3 := (reset_ok (H := H) (lat := s.lat) (o := s.origin) (hsame.2.2.2.trans hl) (Or.inl hd) hf2).1
    rw [h2] at h3
    exact h3
  · rw [if_neg hn] at h1
    have h3 := (reset_ok (H := H) (lat := s.lat) (o := s.origin) hl (Or.inl hd) hfresh).1
    rw [h1] at h3 ⊢
    exact h3

/-- The loop over the cells when some of them are the same object. -/
theorem mergeOrbLoop_same {H : HashFns F E Λ} {lat : Mat3 F} {o : Vec3 F} :
    ∀ (refs : List ℕ) (hp : Heap F E Λ) (m : PrimCell F E Λ), m.locked = false →
      (∀ r ∈ refs, (hp r).cell.resetLattice H (some (latRows lat)) (some [o 0, o 1, o 2]) 1 true =
        (resetCell H lat o (hp r).cell, .ok ())) →
      (∀ r ∈ refs, (resetCell H lat o (hp r).cell).resetLattice H (some (latRows lat)) (some [o 0, o 1, o 2]) 1 true =
        (resetCell H lat o (hp r).cell, .ok ())) →
      mergeOrbLoop H lat o hp m refs =
        (fun r => if r ∈ refs then { hp r with cell := resetCell H lat o (hp r).cell } else hp r,
          .ok { m with orbs := m.orbs ++ refs.flatMap (fun r => (resetCell H lat o (hp r).cell).orbs) })
  | [], hp, m, _, _, _ => by simp [mergeOrbLoop]
  | r :: refs, hp, m, hl, hok, hid => by
    have hr := hok r (by simp)
    simp only [mergeOrbLoop]
    rw [hr]
    simp only
    rw [mergeOrbs_eq _ _ hl]
    simp only
    have hrr : resetCell H lat o (resetCell H lat o (hp r).cell) = resetCell H lat o (hp r).cell := by
      have := congrArg Prod.fst (hid r (by simp))
      exact this
    have hput : ∀ r' ∈ refs, resetCell H lat o (hp.put r (resetCell H lat o (hp r).cell) r').cell = resetCell H lat o (hp r').cell := by
      intro r' hr'
      unfold Heap.put
      by_cases h : r' = r
      · subst h; rw [if_pos rfl]; exact hrr
      · rw [if_neg h]
    rw [mergeOrbLoop_same refs _ { m with orbs := m.orbs ++ (resetCell H lat o (hp r).cell).orbs } hl (by
      intro r' hr'
      rw [hput r' hr']
      unfold Heap.put
      by_cases h : r' = r
      · subst h; rw [if_pos rfl]; exact hid r' (by simp)
      · rw [if_neg h]; exact hok r' (by simp [hr'])) (by
      intro r' hr'
      rw [hput r' hr']
      exact hid r' (by simp [hr']))]
    refine Prod.ext ?_ ?_
    · funext r'
      simp only
      by_cases h1 : r' ∈ refs
      · rw [if_pos h1, if_pos (by simp [h1]), hput r' h1]
        unfold Heap.put
        by_cases h2 : r' = r
        · subst h2; simp
        · rw [if_neg h2]
      · rw [if_neg h1]
        unfold Heap.put
        by_cases h2 : r' = r
        · subst h2; simp
        · rw [if_neg h2, if_neg (by simp [h1, h2])]
    · simp only [List.flatMap_cons, List.append_assoc]
      congr 3
      congr 1
      refine List.flatMap_congr (fun r' hr' => ?_)
      rw [hput r' hr']

/-- The arguments, all of the expected types. -/
def argList (refs : List ℕ) (hops : List (ℕ × ℕ × InterHop E)) (args : List (MergeArg E)) : Prop :=
  args.filterMap (fun a => match a with | .pc r => some r | _ => none) = refs ∧
  args.filterMap (fun a => match a with | .hop b k h => some (b, k, h) | _ => none) = hops ∧
  ∀ a ∈ args, a ≠ .other

theorem parseArgs_eq {refs : List ℕ} {hops : List (ℕ × ℕ × InterHop E)} {args : List (MergeArg E)} :
    parseArgs args = some (refs, hops) ↔ argList refs hops args := by
  induction args generalizing refs hops with
  | nil =>
    simp only [parseArgs, argList, List.filterMap_nil, Option.some.injEq, Prod.mk.injEq]
    simp
  | cons a args ih =>
    cases a with
    | pc r =>
      simp only [parseArgs, argList, Option.map_eq_some_iff, Prod.exists, Prod.mk.injEq,
        List.filterMap_cons]
      constructor
      · rintro ⟨rs, hs, h1, rfl, rfl⟩
        obtain ⟨q1, q2, q3⟩ := ih.1 h1
        exact ⟨by rw [q1], q2, by simpa using q3⟩
      · rintro ⟨h1, h2, h3⟩
        exact ⟨_, _, ih.2 ⟨rfl, rfl, fun a ha => h3 a (by simp [ha])⟩, h1, h2⟩
    | hop b k h =>
      simp only [parseArgs, argList, Option.map_eq_some_iff, Prod.exists, Prod.mk.injEq,
        List.filterMap_cons]
      constructor
      · rintro ⟨rs, hs, h1, rfl, rfl⟩
        obtain ⟨q1, q2, q3⟩ := ih.1 h1
        exact ⟨q1, by rw [q2], by simpa using q3⟩
      · rintro ⟨h1, h2, h3⟩
        exact ⟨_, _, ih.2 ⟨rfl, rfl, fun a ha => h3 a (by simp [ha])⟩, h1, h2⟩
    | other =>
      simp only [parseArgs, argList]
      constructor
      · intro h; simp at h
      · rintro ⟨-, -, h3⟩; exact absurd rfl (h3 .other (by simp))

theorem merge_eq {H : HashFns F E Λ} {hp hp' : Heap F E Λ} {args : List (MergeArg E)} {r0 : ℕ} {rs : List ℕ}
    {hops : List (ℕ × ℕ × InterHop E)} {m1 m2 m3 : PrimCell F E Λ} (hargs : argList (r0 :: rs) hops args)
    (h1 : ∀ r ∈ r0 :: rs, latDist (hp r).cell.lat (hp r0).cell.lat ≤ 1 / 100000)
    (h2 : ∀ q ∈ hops, q.1 ∈ r0 :: rs ∧ q.2.1 ∈ r0 :: rs)
    (h3 : mergeOrbLoop H (hp r0).cell.lat (hp r0).cell.origin hp
      (init H (hp r0).cell.lat (hp r0).cell.origin) (r0 :: rs) = (hp', .ok m1))
    (h4 : mergeIntra hp' ((r0 :: rs).map (fun r => (hp r).cell.numOrb)) m1 (r0 :: rs) = .ok m2)
    (h5 : mergeInter ((r0 :: rs).map (fun r => (hp r).cell.numOrb)) (r0 :: rs) m2 hops = .ok m3) :
    mergePrimCell H hp args =
      (hp', .ok ⟨m3, mergeExt (hp r0).ext ((r0 :: rs).map (fun r => (hp r).ext))⟩) := by
  have hne : args.isEmpty = false := by
    cases args with
    | nil => simp [argList] at hargs
    | cons a l => rfl
  unfold mergePrimCell
  rw [hne, if_neg (by simp), parseArgs_eq.2 hargs]
  simp only
  rw [if_neg (by
    simp only [List.any_eq_true, decide_eq_true_eq, not_exists, not_and, not_lt]
    exact h1), if_neg (by
    simp only [List.any_eq_true, decide_eq_true_eq, not_exists, not_and]
    intro q hq hor
    rcases hor with h | h
    · exact h (h2 q hq).1
    · exact h (h2 q hq).2)]
  simp only [h3, h4, h5]

end Merge
end Verif

import Verif.Proof.SkCells
import Verif.Proof.SkSym

/-! # Property C111: cells built from Slater-Koster parameters -/

namespace Verif.Props

open PrimCell Materials SK

variable {Λ : Type*}

theorem skVec_neg (s : PrimCell ℝ ℂ Λ) (R : Cell) (i j : ℕ) : skVec s (-R) j i = -skVec s R i j := by
  funext x
  simp [skVec, sitePos, frac2cartRow, Matrix.mulVec_add, cellVec, Matrix.mulVec, dotProduct, Fin.sum_univ_three, Matrix.vecHead,
    Matrix.vecTail]
  ring

theorem skBond_neg (s : PrimCell ℝ ℂ Λ) (a b c : ℤ) (dmax : ℝ) (R : Cell) (i j : ℕ) :
    SkBond s a b c dmax (-R) j i ↔ SkBond s a b c dmax R i j := by
  simp [SkBond, SkBox, skVec_neg, SK.norm3_neg]

open Classical in
/-- **C111 (hoppings).** The loop of `make_graphene_sp` and `make_mos2_soc` over `find_neighbors`, for any cell without hoppings,
any labels that name orbitals, any choice of parameters, and any range and cutoff: if the parameters are known and real for
every bond found, and no two different orbitals are closer than 1e-15 without coinciding, the loop succeeds, leaves lattice
and orbitals alone, and the hopping from orbital `i` to orbital `j` of cell `R` is the two-centre integral of the bond; between
orbitals that are not joined by such a bond there is no hopping. -/
theorem C111_hoppings (H : HashFns ℝ ℂ Λ) (HS : SCHash ℝ ℂ Λ) {tree : DistMatrix} (ht : IsDistMatrix tree) (lm : Λ → OrbLabel)
    (par : ℝ → Option Par) (a b c : ℤ) (dmax : ℝ) (s : PrimCell ℝ ℂ Λ) (hw : WF s) (hl : s.locked = false) (hne : s.orbs ≠ [])
    (hsync : (syncOrb H s false).arrPos = s.orbs.map Orbital.position) (hh : ∀ R i j, s.hops.get R i j = none)
    (hlab : ∀ o ∈ s.orbs, tens (lm o.label) ≠ none)
    (hpar : ∀ R i j, i < s.numOrb → j < s.numOrb → SkBond s a b c dmax R i j → 1.0e-15 < norm3 (skVec s R i j) ∧
      ∃ v, par (norm3 (skVec s R i j)) = some v ∧ v.real) :
    ∃ s', skHoppings H HS tree lm par a b c dmax s = .ok s' ∧ s'.lat = s.lat ∧ s'.origin = s.origin ∧ s'.orbs = s.orbs ∧
      s' = { syncOrb H s false with hops := s'.hops } ∧ WF s' ∧
      ∀ R (i j : ℕ), i < s.numOrb → j < s.numOrb →
        s'.hops.get R i j = if SkBond s a b c dmax R i j then some (skHop lm par s R i j) else none := by
  obtain ⟨g1, g2, g3, g4, g5, -, -⟩ := sync_orb_same H s false
  have hz : ¬ s.numOrb = 0 := fun h => hne (List.length_eq_zero_iff.1 h)
  set pos := s.orbs.map fun o => Matrix.vecMul o.position s.lat + s.origin with hpos
  have hfind : findNeighbors H HS tree (.prim s) none a b c dmax = .ok (nbSearch tree pos pos s.lat a b c dmax) := by
    obtain ⟨h1, h2⟩ := C70_prim H HS tree s s hsync hsync a b c dmax
    rw [h2, h1, if_neg (by simpa using hne)]
  have hst : (primPosNm H (primPosNm H s).1).1 = syncOrb H s false := by
    simp only [primPosNm, sync_orb_twice]
  obtain ⟨hmem, -, -⟩ := C70_search ht pos pos s.lat a b c dmax
  -- positions
  have hp : ∀ (i : ℕ) (o : Orbital ℝ Λ), s.orbs[i]? = some o → pos[i]? = some (sitePos s 0 i) := by
    intro i o ho
    rw [hpos, List.getElem?_map, ho]
    simp only [Option.map_some, sitePos, ho, Option.elim_some, frac2cartRow, Matrix.mulVec_transpose]
    congr 3
    funext x
    fin_cases x <;> simp [cellVec]
  have hvec : ∀ (R : Cell) (i j : ℕ) (o : Orbital ℝ Λ), s.orbs[j]? = some o →
      sitePos s 0 j + Matrix.vecMul (![(R.1 : ℝ), (R.2.1 : ℝ), (R.2.2 : ℝ)]) s.lat - sitePos s 0 i = skVec s R i j := by
    intro R i j o _
    funext x
    simp [skVec, sitePos, frac2cartRow, Matrix.mulVec_add, cellVec, Matrix.mulVec, Matrix.vecMul, dotProduct, Fin.sum_univ_three,
      Matrix.vecHead, Matrix.vecTail]
    ring
  have hterm : ∀ t, t ∈ nbSearch tree pos pos s.lat a b c dmax → ∃ oi oj, s.orbs[t.pair.1]? = some oi ∧
      s.orbs[t.pair.2]? = some oj ∧ t.rij = skVec s t.rn t.pair.1 t.pair.2 ∧
      t.distance = norm3 (skVec s t.rn t.pair.1 t.pair.2) ∧ SkBond s a b c dmax t.rn t.pair.1 t.pair.2 := by
    intro t htm
    obtain ⟨b1, b2, b3, p, q, hp1, hq1, hr, hd, h0, hm⟩ := (hmem t).1 htm
    have hi : t.pair.1 < s.orbs.length := by simpa [hpos] using (List.getElem?_eq_some_iff.1 hp1).1
    have hj : t.pair.2 < s.orbs.length := by simpa [hpos] using (List.getElem?_eq_some_iff.1 hq1).1
    have ei := List.getElem?_eq_getElem hi
    have ej := List.getElem?_eq_getElem hj
    have hr' : t.rij = skVec s t.rn t.pair.1 t.pair.2 := by
      rw [hr, ← hvec _ _ _ _ ej, Option.some.inj (hp1.symm.trans (hp _ _ ei)), Option.some.inj (hq1.symm.trans (hp _ _ ej))]
    refine ⟨_, _, ei, ej, hr', by rw [hd, hr'], ⟨b1, b2, b3⟩, ?_, ?_⟩
    · rw [← hr', ← hd]; exact h0
    · rw [← hr', ← hd]; exact hm
  have hlab' : ∀ (i : ℕ) (o : Orbital ℝ Λ), s.orbs[i]? = some o → tens (lm o.label) = some (tensD (orbLab lm s i)) := by
    intro i o ho
    obtain ⟨x, hx⟩ := Option.ne_none_iff_exists'.1 (hlab o (List.mem_of_getElem? ho))
    simp [orbLab, ho, tensD, hx]
  obtain ⟨hops, e1, e2, e3⟩ := skLoop_spec H lm par (fun t => skHop lm par s t.rn t.pair.1 t.pair.2) s.orbs
    (nbSearch tree pos pos s.lat a b c dmax) (by
      intro t htm
      obtain ⟨oi, oj, ei, ej, hr, hd, hb⟩ := hterm t htm
      obtain ⟨h15, v, hv, hre⟩ := hpar _ _ _ (List.getElem?_eq_some_iff.1 ei).1 (List.getElem?_eq_some_iff.1 ej).1 hb
      refine ⟨oi, oj, v, ei, ej, by rw [hd]; exact hv, ?_, ?_⟩
      · rw [hr, C40_tensor v hre _ h15 _ _ _ _ (hlab' _ _ ei) (hlab' _ _ ej)]
        simp [skHop, hv]
      · rintro ⟨h1, h2⟩
        have := hb.2.1
        rw [h1, h2] at this
        simp [skVec, norm3] at this) (syncOrb H s false) (WF_syncOrb H hw false) (by rw [g5, hl]) g1
  refine ⟨{ syncOrb H s false with hops := hops }, by unfold skHoppings; rw [hfind, hst]; exact e1, g2, g3, g1, rfl, e2, fun R i j hi hj => ?_⟩
  have ei : s.orbs[i]? = some s.orbs[i] := List.getElem?_eq_getElem hi
  have ej : s.orbs[j]? = some s.orbs[j] := List.getElem?_eq_getElem hj
  simp only [e3, g4]
  have hstar : ∀ R i j, i < s.numOrb → j < s.numOrb → SkBond s a b c dmax R i j →
      skHop lm par s (-R) j i = star (skHop lm par s R i j) := by
    intro R i j hi hj hb
    obtain ⟨h15, v, hv, hre⟩ := hpar _ _ _ hi hj hb
    have ei : s.orbs[i]? = some s.orbs[i] := List.getElem?_eq_getElem hi
    have ej : s.orbs[j]? = some s.orbs[j] := List.getElem?_eq_getElem hj
    have := C41_hermitian v hre (skVec s R i j) (lm s.orbs[i].label) (lm s.orbs[j].label)
    rw [C40_tensor v hre _ h15 _ _ _ _ (hlab' _ _ ei) (hlab' _ _ ej),
      C40_tensor v hre _ (by rw [SK.norm3_neg]; exact h15) _ _ _ _ (hlab' _ _ ej) (hlab' _ _ ei)] at this
    simp only [Except.map, Except.ok.injEq] at this
    simp only [skHop, skVec_neg, SK.norm3_neg, hv, Option.elim_some] at this ⊢
    exact this
  rcases fold_agree ((nbSearch tree pos pos s.lat a b c dmax).map fun t => (t.rn, (t.pair.1 : ℤ), (t.pair.2 : ℤ), skHop lm par s t.rn t.pair.1 t.pair.2))
    s.hops.get (fun R i j => if SkBond s a b c dmax R i.toNat j.toNat then some (skHop lm par s R i.toNat j.toNat) else none) (by
      intro q hq
      obtain ⟨t, htm, rfl⟩ := List.mem_map.1 hq
      obtain ⟨oi, oj, ei, ej, hr, hd, hb⟩ := hterm t htm
      simp only [Int.toNat_natCast]
      rw [if_pos hb, if_pos ((skBond_neg _ _ _ _ _ _ _ _).2 hb),
        hstar _ _ _ (List.getElem?_eq_some_iff.1 ei).1 (List.getElem?_eq_some_iff.1 ej).1 hb]
      exact ⟨rfl, rfl⟩) R i j with h | ⟨h1, h2⟩
  · simpa using h
  · rw [h1, hh]
    symm
    rw [if_neg]
    intro hb
    have hm : (⟨R, (i, j), skVec s R i j, norm3 (skVec s R i j)⟩ : NbTerm) ∈ nbSearch tree pos pos s.lat a b c dmax := by
      rw [hmem]
      exact ⟨hb.1.1, hb.1.2.1, hb.1.2.2, _, _, hp _ _ ei, hp _ _ ej, (hvec _ _ _ _ ej).symm, rfl, hb.2.1, hb.2.2⟩
    exact (h2 _ (List.mem_map_of_mem hm)).1 ⟨rfl, rfl, rfl⟩

open Classical in
/-- **C111 (symmetry).** For a crystal whose hoppings are two-centre integrals (whatever the parameters and their dependence on the
distance), every operation of space that is a symmetry of the arrangement of atoms, orbitals and energies is a symmetry of the
Hamiltonian: the matrix that moves the shells to their new places and rotates the orbitals in each shell is orthogonal and
commutes with the Hamiltonian of the infinite crystal. -/
theorem C111_symmetric {lm : Λ → OrbLabel} {par : ℝ → Option Par} {s : PrimCell ℝ ℂ Λ} {a b c : ℤ} {dmax : ℝ} {Q : Mat3 ℝ} {v : Vec3 ℝ}
    {A : Matrix (Fin 3) (Fin 3) ℤ} {τ : ℕ → Cell} {site σ : ℕ → ℕ} (hS : SpaceSym lm s a b c dmax Q v A τ site σ)
    (hhop : ∀ R (i j : ℕ), i < s.numOrb → j < s.numOrb →
      s.hops.get R i j = if SkBond s a b c dmax R i j then some (skHop lm par s R i j) else none) :
    (symMat lm s Q site σ).transpose * symMat lm s Q site σ = 1 ∧ UnitarySym s A (symMat lm s Q site σ) τ := by
  have h1 := symMat_unit hS
  refine ⟨h1, hS.unimod, ?_, symMat_comm hS hhop⟩
  exact Matrix.isUnit_det_of_left_inverse h1

end Verif.Props

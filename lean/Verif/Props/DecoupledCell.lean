import Verif.Props.Decoupled

/-! # C136: merging cells without hoppings between them -/

namespace Verif.Props

open PrimCell

variable {Λ : Type*}

/-- C136: Bloch matrices of a cell whose orbitals are those of two cells and whose hopping terms are the terms of the two cells. -/
theorem C136_cell {s s₁ s₂ : PrimCell ℝ ℂ Λ} (hw : WF s) (hw₁ : WF s₁) (hw₂ : WF s₂) (hf : ArraysFresh s) (hf₁ : ArraysFresh s₁)
    (hf₂ : ArraysFresh s₂) (d₁ d₂ : Vec3 ℝ)
    (ho₁ : ∀ (a : ℕ) (o : Orbital ℝ Λ), s₁.orbs[a]? = some o → ∃ o' : Orbital ℝ Λ, s.orbs[a]? = some o' ∧ o'.energy = o.energy ∧ o'.position = o.position + d₁)
    (ho₂ : ∀ (a : ℕ) (o : Orbital ℝ Λ), s₂.orbs[a]? = some o → ∃ o' : Orbital ℝ Λ, s.orbs[s₁.numOrb + a]? = some o' ∧ o'.energy = o.energy ∧ o'.position = o.position + d₂)
    (hh : ∀ R x y e, s.hops.get R x y = some e ↔ s₁.hops.get R x y = some e ∨ s₂.hops.get R (x - s₁.numOrb) (y - s₁.numOrb) = some e)
    (k : Vec3 ℝ) (conv : ℤ) (ham ham₁ ham₂ : IMat) (hok : setHamDense s k conv = .ok ham) (hok₁ : setHamDense s₁ k conv = .ok ham₁)
    (hok₂ : setHamDense s₂ k conv = .ok ham₂) :
    Uncoupled (toMatrix (s₁.numOrb + s₂.numOrb) ham) (toMatrix s₁.numOrb ham₁) (toMatrix s₂.numOrb ham₂) := by
  have hS : ∀ (t : PrimCell ℝ ℂ Λ) (a b : ℕ), ∀ R, t.hops.get R a b ≠ none →
      R ∈ ((C07_neighbours_finite t.hops (a : ℕ)).image Prod.fst).toFinset := fun t a b R hR =>
    (Set.Finite.mem_toFinset _).2 ⟨(R, (b : ℕ)), hR, rfl⟩
  have r1 : ∀ {R : Cell} {x y : ℤ} {e : ℂ}, s₁.hops.get R x y = some e → (0 ≤ x ∧ x < s₁.numOrb) ∧ (0 ≤ y ∧ y < s₁.numOrb) := fun h => by
    obtain ⟨a, b, -⟩ := rng_of_get hw₁ h; exact ⟨a, b⟩
  have r2 : ∀ {R : Cell} {x y : ℤ} {e : ℂ}, s₂.hops.get R x y = some e → (0 ≤ x ∧ x < s₂.numOrb) ∧ (0 ≤ y ∧ y < s₂.numOrb) := fun h => by
    obtain ⟨a, b, -⟩ := rng_of_get hw₂ h; exact ⟨a, b⟩
  have get1 : ∀ R (a b : ℕ), a < s₁.numOrb → s.hops.get R a b = s₁.hops.get R a b := by
    intro R a b ha
    ext e
    rw [hh]
    refine ⟨fun h => h.resolve_right fun h => ?_, Or.inl⟩
    have := (r2 h).1.1
    omega
  have get2 : ∀ R (a b : ℕ), s.hops.get R ((s₁.numOrb + a : ℕ) : ℤ) ((s₁.numOrb + b : ℕ) : ℤ) = s₂.hops.get R a b := by
    intro R a b
    ext e
    rw [hh]
    have e1 : (((s₁.numOrb + a : ℕ) : ℤ) - s₁.numOrb) = a := by omega
    have e2 : (((s₁.numOrb + b : ℕ) : ℤ) - s₁.numOrb) = b := by omega
    rw [e1, e2]
    refine ⟨fun h => h.resolve_left fun h => ?_, Or.inr⟩
    have := (r1 h).1.2
    omega
  have get3 : ∀ R (a b : ℕ), a < s₁.numOrb → s.hops.get R ((s₁.numOrb + b : ℕ) : ℤ) a = none ∧ s.hops.get R a ((s₁.numOrb + b : ℕ) : ℤ) = none := by
    intro R a b ha
    constructor
    · cases h : s.hops.get R ((s₁.numOrb + b : ℕ) : ℤ) a with
      | none => rfl
      | some e =>
        rcases (hh _ _ _ _).1 h with h | h
        · have := (r1 h).1.2; omega
        · have := (r2 h).2.1; omega
    · cases h : s.hops.get R a ((s₁.numOrb + b : ℕ) : ℤ) with
      | none => rfl
      | some e =>
        rcases (hh _ _ _ _).1 h with h | h
        · have := (r1 h).2.2; omega
        · have := (r2 h).1.1; omega
  have o1 : ∀ i : Fin s₁.numOrb, ∃ o o', s₁.orbs[(i : ℕ)]? = some o ∧ s.orbs[(i : ℕ)]? = some o' ∧ o'.energy = o.energy ∧
      o'.position = o.position + d₁ := fun i => by
    have hi : s₁.orbs[(i : ℕ)]? = some s₁.orbs[(i : ℕ)] := List.getElem?_eq_getElem i.2
    obtain ⟨o', h⟩ := ho₁ _ _ hi
    exact ⟨_, o', hi, h⟩
  have o2 : ∀ i : Fin s₂.numOrb, ∃ o o', s₂.orbs[(i : ℕ)]? = some o ∧ s.orbs[s₁.numOrb + (i : ℕ)]? = some o' ∧ o'.energy = o.energy ∧
      o'.position = o.position + d₂ := fun i => by
    have hi : s₂.orbs[(i : ℕ)]? = some s₂.orbs[(i : ℕ)] := List.getElem?_eq_getElem i.2
    obtain ⟨o', h⟩ := ho₂ _ _ hi
    exact ⟨_, o', hi, h⟩
  constructor
  · intro i j
    obtain ⟨oi, oi', a1, a2, a3, a4⟩ := o1 i
    obtain ⟨oj, oj', b1, b2, b3, b4⟩ := o1 j
    change ham ((i : ℕ) : ℤ) ((j : ℕ) : ℤ) = ham₁ ((i : ℕ) : ℤ) ((j : ℕ) : ℤ)
    rw [ham_entry hw hf k conv ham hok i j _ _ a2 b2 _ (hS s i j),
      ham_entry hw₁ hf₁ k conv ham₁ hok₁ i j _ _ a1 b1 _ (fun R hR => hS s i j R (by rw [get1 R i j i.2]; exact hR)), a3]
    congr 1
    refine Finset.sum_congr rfl fun R _ => ?_
    rw [get1 R i j i.2, a4, b4]
    simp only [Pi.add_apply, add_sub_add_right_eq_sub]
  · intro i j
    obtain ⟨oi, oi', a1, a2, a3, a4⟩ := o2 i
    obtain ⟨oj, oj', b1, b2, b3, b4⟩ := o2 j
    change ham ((s₁.numOrb + (i : ℕ) : ℕ) : ℤ) ((s₁.numOrb + (j : ℕ) : ℕ) : ℤ) = ham₂ ((i : ℕ) : ℤ) ((j : ℕ) : ℤ)
    rw [ham_entry hw hf k conv ham hok _ _ _ _ a2 b2 _ (hS s _ _),
      ham_entry hw₂ hf₂ k conv ham₂ hok₂ i j _ _ a1 b1 _ (fun R hR => hS s _ (s₁.numOrb + j) R (by rw [get2 R i j]; exact hR)), a3]
    congr 1
    · simp
    · refine Finset.sum_congr rfl fun R _ => ?_
      rw [get2 R i j, a4, b4]
      simp only [Pi.add_apply, add_sub_add_right_eq_sub]
  · intro i j
    obtain ⟨oi, oi', a1, a2, a3, a4⟩ := o1 i
    obtain ⟨oj, oj', b1, b2, b3, b4⟩ := o2 j
    change ham ((i : ℕ) : ℤ) ((s₁.numOrb + (j : ℕ) : ℕ) : ℤ) = 0
    rw [ham_entry hw hf k conv ham hok _ _ _ _ a2 b2 _ (hS s _ _), if_neg (by omega), Finset.sum_eq_zero]
    · simp
    · intro R _
      rw [(get3 R i j i.2).2]
      simp
  · intro i j
    obtain ⟨oi, oi', a1, a2, a3, a4⟩ := o2 i
    obtain ⟨oj, oj', b1, b2, b3, b4⟩ := o1 j
    change ham ((s₁.numOrb + (i : ℕ) : ℕ) : ℤ) ((j : ℕ) : ℤ) = 0
    rw [ham_entry hw hf k conv ham hok _ _ _ _ a2 b2 _ (hS s _ _), if_neg (by omega), Finset.sum_eq_zero]
    · simp
    · intro R _
      rw [(get3 R j i j.2).1]
      simp

theorem sync_props (H : HashFns ℝ ℂ Λ) {s : PrimCell ℝ ℂ Λ} (hw : WF s) : WF (syncArray H s) ∧ (syncArray H s).orbs = s.orbs ∧
    (syncArray H s).hops.get = s.hops.get := by
  refine ⟨WF_syncHop H (WF_syncOrb H hw false) false, syncArray_numOrb H s, ?_⟩
  have : (syncArray H s).hops = s.hops.purge := by
    unfold syncArray syncHop
    simp only [(syncOrb_orbs H s false).2]
    split_ifs <;> rfl
  rw [this, IntraHop.get_purge hw.inv]

theorem fresh_new {H : HashFns ℝ ℂ Λ} (hO : ∀ l, l ≠ [] → H.orb l ≠ H.orb []) (hP : ∀ l, l ≠ [] → H.hop l ≠ H.hop []) (lat : Mat3 ℝ)
    (o : Vec3 ℝ) (orbs : List (Orbital ℝ Λ)) (h : IntraHop ℂ) :
    ArraysFresh (syncArray H { init H lat o with orbs := orbs, hops := h }) := by
  have e1 : syncOrb H { init H lat o with orbs := orbs, hops := h } false =
      { init H lat o with
        orbs := orbs, hops := h, hashOrb := H.orb orbs, arrPos := orbs.map Orbital.position, arrEng := orbs.map Orbital.energy } := by
    unfold syncOrb
    by_cases hn : orbs = []
    · subst hn; simp [init]
    · have : H.orb [] ≠ H.orb orbs := (hO _ hn).symm
      simp [init, this]
  unfold syncArray
  rw [e1]
  unfold syncHop
  by_cases hn : h.toList = []
  · have hp : h.purge.toList = [] := by rw [toList_purge, hn]
    simp only [init, hn, ne_eq, not_true_eq_false, Bool.false_eq_true, or_self, if_false]
    exact ⟨rfl, rfl, by simp [hp], by simp [hp]⟩
  · have hne : H.hop [] ≠ H.hop h.toList := (hP _ hn).symm
    simp only [init, ne_eq, hne, not_false_eq_true, or_true, if_true]
    exact ⟨rfl, rfl, by simp [toList_purge], by simp [toList_purge]⟩

/-- C136: two cells with the same lattice merged without hoppings between them: the Bloch Hamiltonian of the result consists of those of
the cells, so its energies at every k-point are those of the first and those of the second cell. -/
theorem C136_merge {H : HashFns ℝ ℂ Λ} (hO : ∀ l, l ≠ [] → H.orb l ≠ H.orb []) (hP : ∀ l, l ≠ [] → H.hop l ≠ H.hop [])
    {hp : Heap ℝ ℂ Λ} {r₁ r₂ : ℕ} (hne : r₁ ≠ r₂) (hb₁ : Built H (hp r₁).cell) (hb₂ : Built H (hp r₂).cell)
    (hdet : (hp r₁).cell.lat.det ≠ 0) (hlat : (hp r₂).cell.lat = (hp r₁).cell.lat) :
    ∃ t, (mergePrimCell H hp [.pc r₁, .pc r₂]).2 = .ok t ∧
      t.cell.numOrb = (hp r₁).cell.numOrb + (hp r₂).cell.numOrb ∧
      ∀ k conv ham ham₁ ham₂, setHamDense (syncArray H t.cell) k conv = .ok ham →
        setHamDense (syncArray H (hp r₁).cell) k conv = .ok ham₁ → setHamDense (syncArray H (hp r₂).cell) k conv = .ok ham₂ →
        Uncoupled (toMatrix ((hp r₁).cell.numOrb + (hp r₂).cell.numOrb) ham) (toMatrix (hp r₁).cell.numOrb ham₁)
          (toMatrix (hp r₂).cell.numOrb ham₂) ∧
        (toMatrix ((hp r₁).cell.numOrb + (hp r₂).cell.numOrb) ham).charpoly =
          (toMatrix (hp r₁).cell.numOrb ham₁).charpoly * (toMatrix (hp r₂).cell.numOrb ham₂).charpoly := by
  have hb : ∀ r ∈ [r₁, r₂], Built H (hp r).cell := by
    intro r hr
    rcases List.mem_cons.1 hr with rfl | hr
    · exact hb₁
    · rw [List.mem_singleton.1 hr]; exact hb₂
  have hwf : ∀ {s : PrimCell ℝ ℂ Λ}, Built H s → WF s := by
    rintro s ⟨-, la, og, cs, he, hr, -, -⟩
    rw [he]; exact WF_run H (WF_init H la og) cs hr
  have hfr : ∀ {s : PrimCell ℝ ℂ Λ}, Built H s → ArraysFresh (syncArray H s) := by
    rintro s ⟨-, la, og, cs, he, -, i1, i2⟩
    rw [he]; exact C13_sync_gives_fresh H la og cs i1 i2
  obtain ⟨t, h1, h2, h3, h4, h5, h6, -, -, -, ⟨hh, h8⟩, h9⟩ := merge_core (H := H) (hp := hp) (args := [.pc r₁, .pc r₂]) (r0 := r₁)
    (rs := [r₂]) (hops := []) ⟨rfl, rfl, by simp⟩ (.inl (by simpa using hne)) (fun r hr => (hb r hr).1) (fun r hr => hwf (hb r hr))
    (fun r hr => by
      obtain ⟨-, la, og, cs, he, -, i1, i2⟩ := hb r hr
      obtain ⟨g1, -⟩ := C08_arrays_fresh_partial H la og cs false i1 i2
      rw [he]; exact g1) hdet
    (by
      intro r hr
      rcases List.mem_cons.1 hr with rfl | hr
      · simp
      · rw [List.mem_singleton.1 hr, hlat]; simp) (by simp)
    (C35_consistent (H := H) hb (by simp) (by simp))
  have hsz : sizes hp [r₁, r₂] = [(hp r₁).cell.numOrb, (hp r₂).cell.numOrb] := rfl
  rw [hsz] at h4 h5 h6
  have hnum : t.cell.numOrb = (hp r₁).cell.numOrb + (hp r₂).cell.numOrb := by rw [h4]; simp
  refine ⟨t, h1, hnum, fun k conv ham ham₁ ham₂ k1 k2 k3 => ?_⟩
  obtain ⟨w1, x1, y1⟩ := sync_props H h9
  obtain ⟨w2, x2, y2⟩ := sync_props H (hwf hb₁)
  obtain ⟨w3, x3, y3⟩ := sync_props H (hwf hb₂)
  have hf1 : ArraysFresh (syncArray H t.cell) := by rw [h8]; exact fresh_new hO hP _ _ _ _
  have hn1 : (syncArray H (hp r₁).cell).numOrb = (hp r₁).cell.numOrb := by unfold numOrb; rw [x2]
  have hn2 : (syncArray H (hp r₂).cell).numOrb = (hp r₂).cell.numOrb := by unfold numOrb; rw [x3]
  -- positions
  have hpos : ∀ {o u v : Vec3 ℝ}, frac2cartRow t.cell.lat t.cell.origin u = frac2cartRow (hp r₁).cell.lat o v →
      u = v + (((hp r₁).cell.lat.transpose)⁻¹).mulVec (o - (hp r₁).cell.origin) := by
    intro o u v huv
    rw [h2, h3] at huv
    unfold frac2cartRow at huv
    have hu : IsUnit (hp r₁).cell.lat.transpose.det := by rw [Matrix.det_transpose]; exact isUnit_iff_ne_zero.2 hdet
    have e : (hp r₁).cell.lat.transpose.mulVec (u - v) = o - (hp r₁).cell.origin := by
      rw [Matrix.mulVec_sub, sub_eq_sub_iff_add_eq_add, huv]
      abel
    rw [← e, Matrix.mulVec_mulVec, Matrix.nonsing_inv_mul _ hu, Matrix.one_mulVec]
    abel
  have key := C136_cell w1 w2 w3 hf1 (hfr hb₁) (hfr hb₂)
    ((((hp r₁).cell.lat.transpose)⁻¹).mulVec ((hp r₁).cell.origin - (hp r₁).cell.origin))
    ((((hp r₁).cell.lat.transpose)⁻¹).mulVec ((hp r₂).cell.origin - (hp r₁).cell.origin))
    (by
      intro a o ha
      rw [x2] at ha
      obtain ⟨o', f1, f2, -, f4⟩ := h5 0 r₁ a o rfl ha
      rw [x1]
      refine ⟨o', ?_, f2, hpos f4⟩
      rw [← f1]; simp [mergeStart])
    (by
      intro a o ha
      rw [x3] at ha
      obtain ⟨o', f1, f2, -, f4⟩ := h5 1 r₂ a o rfl ha
      rw [x1, hn1]
      rw [hlat] at f4
      refine ⟨o', ?_, f2, hpos f4⟩
      rw [← f1]; simp [mergeStart])
    (by
      intro R x y e
      rw [y1, y2, y3, hn1, h6]
      constructor
      · intro h
        cases h with
        | @intra p m R i j e a1 a2 =>
          match p, a1 with
          | 0, a1 =>
            left
            obtain rfl := Option.some.inj a1
            simpa [mergeStart] using a2
          | 1, a1 =>
            right
            obtain rfl := Option.some.inj a1
            simpa [mergeStart] using a2
          | p + 2, a1 => simp [intraSpec] at a1
        | inter a1 a2 => simp [interSpec] at a1
        | conj a1 a2 => simp [interSpec] at a1
      · rintro (h | h)
        · have := MergedHop.intra (ns := [(hp r₁).cell.numOrb, (hp r₂).cell.numOrb]) (intra := intraSpec hp [r₁, r₂])
            (inter := interSpec [r₁, r₂] []) (p := 0) rfl h
          simpa [mergeStart] using this
        · have := MergedHop.intra (ns := [(hp r₁).cell.numOrb, (hp r₂).cell.numOrb]) (intra := intraSpec hp [r₁, r₂])
            (inter := interSpec [r₁, r₂] []) (p := 1) rfl h
          simpa [mergeStart] using this)
    k conv ham ham₁ ham₂ k1 k2 k3
  rw [hn1, hn2] at key
  exact ⟨key, uncoupled_charpoly key⟩

/-! ### A concrete case: two square lattices with different origins and on-site energies -/

/-- Checksums of the concrete case. -/
def partHash : HashFns ℝ ℂ Unit := ⟨fun l => l.length, fun l => l.length⟩

/-- Memory of the concrete case: object `r` is a cell of the unit lattice with origin `(r,r,r)` and one orbital of energy `r`. -/
noncomputable def partCells : Heap ℝ ℂ Unit := fun r => ⟨run partHash (init partHash 1 (fun _ => r)) [.inl (.addOrbital [1/2, 0] r ())], 1⟩

theorem partCells_built (r : ℕ) : Built partHash (partCells r).cell := by
  have hp : ∀ pre : List (Call ℝ ℂ Unit), pre <+: [.inl (.addOrbital [1/2, 0] (r : ℝ) ())] →
      pre = [] ∨ pre = [.inl (.addOrbital [1/2, 0] (r : ℝ) ())] := by
    rintro pre ⟨post, h⟩
    rcases pre with _ | ⟨a, _ | ⟨b, pre⟩⟩ <;> simp_all
  have h0 : ∀ x : Vec3 ℝ, (run partHash (init partHash 1 x) ([] : List (Call ℝ ℂ Unit))).orbs = [] := fun _ => rfl
  have h1 : ∀ x : Vec3 ℝ, (run partHash (init partHash 1 x) [.inl (.addOrbital [1/2, 0] (r : ℝ) ())]).orbs =
      [⟨vec3 (1/2, 0, 0), r, ()⟩] := by
    intro x; simp [run, call, step, addOrbital, init, checkLen]
  have h2 : ∀ x : Vec3 ℝ, (run partHash (init partHash 1 x) ([] : List (Call ℝ ℂ Unit))).hops = IntraHop.empty := fun _ => rfl
  have h3 : ∀ x : Vec3 ℝ, (run partHash (init partHash 1 x) [.inl (.addOrbital [1/2, 0] (r : ℝ) ())]).hops = IntraHop.empty := by
    intro x; simp [run, call, step, addOrbital, init, checkLen]
  refine ⟨by simp [partCells, run, call, step, addOrbital, init, checkLen], 1, fun _ => r, _, rfl, ?_, ?_, ?_⟩
  · intro pre op post h
    rcases pre with _ | ⟨a, pre⟩
    · simp only [List.nil_append, List.cons.injEq, Sum.inl.injEq] at h
      rw [← h.1]; trivial
    · simp at h
  · rintro l ⟨p, hp1, rfl⟩ l' ⟨p', hp2, rfl⟩ he
    rcases hp p hp1 with rfl | rfl <;> rcases hp p' hp2 with rfl | rfl <;> simp only [h0, h1] at he ⊢ <;> simp [partHash] at he
  · rintro l ⟨p, hp1, rfl⟩ l' ⟨p', hp2, rfl⟩ he
    rcases hp p hp1 with rfl | rfl <;> rcases hp p' hp2 with rfl | rfl <;> simp only [h2, h3]

example : ∃ t, (mergePrimCell partHash partCells [.pc 1, .pc 2]).2 = .ok t ∧ t.cell.numOrb = 2 := by
  have hl : ∀ r, (partCells r).cell.lat = 1 := fun r => by simp [partCells, run, call, step, addOrbital, init, checkLen]
  have hn : ∀ r, (partCells r).cell.numOrb = 1 := fun r => by simp [partCells, numOrb, run, call, step, addOrbital, init, checkLen]
  obtain ⟨t, h, h', -⟩ := C136_merge (H := partHash) (hp := partCells) (r₁ := 1) (r₂ := 2)
    (fun l hl h => hl (List.length_eq_zero_iff.1 (by simpa [partHash] using h)))
    (fun l hl h => hl (List.length_eq_zero_iff.1 (by simpa [partHash] using h))) (by norm_num) (partCells_built 1) (partCells_built 2)
    (by rw [hl]; simp) (by rw [hl, hl])
  exact ⟨t, h, by rw [h', hn, hn]⟩

end Verif.Props

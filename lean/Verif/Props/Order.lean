import Verif.Proof.Order
import Verif.Props.Sample
import Verif.Props.SampleHam
import Verif.Props.Csr
import Verif.Props.Bloch
import Verif.Props.TimeLocal

/-! # C135: the order in which the parts of a sample are given does not matter -/

namespace Verif

open SCell Sample Verif.Props

theorem forall2_map {α β : Type*} [Inhabited β] {f : α → Except SCErr β} {as : List α} {bs : List β}
    (h : List.Forall₂ (fun a b => f a = .ok b) as bs) : bs = as.map fun a => ((f a).toOption).getD default := by
  induction h with
  | nil => rfl
  | cons hab _ ih => rw [List.map_cons, ← ih, hab]; rfl

theorem zipIdx_idxOf {α β : Type*} [DecidableEq α] {ids : List α} (hd : ids.Nodup) (F : α → ℕ → List β) :
    ids.zipIdx.flatMap (fun q => F q.1 q.2) = ids.flatMap fun id => F id (ids.idxOf id) := by
  have h1 : ids.zipIdx.flatMap (fun q => F q.1 q.2) = ids.zipIdx.flatMap (fun q => F q.1 (ids.idxOf q.1)) := by
    refine List.flatMap_congr fun q hq => ?_
    rw [List.mem_zipIdx_iff_getElem?] at hq
    obtain ⟨hk, he⟩ := List.getElem?_eq_some_iff.1 hq
    rw [← he, hd.idxOf_getElem]
  rw [h1]
  have h2 : ids.flatMap (fun id => F id (ids.idxOf id)) = (ids.zipIdx.map Prod.fst).flatMap fun id => F id (ids.idxOf id) := by
    rw [List.zipIdx_map_fst]
  rw [h2, List.flatMap_map]

section Assembly

variable {F E Λ : Type*} [Field F] [DecidableEq F] [CommRing E] [StarRing E]

/-- C135: two samples made of the same supercells and inter-hoppings, given in different orders, have the same orbitals and hopping
terms, with another numbering of the orbitals. -/
theorem C135_order {H : HashFns F E Λ} {HS : SCHash F E Λ} {hp : SCHeap F E Λ} {s s' : Sample F E} (hd : s.cells.Nodup)
    (hcells : s'.cells.Perm s.cells) (hinters : s'.inters.Perm s.inters) (hc : ∀ id ∈ s.cells, ReachCell H HS (hp id))
    (hi : ∀ h ∈ s.inters, h.bra ∈ s.cells ∧ h.ket ∈ s.cells ∧ InterInRange hp h)
    (h0 : s.eng = none ∧ s.pos = none ∧ s.hop = none) (h0' : s'.eng = none ∧ s'.pos = none ∧ s'.hop = none) :
    (s'.numOrb hp).toNat = (s.numOrb hp).toNat ∧ ∃ π, Renumbering (s.numOrb hp).toNat π ∧
      (∀ hp1 t hp1' t', initEng H HS hp s false = (hp1, t, .ok ()) → initEng H HS hp s' false = (hp1', t', .ok ()) →
        ∃ e e', t.eng = some e ∧ t'.eng = some e' ∧ MovedRows (s.numOrb hp).toNat π e e') ∧
      (∀ hp1 t hp1' t', initPos H HS hp s false = (hp1, t, .ok ()) → initPos H HS hp s' false = (hp1', t', .ok ()) →
        ∃ p p', t.pos = some p ∧ t'.pos = some p' ∧ MovedRows (s.numOrb hp).toNat π p p') ∧
      (∀ hp1 t hp1' t', initHop H HS hp s false = (hp1, t, .ok ()) → initHop H HS hp s' false = (hp1', t', .ok ()) →
        ∃ o o', t.hop = some o ∧ t'.hop = some o' ∧ MovedTerms π o.terms o'.terms ∧ TermsInRange (s.numOrb hp).toNat o.terms) := by
  set n : ℕ → ℤ := fun id => (hp id).numOrbSc with hn
  have hn0 : ∀ id ∈ s.cells, 0 ≤ n id := fun id hid => (hc id hid).lengths.2.2
  have hc' : ∀ id ∈ s'.cells, ReachCell H HS (hp id) := fun id hid => hc id (hcells.mem_iff.1 hid)
  have hi' : ∀ h ∈ s'.inters, h.bra ∈ s'.cells ∧ h.ket ∈ s'.cells ∧ InterInRange hp h := fun h hh => by
    obtain ⟨a, b, c⟩ := hi h (hinters.mem_iff.1 hh)
    exact ⟨hcells.mem_iff.2 a, hcells.mem_iff.2 b, c⟩
  have hd' := hcells.nodup_iff.2 hd
  have hsum : s.numOrb hp = (s.cells.map n).sum := rfl
  have hsum' : s'.numOrb hp = (s.cells.map n).sum := (hcells.map n).sum_eq
  have hnn : 0 ≤ (s.cells.map n).sum := List.sum_nonneg (by
    intro y hy
    obtain ⟨z, hz, rfl⟩ := List.mem_map.1 hy
    exact hn0 z hz)
  have hN : (((s.numOrb hp).toNat : ℕ) : ℤ) = (s.cells.map n).sum := by rw [hsum]; omega
  refine ⟨by rw [hsum, hsum'], reorder n s.cells s'.cells, reorder_bij hd hcells hn0 hN, ?_, ?_, ?_⟩
  · intro hp1 t hp1' t' ht ht'
    obtain ⟨ls, f1, rfl, -⟩ := (C27_orbitals hc).1 (Or.inr h0.1) ht
    obtain ⟨ls', f2, rfl, -⟩ := (C27_orbitals hc').1 (Or.inr h0'.1) ht'
    refine ⟨_, _, rfl, rfl, ?_⟩
    have g := f1
    rw [forall2_map f1, forall2_map f2]
    refine moved_rows _ hd hcells (fun id hid => ?_) hN
    obtain ⟨k, hk, rfl⟩ := List.getElem_of_mem hid
    have hk2 : k < ls.length := by rw [← f1.length_eq]; exact hk
    have := (List.forall₂_iff_get.1 g).2 k hk hk2
    simp only [List.get_eq_getElem] at this
    rw [this]
    exact (hc _ hid).lengths.1 _ this
  · intro hp1 t hp1' t' ht ht'
    obtain ⟨ls, f1, rfl, -⟩ := (C27_orbitals hc).2 (Or.inr h0.2.1) ht
    obtain ⟨ls', f2, rfl, -⟩ := (C27_orbitals hc').2 (Or.inr h0'.2.1) ht'
    refine ⟨_, _, rfl, rfl, ?_⟩
    have g := f1
    rw [forall2_map f1, forall2_map f2]
    refine moved_rows _ hd hcells (fun id hid => ?_) hN
    obtain ⟨k, hk, rfl⟩ := List.getElem_of_mem hid
    have hk2 : k < ls.length := by rw [← f1.length_eq]; exact hk
    have := (List.forall₂_iff_get.1 g).2 k hk hk2
    simp only [List.get_eq_getElem] at this
    rw [this]
    exact (hc _ hid).lengths.2.1 _ this
  · intro hp1 t hp1' t' ht ht'
    obtain ⟨o, outs, pss, rfl, f1, f2, ho, -, hr⟩ := C27_blocks_partial hc hi (Or.inr h0.2.2) ht
    obtain ⟨o', outs', pss', rfl, f1', f2', ho', -, -⟩ := C27_blocks_partial hc' hi' (Or.inr h0'.2.2) ht'
    refine ⟨_, _, rfl, rfl, ?_, hr⟩
    haveI : Inhabited (HopOut F E) := ⟨⟨[], false⟩⟩
    set T : ℕ → HopOut F E := fun id => (((getHop H HS (hp id)).2).toOption).getD default with hT
    set P : InterSC E → List (Vec3 F) × List (Vec3 F) := fun h => (((getOrbPos H HS (hp h.bra)).2.toOption).getD [],
      ((getOrbPos H HS (hp h.ket)).2.toOption).getD []) with hP
    have houts : ∀ {cells : List ℕ} {outs}, List.Forall₂ (fun id out => (getHop H HS (hp id)).2 = .ok out) cells outs →
        outs = cells.map T := fun h => forall2_map h
    have hpss : ∀ {inters : List (InterSC E)} {pss : List (List (Vec3 F) × List (Vec3 F))},
        List.Forall₂ (fun (h : InterSC E) ps => (getOrbPos H HS (hp h.bra)).2 = .ok ps.1 ∧
          (getOrbPos H HS (hp h.ket)).2 = .ok ps.2) inters pss → pss = inters.map P := by
      intro inters pss h
      induction h with
      | nil => rfl
      | cons hab _ ih =>
        rw [List.map_cons, ← ih, hP]
        simp only [hab.1, hab.2]
        rfl
    have hzip : ∀ (inters : List (InterSC E)), inters.zip (inters.map P) = inters.map fun h => (h, P h) := by
      intro l
      induction l with
      | nil => rfl
      | cons a l ih => simp [ih]
    have hterms : ∀ {cells : List ℕ} {inters : List (InterSC E)} {outs pss}, cells.Nodup →
        (∀ h ∈ inters, h.bra ∈ cells ∧ h.ket ∈ cells) →
        outs = cells.map T → pss = inters.map P →
        ((outs.zipIdx.flatMap fun q => q.1.terms.map fun x =>
          (⟨blockStart hp cells q.2 + x.i, blockStart hp cells q.2 + x.j, x.v, x.dr⟩ : SCHop F E)) ++
        ((inters.zip pss).flatMap fun q => q.1.hop.toList.map fun t =>
          (⟨blockStart hp cells (cells.idxOf q.1.bra) + t.2.1.1,
           blockStart hp cells (cells.idxOf q.1.ket) + t.2.1.2, t.2.2,
           interBond (hp q.1.ket) q.2.1 q.2.2 t⟩ : SCHop F E))) =
        (cells.flatMap fun id => (T id).terms.map fun x => (⟨off n cells id + x.i, off n cells id + x.j, x.v, x.dr⟩ : SCHop F E)) ++
        inters.flatMap fun h => h.hop.toList.map fun t =>
          (⟨off n cells h.bra + t.2.1.1, off n cells h.ket + t.2.1.2, t.2.2, interBond (hp h.ket) (P h).1 (P h).2 t⟩ : SCHop F E) := by
      rintro cells inters outs pss hnd hcl rfl rfl
      congr 1
      · rw [List.zipIdx_map, List.flatMap_map]
        refine (zipIdx_idxOf hnd (fun id k => (T id).terms.map fun x =>
          (⟨blockStart hp cells k + x.i, blockStart hp cells k + x.j, x.v, x.dr⟩ : SCHop F E))).trans ?_
        refine List.flatMap_congr fun id hid => ?_
        rw [off_eq hp hid]
      · rw [hzip, List.flatMap_map]
        refine List.flatMap_congr fun h hh => ?_
        simp only
        rw [off_eq hp (hcl h hh).1, off_eq hp (hcl h hh).2]
    rw [hterms hd (fun h hh => ⟨(hi h hh).1, (hi h hh).2.1⟩) (houts f1) (hpss f2)] at ho
    rw [hterms hd' (fun h hh => ⟨(hi' h hh).1, (hi' h hh).2.1⟩) (houts f1') (hpss f2')] at ho'
    unfold MovedTerms
    rw [ho, ho', List.map_append, List.map_flatMap, List.map_flatMap]
    have hTr : ∀ id ∈ s.cells, ∀ x ∈ (T id).terms, (0 ≤ x.i ∧ x.i < n id) ∧ (0 ≤ x.j ∧ x.j < n id) := by
      intro id hid x hx
      obtain ⟨k, hk, rfl⟩ := List.getElem_of_mem hid
      have hk2 : k < outs.length := by rw [← f1.length_eq]; exact hk
      have hg := (List.forall₂_iff_get.1 f1).2 k hk hk2
      simp only [List.get_eq_getElem] at hg
      have hx' : x ∈ (outs[k]).terms := by
        rw [hT] at hx
        simp only [hg] at hx
        exact hx
      exact (hc _ hid).getHop_range hg hx'
    refine List.Perm.append ?_ ?_
    · refine (hcells.flatMap_right _).trans (List.Perm.of_eq (List.flatMap_congr fun id hid => ?_))
      rw [List.map_map]
      refine List.map_congr_left fun x hx => ?_
      obtain ⟨⟨a1, a2⟩, b1, b2⟩ := hTr id hid x hx
      simp only [Function.comp, moveTerm]
      rw [reorder_off hd hn0 hid a1 a2, reorder_off hd hn0 hid b1 b2]
    · refine (hinters.flatMap_right _).trans (List.Perm.of_eq (List.flatMap_congr fun h hh => ?_))
      rw [List.map_map]
      refine List.map_congr_left fun x hx => ?_
      obtain ⟨q1, q2, q3⟩ := hi h hh
      obtain ⟨⟨a1, a2⟩, b1, b2⟩ := q3 x hx
      simp only [Function.comp, moveTerm]
      rw [reorder_off hd hn0 q1 a1 a2, reorder_off hd hn0 q2 b1 b2]

end Assembly

/-! ## What follows for calculations -/

section Calc

variable {N : ℕ} {π : ℤ → ℤ}

theorem move_sum {F E M : Type*} [AddCommMonoid M] (hπ : Renumbering N π) {x x' : List (SCHop F E)} (hr : TermsInRange N x)
    (hm : MovedTerms π x x') (f : SCHop F E → M) (hf : ∀ h, f (moveTerm π h) = f h) (p p' : SCHop F E → Prop) [DecidablePred p] [DecidablePred p']
    (hp : ∀ h ∈ x, p' (moveTerm π h) ↔ p h) : ((x'.filter p').map f).sum = ((x.filter p).map f).sum := by
  rw [((hm.filter _).map f).sum_eq, List.filter_map, List.map_map]
  have h1 : x.filter ((fun h => decide (p' h)) ∘ moveTerm π) = x.filter p := by
    refine List.filter_congr fun h hh => ?_
    simp only [Function.comp, hp h hh]
  rw [h1]
  congr 1
  exact List.map_congr_left fun h _ => hf h

theorem inj_on (hπ : Renumbering N π) {a b : ℤ} (ha : 0 ≤ a ∧ a < N) (hb : 0 ≤ b ∧ b < N) : π a = π b ↔ a = b :=
  ⟨fun h => hπ.injOn ha hb h, fun h => by rw [h]⟩

theorem hopMat_move {F E : Type*} [AddCommMonoid E] (hπ : Renumbering N π) {x x' : List (SCHop F E)} (hr : TermsInRange N x)
    (hm : MovedTerms π x x') {a b : ℤ} (ha : 0 ≤ a ∧ a < N) (hb : 0 ≤ b ∧ b < N) : hopMat x' (π a) (π b) = hopMat x a b :=
  move_sum hπ hr hm _ (fun _ => rfl) _ _ fun h hh => by
    simp only [moveTerm, inj_on hπ (hr h hh).1 ha, inj_on hπ (hr h hh).2 hb]

theorem drMat_move {F E : Type*} [AddCommMonoid F] (hπ : Renumbering N π) {x x' : List (SCHop F E)} (hr : TermsInRange N x)
    (hm : MovedTerms π x x') (d : Fin 3) {a b : ℤ} (ha : 0 ≤ a ∧ a < N) (hb : 0 ≤ b ∧ b < N) : drMat d x' (π a) (π b) = drMat d x a b :=
  move_sum hπ hr hm _ (fun _ => rfl) _ _ fun h hh => by
    simp only [moveTerm, inj_on hπ (hr h hh).1 ha, inj_on hπ (hr h hh).2 hb]

theorem hamSpec_move (hπ : Renumbering N π) {eng eng' : List ℝ} (he : MovedRows N π eng eng') {x x' : List (SCHop ℝ ℂ)}
    (hr : TermsInRange N x) (hm : MovedTerms π x x') {a b : ℤ} (ha : 0 ≤ a ∧ a < N) (hb : 0 ≤ b ∧ b < N) :
    hamSpec eng' x' (π a) (π b) = hamSpec eng x a b := by
  have hpa := hπ.mapsTo ha
  unfold hamSpec
  rw [hopMat_move hπ hr hm ha hb, hopMat_move hπ hr hm hb ha]
  congr 2
  unfold engMat
  rw [he.2.2 a ha.1 ha.2]
  simp only [inj_on hπ ha hb, ha.1, hpa.1]

/-- The permutation of the matrix indices. -/
noncomputable def permOf (hπ : Renumbering N π) : Equiv.Perm (Fin N) :=
  Equiv.ofBijective (fun i : Fin N => (⟨(π i).toNat, by
    have := hπ.mapsTo (x := (i : ℤ)) ⟨by omega, by omega⟩
    have h1 := this.1
    have h2 := this.2
    omega⟩ : Fin N)) ((Finite.injective_iff_bijective).1 fun i j h => by
      have hi := hπ.mapsTo (x := (i : ℤ)) ⟨by omega, by omega⟩
      have hj := hπ.mapsTo (x := (j : ℤ)) ⟨by omega, by omega⟩
      have h' : (π i).toNat = (π j).toNat := congrArg Fin.val h
      have h'' : π i = π j := by
        have h1 := hi.1
        have h2 := hj.1
        omega
      have := hπ.injOn (x₁ := (i : ℤ)) (x₂ := (j : ℤ)) ⟨by omega, by omega⟩ ⟨by omega, by omega⟩ h''
      ext
      omega)

theorem permOf_val (hπ : Renumbering N π) (i : Fin N) : ((permOf hπ i : ℕ) : ℤ) = π i := by
  have hi := (hπ.mapsTo (x := (i : ℤ)) ⟨by omega, by omega⟩).1
  change (((π i).toNat : ℕ) : ℤ) = π i
  omega

theorem charpoly_move (hπ : Renumbering N π) {M M' : ℤ → ℤ → ℂ}
    (h : ∀ a b : ℤ, 0 ≤ a ∧ a < N → 0 ≤ b ∧ b < N → M' (π a) (π b) = M a b) : (toMatrix N M').charpoly = (toMatrix N M).charpoly := by
  rw [← Matrix.charpoly_reindex (permOf hπ).symm (toMatrix N M')]
  congr 1
  ext i j
  change M' (((permOf hπ).symm.symm i : Fin N) : ℕ) (((permOf hπ).symm.symm j : Fin N) : ℕ) = M i j
  rw [Equiv.symm_symm, permOf_val, permOf_val]
  exact h i j ⟨by omega, by omega⟩ ⟨by omega, by omega⟩

/-- C135: the Bloch Hamiltonians are the same up to the numbering; so are the energies, with multiplicities. -/
theorem C135_bloch (hπ : Renumbering N π) {eng eng' : List ℝ} (he : MovedRows N π eng eng') {o o' : HopOut ℝ ℂ}
    (hr : TermsInRange N o.terms) (hm : MovedTerms π o.terms o'.terms) {s s' : Sample ℝ ℂ} (hs : s'.rescale = s.rescale) (lat : Mat3 ℝ)
    (k : Vec3 ℝ) (conv : ℤ) (ham ham' M M' : ℤ → ℤ → ℂ)
    (h : Sample.setHamDense lat s eng o k conv ham = some M ∧ Sample.setHamDense lat s' eng' o' k conv ham' = some M' ∨
      Sample.setHamCsr lat s eng o k conv = some M ∧ Sample.setHamCsr lat s' eng' o' k conv = some M') :
    (∀ a b : ℤ, 0 ≤ a ∧ a < N → 0 ≤ b ∧ b < N → M' (π a) (π b) = M a b) ∧ (toMatrix N M').charpoly = (toMatrix N M).charpoly := by
  have key : ∀ a b : ℤ, 0 ≤ a ∧ a < N → 0 ≤ b ∧ b < N → M' (π a) (π b) = M a b := by
    intro a b ha hb
    have hk : ∀ B : Mat3 ℝ, MovedTerms π (buildHopK o.terms (Matrix.vecMul k B)) (buildHopK o'.terms (Matrix.vecMul k B)) := by
      intro B
      unfold MovedTerms buildHopK
      rw [List.map_map]
      refine (hm.map _).trans (List.Perm.of_eq ?_)
      rw [List.map_map]
      rfl
    have hkr : ∀ B : Mat3 ℝ, TermsInRange N (buildHopK o.terms (Matrix.vecMul k B)) := by
      intro B h hh
      obtain ⟨g, hg, rfl⟩ := List.mem_map.1 hh
      exact hr g hg
    rcases h with ⟨h1, h2⟩ | ⟨h1, h2⟩
    · unfold Sample.setHamDense at h1 h2
      split_ifs at h1 h2 with hc
      cases hB : genReciprocal lat with
      | none => rw [hB] at h1; cases h1
      | some B =>
        rw [hB] at h1 h2
        simp only [mul_zero, Option.some.injEq] at h1 h2
        rw [← h1, ← h2, fillHam_eq, fillHam_eq, hs]
        simp only
        rw [hamSpec_move hπ he (hkr B) (hk B) ha hb]
    · unfold Sample.setHamCsr at h1 h2
      split_ifs at h1 h2 with hc
      cases hB : genReciprocal lat with
      | none => rw [hB] at h1; cases h1
      | some B =>
        rw [hB] at h1 h2
        simp only [Option.some.injEq] at h1 h2
        rw [← h1, ← h2, hamCsr_eq, hamCsr_eq, hs]
        simp only
        rw [hamSpec_move hπ he (hkr B) (hk B) ha hb]
  exact ⟨key, charpoly_move hπ key⟩

/-- C135: the automatic rescaling factor is the same. -/
theorem C135_rescale (hπ : Renumbering N π) {eng eng' : List ℝ} (he : MovedRows N π eng eng') {x x' : List (SCHop ℝ ℂ)}
    (hr : TermsInRange N x) (hm : MovedTerms π x x') : getRescale eng' x' = getRescale eng x := by
  obtain ⟨e1, e2, e3⟩ := he
  unfold getRescale
  rw [e1, e2]
  have hv : ∀ a : ℤ, 0 ≤ a ∧ a < N → hamSum eng' x' (π a) = hamSum eng x a := by
    intro a ha
    have hpa := hπ.mapsTo ha
    rw [hamSum_eq eng' x' hpa.1 (by rw [e2]; exact hpa.2), hamSum_eq eng x ha.1 (by rw [e1]; exact ha.2), e3 a ha.1 ha.2]
    congr 1
    unfold touch
    congr 1
    · exact move_sum hπ hr hm _ (fun _ => rfl) _ _ fun h hh => by simp only [moveTerm, inj_on hπ (hr h hh).1 ha]
    · exact move_sum hπ hr hm _ (fun _ => rfl) _ _ fun h hh => by simp only [moveTerm, inj_on hπ (hr h hh).2 ha]
  rcases Nat.eq_zero_or_pos N with h0 | h0
  · subst h0; rfl
  · apply le_antisymm
    · have hne : ((List.range N).map fun k : ℕ => hamSum eng' x' k) ≠ [] := by
        intro h; have := congrArg List.length h; simp at this; omega
      obtain ⟨k, hk, hk2⟩ := List.mem_map.1 (npMax_mem hne)
      obtain ⟨a, ha, hak⟩ := hπ.surjOn (show (k : ℤ) ∈ Set.Ico (0 : ℤ) N from ⟨by omega, by have := List.mem_range.1 hk; omega⟩)
      rw [← hk2, ← hak, hv a ha]
      refine le_npMax _ (List.mem_map.2 ⟨a.toNat, List.mem_range.2 ?_, ?_⟩)
      · have := ha.1; have := ha.2; omega
      · rw [Int.toNat_of_nonneg ha.1]
    · have hne : ((List.range N).map fun k : ℕ => hamSum eng x k) ≠ [] := by
        intro h; have := congrArg List.length h; simp at this; omega
      obtain ⟨k, hk, hk2⟩ := List.mem_map.1 (npMax_mem hne)
      have hkr : (0 : ℤ) ≤ k ∧ (k : ℤ) < N := ⟨by omega, by have := List.mem_range.1 hk; omega⟩
      have hpa := hπ.mapsTo hkr
      rw [← hk2, ← hv k hkr]
      refine le_npMax _ (List.mem_map.2 ⟨(π k).toNat, List.mem_range.2 ?_, ?_⟩)
      · have := hpa.1; have := hpa.2; omega
      · rw [Int.toNat_of_nonneg hpa.1]

/-- C135: a magnetic field keeps the two samples the same. -/
theorem C135_magnetic {pos pos' : List (Vec3 ℝ)} (hp : MovedRows N π pos pos') {x x' : List (SCHop ℝ ℂ)} (hr : TermsInRange N x)
    (hm : MovedTerms π x x') (gauge : ℤ) (B : ℝ) :
    MovedTerms π (setMagField gauge B (rowAt pos) x) (setMagField gauge B (rowAt pos') x') := by
  unfold MovedTerms setMagField
  rw [List.map_map]
  refine (hm.map _).trans (List.Perm.of_eq ?_)
  rw [List.map_map]
  refine List.map_congr_left fun h hh => ?_
  have e : ∀ a : ℤ, 0 ≤ a ∧ a < N → rowAt pos' (π a) = rowAt pos a := by
    intro a ha
    unfold rowAt
    rw [List.getD_eq_getElem?_getD, List.getD_eq_getElem?_getD, hp.2.2 a ha.1 ha.2]
  simp only [Function.comp, moveTerm]
  rw [e _ (hr h hh).1, e _ (hr h hh).2]

/-- C135: the matrices of the propagation methods (Hamiltonian and displacements) are the same up to the numbering. -/
theorem C135_csr (hπ : Renumbering N π) {eng eng' : List ℝ} (he : MovedRows N π eng eng') {x x' : List (SCHop ℝ ℂ)}
    (hr : TermsInRange N x) (hm : MovedTerms π x x') (junk junk' : CsrEnt ℝ ℂ) (cutoff : ℝ) {a b : ℤ}
    (ha : 0 ≤ a ∧ a < N) (hb : 0 ≤ b ∧ b < N) :
    let c := buildFast (fun e : ℝ => (e : ℂ)) junk cutoff eng x
    let c' := buildFast (fun e : ℝ => (e : ℂ)) junk' cutoff eng' x'
    c'.mat (π a) (π b) = c.mat a b ∧ c'.dxMat (π a) (π b) = c.dxMat a b ∧ c'.dyMat (π a) (π b) = c.dyMat a b := by
  obtain ⟨e1, e2, e3⟩ := he
  have hr' : TermsInRange N x' := by
    intro h hh
    obtain ⟨g, hg, rfl⟩ := List.mem_map.1 (hm.mem_iff.1 hh)
    exact ⟨hπ.mapsTo (hr g hg).1, hπ.mapsTo (hr g hg).2⟩
  have hpa := hπ.mapsTo ha
  have hpb := hπ.mapsTo hb
  subst e1
  obtain ⟨c1, c2, c3⟩ := C25_fast_matrix (fun e : ℝ => (e : ℂ)) junk cutoff hr ha b
  obtain ⟨d1, d2, d3⟩ := C25_fast_matrix (fun e : ℝ => (e : ℂ)) junk' cutoff (eng := eng') (by rw [e2]; exact hr') (a := π a)
    (by rw [e2]; exact hpa) (π b)
  refine ⟨?_, ?_, ?_⟩
  · rw [c1, d1, hopMat_move hπ hr hm ha hb, hopMat_move hπ hr hm hb ha]
    congr 2
    unfold diagMat
    rw [e2]
    simp only [inj_on hπ ha hb, List.getD_eq_getElem?_getD, e3 a ha.1 ha.2, ha.1, ha.2, hpa.1, show π a < eng.length from hpa.2]
  · rw [c2, d2, drMat_move hπ hr hm 0 ha hb, drMat_move hπ hr hm 0 hb ha]
  · rw [c3, d3, drMat_move hπ hr hm 1 ha hb, drMat_move hπ hr hm 1 hb ha]

end Calc

/-! ### A concrete case: a ring of four sites and an open chain of three -/

/-- Hopping terms of the sample of two supercells given in the order `order`, with an inter-hopping from the first to the second. -/
noncomputable def orderTerms (order : List ℕ) (c d : Option (SCell ℚ GInt Unit)) (ops : List (InterHop.Op GInt)) :
    Option (List (ℤ × ℤ × GInt)) :=
  c.bind fun c => d.bind fun d => (initHop lenHash scLenHash (fun id => if id = 0 then c else d)
    ⟨order, [⟨InterHop.run InterHop.empty ops, 0, 1⟩], none, none, none, 1⟩ false).2.1.hop.map
      fun o => o.terms.map fun t => (t.i, t.j, t.v)

example : orderTerms [0, 1] (scRun chain [4, 1] [true, true] none []) (scRun chain [3, 1] [false, true] none [])
    [.add [0, 0] 0 0 ⟨5, 0⟩, .add [1, 0] 2 1 ⟨0, 4⟩] =
    some [(0, 1, ⟨2, 1⟩), (1, 2, ⟨2, 1⟩), (2, 3, ⟨2, 1⟩), (3, 0, ⟨2, 1⟩), (4, 5, ⟨2, 1⟩), (5, 6, ⟨2, 1⟩), (0, 4, ⟨5, 0⟩),
      (2, 5, ⟨0, 4⟩)] := by
  decide +kernel

/-- In the other order the four sites of the ring are moved by three, the three sites of the chain by minus four. -/
example : orderTerms [1, 0] (scRun chain [4, 1] [true, true] none []) (scRun chain [3, 1] [false, true] none [])
    [.add [0, 0] 0 0 ⟨5, 0⟩, .add [1, 0] 2 1 ⟨0, 4⟩] =
    some [(0, 1, ⟨2, 1⟩), (1, 2, ⟨2, 1⟩), (3, 4, ⟨2, 1⟩), (4, 5, ⟨2, 1⟩), (5, 6, ⟨2, 1⟩), (6, 3, ⟨2, 1⟩), (3, 0, ⟨5, 0⟩),
      (5, 1, ⟨0, 4⟩)] := by
  decide +kernel

example : Renumbering 7 (fun a => if a < 4 then a + 3 else a - 4) := by
  refine ⟨fun a ha => ?_, fun a ha b hb h => ?_, fun b hb => ⟨if b < 3 then b + 4 else b - 3, ?_, ?_⟩⟩
  · obtain ⟨h1, h2⟩ := ha
    constructor <;> dsimp only <;> split_ifs <;> push_cast at * <;> omega
  · obtain ⟨h1, h2⟩ := ha
    obtain ⟨h3, h4⟩ := hb
    dsimp only at h
    split_ifs at h <;> push_cast at * <;> omega
  · obtain ⟨h1, h2⟩ := hb
    constructor <;> split_ifs <;> push_cast at * <;> omega
  · obtain ⟨h1, h2⟩ := hb
    dsimp only
    split_ifs <;> push_cast at * <;> omega

end Verif

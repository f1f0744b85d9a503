import Verif.Proof.DecoupledSample
import Verif.Props.DecoupledCell

/-! # C136: samples of two groups of supercells without inter-hoppings between them -/

namespace Verif

open SCell Sample Verif.Props

section Assembly

variable {F E Λ : Type*} [Field F] [DecidableEq F] [CommRing E] [StarRing E]

/-- C136: a sample of two groups of supercells without inter-hoppings between them has the orbitals and hopping terms of the samples of the
two groups, those of the second numbered after those of the first. -/
theorem C136_sample {H : HashFns F E Λ} {HS : SCHash F E Λ} {hp : SCHeap F E Λ} {s s₁ s₂ : Sample F E}
    (hcells : s.cells = s₁.cells ++ s₂.cells) (hd : s.cells.Nodup) (hinters : s.inters = s₁.inters ++ s₂.inters)
    (hc : ∀ id ∈ s.cells, ReachCell H HS (hp id)) (hi₁ : ∀ h ∈ s₁.inters, h.bra ∈ s₁.cells ∧ h.ket ∈ s₁.cells ∧ InterInRange hp h)
    (hi₂ : ∀ h ∈ s₂.inters, h.bra ∈ s₂.cells ∧ h.ket ∈ s₂.cells ∧ InterInRange hp h)
    (h0 : ∀ u ∈ [s, s₁, s₂], u.eng = none ∧ u.pos = none ∧ u.hop = none) :
    (s.numOrb hp).toNat = (s₁.numOrb hp).toNat + (s₂.numOrb hp).toNat ∧
      (∀ a t a₁ t₁ a₂ t₂, initEng H HS hp s false = (a, t, .ok ()) → initEng H HS hp s₁ false = (a₁, t₁, .ok ()) →
        initEng H HS hp s₂ false = (a₂, t₂, .ok ()) → ∃ e₁ e₂, t.eng = some (e₁ ++ e₂) ∧ t₁.eng = some e₁ ∧ t₂.eng = some e₂ ∧
          e₁.length = (s₁.numOrb hp).toNat ∧ e₂.length = (s₂.numOrb hp).toNat) ∧
      (∀ a t a₁ t₁ a₂ t₂, initPos H HS hp s false = (a, t, .ok ()) → initPos H HS hp s₁ false = (a₁, t₁, .ok ()) →
        initPos H HS hp s₂ false = (a₂, t₂, .ok ()) → ∃ p₁ p₂, t.pos = some (p₁ ++ p₂) ∧ t₁.pos = some p₁ ∧ t₂.pos = some p₂ ∧
          p₁.length = (s₁.numOrb hp).toNat ∧ p₂.length = (s₂.numOrb hp).toNat) ∧
      (∀ a t a₁ t₁ a₂ t₂, initHop H HS hp s false = (a, t, .ok ()) → initHop H HS hp s₁ false = (a₁, t₁, .ok ()) →
        initHop H HS hp s₂ false = (a₂, t₂, .ok ()) → ∃ o o₁ o₂, t.hop = some o ∧ t₁.hop = some o₁ ∧ t₂.hop = some o₂ ∧
          PartTerms (s₁.numOrb hp).toNat o.terms o₁.terms o₂.terms ∧ TermsInRange (s₁.numOrb hp).toNat o₁.terms ∧
          TermsInRange (s₂.numOrb hp).toNat o₂.terms) := by
  have hc₁ : ∀ id ∈ s₁.cells, ReachCell H HS (hp id) := fun id h => hc id (by rw [hcells]; simp [h])
  have hc₂ : ∀ id ∈ s₂.cells, ReachCell H HS (hp id) := fun id h => hc id (by rw [hcells]; simp [h])
  obtain ⟨z1, z2, z3⟩ := h0 s (by simp)
  obtain ⟨y1, y2, y3⟩ := h0 s₁ (by simp)
  obtain ⟨x1, x2, x3⟩ := h0 s₂ (by simp)
  have hdd := hd
  rw [hcells, List.nodup_append] at hdd
  obtain ⟨hd₁, hd₂, hdis⟩ := hdd
  have hi : ∀ h ∈ s.inters, h.bra ∈ s.cells ∧ h.ket ∈ s.cells ∧ InterInRange hp h := by
    intro h hh
    rw [hinters, List.mem_append] at hh
    rw [hcells]
    rcases hh with hh | hh
    · exact ⟨by simp [(hi₁ h hh).1], by simp [(hi₁ h hh).2.1], (hi₁ h hh).2.2⟩
    · exact ⟨by simp [(hi₂ h hh).1], by simp [(hi₂ h hh).2.1], (hi₂ h hh).2.2⟩
  have nn : ∀ l : List ℕ, (∀ id ∈ l, ReachCell H HS (hp id)) → 0 ≤ (l.map fun id => (hp id).numOrbSc).sum := fun l hl =>
    List.sum_nonneg (by
      intro y hy
      obtain ⟨z, hz, rfl⟩ := List.mem_map.1 hy
      exact (hl z hz).lengths.2.2)
  have n₁ : 0 ≤ s₁.numOrb hp := nn _ hc₁
  have n₂ : 0 ≤ s₂.numOrb hp := nn _ hc₂
  have hsum : s.numOrb hp = s₁.numOrb hp + s₂.numOrb hp := by
    unfold Sample.numOrb Sample.numOrbList
    rw [hcells, List.map_append, List.sum_append]
  have hf2 : ∀ {β : Type _} {f : ℕ → Except SCErr (List β)} {A B : List ℕ} {l l₁ l₂ : List (List β)},
      List.Forall₂ (fun id x => f id = .ok x) (A ++ B) l → List.Forall₂ (fun id x => f id = .ok x) A l₁ →
      List.Forall₂ (fun id x => f id = .ok x) B l₂ → l.flatten = l₁.flatten ++ l₂.flatten := by
    intro β f A B l l₁ l₂ h h1 h2
    rw [forall2_map h, forall2_map h1, forall2_map h2, List.map_append, List.flatten_append]
  refine ⟨by omega, ?_, ?_, ?_⟩
  · intro a t a₁ t₁ a₂ t₂ ht ht₁ ht₂
    obtain ⟨l, f, rfl, -⟩ := (C27_orbitals hc).1 (Or.inr z1) ht
    obtain ⟨l₁, f₁, rfl, q₁⟩ := (C27_orbitals hc₁).1 (Or.inr y1) ht₁
    obtain ⟨l₂, f₂, rfl, q₂⟩ := (C27_orbitals hc₂).1 (Or.inr x1) ht₂
    rw [hcells] at f
    exact ⟨l₁.flatten, l₂.flatten, by rw [hf2 f f₁ f₂], rfl, rfl, by omega, by omega⟩
  · intro a t a₁ t₁ a₂ t₂ ht ht₁ ht₂
    obtain ⟨l, f, rfl, -⟩ := (C27_orbitals hc).2 (Or.inr z2) ht
    obtain ⟨l₁, f₁, rfl, q₁⟩ := (C27_orbitals hc₁).2 (Or.inr y2) ht₁
    obtain ⟨l₂, f₂, rfl, q₂⟩ := (C27_orbitals hc₂).2 (Or.inr x2) ht₂
    rw [hcells] at f
    exact ⟨l₁.flatten, l₂.flatten, by rw [hf2 f f₁ f₂], rfl, rfl, by omega, by omega⟩
  · intro a t a₁ t₁ a₂ t₂ ht ht₁ ht₂
    obtain ⟨o, e, ho, -⟩ := sample_terms hd hc hi z3 ht
    obtain ⟨o₁, e₁, ho₁, r₁⟩ := sample_terms hd₁ hc₁ hi₁ y3 ht₁
    obtain ⟨o₂, e₂, ho₂, r₂⟩ := sample_terms hd₂ hc₂ hi₂ x3 ht₂
    refine ⟨o, o₁, o₂, e, e₁, e₂, ?_, r₁, r₂⟩
    unfold PartTerms
    have k₁ := namedTerms_congr (H := H) (HS := HS) (hp := hp) (fun h hh => ⟨(hi₁ h hh).1, (hi₁ h hh).2.1⟩) (c := 0)
      (st := off (fun id => (hp id).numOrbSc) s₁.cells) (st' := off (fun id => (hp id).numOrbSc) s.cells)
      (fun id hid => by rw [hcells, off_append_left hid, zero_add])
    have k₂ := namedTerms_congr (H := H) (HS := HS) (hp := hp) (fun h hh => ⟨(hi₂ h hh).1, (hi₂ h hh).2.1⟩) (c := ((s₁.numOrb hp).toNat : ℤ))
      (st := off (fun id => (hp id).numOrbSc) s₂.cells) (st' := off (fun id => (hp id).numOrbSc) s.cells)
      (fun id hid => by
        rw [hcells, off_append_right (fun h => hdis id h id hid rfl), Int.toNat_of_nonneg n₁]
        rfl)
    simp only [zero_add, List.map_id'] at k₁
    rw [ho, ho₁, ho₂, ← k₁, ← k₂]
    unfold namedTerms
    rw [hcells, hinters, List.flatMap_append, List.flatMap_append, List.append_assoc, List.append_assoc]
    refine List.Perm.append_left _ ?_
    rw [← List.append_assoc, ← List.append_assoc]
    exact List.Perm.append_right _ List.perm_append_comm

end Assembly

/-! ## The matrices -/

section Calc

variable {m m' : ℕ}

theorem part_sum {F E M : Type*} [AddCommMonoid M] (f : SCHop F E → M)
    (hf : ∀ t : SCHop F E, f { t with i := m + t.i, j := m + t.j } = f t) {x x₁ x₂ : List (SCHop F E)} (h : PartTerms m x x₁ x₂)
    (h₁ : TermsInRange m x₁) (h₂ : TermsInRange m' x₂) (a b : ℤ) :
    ((x.filter fun t => t.i = a ∧ t.j = b).map f).sum =
      (if a < m ∧ b < m then ((x₁.filter fun t => t.i = a ∧ t.j = b).map f).sum else 0) +
      (if m ≤ a ∧ m ≤ b then ((x₂.filter fun t => t.i = a - m ∧ t.j = b - m).map f).sum else 0) := by
  rw [((h.filter _).map f).sum_eq, List.filter_append, List.map_append, List.sum_append]
  congr 1
  · split_ifs with hab
    · rfl
    · rw [List.filter_eq_nil_iff.2]
      · rfl
      · intro t ht
        have := h₁ t ht
        simp only [decide_eq_true_eq]
        rintro ⟨rfl, rfl⟩
        exact hab ⟨this.1.2, this.2.2⟩
  · rw [List.filter_map, List.map_map]
    split_ifs with hab
    · have e1 : x₂.filter ((fun t : SCHop F E => decide (t.i = a ∧ t.j = b)) ∘ fun t => { t with i := m + t.i, j := m + t.j }) =
          x₂.filter fun t => t.i = a - m ∧ t.j = b - m := by
        refine List.filter_congr fun t _ => ?_
        simp only [Function.comp]
        congr 1
        apply propext
        constructor <;> rintro ⟨p, q⟩ <;> constructor <;> omega
      rw [e1]
      congr 1
      exact List.map_congr_left fun t _ => hf t
    · rw [List.filter_eq_nil_iff.2]
      · rfl
      · intro t ht
        have := h₂ t ht
        simp only [Function.comp, decide_eq_true_eq]
        rintro ⟨rfl, rfl⟩
        exact hab ⟨by omega, by omega⟩

theorem part_hop {F E : Type*} [AddCommMonoid E] {x x₁ x₂ : List (SCHop F E)} (h : PartTerms m x x₁ x₂)
    (h₁ : TermsInRange m x₁) (h₂ : TermsInRange m' x₂) (a b : ℤ) :
    hopMat x a b = (if a < m ∧ b < m then hopMat x₁ a b else 0) + (if m ≤ a ∧ m ≤ b then hopMat x₂ (a - m) (b - m) else 0) :=
  part_sum _ (fun _ => rfl) h h₁ h₂ a b

theorem part_uncoupled {M M₁ M₂ : ℤ → ℤ → ℂ} (h : ∀ a b : ℤ, 0 ≤ a → a < m + m' → 0 ≤ b → b < m + m' →
    M a b = (if a < m ∧ b < m then M₁ a b else 0) + (if m ≤ a ∧ m ≤ b then M₂ (a - m) (b - m) else 0)) :
    Uncoupled (toMatrix (m + m') M) (toMatrix m M₁) (toMatrix m' M₂) := by
  constructor <;> intro i j
  · change M ((Fin.castAdd m' i : Fin (m + m')) : ℕ) ((Fin.castAdd m' j : Fin (m + m')) : ℕ) = M₁ i j
    rw [h _ _ (by omega) (by omega) (by omega) (by omega), if_pos ⟨by simp, by simp⟩,
      if_neg (by simp only [Fin.val_castAdd]; omega), add_zero]
    rfl
  · change M ((Fin.natAdd m i : Fin (m + m')) : ℕ) ((Fin.natAdd m j : Fin (m + m')) : ℕ) = M₂ i j
    rw [h _ _ (by omega) (by omega) (by omega) (by omega), if_neg (by simp only [Fin.val_natAdd]; omega),
      if_pos ⟨by simp, by simp⟩, zero_add]
    congr 1 <;> simp
  · change M ((Fin.castAdd m' i : Fin (m + m')) : ℕ) ((Fin.natAdd m j : Fin (m + m')) : ℕ) = 0
    rw [h _ _ (by omega) (by omega) (by omega) (by omega), if_neg (by simp only [Fin.val_castAdd, Fin.val_natAdd]; omega),
      if_neg (by simp only [Fin.val_castAdd, Fin.val_natAdd]; omega), add_zero]
  · change M ((Fin.natAdd m i : Fin (m + m')) : ℕ) ((Fin.castAdd m' j : Fin (m + m')) : ℕ) = 0
    rw [h _ _ (by omega) (by omega) (by omega) (by omega), if_neg (by simp only [Fin.val_castAdd, Fin.val_natAdd]; omega),
      if_neg (by simp only [Fin.val_castAdd, Fin.val_natAdd]; omega), add_zero]

theorem part_diag {e₁ e₂ : List ℝ} (l₁ : e₁.length = m) (a : ℤ) (ha : 0 ≤ a) :
    (e₁ ++ e₂)[a.toNat]?.getD 0 = if a < m then e₁[a.toNat]?.getD 0 else e₂[(a - m).toNat]?.getD 0 := by
  split_ifs with h
  · rw [List.getElem?_append_left (by omega)]
  · rw [List.getElem?_append_right (by omega)]
    congr 2
    omega

theorem part_hamSpec {e₁ e₂ : List ℝ} (l₁ : e₁.length = m) {x x₁ x₂ : List (SCHop ℝ ℂ)} (h : PartTerms m x x₁ x₂)
    (h₁ : TermsInRange m x₁) (h₂ : TermsInRange m' x₂) (a b : ℤ) (ha : 0 ≤ a) :
    hamSpec (e₁ ++ e₂) x a b =
      (if a < m ∧ b < m then hamSpec e₁ x₁ a b else 0) + (if m ≤ a ∧ m ≤ b then hamSpec e₂ x₂ (a - m) (b - m) else 0) := by
  unfold hamSpec
  rw [part_hop h h₁ h₂, part_hop h h₁ h₂, star_add]
  have he : engMat (e₁ ++ e₂) a b = (if a < m ∧ b < m then engMat e₁ a b else 0) + (if m ≤ a ∧ m ≤ b then engMat e₂ (a - m) (b - m) else 0) := by
    unfold engMat
    rw [part_diag l₁ a ha]
    by_cases hab : a = b
    · subst hab
      by_cases hm : a < m
      · have : ¬ ((m : ℤ) ≤ a) := by omega
        simp [hm, ha, this]
      · have : (m : ℤ) ≤ a := by omega
        simp [hm, ha, this]
    · have : ¬ (a - m = b - m) := by omega
      simp [hab, this]
  rw [he]
  have p1 : (b < m ∧ a < m) ↔ (a < m ∧ b < m) := and_comm
  have p2 : ((m : ℤ) ≤ b ∧ (m : ℤ) ≤ a) ↔ ((m : ℤ) ≤ a ∧ (m : ℤ) ≤ b) := and_comm
  simp only [p1, p2]
  by_cases hm : a < m ∧ b < m
  · have : ¬ ((m : ℤ) ≤ a ∧ (m : ℤ) ≤ b) := by omega
    simp [hm, this]
  · simp only [hm, if_false, zero_add, star_zero]
    split_ifs <;> simp

/-- C136: the Bloch Hamiltonian of such a sample has the Hamiltonians of the two groups as blocks, so its energies are theirs. -/
theorem C136_sample_bloch {e₁ e₂ : List ℝ} (l₁ : e₁.length = m) {o o₁ o₂ : HopOut ℝ ℂ} (h : PartTerms m o.terms o₁.terms o₂.terms)
    (h₁ : TermsInRange m o₁.terms) (h₂ : TermsInRange m' o₂.terms) {s s₁ s₂ : Sample ℝ ℂ} (hs₁ : s₁.rescale = s.rescale)
    (hs₂ : s₂.rescale = s.rescale) (lat : Mat3 ℝ) (k : Vec3 ℝ) (conv : ℤ) (ham ham₁ ham₂ M M₁ M₂ : ℤ → ℤ → ℂ)
    (hM : Sample.setHamDense lat s (e₁ ++ e₂) o k conv ham = some M ∧ Sample.setHamDense lat s₁ e₁ o₁ k conv ham₁ = some M₁ ∧
        Sample.setHamDense lat s₂ e₂ o₂ k conv ham₂ = some M₂ ∨
      Sample.setHamCsr lat s (e₁ ++ e₂) o k conv = some M ∧ Sample.setHamCsr lat s₁ e₁ o₁ k conv = some M₁ ∧
        Sample.setHamCsr lat s₂ e₂ o₂ k conv = some M₂) :
    Uncoupled (toMatrix (m + m') M) (toMatrix m M₁) (toMatrix m' M₂) ∧
      (toMatrix (m + m') M).charpoly = (toMatrix m M₁).charpoly * (toMatrix m' M₂).charpoly := by
  have key : Uncoupled (toMatrix (m + m') M) (toMatrix m M₁) (toMatrix m' M₂) := by
    refine part_uncoupled fun a b ha _ _ _ => ?_
    have hk : ∀ B : Mat3 ℝ, PartTerms m (buildHopK o.terms (Matrix.vecMul k B)) (buildHopK o₁.terms (Matrix.vecMul k B))
        (buildHopK o₂.terms (Matrix.vecMul k B)) := by
      intro B
      unfold PartTerms buildHopK
      refine (h.map _).trans (List.Perm.of_eq ?_)
      rw [List.map_append, List.map_map, List.map_map]
      rfl
    have hkr : ∀ (n : ℕ) (o : HopOut ℝ ℂ) (B : Mat3 ℝ), TermsInRange n o.terms → TermsInRange n (buildHopK o.terms (Matrix.vecMul k B)) := by
      intro n o B hr h hh
      obtain ⟨g, hg, rfl⟩ := List.mem_map.1 hh
      exact hr g hg
    rcases hM with ⟨q, q₁, q₂⟩ | ⟨q, q₁, q₂⟩
    · unfold Sample.setHamDense at q q₁ q₂
      split_ifs at q q₁ q₂ with hc
      cases hB : genReciprocal lat with
      | none => rw [hB] at q; cases q
      | some B =>
        rw [hB] at q q₁ q₂
        simp only [mul_zero, Option.some.injEq] at q q₁ q₂
        rw [← q, ← q₁, ← q₂, fillHam_eq, fillHam_eq, fillHam_eq, hs₁, hs₂]
        simp only
        rw [part_hamSpec l₁ (hk B) (hkr _ _ B h₁) (hkr _ _ B h₂) a b ha]
        split_ifs <;> ring
    · unfold Sample.setHamCsr at q q₁ q₂
      split_ifs at q q₁ q₂ with hc
      cases hB : genReciprocal lat with
      | none => rw [hB] at q; cases q
      | some B =>
        rw [hB] at q q₁ q₂
        simp only [Option.some.injEq] at q q₁ q₂
        rw [← q, ← q₁, ← q₂, hamCsr_eq, hamCsr_eq, hamCsr_eq, hs₁, hs₂]
        simp only
        rw [part_hamSpec l₁ (hk B) (hkr _ _ B h₁) (hkr _ _ B h₂) a b ha]
        split_ifs <;> ring
  exact ⟨key, uncoupled_charpoly key⟩

/-- C136: the matrix of the propagation methods has the matrices of the two groups as blocks. -/
theorem C136_sample_csr {e₁ e₂ : List ℝ} (l₁ : e₁.length = m) (l₂ : e₂.length = m') {x x₁ x₂ : List (SCHop ℝ ℂ)}
    (h : PartTerms m x x₁ x₂) (h₁ : TermsInRange m x₁) (h₂ : TermsInRange m' x₂) (junk junk₁ junk₂ : CsrEnt ℝ ℂ) (cutoff : ℝ) :
    Uncoupled (toMatrix (m + m') (buildFast (fun e : ℝ => (e : ℂ)) junk cutoff (e₁ ++ e₂) x).mat)
      (toMatrix m (buildFast (fun e : ℝ => (e : ℂ)) junk₁ cutoff e₁ x₁).mat)
      (toMatrix m' (buildFast (fun e : ℝ => (e : ℂ)) junk₂ cutoff e₂ x₂).mat) := by
  have hl : (e₁ ++ e₂).length = m + m' := by rw [List.length_append, l₁, l₂]
  have hr : TermsInRange (m + m') x := by
    intro t ht
    have := h.mem_iff.1 ht
    rw [List.mem_append] at this
    rcases this with ht | ht
    · have := h₁ t ht
      push_cast
      omega
    · obtain ⟨g, hg, rfl⟩ := List.mem_map.1 ht
      have := h₂ g hg
      push_cast
      omega
  refine part_uncoupled fun a b ha ha' hb hb' => ?_
  rw [(C25_fast_matrix (fun e : ℝ => (e : ℂ)) junk cutoff (hl ▸ hr) ⟨ha, by rw [hl]; push_cast; omega⟩ b).1, part_hop h h₁ h₂, part_hop h h₁ h₂, star_add]
  have he : diagMat (fun e : ℝ => (e : ℂ)) cutoff (e₁ ++ e₂) a b = (if a < m ∧ b < m then diagMat (fun e : ℝ => (e : ℂ)) cutoff e₁ a b else 0) +
      (if m ≤ a ∧ m ≤ b then diagMat (fun e : ℝ => (e : ℂ)) cutoff e₂ (a - m) (b - m) else 0) := by
    unfold diagMat
    simp only [List.getD_eq_getElem?_getD]
    rw [part_diag l₁ a ha, hl, l₁, l₂]
    by_cases hab : a = b
    · subst hab
      by_cases hm : a < m
      · have : ¬ ((m : ℤ) ≤ a) := by omega
        simp [hm, ha, this, ha']
      · have h1 : (m : ℤ) ≤ a := by omega
        have h2 : a - m < m' := by omega
        simp [hm, ha, h1, ha', h2]
    · have : ¬ (a - m = b - m) := by omega
      simp [hab, this]
  rw [he]
  have p1 : (b < m ∧ a < m) ↔ (a < m ∧ b < m) := and_comm
  have p2 : ((m : ℤ) ≤ b ∧ (m : ℤ) ≤ a) ↔ ((m : ℤ) ≤ a ∧ (m : ℤ) ≤ b) := and_comm
  simp only [p1, p2]
  by_cases hm : a < m ∧ b < m
  · have h3 : ¬ ((m : ℤ) ≤ a ∧ (m : ℤ) ≤ b) := by omega
    rw [(C25_fast_matrix (fun e : ℝ => (e : ℂ)) junk₁ cutoff (eng := e₁) (l₁ ▸ h₁) ⟨ha, by rw [l₁]; exact hm.1⟩ b).1]
    simp [hm, h3]
  · simp only [hm, if_false, zero_add, star_zero]
    split_ifs with h3
    · rw [(C25_fast_matrix (fun e : ℝ => (e : ℂ)) junk₂ cutoff (eng := e₂) (l₂ ▸ h₂) ⟨by omega, by rw [l₂]; omega⟩ (b - m)).1]
    · simp

end Calc

/-! ### A concrete case: a ring of four sites and an open chain of three, not coupled -/

/-- Hopping terms of a sample of supercells. -/
noncomputable def partTerms (c : List (Option (SCell ℚ GInt Unit))) (order : List ℕ) : Option (List (ℤ × ℤ × GInt)) :=
  (c.mapM id).bind fun c => c.head?.bind fun c0 => (initHop lenHash scLenHash (fun id => c.getD id c0)
    ⟨order, [], none, none, none, 1⟩ false).2.1.hop.map fun o => o.terms.map fun t => (t.i, t.j, t.v)

example : partTerms [scRun chain [4, 1] [true, true] none [], scRun chain [3, 1] [false, true] none []] [0, 1] =
    some [(0, 1, ⟨2, 1⟩), (1, 2, ⟨2, 1⟩), (2, 3, ⟨2, 1⟩), (3, 0, ⟨2, 1⟩), (4, 5, ⟨2, 1⟩), (5, 6, ⟨2, 1⟩)] := by
  decide +kernel

example : partTerms [scRun chain [4, 1] [true, true] none [], scRun chain [3, 1] [false, true] none []] [0] =
    some [(0, 1, ⟨2, 1⟩), (1, 2, ⟨2, 1⟩), (2, 3, ⟨2, 1⟩), (3, 0, ⟨2, 1⟩)] ∧
    partTerms [scRun chain [4, 1] [true, true] none [], scRun chain [3, 1] [false, true] none []] [1] =
    some [(0, 1, ⟨2, 1⟩), (1, 2, ⟨2, 1⟩)] := by
  decide +kernel

end Verif

import Verif.Props.Symmetry

/-! # Property C101: symmetries that mix orbitals, and antiunitary symmetries -/

namespace Verif.Props

open PrimCell Materials

variable {Λ : Type*}

/-- The matrix element of the crystal between orbital `i` of cell 0 and orbital `j` of cell `R`, with the orbital energies. -/
noncomputable def fullAmp (s : PrimCell ℝ ℂ Λ) (R : Cell) (i j : ℕ) : ℂ :=
  (if R = 0 ∧ i = j then ((s.orbs[i]?.elim 0 Orbital.energy : ℝ) : ℂ) else 0) + amp s R i j

/-- A unitary symmetry of the crystal: orbital `i` of cell `R` goes to the combination `∑ a, U a i` of the orbitals of cell
`A R + τ i`.  The condition says that this operation commutes with the Hamiltonian of the infinite crystal. -/
structure UnitarySym (s : PrimCell ℝ ℂ Λ) (A : Matrix (Fin 3) (Fin 3) ℤ) (U : Matrix (Fin s.numOrb) (Fin s.numOrb) ℂ) (τ : ℕ → Cell) :
    Prop where
  unimod : IsUnit A.det
  unit : IsUnit U.det
  comm : ∀ T (a j : Fin s.numOrb), ∑ b : Fin s.numOrb, fullAmp s T a b * U b j = ∑ i : Fin s.numOrb, U a i * fullAmp s (cellMul A⁻¹ (T - τ j + τ i)) i j

/-- An antiunitary symmetry of the crystal: the same with complex conjugation. -/
structure AntiSym (s : PrimCell ℝ ℂ Λ) (A : Matrix (Fin 3) (Fin 3) ℤ) (U : Matrix (Fin s.numOrb) (Fin s.numOrb) ℂ) (τ : ℕ → Cell) :
    Prop where
  unimod : IsUnit A.det
  comm : ∀ T (a j : Fin s.numOrb), ∑ b : Fin s.numOrb, fullAmp s T a b * U b j = ∑ i : Fin s.numOrb, U a i * star (fullAmp s (cellMul A⁻¹ (T - τ j + τ i)) i j)

/-- The Bloch phase of a cell. -/
noncomputable def cellPhase (k : Vec3 ℝ) (R : Cell) : ℂ := eiPhase (2 * Real.pi * ∑ x, k x * cellAt R x)

/-- The Bloch phase of the position of an orbital in convention 1. -/
noncomputable def orbPhase (s : PrimCell ℝ ℂ Λ) (conv : ℤ) (k : Vec3 ℝ) (i : ℕ) : ℂ :=
  eiPhase (2 * Real.pi * ∑ x, k x * if conv = 1 then s.orbs[i]?.elim 0 fun o => o.position x else 0)

theorem cellPhase_add (k : Vec3 ℝ) (R S : Cell) : cellPhase k (R + S) = cellPhase k R * cellPhase k S := by
  unfold cellPhase
  rw [← eiPhase_add]
  congr 1
  simp only [Fin.sum_univ_three, cellAt, Prod.fst_add, Prod.snd_add]
  push_cast
  ring

theorem cellPhase_mul (A : Matrix (Fin 3) (Fin 3) ℤ) (k : Vec3 ℝ) (R : Cell) : cellPhase k (cellMul A R) = cellPhase (kMul A k) R := by
  unfold cellPhase
  rw [kMul_cell]

theorem eiPhase_ne_zero (x : ℝ) : eiPhase x ≠ 0 := by
  rw [eiPhase_eq_exp]; exact Complex.exp_ne_zero _

theorem eiPhase_norm (x : ℝ) : ‖eiPhase x‖ = 1 := by
  rw [eiPhase_eq_exp, Complex.norm_exp_ofReal_mul_I]

theorem eiPhase_star_mul (x : ℝ) : star (eiPhase x) * eiPhase x = 1 := by
  rw [← eiPhase_neg, ← eiPhase_add]
  simp [eiPhase_zero]

/-- The cells with a hopping term, and the cell 0. -/
theorem exists_support (s : PrimCell ℝ ℂ Λ) : ∃ S : Finset Cell, (0 : Cell) ∈ S ∧
    ∀ R (i j : ℕ), i < s.numOrb → s.hops.get R i j ≠ none → R ∈ S := by
  classical
  refine ⟨insert 0 ((Finset.range s.numOrb).biUnion fun i => ((C07_neighbours_finite s.hops i).image Prod.fst).toFinset),
    Finset.mem_insert_self _ _, fun R i j hi hR => ?_⟩
  refine Finset.mem_insert_of_mem (Finset.mem_biUnion.2 ⟨i, Finset.mem_range.2 hi, ?_⟩)
  exact (Set.Finite.mem_toFinset _).2 ⟨(R, j), hR, rfl⟩

/-- Bloch matrix from `fullAmp`. -/
theorem ham_full {s : PrimCell ℝ ℂ Λ} (hw : WF s) (hf : ArraysFresh s) (k : Vec3 ℝ) (conv : ℤ) (ham : IMat)
    (hok : setHamDense s k conv = .ok ham) (S : Finset Cell) (h0 : (0 : Cell) ∈ S)
    (hS : ∀ R (i j : ℕ), i < s.numOrb → s.hops.get R i j ≠ none → R ∈ S) (i j : ℕ) (hi : i < s.numOrb) (hj : j < s.numOrb) :
    ham i j * orbPhase s conv k i = orbPhase s conv k j * ∑ R ∈ S, fullAmp s R i j * cellPhase k R := by
  obtain ⟨oi, hoi⟩ : ∃ o, s.orbs[i]? = some o := ⟨s.orbs[i]'hi, List.getElem?_eq_getElem _⟩
  obtain ⟨oj, hoj⟩ : ∃ o, s.orbs[j]? = some o := ⟨s.orbs[j]'hj, List.getElem?_eq_getElem _⟩
  rw [ham_entry hw hf k conv ham hok i j oi oj hoi hoj S (fun R hR => hS R i j hi hR)]
  have key : ∑ R ∈ S, fullAmp s R i j * cellPhase k R = (if i = j then (oi.energy : ℂ) else 0) +
      ∑ R ∈ S, (s.hops.get R i j).getD 0 * cellPhase k R := by
    have h1 : ∀ R ∈ S, fullAmp s R i j * cellPhase k R = (if R = 0 then (if i = j then (oi.energy : ℂ) else 0) else 0) +
        (s.hops.get R i j).getD 0 * cellPhase k R := by
      intro R _
      simp only [fullAmp, amp, hoi, Option.elim_some, add_mul]
      congr 1
      by_cases hR : R = 0
      · subst hR
        have : cellPhase k 0 = 1 := by simp [cellPhase, cellAt, Fin.sum_univ_three, eiPhase_zero]
        by_cases hij : i = j <;> simp [hij, this]
      · simp [hR]
    rw [Finset.sum_congr rfl h1, Finset.sum_add_distrib, Finset.sum_ite_eq' S (0 : Cell), if_pos h0]
  rw [key, add_mul, mul_add]
  congr 1
  · by_cases hij : i = j
    · subst hij; rw [mul_comm]
    · simp [hij]
  · rw [Finset.sum_mul, Finset.mul_sum]
    refine Finset.sum_congr rfl fun R _ => ?_
    unfold orbPhase cellPhase
    rw [hoi, hoj, mul_assoc, ← eiPhase_add, mul_left_comm, ← eiPhase_add]
    congr 2
    simp only [Option.elim_some, Fin.sum_univ_three]
    split_ifs <;> ring

/-- Fourier transform of the commutation relation. -/
theorem fourier_comm {n : ℕ} (A : Matrix (Fin 3) (Fin 3) ℤ) (hA : IsUnit A.det) (U : Matrix (Fin n) (Fin n) ℂ) (τ : ℕ → Cell)
    (F G : Cell → Fin n → Fin n → ℂ)
    (hc : ∀ T a j, ∑ b, F T a b * U b j = ∑ i : Fin n, U a i * G (cellMul A⁻¹ (T - τ j + τ i)) i j) (S : Finset Cell)
    (hF : ∀ R i j, F R i j ≠ 0 → R ∈ S) (hG : ∀ R i j, G R i j ≠ 0 → R ∈ S) (k : Vec3 ℝ) (a j : Fin n) :
    ∑ b, (∑ R ∈ S, F R a b * cellPhase k R) * (U b j * cellPhase k (-τ j)) =
      ∑ i : Fin n, U a i * cellPhase k (-τ i) * ∑ R ∈ S, G R i j * cellPhase (kMul A k) R := by
  classical
  have hAB : A * A⁻¹ = 1 := Matrix.mul_nonsing_inv _ hA
  have hBA : A⁻¹ * A = 1 := Matrix.nonsing_inv_mul _ hA
  let f : Fin n → Cell → Cell := fun i R => cellMul A R + τ j - τ i
  let g : Fin n → Cell → Cell := fun i R => cellMul A⁻¹ (R - τ j + τ i)
  have hfg : ∀ i R, f i (g i R) = R := by
    intro i R
    simp only [f, g]
    rw [cellMul_inv hAB]
    refine Prod.ext ?_ (Prod.ext ?_ ?_) <;> simp <;> ring
  have hgf : ∀ i R, g i (f i R) = R := by
    intro i R
    simp only [f, g]
    rw [show cellMul A R + τ j - τ i - τ j + τ i = cellMul A R by refine Prod.ext ?_ (Prod.ext ?_ ?_) <;> simp <;> ring, cellMul_inv hBA]
  let S' : Finset Cell := S ∪ Finset.univ.biUnion fun i => S.image (f i)
  have h1 : ∀ b, ∑ R ∈ S, F R a b * cellPhase k R = ∑ R ∈ S', F R a b * cellPhase k R := by
    intro b
    refine Finset.sum_subset Finset.subset_union_left fun R _ hR => ?_
    by_contra hne
    exact hR (hF R a b (left_ne_zero_of_mul hne))
  calc ∑ b, (∑ R ∈ S, F R a b * cellPhase k R) * (U b j * cellPhase k (-τ j))
      = ∑ R ∈ S', (∑ b, F R a b * U b j) * (cellPhase k R * cellPhase k (-τ j)) := by
        simp only [h1, Finset.sum_mul]
        rw [Finset.sum_comm]
        refine Finset.sum_congr rfl fun R _ => Finset.sum_congr rfl fun b _ => by ring
    _ = ∑ i : Fin n, ∑ R ∈ S', U a i * G (g i R) i j * (cellPhase k R * cellPhase k (-τ j)) := by
        rw [Finset.sum_comm]
        refine Finset.sum_congr rfl fun R _ => ?_
        rw [hc, Finset.sum_mul]
    _ = _ := by
        refine Finset.sum_congr rfl fun i _ => ?_
        have hsub : ∑ R ∈ S', U a i * G (g i R) i j * (cellPhase k R * cellPhase k (-τ j)) =
            ∑ R ∈ S.image (f i), U a i * G (g i R) i j * (cellPhase k R * cellPhase k (-τ j)) := by
          symm
          refine Finset.sum_subset (fun R hR => Finset.mem_union_right _ (Finset.mem_biUnion.2 ⟨i, Finset.mem_univ _, hR⟩)) fun R _ hR => ?_
          by_contra hne
          refine hR (Finset.mem_image.2 ⟨g i R, hG _ i j (right_ne_zero_of_mul (left_ne_zero_of_mul hne)), hfg i R⟩)
        rw [hsub, Finset.sum_image (fun x _ y _ h => by rw [← hgf i x, h, hgf]), Finset.mul_sum]
        refine Finset.sum_congr rfl fun R _ => ?_
        rw [hgf, ← cellPhase_mul, ← cellPhase_add, show f i R + -τ j = -τ i + cellMul A R by
          simp only [f]
          refine Prod.ext ?_ (Prod.ext ?_ ?_) <;> simp <;> ring, cellPhase_add]
        ring

theorem fullAmp_support {s : PrimCell ℝ ℂ Λ} {S : Finset Cell} (h0 : (0 : Cell) ∈ S)
    (hS : ∀ R (i j : ℕ), i < s.numOrb → s.hops.get R i j ≠ none → R ∈ S) (R : Cell) (i j : ℕ) (hi : i < s.numOrb)
    (h : fullAmp s R i j ≠ 0) : R ∈ S := by
  by_contra hne
  apply h
  have h1 : R ≠ 0 := fun h => hne (h ▸ h0)
  have h2 : s.hops.get R i j = none := by
    by_contra h3
    exact hne (hS R i j hi h3)
  simp [fullAmp, amp, h1, h2]

/-- **C101 (unitary symmetries).** Every unitary symmetry of the crystal, also one that mixes orbitals, is a symmetry of the bands:
the energies at `k` and `Aᵀ k` agree with multiplicities. -/
theorem C101_unitary {s : PrimCell ℝ ℂ Λ} (hw : WF s) (hf : ArraysFresh s) {A : Matrix (Fin 3) (Fin 3) ℤ}
    {U : Matrix (Fin s.numOrb) (Fin s.numOrb) ℂ} {τ : ℕ → Cell} (hA : UnitarySym s A U τ) (k : Vec3 ℝ) (conv : ℤ) (ham ham' : IMat)
    (hok : setHamDense s (kMul A k) conv = .ok ham) (hok' : setHamDense s k conv = .ok ham') :
    (toMatrix s.numOrb ham').charpoly = (toMatrix s.numOrb ham).charpoly := by
  obtain ⟨S, h0, hS⟩ := exists_support s
  let h : Vec3 ℝ → Matrix (Fin s.numOrb) (Fin s.numOrb) ℂ := fun k => Matrix.of fun i j => ∑ R ∈ S, fullAmp s R i j * cellPhase k R
  have hph : ∀ k i, orbPhase s conv k i ≠ 0 := fun k i => eiPhase_ne_zero _
  have e1 : ∀ (k : Vec3 ℝ) (ham : IMat), setHamDense s k conv = .ok ham → (toMatrix s.numOrb ham).charpoly = (h k).charpoly := by
    intro k ham hok
    refine charpoly_monomial _ _ (Equiv.refl _) (fun i => (orbPhase s conv k i)⁻¹) (fun i => inv_ne_zero (hph k i)) fun i j => ?_
    have := ham_full hw hf k conv ham hok S h0 hS i j i.2 j.2
    simp only [Equiv.refl_apply, toMatrix, h, Matrix.of_apply]
    field_simp [hph k i, hph k j]
    exact this
  rw [e1 k ham' hok', e1 _ ham hok]
  let V : Matrix (Fin s.numOrb) (Fin s.numOrb) ℂ := U * Matrix.diagonal fun i : Fin s.numOrb => cellPhase k (-τ i)
  have hV : IsUnit V := by
    rw [Matrix.isUnit_iff_isUnit_det, Matrix.det_mul, Matrix.det_diagonal]
    exact hA.unit.mul (Finset.prod_ne_zero_iff.2 fun i _ => eiPhase_ne_zero _).isUnit
  have hcomm : h k * V = V * h (kMul A k) := by
    ext a j
    have := fourier_comm A hA.unimod U τ (fun R i j => fullAmp s R i j) (fun R i j => fullAmp s R i j) hA.comm S
      (fun R i j hne => fullAmp_support h0 hS R i j i.2 hne) (fun R i j hne => fullAmp_support h0 hS R i j i.2 hne) k a j
    rw [Matrix.mul_apply, Matrix.mul_apply]
    simp only [V, Matrix.mul_diagonal, h, Matrix.of_apply]
    exact this
  have : h k = hV.unit.val * h (kMul A k) * hV.unit.val⁻¹ := by
    have hv : hV.unit.val = V := rfl
    rw [hv, ← hcomm, Matrix.mul_assoc, Matrix.mul_nonsing_inv _ ((Matrix.isUnit_iff_isUnit_det _).1 hV), Matrix.mul_one]
  rw [this]
  exact Matrix.charpoly_units_conj hV.unit _

theorem cellPhase_neg (k : Vec3 ℝ) (R : Cell) : cellPhase k (-R) = star (cellPhase k R) := by
  unfold cellPhase
  rw [← eiPhase_neg]
  congr 1
  simp only [Fin.sum_univ_three, cellAt, Prod.fst_neg, Prod.snd_neg]
  push_cast
  ring

theorem cellPhase_conj {k k' : Vec3 ℝ} (hk : ∀ x, ∃ m : ℤ, k x + k' x = m) (R : Cell) : cellPhase k' R = star (cellPhase k R) := by
  obtain ⟨m0, h0⟩ := hk 0
  obtain ⟨m1, h1⟩ := hk 1
  obtain ⟨m2, h2⟩ := hk 2
  have hint : eiPhase (2 * Real.pi * ((m0 * R.1 + m1 * R.2.1 + m2 * R.2.2 : ℤ) : ℝ)) = 1 := eiPhase_int _
  unfold cellPhase
  rw [← eiPhase_neg, ← one_mul (eiPhase (-_)), ← hint, ← eiPhase_add]
  congr 1
  simp only [Fin.sum_univ_three, cellAt]
  push_cast
  rw [← h0, ← h1, ← h2]
  ring

/-- A symmetry on the Bloch states of Bloch vector `k`: the matrix of the symmetry with the phases of the images and of the convention. -/
noncomputable def blochSym (s : PrimCell ℝ ℂ Λ) (A : Matrix (Fin 3) (Fin 3) ℤ) (U : Matrix (Fin s.numOrb) (Fin s.numOrb) ℂ) (τ : ℕ → Cell)
    (conv : ℤ) (k : Vec3 ℝ) : Matrix (Fin s.numOrb) (Fin s.numOrb) ℂ :=
  Matrix.of fun a i => star (orbPhase s conv k a) * (U a i * cellPhase k (-τ i)) * orbPhase s conv (kMul A k) i

/-- **C101 (commutation).** A unitary symmetry intertwines the Hamiltonians: with the Bloch phases of the images, `H(k) V = V H(A k)`,
for both conventions. -/
theorem C101_intertwines {s : PrimCell ℝ ℂ Λ} (hw : WF s) (hf : ArraysFresh s) {A : Matrix (Fin 3) (Fin 3) ℤ}
    {U : Matrix (Fin s.numOrb) (Fin s.numOrb) ℂ} {τ : ℕ → Cell} (hA : UnitarySym s A U τ) (k : Vec3 ℝ) (conv : ℤ) (ham ham' : IMat)
    (hok : setHamDense s (kMul A k) conv = .ok ham) (hok' : setHamDense s k conv = .ok ham') :
    toMatrix s.numOrb ham' * blochSym s A U τ conv k =
      blochSym s A U τ conv k * toMatrix s.numOrb ham := by
  obtain ⟨S, h0, hS⟩ := exists_support s
  have ho : ∀ k i, star (orbPhase s conv k i) * orbPhase s conv k i = 1 := fun k i => eiPhase_star_mul _
  have hham : ∀ (k : Vec3 ℝ) (ham : IMat), setHamDense s k conv = .ok ham → ∀ i j : Fin s.numOrb,
      ham (i : ℕ) (j : ℕ) = star (orbPhase s conv k i) * orbPhase s conv k j * ∑ R ∈ S, fullAmp s R i j * cellPhase k R := by
    intro k ham hok i j
    have h1 : ham (i : ℕ) (j : ℕ) * orbPhase s conv k i = orbPhase s conv k j * ∑ R ∈ S, fullAmp s R i j * cellPhase k R :=
      ham_full hw hf k conv ham hok S h0 hS i j i.2 j.2
    linear_combination star (orbPhase s conv k i) * h1 - ham (i : ℕ) (j : ℕ) * ho k i
  have hsup : ∀ R (i j : Fin s.numOrb), fullAmp s R i j ≠ 0 → R ∈ S := fun R i j h => fullAmp_support h0 hS R i j i.2 h
  have key := fourier_comm A hA.unimod U τ (fun R i j => fullAmp s R i j) (fun R i j => fullAmp s R i j) hA.comm S hsup hsup k
  ext a j
  rw [Matrix.mul_apply, Matrix.mul_apply]
  simp only [toMatrix, blochSym, Matrix.of_apply]
  have e1 : ∀ b : Fin s.numOrb, ham' (a : ℕ) (b : ℕ) * (star (orbPhase s conv k b) * (U b j * cellPhase k (-τ j)) * orbPhase s conv (kMul A k) j) =
      star (orbPhase s conv k a) * orbPhase s conv (kMul A k) j * ((∑ R ∈ S, fullAmp s R a b * cellPhase k R) * (U b j * cellPhase k (-τ j))) := by
    intro b
    rw [hham k ham' hok']
    linear_combination (star (orbPhase s conv k a) * orbPhase s conv (kMul A k) j * ((∑ R ∈ S, fullAmp s R a b * cellPhase k R) * (U b j * cellPhase k (-τ j)))) * ho k b
  have e2 : ∀ i : Fin s.numOrb, star (orbPhase s conv k a) * (U a i * cellPhase k (-τ i)) * orbPhase s conv (kMul A k) i * ham (i : ℕ) (j : ℕ) =
      star (orbPhase s conv k a) * orbPhase s conv (kMul A k) j * (U a i * cellPhase k (-τ i) * ∑ R ∈ S, fullAmp s R i j * cellPhase (kMul A k) R) := by
    intro i
    rw [hham _ ham hok]
    linear_combination (star (orbPhase s conv k a) * orbPhase s conv (kMul A k) j * (U a i * cellPhase k (-τ i) * ∑ R ∈ S, fullAmp s R i j * cellPhase (kMul A k) R)) * ho (kMul A k) i
  rw [Finset.sum_congr rfl fun b _ => e1 b, Finset.sum_congr rfl fun i _ => e2 i, ← Finset.mul_sum, ← Finset.mul_sum, key a j]

/-- **C101 (antiunitary symmetries and bands).** Every antiunitary symmetry of the crystal is a symmetry of the bands: the energies at
`k` and `-Aᵀ k` agree with multiplicities.  With `A = 1` this is time reversal. -/
theorem C101_antiunitary {s : PrimCell ℝ ℂ Λ} (hw : WF s) (hf : ArraysFresh s) {A : Matrix (Fin 3) (Fin 3) ℤ}
    {U : Matrix (Fin s.numOrb) (Fin s.numOrb) ℂ} {τ : ℕ → Cell} (hA : AntiSym s A U τ) (hU : IsUnit U.det) (k : Vec3 ℝ) (conv : ℤ)
    (ham ham' : IMat) (hok : setHamDense s (-kMul A k) conv = .ok ham) (hok' : setHamDense s k conv = .ok ham') :
    (toMatrix s.numOrb ham').charpoly = (toMatrix s.numOrb ham).charpoly := by
  obtain ⟨S, h0, hS⟩ := exists_support s
  let h : Vec3 ℝ → Matrix (Fin s.numOrb) (Fin s.numOrb) ℂ := fun k => Matrix.of fun i j => ∑ R ∈ S, fullAmp s R i j * cellPhase k R
  have hph : ∀ k i, orbPhase s conv k i ≠ 0 := fun k i => eiPhase_ne_zero _
  have e1 : ∀ (k : Vec3 ℝ) (ham : IMat), setHamDense s k conv = .ok ham → (toMatrix s.numOrb ham).charpoly = (h k).charpoly := by
    intro k ham hok
    refine charpoly_monomial _ _ (Equiv.refl _) (fun i => (orbPhase s conv k i)⁻¹) (fun i => inv_ne_zero (hph k i)) fun i j => ?_
    have := ham_full hw hf k conv ham hok S h0 hS i j i.2 j.2
    simp only [Equiv.refl_apply, toMatrix, h, Matrix.of_apply]
    field_simp [hph k i, hph k j]
    exact this
  have hherm : (toMatrix s.numOrb ham).IsHermitian := by
    unfold setHamDense at hok
    split_ifs at hok
    injection hok with hok
    rw [← hok]
    exact C09_hermitian _ _ _ _ _ _
  have hstar : ((h (-kMul A k)).map (starRingEnd ℂ)).charpoly = (h (-kMul A k)).charpoly := by
    rw [Matrix.charpoly_map, ← e1 _ ham hok, ← Matrix.charpoly_map, ← Matrix.charpoly_transpose (toMatrix s.numOrb ham)]
    congr 1
    exact congrArg Matrix.transpose hherm
  rw [e1 k ham' hok', e1 _ ham hok, ← hstar]
  let V : Matrix (Fin s.numOrb) (Fin s.numOrb) ℂ := U * Matrix.diagonal fun i : Fin s.numOrb => cellPhase k (-τ i)
  have hV : IsUnit V := by
    rw [Matrix.isUnit_iff_isUnit_det, Matrix.det_mul, Matrix.det_diagonal]
    exact hU.mul (Finset.prod_ne_zero_iff.2 fun i _ => eiPhase_ne_zero _).isUnit
  have hcomm : h k * V = V * (h (-kMul A k)).map (starRingEnd ℂ) := by
    ext a j
    have h1 := fourier_comm A hA.unimod U τ (fun R i j => fullAmp s R i j) (fun R i j => star (fullAmp s R i j)) hA.comm S
      (fun R i j hne => fullAmp_support h0 hS R i j i.2 hne)
      (fun R i j hne => fullAmp_support h0 hS R i j i.2 (fun h => hne (by rw [h, star_zero]))) k a j
    have h2 : ∀ i : Fin s.numOrb, ∑ R ∈ S, star (fullAmp s R i j) * cellPhase (kMul A k) R =
        star (∑ R ∈ S, fullAmp s R i j * cellPhase (-kMul A k) R) := by
      intro i
      rw [star_sum]
      refine Finset.sum_congr rfl fun R _ => ?_
      rw [star_mul', cellPhase_conj (k := -kMul A k) (k' := kMul A k) fun x => ⟨0, by simp⟩]
    simp only [h2] at h1
    rw [Matrix.mul_apply, Matrix.mul_apply]
    simp only [V, Matrix.mul_diagonal, h, Matrix.of_apply, Matrix.map_apply]
    exact h1
  have : h k = hV.unit.val * (h (-kMul A k)).map (starRingEnd ℂ) * hV.unit.val⁻¹ := by
    have hv : hV.unit.val = V := rfl
    rw [hv, ← hcomm, Matrix.mul_assoc, Matrix.mul_nonsing_inv _ ((Matrix.isUnit_iff_isUnit_det _).1 hV), Matrix.mul_one]
  rw [this]
  exact Matrix.charpoly_units_conj hV.unit _

/-- **C101 (time reversal).** If all hopping amplitudes are real, the energies at `k` and `-k` agree with multiplicities. -/
theorem C101_real {s : PrimCell ℝ ℂ Λ} (hw : WF s) (hf : ArraysFresh s)
    (hr : ∀ R (i j : ℤ) e, s.hops.get R i j = some e → e.im = 0) (k : Vec3 ℝ) (conv : ℤ)
    (ham ham' : IMat) (hok : setHamDense s (-k) conv = .ok ham) (hok' : setHamDense s k conv = .ok ham') :
    (toMatrix s.numOrb ham').charpoly = (toMatrix s.numOrb ham).charpoly := by
  have hreal : ∀ R (i j : ℕ), star (fullAmp s R i j) = fullAmp s R i j := by
    intro R i j
    have h1 : star (amp s R i j) = amp s R i j := by
      unfold amp
      cases hg : s.hops.get R i j with
      | none => simp
      | some e => exact Complex.conj_eq_iff_im.2 (hr _ _ _ _ hg)
    rw [fullAmp, star_add, h1]
    congr 1
    split_ifs
    · exact Complex.conj_ofReal _
    · exact star_zero _
  have hcm : ∀ R, cellMul 1 R = R := fun R => by refine Prod.ext ?_ (Prod.ext ?_ ?_) <;> simp [cellMul, Matrix.one_apply]
  have hs : AntiSym s 1 (1 : Matrix (Fin s.numOrb) (Fin s.numOrb) ℂ) (fun _ => 0) := by
    refine ⟨by simp, fun T a j => ?_⟩
    simp only [hreal, inv_one, hcm, sub_zero, add_zero, Matrix.one_apply, mul_ite, mul_one, mul_zero, ite_mul, one_mul, zero_mul,
      Finset.sum_ite_eq, Finset.sum_ite_eq', Finset.mem_univ, if_true]
  have hk : kMul 1 k = k := by funext y; fin_cases y <;> simp [kMul, Matrix.one_apply, Fin.sum_univ_three]
  exact C101_antiunitary hw hf hs (by simp) k conv ham ham' (by rw [hk]; exact hok) hok'

/-- **C101 (antiunitary symmetries).** If the crystal has an antiunitary symmetry whose square is -1 (its matrix is unitary and
antisymmetric, and it maps every site to itself when applied twice), then at every Bloch vector that it maps to itself every state has an
orthogonal partner of the same norm and energy.  With `A = 1` these are the Kramers pairs at time-reversal-invariant points; with
`A = -1`, time reversal with inversion, all bands are doubly degenerate everywhere. -/
theorem C101_degenerate {s : PrimCell ℝ ℂ Λ} (hw : WF s) (hf : ArraysFresh s) {A : Matrix (Fin 3) (Fin 3) ℤ}
    {U : Matrix (Fin s.numOrb) (Fin s.numOrb) ℂ} {τ : ℕ → Cell} (hA : AntiSym s A U τ) (hU : U.transpose = -U)
    (hU1 : U.conjTranspose * U = 1) (hτ : ∀ a i, U a i ≠ 0 → cellMul A (τ a) + τ i = 0) (k : Vec3 ℝ)
    (hk : ∀ x, ∃ m : ℤ, k x + kMul A k x = m) (conv : ℤ) (ham : IMat) (hok : setHamDense s k conv = .ok ham) (μ : ℝ)
    (v : Fin s.numOrb → ℂ) (hv : (toMatrix s.numOrb ham).mulVec v = (μ : ℂ) • v) :
    ∃ w, (toMatrix s.numOrb ham).mulVec w = (μ : ℂ) • w ∧ star v ⬝ᵥ w = 0 ∧ star w ⬝ᵥ w = star v ⬝ᵥ v := by
  obtain ⟨S, h0, hS⟩ := exists_support s
  let o : ℕ → ℂ := orbPhase s conv k
  have ho : ∀ i, star (o i) * o i = 1 := fun i => eiPhase_star_mul _
  have hc : ∀ R, star (cellPhase k R) * cellPhase k R = 1 := fun R => eiPhase_star_mul _
  let V : Matrix (Fin s.numOrb) (Fin s.numOrb) ℂ := Matrix.of fun a i => star (o a) * (U a i * cellPhase k (-τ i)) * star (o i)
  have hham : ∀ i j : Fin s.numOrb, ham (i : ℕ) (j : ℕ) = star (o i) * o j * ∑ R ∈ S, fullAmp s R i j * cellPhase k R := by
    intro i j
    have h1 : ham (i : ℕ) (j : ℕ) * o i = o j * ∑ R ∈ S, fullAmp s R i j * cellPhase k R :=
      ham_full hw hf k conv ham hok S h0 hS i j i.2 j.2
    linear_combination (star (o i)) * h1 - ham (i : ℕ) (j : ℕ) * ho i
  have hcomm : toMatrix s.numOrb ham * V = V * (toMatrix s.numOrb ham).map star := by
    ext a j
    have h1 := fourier_comm A hA.unimod U τ (fun R i j => fullAmp s R i j) (fun R i j => star (fullAmp s R i j)) hA.comm S
      (fun R i j hne => fullAmp_support h0 hS R i j i.2 hne)
      (fun R i j hne => fullAmp_support h0 hS R i j i.2 (fun h => hne (by rw [h, star_zero]))) k a j
    have h2 : ∀ i : Fin s.numOrb, ∑ R ∈ S, star (fullAmp s R i j) * cellPhase (kMul A k) R = star (∑ R ∈ S, fullAmp s R i j * cellPhase k R) := by
      intro i
      rw [star_sum]
      refine Finset.sum_congr rfl fun R _ => ?_
      rw [star_mul', cellPhase_conj hk]
    simp only [h2] at h1
    rw [Matrix.mul_apply, Matrix.mul_apply]
    simp only [V, toMatrix, Matrix.of_apply, Matrix.map_apply, hham]
    calc ∑ b : Fin s.numOrb, star (o a) * o b * (∑ R ∈ S, fullAmp s R a b * cellPhase k R) *
          (star (o b) * (U b j * cellPhase k (-τ j)) * star (o j))
        = star (o a) * star (o j) * ∑ b : Fin s.numOrb, (∑ R ∈ S, fullAmp s R a b * cellPhase k R) * (U b j * cellPhase k (-τ j)) := by
          rw [Finset.mul_sum]
          refine Finset.sum_congr rfl fun b _ => ?_
          linear_combination (star (o a) * star (o j) * (∑ R ∈ S, fullAmp s R a b * cellPhase k R) * (U b j * cellPhase k (-τ j))) * ho b
      _ = _ := by
          rw [h1, Finset.mul_sum]
          refine Finset.sum_congr rfl fun i _ => ?_
          rw [star_mul', star_mul', star_star]
          linear_combination (-(star (o a) * star (o j) * (U a i * cellPhase k (-τ i)) *
            star (∑ R ∈ S, fullAmp s R i j * cellPhase k R))) * ho i
  have hanti : ∀ a b, V a b = -V b a := by
    intro a b
    simp only [V, Matrix.of_apply]
    have hu : U b a = -U a b := by
      have := congrFun (congrFun hU a) b
      simpa [Matrix.transpose_apply] using this
    by_cases hz : U a b = 0
    · rw [hu, hz]; simp
    · have h1 := hτ a b hz
      have h2 : cellPhase k (-τ b) = cellPhase k (-τ a) := by
        rw [show -τ b = cellMul A (τ a) by rw [eq_comm, ← sub_eq_zero, sub_neg_eq_add, h1], cellPhase_mul, cellPhase_conj hk, cellPhase_neg]
      rw [hu, h2]
      ring
  have hunit : V.conjTranspose * V = 1 := by
    ext i j
    rw [Matrix.mul_apply]
    simp only [V, Matrix.conjTranspose_apply, Matrix.of_apply, star_mul', star_star]
    have h1 : ∑ a, star (U a i) * U a j = (1 : Matrix (Fin s.numOrb) (Fin s.numOrb) ℂ) i j := by
      rw [← hU1, Matrix.mul_apply]
      rfl
    calc ∑ a : Fin s.numOrb, o a * (star (U a i) * star (cellPhase k (-τ i))) * o i * (star (o a) * (U a j * cellPhase k (-τ j)) * star (o j))
        = (star (cellPhase k (-τ i)) * o i * cellPhase k (-τ j) * star (o j)) * ∑ a, star (U a i) * U a j := by
          rw [Finset.mul_sum]
          refine Finset.sum_congr rfl fun a _ => ?_
          linear_combination (star (U a i) * star (cellPhase k (-τ i)) * o i * (U a j * cellPhase k (-τ j)) * star (o j)) * ho a
      _ = _ := by
          rw [h1, Matrix.one_apply]
          split_ifs with hij
          · subst hij
            rw [mul_one]
            linear_combination (o i * star (o i)) * hc (-τ i) + ho i
          · rw [mul_zero]
  refine ⟨V.mulVec (star v), ?_, ?_, ?_⟩
  · rw [Matrix.mulVec_mulVec, hcomm, ← Matrix.mulVec_mulVec]
    have : ((toMatrix s.numOrb ham).map star).mulVec (star v) = (μ : ℂ) • star v := by
      have h1 := congrArg star hv
      funext i
      have h2 := congrFun h1 i
      simp only [Pi.star_apply, Matrix.mulVec, dotProduct, star_sum, star_mul', Pi.smul_apply, smul_eq_mul, Complex.star_def,
        Complex.conj_ofReal, Matrix.map_apply] at h2 ⊢
      exact h2
    rw [this, Matrix.mulVec_smul]
  · have h1 : star v ⬝ᵥ V.mulVec (star v) = -(star v ⬝ᵥ V.mulVec (star v)) := by
      simp only [dotProduct, Matrix.mulVec, Finset.mul_sum, ← Finset.sum_neg_distrib]
      rw [Finset.sum_comm]
      refine Finset.sum_congr rfl fun b _ => Finset.sum_congr rfl fun a _ => ?_
      rw [hanti a b]
      ring
    exact self_eq_neg.1 h1
  · rw [Matrix.star_mulVec, ← Matrix.dotProduct_mulVec, Matrix.mulVec_mulVec, hunit, Matrix.one_mulVec, star_star, dotProduct_comm]

/-- An antiunitary symmetry that permutes the orbitals up to factors. -/
theorem antiSym_of_perm {s : PrimCell ℝ ℂ Λ} {A : Matrix (Fin 3) (Fin 3) ℤ} (hA : IsUnit A.det) (π : Equiv.Perm (Fin s.numOrb))
    (u : Fin s.numOrb → ℂ) (τ : ℕ → Cell)
    (h : ∀ R (i j : Fin s.numOrb), fullAmp s (cellMul A R + τ j - τ i) (π i) (π j) * u j = u i * star (fullAmp s R i j)) :
    AntiSym s A (Matrix.of fun a i => if a = π i then u i else 0) τ := by
  refine ⟨hA, fun T a j => ?_⟩
  obtain ⟨i, rfl⟩ := π.surjective a
  have hAB : A * A⁻¹ = 1 := Matrix.mul_nonsing_inv _ hA
  simp only [Matrix.of_apply, mul_ite, mul_zero, Finset.sum_ite_eq', Finset.sum_ite_eq, Finset.mem_univ, if_true, ite_mul, zero_mul,
    π.injective.eq_iff]
  rw [← h, cellMul_inv hAB]
  congr 2
  refine Prod.ext ?_ (Prod.ext ?_ ?_) <;> simp <;> ring

/-- A unitary symmetry that permutes orbitals up to phases. -/
theorem unitarySym_of_perm {s : PrimCell ℝ ℂ Λ} {A : Matrix (Fin 3) (Fin 3) ℤ} (hA : IsUnit A.det) (π : Equiv.Perm (Fin s.numOrb))
    (u : Fin s.numOrb → ℂ) (hu : ∀ i, star (u i) * u i = 1) (τ : ℕ → Cell)
    (h : ∀ R (i j : Fin s.numOrb), fullAmp s (cellMul A R + τ j - τ i) (π i) (π j) * u j = u i * fullAmp s R i j) :
    UnitarySym s A (Matrix.of fun a i => if a = π i then u i else 0) τ := by
  refine ⟨hA, ?_, fun T a j => ?_⟩
  · refine Matrix.isUnit_det_of_left_inverse (B := (Matrix.of fun a i => if a = π i then u i else 0).conjTranspose) ?_
    ext i j
    rw [Matrix.mul_apply]
    simp only [Matrix.conjTranspose_apply, Matrix.of_apply, mul_ite, mul_zero, Finset.sum_ite_eq', Finset.mem_univ, if_true,
      π.injective.eq_iff, Matrix.one_apply]
    by_cases hij : i = j
    · subst hij
      simpa using hu i
    · rw [if_neg (fun h => hij h.symm), if_neg hij]; simp
  · obtain ⟨i, rfl⟩ := π.surjective a
    have hAB : A * A⁻¹ = 1 := Matrix.mul_nonsing_inv _ hA
    simp only [Matrix.of_apply, mul_ite, mul_zero, Finset.sum_ite_eq', Finset.sum_ite_eq, Finset.mem_univ, if_true, ite_mul, zero_mul,
      π.injective.eq_iff]
    rw [← h, cellMul_inv hAB]
    congr 2
    refine Prod.ext ?_ (Prod.ext ?_ ?_) <;> simp <;> ring

end Verif.Props

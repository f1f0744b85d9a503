import Verif.Spec.CellMul
import Verif.Props.Kramers
import Mathlib.LinearAlgebra.Matrix.Charpoly.Basic
import Mathlib.Data.Fintype.Perm

/-! # Property C100: symmetries of a crystal are symmetries of its bands -/

namespace Verif.Props

open PrimCell Materials

variable {Λ : Type*}

/-- A symmetry of the crystal: the site of orbital `i` in cell `R` goes to the site of orbital `σ i` in cell `A R + τ i`.
Energies and hopping terms do not change. -/
structure CrystalSym (s : PrimCell ℝ ℂ Λ) (A : Matrix (Fin 3) (Fin 3) ℤ) (σ : Equiv.Perm (Fin s.numOrb)) (τ : ℕ → Cell) : Prop where
  unimod : IsUnit A.det
  eng : ∀ i : Fin s.numOrb, s.orbs[(σ i : ℕ)]?.map Orbital.energy = s.orbs[(i : ℕ)]?.map Orbital.energy
  hop : ∀ R (i j : Fin s.numOrb), amp s (cellMul A R + τ j - τ i) (σ i : ℕ) (σ j : ℕ) = amp s R (i : ℕ) (j : ℕ)

theorem cellMul_inv {A B : Matrix (Fin 3) (Fin 3) ℤ} (h : A * B = 1) (R : Cell) : cellMul A (cellMul B R) = R := by
  have e : ∀ i j, A i 0 * B 0 j + A i 1 * B 1 j + A i 2 * B 2 j = (1 : Matrix (Fin 3) (Fin 3) ℤ) i j := by
    intro i j
    rw [← h, Matrix.mul_apply, Fin.sum_univ_three]
  have e00 := e 0 0; have e01 := e 0 1; have e02 := e 0 2
  have e10 := e 1 0; have e11 := e 1 1; have e12 := e 1 2
  have e20 := e 2 0; have e21 := e 2 1; have e22 := e 2 2
  simp at e00 e01 e02 e10 e11 e12 e20 e21 e22
  refine Prod.ext ?_ (Prod.ext ?_ ?_) <;> simp only [cellMul]
  · linear_combination R.1 * e00 + R.2.1 * e01 + R.2.2 * e02
  · linear_combination R.1 * e10 + R.2.1 * e11 + R.2.2 * e12
  · linear_combination R.1 * e20 + R.2.1 * e21 + R.2.2 * e22

/-- The Bloch vector `Aᵀ k`. -/
def kMul (A : Matrix (Fin 3) (Fin 3) ℤ) (k : Vec3 ℝ) : Vec3 ℝ := fun y => ∑ x, k x * A x y

/-- A similarity by a permutation and phases keeps the characteristic polynomial. -/
theorem charpoly_monomial {n : ℕ} (M M' : Matrix (Fin n) (Fin n) ℂ) (σ : Equiv.Perm (Fin n)) (c : Fin n → ℂ) (hc : ∀ i, c i ≠ 0)
    (h : ∀ i j, M' (σ i) (σ j) * c j = c i * M i j) : M'.charpoly = M.charpoly := by
  have h1 : (Matrix.reindex σ.symm σ.symm M').charpoly = M'.charpoly := Matrix.charpoly_reindex _ _
  rw [← h1]
  have hM : Matrix.reindex σ.symm σ.symm M' = Matrix.diagonal c * M * (Matrix.diagonal c)⁻¹ := by
    have hd : (Matrix.diagonal c)⁻¹ = Matrix.diagonal fun i => (c i)⁻¹ := by
      apply Matrix.inv_eq_right_inv
      rw [Matrix.diagonal_mul_diagonal, ← Matrix.diagonal_one]
      congr 1
      funext i
      exact mul_inv_cancel₀ (hc i)
    rw [hd]
    ext i j
    rw [Matrix.mul_diagonal, Matrix.diagonal_mul, Matrix.reindex_apply, Matrix.submatrix_apply, Equiv.symm_symm, ← h i j, mul_assoc,
      mul_inv_cancel₀ (hc j), mul_one]
  have hu : IsUnit (Matrix.diagonal c) := by
    rw [Matrix.isUnit_iff_isUnit_det, Matrix.det_diagonal]
    exact (Finset.prod_ne_zero_iff.2 fun i _ => hc i).isUnit
  rw [hM]
  exact Matrix.charpoly_units_conj hu.unit M

theorem kMul_cell (A : Matrix (Fin 3) (Fin 3) ℤ) (k : Vec3 ℝ) (R : Cell) :
    ∑ x, k x * cellAt (cellMul A R) x = ∑ x, kMul A k x * cellAt R x := by
  simp only [Fin.sum_univ_three, cellAt, cellMul, kMul]
  push_cast
  ring

theorem sym_entry {s : PrimCell ℝ ℂ Λ} (hw : WF s) (hf : ArraysFresh s) {A : Matrix (Fin 3) (Fin 3) ℤ}
    {σ : Equiv.Perm (Fin s.numOrb)} {τ : ℕ → Cell} (hA : CrystalSym s A σ τ) (k : Vec3 ℝ) (conv : ℤ) (ham ham' : IMat)
    (hok : setHamDense s (kMul A k) conv = .ok ham) (hok' : setHamDense s k conv = .ok ham') (c : Fin s.numOrb → ℂ)
    (hc : ∀ (i : Fin s.numOrb) oi oi', s.orbs[(i : ℕ)]? = some oi → s.orbs[(σ i : ℕ)]? = some oi' →
      c i = eiPhase (-(2 * Real.pi * (∑ x, k x * (cellAt (τ i) x + if conv = 1 then oi'.position x else 0) -
        ∑ x, kMul A k x * if conv = 1 then oi.position x else 0)))) (i j : Fin s.numOrb) :
    ham' (σ i : ℕ) (σ j : ℕ) * c j = c i * ham (i : ℕ) (j : ℕ) := by
  classical
  obtain ⟨B, hAB, hBA⟩ : ∃ B, A * B = 1 ∧ B * A = 1 :=
    ⟨A⁻¹, Matrix.mul_nonsing_inv _ hA.unimod, Matrix.nonsing_inv_mul _ hA.unimod⟩
  obtain ⟨oi, hoi⟩ : ∃ o, s.orbs[(i : ℕ)]? = some o := ⟨s.orbs[(i : ℕ)]'i.2, List.getElem?_eq_getElem _⟩
  obtain ⟨oj, hoj⟩ : ∃ o, s.orbs[(j : ℕ)]? = some o := ⟨s.orbs[(j : ℕ)]'j.2, List.getElem?_eq_getElem _⟩
  obtain ⟨pi, hpi⟩ : ∃ o, s.orbs[(σ i : ℕ)]? = some o := ⟨s.orbs[(σ i : ℕ)]'(σ i).2, List.getElem?_eq_getElem _⟩
  obtain ⟨pj, hpj⟩ : ∃ o, s.orbs[(σ j : ℕ)]? = some o := ⟨s.orbs[(σ j : ℕ)]'(σ j).2, List.getElem?_eq_getElem _⟩
  have q3 : pi.energy = oi.energy := by have := hA.eng i; rw [hoi, hpi] at this; simpa using this
  let f : Cell → Cell := fun R => cellMul A R + τ j - τ i
  let g : Cell → Cell := fun R => cellMul B (R - τ j + τ i)
  have hfg : ∀ R, f (g R) = R := by
    intro R
    simp only [f, g]
    rw [cellMul_inv hAB]
    refine Prod.ext ?_ (Prod.ext ?_ ?_) <;> simp <;> ring
  have hgf : ∀ R, g (f R) = R := by
    intro R
    simp only [f, g]
    rw [show cellMul A R + τ j - τ i - τ j + τ i = cellMul A R by refine Prod.ext ?_ (Prod.ext ?_ ?_) <;> simp <;> ring, cellMul_inv hBA]
  let S1 : Finset Cell := ((C07_neighbours_finite s.hops (i : ℕ)).image Prod.fst).toFinset
  let S2 : Finset Cell := ((C07_neighbours_finite s.hops (σ i : ℕ)).image Prod.fst).toFinset
  let S : Finset Cell := S1 ∪ S2.image g
  have hS : ∀ R, s.hops.get R (i : ℕ) (j : ℕ) ≠ none → R ∈ S := fun R hR =>
    Finset.mem_union_left _ ((Set.Finite.mem_toFinset _).2 ⟨(R, (j : ℕ)), hR, rfl⟩)
  have hS' : ∀ R, s.hops.get R (σ i : ℕ) (σ j : ℕ) ≠ none → R ∈ S.image f := fun R hR =>
    Finset.mem_image.2 ⟨g R, Finset.mem_union_right _ (Finset.mem_image_of_mem _
      ((Set.Finite.mem_toFinset _).2 ⟨(R, (σ j : ℕ)), hR, rfl⟩)), hfg R⟩
  rw [ham_entry hw hf _ conv ham hok i j oi oj hoi hoj S hS, ham_entry hw hf k conv ham' hok' (σ i) (σ j) pi pj hpi hpj _ hS',
    Finset.sum_image (fun a _ b _ h => by rw [← hgf a, h, hgf]), q3, add_mul, mul_add]
  congr 1
  · by_cases hij : i = j
    · subst hij
      rw [if_pos rfl, if_pos rfl, mul_comm]
    · rw [if_neg (fun h => hij (Fin.ext h)), if_neg (fun h => hij (σ.injective (Fin.ext h)))]
      simp
  · rw [Finset.mul_sum, Finset.sum_mul]
    refine Finset.sum_congr rfl fun R _ => ?_
    have ha := hA.hop R i j
    unfold amp at ha
    rw [show f R = cellMul A R + τ j - τ i from rfl, ha, hc i oi pi hoi hpi, hc j oj pj hoj hpj, mul_assoc, ← eiPhase_add,
      mul_left_comm, ← eiPhase_add]
    congr 2
    have hk := kMul_cell A k R
    have hsub : ∀ x, (cellAt (cellMul A R + τ j - τ i) x : ℝ) = cellAt (cellMul A R) x + cellAt (τ j) x - cellAt (τ i) x := by
      intro x
      fin_cases x <;> simp [cellAt]
    simp only [hsub, Fin.sum_univ_three] at hk ⊢
    split_ifs <;> linear_combination (2 * Real.pi) * hk

/-- **C100 (symmetries).** Every symmetry of the crystal is a symmetry of the bands, whatever the number of orbitals, the hopping
terms and the convention: the energies at the Bloch vectors `k` and `Aᵀ k` agree with multiplicities. -/
theorem C100_symmetry {s : PrimCell ℝ ℂ Λ} (hw : WF s) (hf : ArraysFresh s) {A : Matrix (Fin 3) (Fin 3) ℤ}
    {σ : Equiv.Perm (Fin s.numOrb)} {τ : ℕ → Cell} (hA : CrystalSym s A σ τ) (k : Vec3 ℝ) (conv : ℤ) (ham ham' : IMat)
    (hok : setHamDense s (kMul A k) conv = .ok ham) (hok' : setHamDense s k conv = .ok ham') :
    (toMatrix s.numOrb ham').charpoly = (toMatrix s.numOrb ham).charpoly := by
  let c : Fin s.numOrb → ℂ := fun i => eiPhase (-(2 * Real.pi * (∑ x, k x * (cellAt (τ i) x +
      if conv = 1 then ((s.orbs[(σ i : ℕ)]'(σ i).2)).position x else 0) -
    ∑ x, kMul A k x * if conv = 1 then (s.orbs[(i : ℕ)]'i.2).position x else 0)))
  refine charpoly_monomial _ _ σ c (fun i => ?_) fun i j => ?_
  · simp only [c]
    rw [eiPhase_eq_exp]
    exact Complex.exp_ne_zero _
  · exact sym_entry hw hf hA k conv ham ham' hok hok' c (by
      intro i oi oi' h1 h2
      have e1 := (List.getElem?_eq_some_iff.1 h1).2
      have e2 := (List.getElem?_eq_some_iff.1 h2).2
      rw [← e1, ← e2]
      rfl) i j

end Verif.Props

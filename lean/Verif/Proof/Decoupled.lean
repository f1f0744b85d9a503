import Verif.Spec.Decoupled
import Verif.Proof.BipartiteDiag
import Mathlib.LinearAlgebra.Matrix.Charpoly.Coeff
import Mathlib.LinearAlgebra.Lagrange

/-! # Uncoupled parts: functions of the Hamiltonian, levels -/

namespace Verif

open Matrix Tbpm Verif.Props

section

variable {m m' : ℕ} {A : Matrix (Fin (m + m')) (Fin (m + m')) ℂ} {B : Matrix (Fin m) (Fin m) ℂ} {C : Matrix (Fin m') (Fin m') ℂ}

theorem uncoupled_iff : Uncoupled A B C ↔ A = (Matrix.fromBlocks B 0 0 C).reindex finSumFinEquiv finSumFinEquiv := by
  constructor
  · intro h
    ext i j
    refine Fin.addCases (fun a => ?_) (fun a => ?_) i <;> refine Fin.addCases (fun b => ?_) (fun b => ?_) j
    · simp [h.first]
    · simp [h.upper]
    · simp [h.lower]
    · simp [h.second]
  · rintro rfl
    constructor <;> intro i j <;> simp

theorem uncoupled_charpoly (h : Uncoupled A B C) : A.charpoly = B.charpoly * C.charpoly := by
  rw [uncoupled_iff.1 h, Matrix.charpoly_reindex, Matrix.charpoly_fromBlocks_zero₂₁]

theorem uncoupled_mul {A' : Matrix (Fin (m + m')) (Fin (m + m')) ℂ} {B' : Matrix (Fin m) (Fin m) ℂ} {C' : Matrix (Fin m') (Fin m') ℂ}
    (h : Uncoupled A B C) (h' : Uncoupled A' B' C') : Uncoupled (A * A') (B * B') (C * C') := by
  constructor <;> intro i j <;>
    simp [Matrix.mul_apply, Fin.sum_univ_add, h.first, h.second, h.upper, h.lower, h'.first, h'.second, h'.upper, h'.lower]

theorem uncoupled_add {A' : Matrix (Fin (m + m')) (Fin (m + m')) ℂ} {B' : Matrix (Fin m) (Fin m) ℂ} {C' : Matrix (Fin m') (Fin m') ℂ}
    (h : Uncoupled A B C) (h' : Uncoupled A' B' C') : Uncoupled (A + A') (B + B') (C + C') := by
  constructor <;> intro i j <;> simp [h.first, h.second, h.upper, h.lower, h'.first, h'.second, h'.upper, h'.lower]

theorem uncoupled_smul (c : ℂ) (h : Uncoupled A B C) : Uncoupled (c • A) (c • B) (c • C) := by
  constructor <;> intro i j <;> simp [h.first, h.second, h.upper, h.lower]

theorem uncoupled_one : Uncoupled (1 : Matrix (Fin (m + m')) (Fin (m + m')) ℂ) (1 : Matrix (Fin m) (Fin m) ℂ)
    (1 : Matrix (Fin m') (Fin m') ℂ) := by
  constructor <;> intro i j
  · simp [Matrix.one_apply]
  · simp [Matrix.one_apply]
  · rw [Matrix.one_apply_ne]; intro h; have := congrArg Fin.val h; simp at this; omega
  · rw [Matrix.one_apply_ne]; intro h; have := congrArg Fin.val h; simp at this; omega

theorem uncoupled_pow (h : Uncoupled A B C) : ∀ k : ℕ, Uncoupled (A ^ k) (B ^ k) (C ^ k)
  | 0 => by simpa only [pow_zero] using uncoupled_one
  | k + 1 => by simpa only [pow_succ] using uncoupled_mul (uncoupled_pow h k) h

theorem uncoupled_poly (h : Uncoupled A B C) (p : Polynomial ℂ) :
    Uncoupled (Polynomial.aeval A p) (Polynomial.aeval B p) (Polynomial.aeval C p) := by
  induction p using Polynomial.induction_on' with
  | add p q hp hq => simpa only [map_add] using uncoupled_add hp hq
  | monomial k c =>
    simp only [Polynomial.aeval_monomial, ← Algebra.smul_def]
    exact uncoupled_smul c (uncoupled_pow h k)

theorem uncoupled_trace (h : Uncoupled A B C) : A.trace = B.trace + C.trace := by
  simp [Matrix.trace, Fin.sum_univ_add, h.first, h.second]

end

variable {N : ℕ}

theorem eig_poly {M : IMat} {q : (ℕ → ℝ) × (ℕ → ℕ → ℂ)} (h : Eigenpairs N N M q) (p : Polynomial ℂ) :
    Polynomial.aeval (toMatrix N M) p * eigMat N q = eigMat N q * Matrix.diagonal fun j : Fin N => p.eval (q.1 j : ℂ) := by
  have h3 := eigMat_eigen h
  have hpow : ∀ k : ℕ, toMatrix N M ^ k * eigMat N q = eigMat N q * Matrix.diagonal fun j : Fin N => (q.1 j : ℂ) ^ k := by
    intro k
    induction k with
    | zero => simp
    | succ k ih =>
      rw [pow_succ', Matrix.mul_assoc, ih, ← Matrix.mul_assoc, h3, Matrix.mul_assoc, Matrix.diagonal_mul_diagonal]
      congr 2
      funext j
      rw [pow_succ']
  induction p using Polynomial.induction_on' with
  | add p q hp hq =>
    rw [map_add, add_mul, hp, hq, ← Matrix.mul_add, Matrix.diagonal_add]
    congr 2
    funext j
    rw [Polynomial.eval_add]
  | monomial k c =>
    rw [Polynomial.aeval_monomial, ← Algebra.smul_def, Matrix.smul_mul, hpow, ← Matrix.mul_smul]
    congr 1
    ext i j
    by_cases hij : i = j
    · subst hij; simp
    · simp [hij]

/-- Sums over levels are matrix elements of a polynomial of the Hamiltonian. -/
theorem level_poly {M : IMat} {q : (ℕ → ℝ) × (ℕ → ℕ → ℂ)} (h : Eigenpairs N N M q) (φ : ℝ → ℝ) (p : Polynomial ℂ)
    (hp : ∀ j < N, p.eval (q.1 j : ℂ) = φ (q.1 j)) (o : Fin N) :
    ((∑ j ∈ Finset.range N, φ (q.1 j) * ‖q.2 o j‖ ^ 2 : ℝ) : ℂ) = Polynomial.aeval (toMatrix N M) p o o := by
  have h1 := eig_poly h p
  have h2 : Polynomial.aeval (toMatrix N M) p =
      eigMat N q * (Matrix.diagonal fun j : Fin N => p.eval (q.1 j : ℂ)) * (eigMat N q)ᴴ := by
    rw [← h1, Matrix.mul_assoc, (eigMat_unitary h).2, Matrix.mul_one]
  rw [h2, Matrix.mul_apply, Finset.sum_range]
  push_cast
  refine Finset.sum_congr rfl fun j _ => ?_
  rw [Matrix.mul_diagonal, Matrix.conjTranspose_apply, hp j j.2]
  simp only [eigMat, Matrix.of_apply]
  have : q.2 o j * star (q.2 o j) = ((‖q.2 o j‖ : ℂ)) ^ 2 := by
    rw [← Complex.mul_conj']; rfl
  rw [← this]; ring

/-- A polynomial with given values at the levels of three systems. -/
theorem interp (φ : ℝ → ℝ) (S : Finset ℝ) : ∃ p : Polynomial ℂ, ∀ x ∈ S, p.eval (x : ℂ) = φ x := by
  classical
  refine ⟨(Lagrange.interpolate S (fun x : ℝ => x) φ).map (algebraMap ℝ ℂ), fun x hx => ?_⟩
  have h1 := Lagrange.eval_interpolate_at_node (s := S) (v := fun x : ℝ => x) φ (fun a _ b _ h => h) hx
  rw [Polynomial.eval_map, ← h1]
  exact Polynomial.eval₂_at_apply (algebraMap ℝ ℂ) x

variable {m m' : ℕ}

/-- The density of any function of the energies at an orbital is that of the part with the orbital. -/
theorem level_parts {M M₁ M₂ : IMat} {q q₁ q₂ : (ℕ → ℝ) × (ℕ → ℕ → ℂ)} (h : Eigenpairs (m + m') (m + m') M q) (h₁ : Eigenpairs m m M₁ q₁)
    (h₂ : Eigenpairs m' m' M₂ q₂) (hu : Uncoupled (toMatrix (m + m') M) (toMatrix m M₁) (toMatrix m' M₂)) (φ : ℝ → ℝ) :
    (∀ o < m, ∑ j ∈ Finset.range (m + m'), φ (q.1 j) * ‖q.2 o j‖ ^ 2 = ∑ j ∈ Finset.range m, φ (q₁.1 j) * ‖q₁.2 o j‖ ^ 2) ∧
    ∀ o < m', ∑ j ∈ Finset.range (m + m'), φ (q.1 j) * ‖q.2 (m + o) j‖ ^ 2 = ∑ j ∈ Finset.range m', φ (q₂.1 j) * ‖q₂.2 o j‖ ^ 2 := by
  classical
  obtain ⟨p, hp⟩ := interp φ ((Finset.range (m + m')).image q.1 ∪ (Finset.range m).image q₁.1 ∪ (Finset.range m').image q₂.1)
  have e := level_poly h φ p fun j hj => hp _ (by simp only [Finset.mem_union, Finset.mem_image, Finset.mem_range]; exact Or.inl (Or.inl ⟨j, hj, rfl⟩))
  have e₁ := level_poly h₁ φ p fun j hj => hp _ (by simp only [Finset.mem_union, Finset.mem_image, Finset.mem_range]; exact Or.inl (Or.inr ⟨j, hj, rfl⟩))
  have e₂ := level_poly h₂ φ p fun j hj => hp _ (by simp only [Finset.mem_union, Finset.mem_image, Finset.mem_range]; exact Or.inr ⟨j, hj, rfl⟩)
  have hP := uncoupled_poly hu p
  refine ⟨fun o ho => ?_, fun o ho => ?_⟩
  · have := e (Fin.castAdd m' ⟨o, ho⟩)
    rw [hP.first, ← e₁] at this
    exact_mod_cast this
  · have := e (Fin.natAdd m ⟨o, ho⟩)
    rw [hP.second, ← e₂] at this
    exact_mod_cast this

theorem total_levels {M : IMat} {q : (ℕ → ℝ) × (ℕ → ℕ → ℂ)} (h : Eigenpairs N N M q) (ψ : ℝ → ℝ) : ∑ j ∈ Finset.range N, ψ (q.1 j) =
    ∑ o ∈ Finset.range N, ∑ j ∈ Finset.range N, ψ (q.1 j) * ‖q.2 o j‖ ^ 2 := by
  rw [Finset.sum_comm]
  refine Finset.sum_congr rfl fun j hj => ?_
  rw [← Finset.mul_sum, column_norm h j (Finset.mem_range.1 hj), mul_one]

/-- The levels of a system of two uncoupled parts are those of the parts. -/
theorem levels_sum {M M₁ M₂ : IMat} {q q₁ q₂ : (ℕ → ℝ) × (ℕ → ℕ → ℂ)} (h : Eigenpairs (m + m') (m + m') M q) (h₁ : Eigenpairs m m M₁ q₁)
    (h₂ : Eigenpairs m' m' M₂ q₂) (hu : Uncoupled (toMatrix (m + m') M) (toMatrix m M₁) (toMatrix m' M₂)) (φ : ℝ → ℝ) :
    ∑ j ∈ Finset.range (m + m'), φ (q.1 j) = ∑ j ∈ Finset.range m, φ (q₁.1 j) + ∑ j ∈ Finset.range m', φ (q₂.1 j) := by
  obtain ⟨a, b⟩ := level_parts h h₁ h₂ hu φ
  rw [total_levels h, total_levels h₁, total_levels h₂, Finset.sum_range_add]
  congr 1
  · exact Finset.sum_congr rfl fun o ho => a o (Finset.mem_range.1 ho)
  · exact Finset.sum_congr rfl fun o ho => b o (Finset.mem_range.1 ho)

theorem levels_union {M M₁ M₂ : IMat} {q q₁ q₂ : (ℕ → ℝ) × (ℕ → ℕ → ℂ)} (h : Eigenpairs (m + m') (m + m') M q) (h₁ : Eigenpairs m m M₁ q₁)
    (h₂ : Eigenpairs m' m' M₂ q₂) (hu : Uncoupled (toMatrix (m + m') M) (toMatrix m M₁) (toMatrix m' M₂)) :
    ((List.range (m + m')).map q.1).Perm ((List.range m).map q₁.1 ++ (List.range m').map q₂.1) := by
  classical
  rw [List.perm_iff_count]
  intro E
  have := levels_sum h h₁ h₂ hu (fun x => if x = E then 1 else 0)
  have e : ∀ (N : ℕ) (u : ℕ → ℝ), (((List.range N).map u).count E : ℝ) = ∑ j ∈ Finset.range N, if u j = E then 1 else 0 := by
    intro N u
    rw [List.count_eq_countP, List.countP_map, List.countP_eq_length_filter, Finset.sum_boole]
    congr 1
  rw [← e, ← e, ← e] at this
  rw [List.count_append]
  exact_mod_cast this

end Verif

import Verif.Spec.Arpack
import Verif.Proof.DosDensity
import Mathlib.Analysis.InnerProductSpace.Orthonormal
import Mathlib.Analysis.InnerProductSpace.PiL2
import Mathlib.LinearAlgebra.Matrix.NonsingularInverse

/-! # Some eigenvectors of a matrix and all of them -/

namespace Verif

open Matrix

theorem bessel_cols {n k : ℕ} (C : Matrix (Fin n) (Fin k) ℂ) (hC : Cᴴ * C = 1) (y : Fin n → ℂ) :
    ∑ j, ‖∑ i, y i * C i j‖ ^ 2 ≤ ∑ i, ‖y i‖ ^ 2 := by
  let c : Fin k → EuclideanSpace ℂ (Fin n) := fun j => WithLp.toLp 2 fun i => C i j
  have ho : Orthonormal ℂ c := by
    rw [orthonormal_iff_ite]
    intro j j'
    have := congrFun (congrFun hC j) j'
    rw [Matrix.mul_apply, Matrix.one_apply] at this
    rw [← this, EuclideanSpace.inner_eq_star_dotProduct]
    refine Finset.sum_congr rfl fun i _ => ?_
    show C i j' * star (C i j) = star (C i j) * C i j'
    ring
  have h := ho.sum_inner_products_le (WithLp.toLp 2 fun i => star (y i)) (s := Finset.univ)
  rw [EuclideanSpace.norm_sq_eq] at h
  simp only [norm_star] at h
  refine le_trans (le_of_eq ?_) h
  refine Finset.sum_congr rfl fun j _ => ?_
  congr 1
  rw [EuclideanSpace.inner_eq_star_dotProduct, ← norm_star, star_sum]
  congr 1
  refine Finset.sum_congr rfl fun i _ => ?_
  show star (y i * C i j) = star (y i) * star (C i j)
  rw [star_mul, mul_comm]

/-- Some eigenvectors weigh at most as much as all of them, orbital by orbital and for any nonnegative weight of the energies. -/
theorem some_le_all {n k : ℕ} {H : IMat} {q p : (ℕ → ℝ) × (ℕ → ℕ → ℂ)} (hq : Eigenpairs n n H q) (hp : Eigenpairs n k H p)
    (f : ℝ → ℝ) (hf : ∀ x, 0 ≤ f x) (o : ℕ) (ho : o < n) :
    ∑ j ∈ Finset.range k, f (p.1 j) * ‖p.2 o j‖ ^ 2 ≤ ∑ i ∈ Finset.range n, f (q.1 i) * ‖q.2 o i‖ ^ 2 := by
  let U : Matrix (Fin n) (Fin n) ℂ := Matrix.of fun a i => q.2 a i
  let V : Matrix (Fin n) (Fin k) ℂ := Matrix.of fun a j => p.2 a j
  let A : Matrix (Fin n) (Fin n) ℂ := Matrix.of fun a b => H a b
  have hU1 : Uᴴ * U = 1 := by
    ext i i'
    rw [Matrix.mul_apply, Matrix.one_apply]
    have := hq.orthonormal i i.2 i' i'.2
    rw [Finset.sum_range] at this
    simp only [Fin.ext_iff]
    exact this
  have hV1 : Vᴴ * V = 1 := by
    ext i i'
    rw [Matrix.mul_apply, Matrix.one_apply]
    have := hp.orthonormal i i.2 i' i'.2
    rw [Finset.sum_range] at this
    simp only [Fin.ext_iff]
    exact this
  have hU2 : U * Uᴴ = 1 := mul_eq_one_comm.1 hU1
  have hAU : A * U = U * diagonal fun i : Fin n => (q.1 i : ℂ) := by
    ext a i
    rw [Matrix.mul_apply, Matrix.mul_diagonal, mul_comm]
    have := hq.eigen i i.2 a a.2
    rw [Finset.sum_range] at this
    exact this
  have hAV : A * V = V * diagonal fun j : Fin k => (p.1 j : ℂ) := by
    ext a i
    rw [Matrix.mul_apply, Matrix.mul_diagonal, mul_comm]
    have := hp.eigen i i.2 a a.2
    rw [Finset.sum_range] at this
    exact this
  have hUA : Uᴴ * A = (diagonal fun i : Fin n => (q.1 i : ℂ)) * Uᴴ := by
    calc Uᴴ * A = Uᴴ * (A * U) * Uᴴ := by rw [Matrix.mul_assoc, Matrix.mul_assoc A, hU2, Matrix.mul_one]
      _ = _ := by rw [hAU, ← Matrix.mul_assoc, hU1, Matrix.one_mul]
  set C := Uᴴ * V with hC
  have hC1 : Cᴴ * C = 1 := by
    rw [hC, conjTranspose_mul, conjTranspose_conjTranspose, Matrix.mul_assoc, ← Matrix.mul_assoc U, hU2, Matrix.one_mul, hV1]
  have hcom : (diagonal fun i : Fin n => (q.1 i : ℂ)) * C = C * diagonal fun j : Fin k => (p.1 j : ℂ) := by
    rw [hC, ← Matrix.mul_assoc, ← hUA, Matrix.mul_assoc, hAV, Matrix.mul_assoc]
  have hsel : ∀ i j, C i j ≠ 0 → q.1 i = p.1 j := by
    intro i j h
    have := congrFun (congrFun hcom i) j
    rw [Matrix.diagonal_mul, Matrix.mul_diagonal, mul_comm] at this
    exact_mod_cast mul_left_cancel₀ h this
  have hVC : V = U * C := by rw [hC, ← Matrix.mul_assoc, hU2, Matrix.one_mul]
  have hb := bessel_cols C hC1 fun i => (Real.sqrt (f (q.1 i)) : ℂ) * U ⟨o, ho⟩ i
  rw [Finset.sum_range, Finset.sum_range]
  refine le_trans (le_of_eq ?_) (hb.trans (le_of_eq ?_))
  · refine Finset.sum_congr rfl fun j _ => ?_
    have e : ∑ i : Fin n, (Real.sqrt (f (q.1 i)) : ℂ) * U ⟨o, ho⟩ i * C i j = Real.sqrt (f (p.1 j)) * p.2 o j := by
      have h1 : p.2 o j = ∑ i, U ⟨o, ho⟩ i * C i j := by
        have := congrFun (congrFun hVC ⟨o, ho⟩) j
        rwa [Matrix.mul_apply] at this
      rw [h1, Finset.mul_sum]
      refine Finset.sum_congr rfl fun i _ => ?_
      by_cases h0 : C i j = 0
      · rw [h0]; simp
      · rw [hsel i j h0]; ring
    rw [e, norm_mul, mul_pow, Complex.norm_real, Real.norm_eq_abs, sq_abs, Real.sq_sqrt (hf _)]
  · refine Finset.sum_congr rfl fun i _ => ?_
    rw [norm_mul, mul_pow, Complex.norm_real, Real.norm_eq_abs, sq_abs, Real.sq_sqrt (hf _)]
    rfl

theorem col_norm {n k : ℕ} {H : IMat} {p : (ℕ → ℝ) × (ℕ → ℕ → ℂ)} (hp : Eigenpairs n k H p) (j : ℕ) (hj : j < k) :
    ∑ o ∈ Finset.range n, ‖p.2 o j‖ ^ 2 = 1 := by
  have := hp.orthonormal j hj j hj
  rw [if_pos rfl] at this
  have h2 : ((∑ o ∈ Finset.range n, ‖p.2 o j‖ ^ 2 : ℝ) : ℂ) = 1 := by
    rw [← this]
    push_cast
    refine Finset.sum_congr rfl fun o _ => ?_
    rw [Complex.star_def, Complex.conj_mul']
  exact_mod_cast h2

theorem some_le_all_sum {n k : ℕ} {H : IMat} {q p : (ℕ → ℝ) × (ℕ → ℕ → ℂ)} (hq : Eigenpairs n n H q) (hp : Eigenpairs n k H p)
    (f : ℝ → ℝ) (hf : ∀ x, 0 ≤ f x) : ∑ j ∈ Finset.range k, f (p.1 j) ≤ ∑ i ∈ Finset.range n, f (q.1 i) := by
  have h := Finset.sum_le_sum fun o (ho : o ∈ Finset.range n) => some_le_all hq hp f hf o (Finset.mem_range.1 ho)
  rw [Finset.sum_comm, Finset.sum_comm (s := Finset.range n) (t := Finset.range n)] at h
  simp only [← Finset.mul_sum] at h
  rw [Finset.sum_congr rfl fun j hj => by rw [col_norm hp j (Finset.mem_range.1 hj), mul_one],
    Finset.sum_congr (s₁ := Finset.range n) rfl fun j hj => by rw [col_norm hq j (Finset.mem_range.1 hj), mul_one]] at h
  exact h

/-- The eigenvalues of some eigenvectors are among those of all of them, with multiplicities. -/
theorem eigenvalues_subperm {n k : ℕ} {H : IMat} {q p : (ℕ → ℝ) × (ℕ → ℕ → ℂ)} (hq : Eigenpairs n n H q) (hp : Eigenpairs n k H p) :
    ((List.range k).map p.1).Subperm ((List.range n).map q.1) := by
  rw [List.subperm_ext_iff]
  intro x _
  have h := some_le_all_sum hq hp (fun y => if y = x then 1 else 0) (fun y => by split_ifs <;> norm_num)
  have hcount : ∀ (m : ℕ) (g : ℕ → ℝ), ∑ j ∈ Finset.range m, (if g j = x then (1 : ℝ) else 0) = (((List.range m).map g).count x : ℝ) := by
    intro m g
    induction m with
    | zero => simp
    | succ m ih =>
      rw [Finset.sum_range_succ, ih, List.range_succ, List.map_append, List.count_append, List.map_singleton, List.count_singleton]
      push_cast
      simp
  rw [hcount, hcount] at h
  exact_mod_cast h

end Verif

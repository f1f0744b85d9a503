import Verif.Proof.Bipartite
import Verif.Spec.Arpack
import Verif.Spec.Parallel
import Verif.Props.Bloch
import Mathlib.LinearAlgebra.UnitaryGroup

/-! # Electron-hole symmetry of levels -/

namespace Verif

open Matrix Tbpm Verif.Props

variable {N : ℕ}

/-- The matrix of the eigenvectors. -/
def eigMat (N : ℕ) (q : (ℕ → ℝ) × (ℕ → ℕ → ℂ)) : Matrix (Fin N) (Fin N) ℂ := Matrix.of fun o j => q.2 o j

theorem eigMat_unitary {m : IMat} {q : (ℕ → ℝ) × (ℕ → ℕ → ℂ)} (h : Eigenpairs N N m q) :
    (eigMat N q)ᴴ * eigMat N q = 1 ∧ eigMat N q * (eigMat N q)ᴴ = 1 := by
  have h1 : (eigMat N q)ᴴ * eigMat N q = 1 := by
    ext i j
    have := h.orthonormal i i.2 j j.2
    rw [Finset.sum_range] at this
    rw [Matrix.mul_apply, Matrix.one_apply]
    simp only [eigMat, Matrix.conjTranspose_apply, Matrix.of_apply]
    rw [this]
    simp [Fin.ext_iff]
  exact ⟨h1, mul_eq_one_comm.1 h1⟩

theorem eigMat_eigen {m : IMat} {q : (ℕ → ℝ) × (ℕ → ℕ → ℂ)} (h : Eigenpairs N N m q) :
    toMatrix N m * eigMat N q = eigMat N q * Matrix.diagonal fun j : Fin N => (q.1 j : ℂ) := by
  ext o j
  have := h.eigen j j.2 o o.2
  rw [Finset.sum_range] at this
  rw [Matrix.mul_apply, Matrix.mul_diagonal]
  simp only [eigMat, Matrix.of_apply, toMatrix]
  rw [mul_comm, ← this]

/-- The density of any function of the energies is the same for the reversed energies. -/
theorem level_flip {m : IMat} {q : (ℕ → ℝ) × (ℕ → ℕ → ℂ)} (h : Eigenpairs N N m q) {c : Fin N → Bool} (hb : Bipartite (toMatrix N m) c)
    (φ : ℝ → ℝ) (o : Fin N) :
    ∑ j ∈ Finset.range N, φ (-q.1 j) * ‖q.2 o j‖ ^ 2 = ∑ j ∈ Finset.range N, φ (q.1 j) * ‖q.2 o j‖ ^ 2 := by
  obtain ⟨h1, h2⟩ := eigMat_unitary h
  have h3 := eigMat_eigen h
  set V := eigMat N q with hV
  set F := Matrix.diagonal (sgn c) with hF
  set M := toMatrix N m
  have hFF : F * F = 1 := sgn_sq c
  have hFh : Fᴴ = F := by
    rw [hF, Matrix.diagonal_conjTranspose]
    congr 1
    funext i
    exact star_sgn c i
  set E := Matrix.diagonal fun j : Fin N => (q.1 j : ℂ) with hE
  have hanti : M * F = F * -M := flip_anti hb
  set W := Vᴴ * F * V with hW
  have hWh : Wᴴ = W := by
    rw [hW, Matrix.conjTranspose_mul, Matrix.conjTranspose_mul, Matrix.conjTranspose_conjTranspose, hFh, Matrix.mul_assoc]
  have hWW : W * W = 1 := by
    calc W * W = Vᴴ * F * (V * Vᴴ) * F * V := by rw [hW]; simp only [Matrix.mul_assoc]
      _ = Vᴴ * (F * F) * V := by rw [h2, Matrix.mul_one, Matrix.mul_assoc Vᴴ]
      _ = 1 := by rw [hFF, Matrix.mul_one, h1]
  have hEV : Vᴴ * M * V = E := by rw [Matrix.mul_assoc, h3, ← Matrix.mul_assoc, h1, Matrix.one_mul]
  have hEW : E * W = -(W * E) := by
    calc E * W = Vᴴ * M * (V * Vᴴ) * F * V := by rw [← hEV, hW]; simp only [Matrix.mul_assoc]
      _ = Vᴴ * (M * F) * V := by rw [h2, Matrix.mul_one, Matrix.mul_assoc Vᴴ]
      _ = -(Vᴴ * F * (M * V)) := by
        rw [hanti, Matrix.mul_neg, Matrix.mul_neg, Matrix.neg_mul]; simp only [Matrix.mul_assoc]
      _ = -(W * E) := by rw [h3, hW]; simp only [Matrix.mul_assoc]
  have hw : ∀ i j, W i j ≠ 0 → q.1 i = -q.1 j := by
    intro i j hne
    have := congrFun (congrFun hEW i) j
    rw [hE, Matrix.diagonal_mul, Matrix.neg_apply, Matrix.mul_diagonal] at this
    have : ((q.1 i : ℂ) + q.1 j) * W i j = 0 := by linear_combination this
    have := (mul_eq_zero.1 this).resolve_right hne
    have : q.1 i + q.1 j = 0 := by exact_mod_cast this
    linarith
  set P := Matrix.diagonal fun j : Fin N => ((φ (q.1 j) : ℝ) : ℂ) with hP
  set Q := Matrix.diagonal fun j : Fin N => ((φ (-q.1 j) : ℝ) : ℂ) with hQ
  have hPW : W * Q = P * W := by
    ext i j
    rw [hP, hQ, Matrix.diagonal_mul, Matrix.mul_diagonal]
    by_cases hne : W i j = 0
    · rw [hne]; simp
    · rw [hw i j hne, mul_comm]
  have key : F * (V * Q * Vᴴ) * F = V * P * Vᴴ := by
    have e1 : F * V = V * W := by
      rw [hW, ← Matrix.mul_assoc, ← Matrix.mul_assoc, h2, Matrix.one_mul]
    have e2 : Vᴴ * F = W * Vᴴ := by
      rw [hW, Matrix.mul_assoc, h2, Matrix.mul_one]
    calc F * (V * Q * Vᴴ) * F = (F * V) * Q * (Vᴴ * F) := by simp only [Matrix.mul_assoc]
      _ = V * (W * Q) * (W * Vᴴ) := by rw [e1, e2]; simp only [Matrix.mul_assoc]
      _ = V * P * (W * W) * Vᴴ := by rw [hPW]; simp only [Matrix.mul_assoc]
      _ = V * P * Vᴴ := by rw [hWW, Matrix.mul_one]
  have hdiag : ∀ d : Fin N → ℝ, (V * (Matrix.diagonal fun j => ((d j : ℝ) : ℂ)) * Vᴴ) o o = ((∑ j, d j * ‖q.2 o j‖ ^ 2 : ℝ) : ℂ) := by
    intro d
    rw [Matrix.mul_apply]
    push_cast
    refine Finset.sum_congr rfl fun j _ => ?_
    rw [Matrix.mul_diagonal, Matrix.conjTranspose_apply, hV]
    simp only [eigMat, Matrix.of_apply]
    have : q.2 o j * star (q.2 o j) = ((‖q.2 o j‖ : ℂ)) ^ 2 := by
      rw [← Complex.mul_conj']; rfl
    rw [← this]; ring
  have := congrFun (congrFun key o) o
  rw [hF, Matrix.mul_diagonal, Matrix.diagonal_mul, hP, hQ, hdiag, hdiag] at this
  rw [show ∀ x : ℂ, sgn c o * x * sgn c o = sgn c o * sgn c o * x from fun x => by ring, sgn_mul, one_mul] at this
  rw [Finset.sum_range, Finset.sum_range]
  exact_mod_cast this

theorem column_norm {m : IMat} {q : (ℕ → ℝ) × (ℕ → ℕ → ℂ)} (h : Eigenpairs N N m q) (j : ℕ) (hj : j < N) :
    ∑ o ∈ Finset.range N, ‖q.2 o j‖ ^ 2 = 1 := by
  have := h.orthonormal j hj j hj
  rw [if_pos rfl] at this
  have e : ∀ o ∈ Finset.range N, star (q.2 o j) * q.2 o j = ((‖q.2 o j‖ ^ 2 : ℝ) : ℂ) := by
    intro o _
    push_cast
    rw [← Complex.conj_mul']; rfl
  rw [Finset.sum_congr rfl e] at this
  exact_mod_cast this

/-- The same with the weights of `calc_dos`. -/
theorem weight_flip {m : IMat} {q : ℕ → (ℕ → ℝ) × (ℕ → ℕ → ℂ)} {k : ℕ} (h : Eigenpairs N N m (q k)) {c : Fin N → Bool}
    (hb : Bipartite (toMatrix N m) c) (φ : ℝ → ℝ) (orbs : Option (List ℕ)) (ho : ∀ os, orbs = some os → ∀ o ∈ os, o < N) :
    ∑ j ∈ Finset.range N, φ (-(q k).1 j) * stateWeight q orbs k j = ∑ j ∈ Finset.range N, φ ((q k).1 j) * stateWeight q orbs k j := by
  cases orbs with
  | none =>
    simp only [stateWeight]
    have e : ∀ ψ : ℝ → ℝ, ∑ j ∈ Finset.range N, ψ ((q k).1 j) * 1 =
        ∑ o ∈ Finset.range N, ∑ j ∈ Finset.range N, ψ ((q k).1 j) * ‖(q k).2 o j‖ ^ 2 := by
      intro ψ
      rw [Finset.sum_comm]
      refine Finset.sum_congr rfl fun j hj => ?_
      rw [← Finset.mul_sum, column_norm h j (Finset.mem_range.1 hj)]
    rw [e φ, e fun x => φ (-x)]
    exact Finset.sum_congr rfl fun o ho => level_flip h hb φ ⟨o, Finset.mem_range.1 ho⟩
  | some os =>
    simp only [stateWeight]
    replace ho := ho os rfl
    induction os with
    | nil => simp
    | cons o os ih =>
      simp only [List.map_cons, List.sum_cons, mul_add, Finset.sum_add_distrib]
      rw [ih fun x hx => ho x (List.mem_cons_of_mem _ hx)]
      congr 1
      exact level_flip h hb φ ⟨o, ho o List.mem_cons_self⟩

/-- The levels and the reversed levels are the same with multiplicities. -/
theorem levels_perm {m : IMat} {q : (ℕ → ℝ) × (ℕ → ℕ → ℂ)} (h : Eigenpairs N N m q) {c : Fin N → Bool}
    (hb : Bipartite (toMatrix N m) c) : ((List.range N).map fun j => -q.1 j).Perm ((List.range N).map q.1) := by
  classical
  rw [List.perm_iff_count]
  intro E
  have := weight_flip (q := fun _ => q) (k := 0) h hb (fun x => if x = E then 1 else 0) none (by simp)
  simp only [stateWeight, mul_one] at this
  have e : ∀ u : ℕ → ℝ, (((List.range N).map u).count E : ℝ) = ∑ j ∈ Finset.range N, if u j = E then 1 else 0 := by
    intro u
    rw [List.count_eq_countP, List.countP_map, List.countP_eq_length_filter, Finset.sum_boole]
    congr 1
  have : (((List.range N).map fun j => -q.1 j).count E : ℝ) = ((List.range N).map q.1).count E := by rw [e, e]; exact this
  exact_mod_cast this

end Verif

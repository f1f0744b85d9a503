import Verif.Model.Overlap
import Verif.Spec.Overlap
import Verif.Props.Bloch
import Mathlib.LinearAlgebra.Matrix.NonsingularInverse
import Mathlib.Algebra.Polynomial.Roots
import Mathlib.Data.List.Sort
import Mathlib.Analysis.Matrix.Spectrum

/-! # Lemmas on the general eigenvalue problem -/

namespace Verif

open Matrix Verif.Props

/-- The eigenvectors as a matrix. -/
def vecMatrix (n : ℕ) (vec : ℕ → ℕ → ℂ) : Matrix (Fin n) (Fin n) ℂ := Matrix.of fun o i => vec o i

theorem genEig_matrix {n : ℕ} {h s : IMat} {ev : ℕ → ℝ} {vec : ℕ → ℕ → ℂ} (hg : GenEig n h s ev vec) :
    toMatrix n h * vecMatrix n vec = toMatrix n s * vecMatrix n vec * diagonal (fun i : Fin n => (ev i : ℂ)) ∧
    (vecMatrix n vec)ᴴ * toMatrix n s * vecMatrix n vec = 1 := by
  constructor
  · ext o i
    have := hg.1 i i.2 o o.2
    rw [Finset.sum_range, Finset.sum_range] at this
    rw [mul_diagonal, mul_apply, mul_apply]
    simp only [toMatrix, vecMatrix, of_apply]
    rw [this, mul_comm]
  · ext i j
    have := hg.2 i i.2 j j.2
    rw [Finset.sum_range] at this
    rw [mul_apply, one_apply]
    have e : (if (i : ℕ) = (j : ℕ) then (1 : ℂ) else 0) = if i = j then 1 else 0 := by simp [Fin.ext_iff]
    rw [← e, ← this]
    simp only [mul_apply, conjTranspose_apply, toMatrix, vecMatrix, of_apply, Finset.sum_mul]
    rw [Finset.sum_comm]
    refine Finset.sum_congr rfl fun o _ => ?_
    rw [Finset.sum_range]

/-- The eigenvalues are the roots of the pencil. -/
theorem pencil_det {n : ℕ} {h s : IMat} {ev : ℕ → ℝ} {vec : ℕ → ℕ → ℂ} (hg : GenEig n h s ev vec) :
    (toMatrix n s).det ≠ 0 ∧
    (∀ z : ℂ, (z • toMatrix n s - toMatrix n h).det = (toMatrix n s).det * ∏ i ∈ Finset.range n, (z - ev i)) ∧
    vecMatrix n vec * (vecMatrix n vec)ᴴ = (toMatrix n s)⁻¹ := by
  obtain ⟨h1, h2⟩ := genEig_matrix hg
  set V := vecMatrix n vec
  set S := toMatrix n s
  set Hm := toMatrix n h
  have hd : Vᴴ.det * S.det * V.det = 1 := by rw [← det_mul, ← det_mul, h2, det_one]
  have hS : S.det ≠ 0 := by
    intro h0
    rw [h0] at hd
    simp at hd
  refine ⟨hS, fun z => ?_, ?_⟩
  · have e : Vᴴ * (z • S - Hm) * V = diagonal (fun i : Fin n => z - (ev i : ℂ)) := by
      rw [Matrix.mul_sub, Matrix.sub_mul, Matrix.mul_smul, Matrix.smul_mul, h2, Matrix.mul_assoc, h1, ← Matrix.mul_assoc,
        ← Matrix.mul_assoc, h2, Matrix.one_mul]
      ext i j
      by_cases hij : i = j
      · subst hij; simp
      · simp [hij]
    have e2 : Vᴴ.det * (z • S - Hm).det * V.det = ∏ i ∈ Finset.range n, (z - ev i) := by
      rw [← det_mul, ← det_mul, e, det_diagonal, Finset.prod_range]
    rw [← e2]
    linear_combination (-(z • S - Hm).det) * hd
  · have hl : (Vᴴ * S) * V = 1 := h2
    have hr : V * (Vᴴ * S) = 1 := mul_eq_one_comm.1 hl
    have : (V * Vᴴ) * S = 1 := by rw [Matrix.mul_assoc]; exact hr
    exact (Matrix.inv_eq_left_inv this).symm

/-- A descending list of numbers is determined by the monic polynomial with these roots. -/
theorem roots_unique {n : ℕ} {f g : ℕ → ℝ} (hf : ∀ a b, a ≤ b → b < n → f b ≤ f a) (hg : ∀ a b, a ≤ b → b < n → g b ≤ g a)
    (he : ∀ z : ℂ, ∏ i ∈ Finset.range n, (z - f i) = ∏ i ∈ Finset.range n, (z - g i)) (b : ℕ) (hb : b < n) : f b = g b := by
  have hp : (∏ i ∈ Finset.range n, (Polynomial.X - Polynomial.C (f i : ℂ))) =
      ∏ i ∈ Finset.range n, (Polynomial.X - Polynomial.C (g i : ℂ)) := by
    apply Polynomial.funext
    intro z
    simpa [Polynomial.eval_prod] using he z
  have hm : ((Multiset.range n).map fun i => (f i : ℂ)) = (Multiset.range n).map fun i => (g i : ℂ) := by
    have key : ∀ u : ℕ → ℝ, (∏ i ∈ Finset.range n, (Polynomial.X - Polynomial.C (u i : ℂ))).roots =
        (Multiset.range n).map fun i => (u i : ℂ) := by
      intro u
      have : (∏ i ∈ Finset.range n, (Polynomial.X - Polynomial.C (u i : ℂ))) =
          (((Multiset.range n).map fun i => (u i : ℂ)).map fun a => Polynomial.X - Polynomial.C a).prod := by
        rw [Multiset.map_map]; rfl
      rw [this, Polynomial.roots_multiset_prod_X_sub_C]
    rw [← key f, ← key g, hp]
  have hm' : ((Multiset.range n).map f) = (Multiset.range n).map g := by
    apply Multiset.map_injective Complex.ofReal_injective
    simpa [Multiset.map_map, Function.comp_def] using hm
  have hperm : ((List.range n).map f).Perm ((List.range n).map g) := Quotient.exact hm'
  have hs : ∀ u : ℕ → ℝ, (∀ a b, a ≤ b → b < n → u b ≤ u a) → ((List.range n).map u).Pairwise (· ≥ ·) := by
    intro u hu
    rw [List.pairwise_map, List.pairwise_iff_getElem]
    intro i j hi hj hij
    simp only [List.length_range] at hi hj
    simp only [List.getElem_range]
    exact hu i j hij.le hj
  have := hperm.eq_of_pairwise' (hs f hf) (hs g hg)
  have e := congrArg (fun l => l[b]?) this
  simpa [hb] using e

/-- An eigensystem exists if the overlap matrix is `Bᴴ B` with invertible `B`. -/
theorem genEig_exists {n : ℕ} (h s : IMat) (hh : (toMatrix n h).IsHermitian) (B : Matrix (Fin n) (Fin n) ℂ)
    (hB : toMatrix n s = Bᴴ * B) (hdet : B.det ≠ 0) : ∃ ev vec, GenEig n h s ev vec := by
  have hu : IsUnit B.det := isUnit_iff_ne_zero.2 hdet
  set C := B⁻¹ with hC
  have hBC : B * C = 1 := Matrix.mul_nonsing_inv B hu
  have hCB : C * B = 1 := Matrix.nonsing_inv_mul B hu
  have hA : (Cᴴ * toMatrix n h * C).IsHermitian := by
    unfold Matrix.IsHermitian
    rw [conjTranspose_mul, conjTranspose_mul, conjTranspose_conjTranspose, hh.eq, Matrix.mul_assoc]
  set U : Matrix (Fin n) (Fin n) ℂ := (hA.eigenvectorUnitary : Matrix (Fin n) (Fin n) ℂ) with hU
  have hUU : Uᴴ * U = 1 := Matrix.mem_unitaryGroup_iff'.1 hA.eigenvectorUnitary.2
  have hUU' : U * Uᴴ = 1 := Matrix.mem_unitaryGroup_iff.1 hA.eigenvectorUnitary.2
  have hspec : (Cᴴ * toMatrix n h * C) * U = U * diagonal (fun i => (hA.eigenvalues i : ℂ)) := by
    have := hA.spectral_theorem
    have e : (Cᴴ * toMatrix n h * C) = U * diagonal (fun i => (hA.eigenvalues i : ℂ)) * Uᴴ := by
      conv_lhs => rw [this]
      rfl
    exact (congrArg (· * U) e).trans (by rw [Matrix.mul_assoc, hUU, Matrix.mul_one])
  have hCh : Bᴴ * Cᴴ = 1 := by rw [← conjTranspose_mul, hCB, conjTranspose_one]
  have g1 : toMatrix n h * (C * U) = toMatrix n s * (C * U) * diagonal (fun i => (hA.eigenvalues i : ℂ)) := by
    calc toMatrix n h * (C * U) = (Bᴴ * Cᴴ) * toMatrix n h * (C * U) := by rw [hCh, Matrix.one_mul]
      _ = Bᴴ * ((Cᴴ * toMatrix n h * C) * U) := by simp only [Matrix.mul_assoc]
      _ = Bᴴ * ((B * C) * (U * diagonal (fun i => (hA.eigenvalues i : ℂ)))) := by rw [hspec, hBC, Matrix.one_mul]
      _ = toMatrix n s * (C * U) * diagonal (fun i => (hA.eigenvalues i : ℂ)) := by rw [hB]; simp only [Matrix.mul_assoc]
  have g2 : (C * U)ᴴ * toMatrix n s * (C * U) = 1 := by
    calc (C * U)ᴴ * toMatrix n s * (C * U) = Uᴴ * ((B * C)ᴴ * (B * C)) * U := by
          rw [hB, conjTranspose_mul, conjTranspose_mul]; simp only [Matrix.mul_assoc]
      _ = 1 := by rw [hBC, conjTranspose_one, Matrix.one_mul, Matrix.mul_one, hUU]
  refine ⟨fun i => if hi : i < n then hA.eigenvalues ⟨i, hi⟩ else 0,
    fun o i => if ho : o < n then if hi : i < n then (C * U) ⟨o, ho⟩ ⟨i, hi⟩ else 0 else 0, ?_, ?_⟩
  · intro i hi o ho
    have := congrFun (congrFun g1 ⟨o, ho⟩) ⟨i, hi⟩
    rw [mul_diagonal, mul_apply, mul_apply] at this
    rw [Finset.sum_range, Finset.sum_range]
    simp only [Fin.is_lt, dif_pos, hi, Fin.eta]
    simp only [toMatrix, of_apply] at this
    exact this.trans (mul_comm _ _)
  · intro i hi j hj
    have := congrFun (congrFun g2 ⟨i, hi⟩) ⟨j, hj⟩
    rw [one_apply] at this
    have e : (if (⟨i, hi⟩ : Fin n) = ⟨j, hj⟩ then (1 : ℂ) else 0) = if i = j then 1 else 0 := by simp
    rw [← e, ← this]
    simp only [mul_apply, conjTranspose_apply, toMatrix, of_apply, Finset.sum_mul]
    rw [Finset.sum_comm, Finset.sum_range]
    refine Finset.sum_congr rfl fun o _ => ?_
    rw [Finset.sum_range]
    refine Finset.sum_congr rfl fun p _ => ?_
    simp only [Fin.is_lt, dif_pos, hi, hj, Fin.eta, mul_apply]

/-- An eigensolver that succeeds whenever there is a solution. -/
noncomputable def idealZhegv (n : ℕ) (h s : IMat) : Option ((ℕ → ℝ) × (ℕ → ℕ → ℂ)) :=
  open Classical in if hx : ∃ r : (ℕ → ℝ) × (ℕ → ℕ → ℂ), GenEig n h s r.1 r.2 then some hx.choose else none

theorem idealZhegv_ok (n : ℕ) : ZhegvOk n (idealZhegv n) := by
  intro h s _ _ ev vec he
  unfold idealZhegv at he
  split_ifs at he with hx
  simp only [Option.some.injEq] at he
  have := hx.choose_spec
  rwa [he] at this

theorem idealZhegv_some {n : ℕ} {h s : IMat} (hx : ∃ ev vec, GenEig n h s ev vec) : ∃ r, idealZhegv n h s = some r := by
  obtain ⟨ev, vec, hg⟩ := hx
  unfold idealZhegv
  rw [dif_pos ⟨(ev, vec), hg⟩]
  exact ⟨_, rfl⟩

/-- A sorting function of indices. -/
noncomputable def idealArgsort (n : ℕ) (ev : ℕ → ℝ) : List ℕ := (List.range n).mergeSort fun a b => decide (ev a ≤ ev b)

theorem idealArgsort_ok (n : ℕ) : ArgsortOk n (idealArgsort n) := by
  intro ev
  refine ⟨List.mergeSort_perm _ _, ?_⟩
  rw [List.pairwise_map]
  have := List.pairwise_mergeSort (le := fun a b => decide (ev a ≤ ev b)) (by intro a b c; simp; intro h1 h2; linarith)
    (by intro a b; simp; exact le_total _ _) (List.range n)
  simpa [idealArgsort] using this

end Verif

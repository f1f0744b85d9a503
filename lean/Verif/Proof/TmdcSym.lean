import Mathlib.Tactic.FinCases
import Mathlib.Algebra.BigOperators.Field
import Mathlib.LinearAlgebra.Matrix.NonsingularInverse
import Verif.Proof.Tmdc

/-!
# The symmetries of the tables of `make_tmdc`
-/

namespace Verif.Materials

theorem rot_ok : commOk (fun R => (R.2.1, -R.1 - R.2.1, R.2.2)) rotLit (fun l => if tmMetal l then (-1, 0, 0) else 0) = true := by
  decide +kernel

theorem mirH_ok : commOk (fun R => (R.1, R.2.1, -R.2.2)) mirHLit (fun _ => 0) = true := by
  decide +kernel

theorem mirV_ok : commOk (fun R => (R.2.1, R.1, R.2.2)) mirVLit (fun _ => 0) = true := by
  decide +kernel


/-- The signs in the transformation. -/
def tmSign (i l : ℕ) : ℤ := if (l, i) ∈ tmOnes then 1 else if (l, i) ∈ tmPlus then 1 else if (l, i) ∈ tmMinus then -1 else 0

/-- The norms in the transformation. -/
noncomputable def tmNorm (l : ℕ) : ℝ := if tmMetal l then 1 else 1 / Real.sqrt 2

theorem tmTrans_eq (i l : ℕ) : tmTrans i l = tmSign i l * tmNorm l := by
  have h1 : ∀ q ∈ tmOnes, tmMetal q.1 = true := by decide
  have h2 : ∀ q ∈ tmPlus, tmMetal q.1 = false := by decide
  have h3 : ∀ q ∈ tmMinus, tmMetal q.1 = false := by decide
  unfold tmTrans tmSign tmNorm
  split_ifs with a b c d e f g <;> first
    | (simp; done)
    | (have := h1 _ a; simp_all; done)
    | (have := h2 _ c; simp_all; done)
    | (have := h3 _ e; simp_all; done)

theorem tmNorm_sq (l : ℕ) : tmNorm l * tmNorm l = (if tmMetal l then 2 else 1 : ℤ) / 2 := by
  unfold tmNorm
  have : Real.sqrt 2 * Real.sqrt 2 = 2 := Real.mul_self_sqrt (by norm_num)
  split_ifs
  · norm_num
  · rw [div_mul_div_comm, this]; norm_num

theorem tmTrans_row (a b : ℕ) (ha : a < 11) (hb : b < 11) :
    ∑ l ∈ Finset.range 11, tmTrans a l * tmTrans b l = if a = b then 1 else 0 := by
  have e : ∀ l, tmTrans a l * tmTrans b l = ((tmSign a l * tmSign b l * (if tmMetal l then 2 else 1) : ℤ) : ℝ) / 2 := by
    intro l
    rw [tmTrans_eq, tmTrans_eq, mul_mul_mul_comm, tmNorm_sq]
    push_cast
    ring
  have hd : ∀ a < 11, ∀ b < 11, ∑ l ∈ Finset.range 11, tmSign a l * tmSign b l * (if tmMetal l then 2 else 1) = if a = b then 2 else 0 := by
    decide +kernel
  simp only [e]
  rw [← Finset.sum_div, ← Int.cast_sum, hd a ha b hb]
  split_ifs <;> norm_num

/-- The transformation as a matrix. -/
noncomputable def tmMat : Matrix (Fin 11) (Fin 11) ℝ := Matrix.of fun i l => tmTrans i l

theorem tmMat_orth : tmMat * tmMat.transpose = 1 := by
  ext a b
  have := tmTrans_row a b a.2 b.2
  rw [Finset.sum_range] at this
  simpa only [Matrix.mul_apply, Matrix.one_apply, tmMat, Matrix.of_apply, Matrix.transpose_apply, Fin.val_inj] using this

/-- The matrix of a list. -/
noncomputable def spMat (U : Sparse) : Matrix (Fin 11) (Fin 11) ℝ := Matrix.of fun i j => spVal U i j

/-- Product in `ℤ[√3]`. -/
def pmul (u v : ℤ × ℤ) : ℤ × ℤ := (u.1 * v.1 + 3 * (u.2 * v.2), u.1 * v.2 + u.2 * v.1)

/-- The matrices `U'` after and `U` before the transformation belong together. -/
def transOk (U' U : Sparse) : Bool :=
  (List.range 11).all fun a => (List.range 11).all fun l =>
    (((U'.filter fun q => q.1.1 = a).map fun q => q.2.1 * tmSign q.1.2 l).sum = ((U.filter fun q => q.1.2 = l).map fun q => q.2.1 * tmSign a q.1.1).sum) &&
    (((U'.filter fun q => q.1.1 = a).map fun q => q.2.2 * tmSign q.1.2 l).sum = ((U.filter fun q => q.1.2 = l).map fun q => q.2.2 * tmSign a q.1.1).sum)

theorem val2_sum (l : Sparse) (F : ((ℕ × ℕ) × ℤ × ℤ) → ℤ) :
    (l.map fun q => val2 q.2 * (F q : ℝ)).sum = val2 ((l.map fun q => q.2.1 * F q).sum, (l.map fun q => q.2.2 * F q).sum) := by
  induction l with
  | nil => simp [val2]
  | cons q l ih =>
    simp only [List.map_cons, List.sum_cons, ih]
    simp only [val2]
    push_cast
    ring

theorem trans_of_ok {U' U : Sparse} (h : transOk U' U = true) (hU : ∀ q ∈ U, (q.1.1 < 11 ∧ q.1.2 < 11) ∧ tmMetal q.1.1 = tmMetal q.1.2)
    (hU' : ∀ q ∈ U', q.1.2 < 11) : spMat U' * tmMat = tmMat * spMat U := by
  ext a l
  have := List.all_eq_true.1 (List.all_eq_true.1 h a (List.mem_range.2 a.2)) l (List.mem_range.2 l.2)
  simp only [Bool.and_eq_true, decide_eq_true_eq] at this
  simp only [Matrix.mul_apply, spMat, tmMat, Matrix.of_apply]
  rw [← Finset.sum_range (fun b => spVal U' a b * tmTrans b l), ← Finset.sum_range (fun m => tmTrans a m * spVal U m l),
    spVal_row U' 11 hU' (fun b => tmTrans b l), spVal_col U 11 (fun q hq => (hU q hq).1.1) (fun m => tmTrans a m)]
  have e1 : ((U'.filter fun q => q.1.1 = (a : ℕ)).map fun q => val2 q.2 * tmTrans q.1.2 l).sum =
      ((U'.filter fun q => q.1.1 = (a : ℕ)).map fun q => val2 q.2 * (tmSign q.1.2 l : ℝ)).sum * tmNorm l := by
    rw [← List.sum_map_mul_right]
    congr 1
    apply List.map_congr_left
    intro q _
    rw [tmTrans_eq]; ring
  have e2 : ((U.filter fun q => q.1.2 = (l : ℕ)).map fun q => val2 q.2 * tmTrans a q.1.1).sum =
      ((U.filter fun q => q.1.2 = (l : ℕ)).map fun q => val2 q.2 * (tmSign a q.1.1 : ℝ)).sum * tmNorm l := by
    rw [← List.sum_map_mul_right]
    congr 1
    apply List.map_congr_left
    intro q hq
    have h1 := (hU q (List.mem_of_mem_filter hq)).2
    have h2 : q.1.2 = (l : ℕ) := by simpa using (List.mem_filter.1 hq).2
    rw [h2] at h1
    rw [tmTrans_eq, show tmNorm q.1.1 = tmNorm l by unfold tmNorm; rw [h1]]; ring
  rw [e1, e2, val2_sum _ (fun q => tmSign q.1.2 l), val2_sum _ (fun q => tmSign a q.1.1), this.1, this.2]

/-- The columns are orthonormal. -/
def orthOk (U : Sparse) : Bool :=
  (List.range 11).all fun i => (List.range 11).all fun j =>
    let l := (U.filter fun q => q.1.2 = j).flatMap fun q => (U.filter fun r => r.1 = (q.1.1, i)).map fun r => pmul q.2 r.2
    ((l.map Prod.fst).sum = if i = j then 4 else 0) && ((l.map Prod.snd).sum = 0)

theorem spVal_filter (U : Sparse) (i j : ℕ) : spVal U i j = ((U.filter fun q => q.1 = (i, j)).map fun q => val2 q.2).sum := by
  unfold spVal
  induction U with
  | nil => rfl
  | cons q U ih =>
    rw [List.map_cons, List.sum_cons, ih, List.filter_cons]
    by_cases h : q.1 = (i, j) <;> simp [h]

theorem val2_mul (u v : ℤ × ℤ) : val2 u * val2 v = val2 (pmul u v) / 2 := by
  have h33 : Real.sqrt 3 * Real.sqrt 3 = 3 := Real.mul_self_sqrt (by norm_num)
  simp only [val2, pmul]
  push_cast
  linear_combination ((u.2 : ℝ) * v.2 / 4) * h33

theorem val2_list (l : List (ℤ × ℤ)) : (l.map val2).sum = val2 ((l.map Prod.fst).sum, (l.map Prod.snd).sum) := by
  induction l with
  | nil => simp [val2]
  | cons q l ih =>
    simp only [List.map_cons, List.sum_cons, ih]
    simp only [val2]
    push_cast
    ring

theorem sum_flatMap' {α : Type*} (l : List α) (f : α → List ℝ) : (l.flatMap f).sum = (l.map fun x => (f x).sum).sum := by
  induction l with
  | nil => rfl
  | cons x l ih => rw [List.flatMap_cons, List.sum_append, ih, List.map_cons, List.sum_cons]

theorem orth_of_ok {U : Sparse} (h : orthOk U = true) (hU : ∀ q ∈ U, q.1.1 < 11) : (spMat U).transpose * spMat U = 1 := by
  ext i j
  have := List.all_eq_true.1 (List.all_eq_true.1 h i (List.mem_range.2 i.2)) j (List.mem_range.2 j.2)
  simp only [Bool.and_eq_true, decide_eq_true_eq] at this
  simp only [Matrix.mul_apply, spMat, Matrix.of_apply, Matrix.transpose_apply]
  rw [← Finset.sum_range (fun b => spVal U b i * spVal U b j), spVal_col U 11 hU (fun b => spVal U b i)]
  have e : ((U.filter fun q => q.1.2 = (j : ℕ)).map fun q => val2 q.2 * spVal U q.1.1 i).sum =
      (((U.filter fun q => q.1.2 = (j : ℕ)).flatMap fun q => (U.filter fun r => r.1 = (q.1.1, (i : ℕ))).map fun r => pmul q.2 r.2).map val2).sum / 2 := by
    rw [List.map_flatMap, sum_flatMap', div_eq_mul_inv, ← List.sum_map_mul_right]
    congr 1
    apply List.map_congr_left
    intro q _
    rw [spVal_filter, ← List.sum_map_mul_left, List.map_map, ← List.sum_map_mul_right]
    congr 1
    apply List.map_congr_left
    intro r _
    rw [val2_mul, div_eq_mul_inv]; rfl
  rw [e, val2_list, this.1, this.2, Matrix.one_apply]
  by_cases hij : i = j
  · rw [if_pos hij, if_pos (by rw [hij])]; norm_num [val2]
  · rw [if_neg hij, if_neg (fun h => hij (Fin.ext h))]; norm_num [val2]

/-- The matrix of the cell `R` after the transformation. -/
noncomputable def tmG (t : ℕ → ℝ) (R : Cell) (i j : ℕ) : ℝ := tmConj (tmFull t R) i j

theorem tmConj_mat (g : ℕ → ℕ → ℝ) (i j : Fin 11) :
    tmConj g i j = (tmMat * (Matrix.of fun l m : Fin 11 => g l m) * tmMat.transpose) i j := by
  simp only [tmConj, Matrix.mul_apply, tmMat, Matrix.of_apply, Matrix.transpose_apply, Finset.sum_range]

/-- A symmetry of the table before the transformation is one after it. -/
theorem conj_comm {t : ℕ → ℝ} {B : Cell → Cell} {U U' : Sparse} {τ τ' : ℕ → Cell}
    (h : ∀ (T : Cell) (a j : ℕ), a < 11 → j < 11 →
      ∑ b ∈ Finset.range 11, tmFull t T a b * spVal U b j = ∑ i ∈ Finset.range 11, spVal U a i * tmFull t (B (T - τ j + τ i)) i j)
    (hU : spMat U' * tmMat = tmMat * spMat U) (hτ : ∀ i < 11, ∀ l < 11, tmSign i l ≠ 0 → τ' i = τ l) (T : Cell) (a j : ℕ) (ha : a < 11) (hj : j < 11) :
    ∑ b ∈ Finset.range 11, tmG t T a b * spVal U' b j = ∑ i ∈ Finset.range 11, spVal U' a i * tmG t (B (T - τ' j + τ' i)) i j := by
  let g : Matrix (Fin 11) (Fin 11) ℝ := Matrix.of fun l m => tmFull t T l m
  let g' : Matrix (Fin 11) (Fin 11) ℝ := Matrix.of fun l m => tmFull t (B (T - τ m + τ l)) l m
  have hg : g * spMat U = spMat U * g' := by
    ext x y
    have := h T x y x.2 y.2
    simpa only [Matrix.mul_apply, spMat, Matrix.of_apply, g, g', Finset.sum_range] using this
  have hz : ∀ i l : ℕ, tmTrans i l ≠ 0 → tmSign i l ≠ 0 := by
    intro i l hne hz
    rw [tmTrans_eq, hz] at hne
    simp at hne
  have hR : ∀ i : ℕ, i < 11 → tmG t (B (T - τ' j + τ' i)) i j = tmConj (fun l m => tmFull t (B (T - τ m + τ l)) l m) i j := by
    intro i hi
    unfold tmG tmConj
    refine Finset.sum_congr rfl fun m hm => ?_
    by_cases hjm : tmTrans j m = 0
    · rw [hjm, mul_zero, mul_zero]
    congr 1
    refine Finset.sum_congr rfl fun l hl => ?_
    by_cases hil : tmTrans i l = 0
    · rw [hil, zero_mul, zero_mul]
    rw [hτ i hi l (Finset.mem_range.1 hl) (hz _ _ hil), hτ j hj m (Finset.mem_range.1 hm) (hz _ _ hjm)]
  have hT' : tmMat.transpose * tmMat = 1 := mul_eq_one_comm.1 tmMat_orth
  have h1 : spMat U * tmMat.transpose = tmMat.transpose * spMat U' := by
    have : tmMat.transpose * (spMat U' * tmMat) * tmMat.transpose = tmMat.transpose * (tmMat * spMat U) * tmMat.transpose := by rw [hU]
    rw [Matrix.mul_assoc, Matrix.mul_assoc, tmMat_orth, Matrix.mul_one, ← Matrix.mul_assoc tmMat.transpose tmMat, hT', Matrix.one_mul] at this
    exact this.symm
  have key : (tmMat * g * tmMat.transpose) * spMat U' = spMat U' * (tmMat * g' * tmMat.transpose) := by
    rw [Matrix.mul_assoc, ← h1, ← Matrix.mul_assoc, Matrix.mul_assoc tmMat, hg, ← Matrix.mul_assoc, ← hU]
    simp only [Matrix.mul_assoc]
  have k2 := congrFun (congrFun key ⟨a, ha⟩) ⟨j, hj⟩
  rw [Matrix.mul_apply, Matrix.mul_apply] at k2
  simp only [g, g', ← tmConj_mat] at k2
  rw [Finset.sum_range, Finset.sum_range]
  refine Eq.trans ?_ (k2.trans (Finset.sum_congr rfl fun i _ => ?_))
  · rfl
  · rw [hR i i.2]; rfl

end Verif.Materials

import Verif.Proof.Haydock
import Mathlib.Analysis.SpecialFunctions.Log.Basic
import Mathlib.Algebra.BigOperators.Field

/-! # More proofs about the kernels: CSR arrays of a sample, adjoints, eigenvectors, random states, Fermi function -/

namespace Verif.Tbpm
open Matrix

variable {n : ℕ}

theorem ofSample_nonneg {c : Csr ℝ ℂ} (hc : c.Valid n) : ∀ r : ℕ, r ≤ n → 0 ≤ c.indptr r := by
  intro r
  induction r with
  | zero => intro _; rw [Nat.cast_zero, hc.zero]
  | succ r ih =>
    intro hr
    have := hc.mono r (by omega)
    push_cast
    exact (ih (by omega)).trans this

theorem ofSample_row {c : Csr ℝ ℂ} (hc : c.Valid n) (r : ℕ) (hr : r < n) :
    c.row r = (List.range' ((FCsr.ofSample c).indptr r) ((FCsr.ofSample c).indptr (r + 1) - (FCsr.ofSample c).indptr r)).map
      fun k : ℕ => c.ent k := by
  have h0 := ofSample_nonneg hc r (by omega)
  have h1 := hc.mono r hr
  unfold Csr.row csrSlice FCsr.ofSample
  simp only
  rw [List.range'_eq_map_range, List.map_map]
  push_cast
  have hlen : (c.indptr ((r : ℤ) + 1)).toNat - (c.indptr (r : ℤ)).toNat = (c.indptr ((r : ℤ) + 1) - c.indptr (r : ℤ)).toNat := by
    omega
  rw [hlen]
  apply List.map_congr_left
  intro k _
  simp only [Function.comp_apply, Nat.cast_add]
  congr 1
  omega

theorem ofSample_legal {c : Csr ℝ ℂ} (hc : c.Valid n) : (FCsr.ofSample c).Legal n := by
  intro i hi j h1 h2
  have hrow := ofSample_row hc i hi
  have hmem : c.ent (j : ℤ) ∈ c.row i := by
    rw [hrow, List.mem_map]
    exact ⟨j, List.mem_range'_1.2 ⟨h1, by omega⟩, rfl⟩
  have := hc.cols i hi _ hmem
  have e : (FCsr.ofSample c).indices j = (c.ent (j : ℤ)).col.toNat := rfl
  rw [e]
  omega

theorem ofSample_matrix {c : Csr ℝ ℂ} (hc : c.Valid n) (a b : Fin n) : (FCsr.ofSample c).toMatrix n a b = c.mat a b := by
  have hcols := hc.cols a a.2
  have hrow := ofSample_row hc a a.2
  unfold FCsr.toMatrix Csr.mat
  rw [Matrix.of_apply]
  rw [hrow] at hcols ⊢
  generalize List.range' ((FCsr.ofSample c).indptr a) ((FCsr.ofSample c).indptr (a + 1) - (FCsr.ofSample c).indptr a) = L at hcols ⊢
  induction L with
  | nil => rfl
  | cons k L ih =>
    rw [List.map_cons, List.sum_cons, ih (fun e he => hcols e (by rw [List.map_cons]; exact List.mem_cons_of_mem _ he)),
      List.map_cons, List.filter_cons]
    have hk := hcols (c.ent (k : ℤ)) (by simp)
    have e : (FCsr.ofSample c).indices k = (c.ent (k : ℤ)).col.toNat := rfl
    have e2 : (FCsr.ofSample c).values k = (c.ent (k : ℤ)).v := rfl
    by_cases h : (c.ent (k : ℤ)).col = (b : ℤ)
    · have : (FCsr.ofSample c).indices k = b := by rw [e]; omega
      simp [h, this, e2]
    · have : ¬ (FCsr.ofSample c).indices k = b := by rw [e]; omega
      simp [h, this]

/-! ## Chebyshev polynomials of a Hermitian matrix -/

theorem chebT_commute (k : ℕ) (M : Matrix (Fin n) (Fin n) ℂ) : M * chebT k M = chebT k M * M := by
  unfold chebT
  conv_lhs => rw [← Polynomial.aeval_X (R := ℂ) M]
  conv_rhs => rw [← Polynomial.aeval_X (R := ℂ) M]
  simp only [Polynomial.aeval_X]
  have := congrArg (Polynomial.aeval M) (mul_comm (Polynomial.X : Polynomial ℂ) (Polynomial.Chebyshev.T ℂ k))
  simpa [map_mul] using this

theorem chebT_hermitian {M : Matrix (Fin n) (Fin n) ℂ} (hM : M.IsHermitian) (k : ℕ) : (chebT k M).IsHermitian := by
  induction k using Nat.twoStepInduction with
  | zero => rw [chebT_zero]; exact Matrix.isHermitian_one
  | one => rw [chebT_one]; exact hM
  | more k h1 h2 =>
    rw [chebT_succ]
    refine Matrix.IsHermitian.sub ?_ h1
    unfold Matrix.IsHermitian
    have h4 : (2 : Matrix (Fin n) (Fin n) ℂ) * M * chebT (k + 1) M = M * chebT (k + 1) M + M * chebT (k + 1) M := by
      rw [mul_assoc, two_mul]
    rw [h4, Matrix.conjTranspose_add, Matrix.conjTranspose_mul, h2.eq, hM.eq, chebT_commute]

theorem innerProd_sum (x : CVec n) (s : Finset ℕ) (f : ℕ → CVec n) : innerProd x (∑ k ∈ s, f k) = ∑ k ∈ s, innerProd x (f k) := by
  induction s using Finset.induction_on with
  | empty => simp [innerProd_zero]
  | insert a s ha ih => rw [Finset.sum_insert ha, Finset.sum_insert ha, innerProd_add, ih]

theorem innerProd_sum_left (y : CVec n) (s : Finset ℕ) (f : ℕ → CVec n) : innerProd (∑ k ∈ s, f k) y = ∑ k ∈ s, innerProd (f k) y := by
  rw [← innerProd_symm, innerProd_sum, star_sum]
  exact Finset.sum_congr rfl fun k _ => innerProd_symm _ _

theorem tvec_adjoint {M : Matrix (Fin n) (Fin n) ℂ} (hM : M.IsHermitian) (c : ℂ) (x y : CVec n) (k : ℕ) :
    innerProd (tvec (star c) M x k) y = innerProd x (tvec c M y k) := by
  rw [tvec, tvec, innerProd_smul, innerProd_smul_left, innerProd_herm _ (chebT_hermitian hM k), star_pow, star_star]

theorem chebT_eigen {M : Matrix (Fin n) (Fin n) ℂ} {x : CVec n} {lam : ℂ} (h : M.mulVec x = lam • x) (k : ℕ) :
    (chebT k M).mulVec x = (Polynomial.Chebyshev.T ℂ k).eval lam • x := by
  induction k using Nat.twoStepInduction with
  | zero => simp [chebT_zero]
  | one => simp [chebT_one, h]
  | more k h1 h2 =>
    have h4 : (2 : Matrix (Fin n) (Fin n) ℂ) * M * chebT (k + 1) M = (2 : ℂ) • (M * chebT (k + 1) M) := by
      rw [mul_assoc, two_mul, two_smul]
    have ht := Polynomial.Chebyshev.T_add_two ℂ (k : ℤ)
    push_cast at h2 ⊢
    rw [chebT_succ, Matrix.sub_mulVec, h4, Matrix.smul_mulVec, ← Matrix.mulVec_mulVec, h1, h2, Matrix.mulVec_smul, h, ht,
      Polynomial.eval_sub, Polynomial.eval_mul, Polynomial.eval_mul, Polynomial.eval_X, Polynomial.eval_ofNat, sub_smul, smul_smul,
      smul_smul]
    congr 2
    ring

/-! ## Random states -/

theorem randomState_norm (draw : Fin n → ℝ × ℝ) (h0 : ∀ i, 0 ≤ (draw i).1 ∧ (draw i).1 < 1) (hne : ∃ i, 0 < (draw i).1) :
    innerProd (randomState draw) (randomState draw) = 1 := by
  have hnn : ∀ i, 0 ≤ -1 * Real.log (1 - (draw i).1) := by
    intro i
    have := Real.log_nonpos (x := 1 - (draw i).1) (by linarith [(h0 i).2]) (by linarith [(h0 i).1])
    linarith
  have hpos : 0 < ∑ i, -1 * Real.log (1 - (draw i).1) := by
    obtain ⟨i, hi⟩ := hne
    refine Finset.sum_pos' (fun i _ => hnn i) ⟨i, Finset.mem_univ i, ?_⟩
    have := Real.log_neg (x := 1 - (draw i).1) (by linarith [(h0 i).2]) (by linarith)
    linarith
  rw [innerProd_self]
  unfold randomState
  simp only
  have hterm : ∀ i, ‖((Real.sqrt (-1 * Real.log (1 - (draw i).1)) : ℂ) * Complex.exp ⟨0, 2 * Real.pi * (draw i).2⟩) /
      (Real.sqrt (∑ i, -1 * Real.log (1 - (draw i).1)) : ℂ)‖ ^ 2 =
      (-1 * Real.log (1 - (draw i).1)) / ∑ i, -1 * Real.log (1 - (draw i).1) := by
    intro i
    rw [norm_div, norm_mul, Complex.norm_exp, Complex.norm_real, Complex.norm_real, div_pow, mul_pow, Real.norm_eq_abs,
      Real.norm_eq_abs, sq_abs, sq_abs, Real.sq_sqrt (hnn i), Real.sq_sqrt hpos.le]
    simp
  rw [Finset.sum_congr rfl fun i _ => hterm i, ← Finset.sum_div, div_self hpos.ne']
  simp

theorem siteState_spec (sites : List (Fin n)) (hnd : sites.Nodup) (wf : ℕ → ℂ) :
    innerProd (siteState sites wf) (siteState sites wf) = ∑ k ∈ Finset.range sites.length, star (wf k) * wf k := by
  have key : ∀ (L : List (Fin n)) (s : ℕ) (w : CVec n), L.Nodup → (∀ i ∈ L, w i = 0) →
      ∑ i, star (((List.range' s L.length).zip L).foldl (fun w p => Function.update w p.2 (wf p.1)) w i) *
        (((List.range' s L.length).zip L).foldl (fun w p => Function.update w p.2 (wf p.1)) w i) =
      ∑ i, star (w i) * w i + ∑ k ∈ Finset.range L.length, star (wf (s + k)) * wf (s + k) := by
    intro L
    induction L with
    | nil => intro s w _ _; simp
    | cons a L ih =>
      intro s w hL hw
      rw [List.nodup_cons] at hL
      simp only [List.length_cons, List.range'_succ, List.zip_cons_cons, List.foldl_cons]
      rw [ih (s + 1) _ hL.2 fun i hi => by
        rw [Function.update_of_ne (by rintro rfl; exact hL.1 hi), hw i (by simp [hi])]]
      rw [Finset.sum_range_succ' _ L.length]
      have h1 : ∑ i, star (Function.update w a (wf s) i) * Function.update w a (wf s) i =
          ∑ i, star (w i) * w i + star (wf s) * wf s := by
        rw [← Finset.add_sum_erase _ _ (Finset.mem_univ a), ← Finset.add_sum_erase (a := a) _ (fun i => star (w i) * w i) (Finset.mem_univ a),
          hw a (by simp), Function.update_self]
        have : ∀ i ∈ Finset.univ.erase a, star (Function.update w a (wf s) i) * Function.update w a (wf s) i = star (w i) * w i := by
          intro i hi
          rw [Function.update_of_ne (Finset.ne_of_mem_erase hi)]
        rw [Finset.sum_congr rfl this]
        simp
        ring
      rw [h1, Nat.add_zero]
      have h2 : ∀ k, s + 1 + k = s + (k + 1) := fun k => by omega
      simp only [h2]
      rw [add_assoc, add_comm (star (wf s) * wf s), Nat.add_zero]
  have := key sites 0 0 hnd (fun _ _ => rfl)
  rw [List.range_eq_range'.symm] at this
  simpa [innerProd, siteState] using this

/-! ## Fermi function -/

theorem fermiDist_eq (beta ef e : ℝ) : (fermiDist beta ef e).2 = 1 / (1 + Real.exp (beta * (e - ef))) := by
  unfold fermiDist
  split
  · have h : Real.exp (beta * (e - ef)) = (Real.exp (beta * (ef - e)))⁻¹ := by
      rw [← Real.exp_neg]
      congr 1
      ring
    simp only
    rw [h]
    have := Real.exp_pos (beta * (ef - e))
    field_simp
    ring
  · rfl

end Verif.Tbpm

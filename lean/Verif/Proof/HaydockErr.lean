import Verif.Proof.Haydock
import Verif.Proof.Evolution
import Verif.Proof.KernelCheb
import Mathlib.Analysis.SpecialFunctions.Arsinh
import Mathlib.Analysis.SpecialFunctions.Complex.Arg
import Mathlib.Analysis.SpecialFunctions.Trigonometric.Complex
import Mathlib.Algebra.Polynomial.Div

/-! # The error of the continued fraction at finite depth -/

namespace Verif.Tbpm

open Matrix Polynomial
open scoped Matrix.Norms.L2Operator

variable {n : ℕ}

/-! ## Chebyshev polynomials away from the real axis -/

theorem norm_cos_ge (u : ℂ) : |Real.sinh u.im| ≤ ‖Complex.cos u‖ := by
  have h : ‖Complex.cos u‖ ^ 2 = Real.cos u.re ^ 2 + Real.sinh u.im ^ 2 := by
    rw [← Complex.normSq_eq_norm_sq, Complex.cos_eq u, Complex.normSq_apply]
    have e1 : (Complex.cos u.re * Complex.cosh u.im - Complex.sin u.re * Complex.sinh u.im * Complex.I).re =
        Real.cos u.re * Real.cosh u.im := by
      rw [← Complex.ofReal_cos, ← Complex.ofReal_cosh, ← Complex.ofReal_sin, ← Complex.ofReal_sinh, ← Complex.ofReal_mul,
        ← Complex.ofReal_mul, Complex.sub_re, Complex.ofReal_re, Complex.re_ofReal_mul, Complex.I_re, mul_zero, sub_zero]
    have e2 : (Complex.cos u.re * Complex.cosh u.im - Complex.sin u.re * Complex.sinh u.im * Complex.I).im =
        -(Real.sin u.re * Real.sinh u.im) := by
      rw [← Complex.ofReal_cos, ← Complex.ofReal_cosh, ← Complex.ofReal_sin, ← Complex.ofReal_sinh, ← Complex.ofReal_mul,
        ← Complex.ofReal_mul, Complex.sub_im, Complex.ofReal_im, Complex.im_ofReal_mul, Complex.I_im, mul_one, zero_sub]
    rw [e1, e2]
    have h1 := Real.cosh_sq u.im
    have h2 := Real.sin_sq_add_cos_sq u.re
    linear_combination (Real.cos u.re ^ 2) * h1 + (Real.sinh u.im ^ 2) * h2
  rw [← Real.sqrt_sq_eq_abs, ← Real.sqrt_sq (norm_nonneg (Complex.cos u)), h]
  exact Real.sqrt_le_sqrt (by nlinarith [sq_nonneg (Real.cos u.re)])

theorem cos_im_le (u : ℂ) : |(Complex.cos u).im| ≤ |Real.sinh u.im| := by
  have e2 : (Complex.cos u).im = -(Real.sin u.re * Real.sinh u.im) := by
    rw [Complex.cos_eq u, ← Complex.ofReal_cos, ← Complex.ofReal_cosh, ← Complex.ofReal_sin, ← Complex.ofReal_sinh,
      ← Complex.ofReal_mul, ← Complex.ofReal_mul, Complex.sub_im, Complex.ofReal_im, Complex.im_ofReal_mul, Complex.I_im, mul_one,
      zero_sub]
  rw [e2, abs_neg, abs_mul]
  exact mul_le_of_le_one_left (abs_nonneg _) (Real.abs_sin_le_one _)

theorem abs_sinh' (x : ℝ) : |Real.sinh x| = Real.sinh |x| := by
  rcases le_total 0 x with h | h
  · rw [abs_of_nonneg h, abs_of_nonneg (Real.sinh_nonneg_iff.2 h)]
  · rw [abs_of_nonpos h, abs_of_nonpos (Real.sinh_nonpos_iff.2 h), Real.sinh_neg]

theorem cheb_lower (N : ℕ) (w : ℂ) : Real.sinh (N * Real.arsinh |w.im|) ≤ ‖(Polynomial.Chebyshev.T ℂ N).eval w‖ := by
  obtain ⟨u, rfl⟩ := Complex.cos_surjective w
  rw [Polynomial.Chebyshev.T_complex_cos]
  refine le_trans ?_ (norm_cos_ge _)
  have him : (((N : ℤ) : ℂ) * u).im = N * u.im := by
    have : (((N : ℤ) : ℂ)) = ((N : ℝ) : ℂ) := by push_cast; rfl
    rw [this, Complex.im_ofReal_mul]
  rw [him, abs_sinh', abs_mul, Nat.abs_cast, Real.sinh_le_sinh]
  refine mul_le_mul_of_nonneg_left ?_ (Nat.cast_nonneg _)
  rw [← Real.sinh_le_sinh, Real.sinh_arsinh, ← abs_sinh']
  exact cos_im_le u

/-! ## The resolvent between the first and a later vector of the chain -/

variable {A : Matrix (Fin n) (Fin n) ℂ} {v0 : CVec n}

theorem krylov_orth (hA : A.IsHermitian) (h0 : innerProd v0 v0 = 1) (N : ℕ) (hb : ∀ i < N, lb A v0 i ≠ 0) (k : ℕ) :
    ∀ i, i + k < N → innerProd (lv A v0 i) ((A ^ k).mulVec (lv A v0 N)) = 0 := by
  induction k with
  | zero =>
    intro i hi
    rw [pow_zero, Matrix.one_mulVec, chain_orthonormal hA h0 N hb i (by omega) N le_rfl, if_neg (by omega)]
  | succ k ih =>
    intro i hi
    rw [pow_succ', ← Matrix.mulVec_mulVec, innerProd_herm A hA]
    cases i with
    | zero =>
      rw [rec_zero, innerProd_add_left, innerProd_smul_left, innerProd_smul_left, ih 0 (by omega), ih 1 (by omega)]
      simp
    | succ i =>
      rw [rec_succ, innerProd_add_left, innerProd_add_left, innerProd_smul_left, innerProd_smul_left, innerProd_smul_left,
        ih i (by omega), ih (i + 1) (by omega), ih (i + 2) (by omega)]
      simp

theorem krylov_poly (hA : A.IsHermitian) (h0 : innerProd v0 v0 = 1) (N : ℕ) (hb : ∀ i < N, lb A v0 i ≠ 0) (p : ℂ[X])
    (hp : p.natDegree < N) : innerProd v0 ((aeval A p).mulVec (lv A v0 N)) = 0 := by
  rw [Polynomial.aeval_eq_sum_range' hp, Matrix.sum_mulVec, innerProd_sum]
  refine Finset.sum_eq_zero fun k hk => ?_
  rw [Matrix.smul_mulVec, innerProd_smul]
  have := krylov_orth hA h0 N hb k 0 (by simpa using hk)
  rw [show innerProd v0 ((A ^ k).mulVec (lv A v0 N)) = 0 from this, mul_zero]

theorem resolvent_fn (hA : A.IsHermitian) (z : ℂ) (hz : 0 < z.im) :
    (z • (1 : Matrix (Fin n) (Fin n) ℂ) - A)⁻¹ = hermFn hA (fun x => 1 / (z - x)) := by
  apply Matrix.inv_eq_right_inv
  have h1 : z • (1 : Matrix (Fin n) (Fin n) ℂ) - A = hermFn hA (fun x => z - x) := by
    rw [hermFn_sub, hermFn_const, hermFn_id]
  have hne : ∀ x : ℝ, z - x ≠ 0 := by
    intro x h
    have := congrArg Complex.im h
    simp at this
    linarith
  rw [h1, ← hermFn_mul]
  have h2 : hermFn hA (fun x => (z - x) * (1 / (z - x))) = hermFn hA (fun _ => 1) :=
    hermFn_congr hA fun i => mul_one_div_cancel (hne _)
  rw [h2, hermFn_const, one_smul]

theorem inv_norm_le (z : ℂ) (hz : 0 < z.im) (x : ℝ) : ‖1 / (z - x)‖ ≤ 1 / z.im := by
  rw [norm_div, norm_one]
  apply one_div_le_one_div_of_le hz
  have := Complex.abs_im_le_norm (z - x)
  rw [Complex.sub_im, Complex.ofReal_im, sub_zero] at this
  exact (le_abs_self _).trans this

/-- The matrix element of the resolvent between the first and the `N`-th vector is exponentially small. -/
theorem resolvent_far (hA : A.IsHermitian) (h0 : innerProd v0 v0 = 1) (z : ℂ) (hz : 0 < z.im) (N : ℕ) (hN : 1 ≤ N)
    (hb : ∀ i < N, lb A v0 i ≠ 0) (M : ℝ) (hM : 0 < M) (hs : ∀ i, |hA.eigenvalues i| ≤ M) :
    ‖innerProd v0 ((z • (1 : Matrix (Fin n) (Fin n) ℂ) - A)⁻¹.mulVec (lv A v0 N))‖ ≤
      1 / (z.im * Real.sinh (N * Real.arsinh (z.im / M))) := by
  set P : ℂ[X] := (Polynomial.Chebyshev.T ℂ N).comp (C ((M : ℂ)⁻¹) * X) with hP
  set T : ℝ := Real.sinh (N * Real.arsinh (z.im / M)) with hT
  have hTpos : 0 < T := by
    rw [hT, Real.sinh_pos_iff]
    have : 0 < Real.arsinh (z.im / M) := Real.arsinh_pos_iff.2 (div_pos hz hM)
    have : (0 : ℝ) < N := by exact_mod_cast hN
    positivity
  have hev : ∀ w : ℂ, P.eval w = (Polynomial.Chebyshev.T ℂ N).eval ((M : ℂ)⁻¹ * w) := by
    intro w
    rw [hP, eval_comp, eval_mul, eval_C, eval_X]
  have hPz : T ≤ ‖P.eval z‖ := by
    rw [hev]
    refine le_trans (le_of_eq ?_) (cheb_lower N _)
    rw [← Complex.ofReal_inv, Complex.im_ofReal_mul, abs_of_pos (mul_pos (inv_pos.2 hM) hz), hT]
    congr 3
    ring
  have hPz0 : P.eval z ≠ 0 := by
    intro h
    rw [h, norm_zero] at hPz
    linarith
  have hdeg : P.natDegree ≤ N := by
    rw [hP]
    refine natDegree_comp_le.trans ?_
    have h1 : (C ((M : ℂ)⁻¹) * X).natDegree ≤ 1 := (natDegree_C_mul_le _ _).trans natDegree_X_le
    have h2 : (Polynomial.Chebyshev.T ℂ N).natDegree ≤ N := by simp
    nlinarith
  set D := P /ₘ (X - C z) with hD
  have hdiv : ∀ x : ℂ, P.eval x = P.eval z + (x - z) * D.eval x := by
    intro x
    have h := congrArg (fun p : ℂ[X] => p.eval x) (Polynomial.modByMonic_add_div P (X - C z))
    simp only [Polynomial.modByMonic_X_sub_C_eq_C_eval, eval_add, eval_C, eval_mul, eval_sub, eval_X] at h
    exact h.symm
  have hDdeg : D.natDegree < N := by
    rw [hD, natDegree_divByMonic _ (monic_X_sub_C z), natDegree_X_sub_C]
    omega
  have hne : ∀ x : ℝ, z - x ≠ 0 := by
    intro x h
    have := congrArg Complex.im h
    simp at this
    linarith
  have key : (z • (1 : Matrix (Fin n) (Fin n) ℂ) - A)⁻¹ =
      hermFn hA (fun x => P.eval (x : ℂ) / (P.eval z) * (1 / (z - x))) + (P.eval z)⁻¹ • aeval A D := by
    rw [resolvent_fn hA z hz, ← hermFn_poly hA, ← hermFn_smul, ← hermFn_add]
    refine hermFn_congr hA fun i => ?_
    have h1 := hne (hA.eigenvalues i)
    have h2 := hdiv (hA.eigenvalues i : ℂ)
    field_simp
    linear_combination -h2
  rw [key, Matrix.add_mulVec, innerProd_add, Matrix.smul_mulVec, innerProd_smul, krylov_poly hA h0 N hb D hDdeg, mul_zero,
    add_zero]
  have hvN : stateNorm (lv A v0 N) = 1 := stateNorm_one (by rw [chain_orthonormal hA h0 N hb N le_rfl N le_rfl, if_pos rfl])
  have hv0 : stateNorm v0 = 1 := stateNorm_one h0
  have hn := hermFn_norm hA (fun x => P.eval (x : ℂ) / (P.eval z) * (1 / (z - x))) (1 / (z.im * T)) (by positivity) (by
    intro i
    rw [norm_mul, norm_div, ← one_div_mul_one_div, mul_comm]
    refine mul_le_mul (inv_norm_le z hz _) ?_ (by positivity) (by positivity)
    have h1 : ‖P.eval (hA.eigenvalues i : ℂ)‖ ≤ 1 := by
      rw [hev, ← Complex.ofReal_inv, ← Complex.ofReal_mul]
      apply cheb_norm_le
      rw [abs_mul, abs_of_pos (inv_pos.2 hM), inv_mul_le_iff₀ hM, mul_one]
      exact hs i
    exact div_le_div₀ zero_le_one h1 hTpos hPz)
  refine (innerProd_norm_le _ _).trans ?_
  rw [hv0, one_mul]
  refine (stateNorm_mulVec _ _).trans ?_
  rw [hvN, mul_one]
  exact hn

theorem herm_norm_le (hA : A.IsHermitian) (M : ℝ) (hM : 0 ≤ M) (hs : ∀ i, |hA.eigenvalues i| ≤ M) : ‖A‖ ≤ M := by
  have := hermFn_norm hA (fun x => (x : ℂ)) M hM (fun i => by rw [Complex.norm_real]; exact hs i)
  rwa [hermFn_id] at this

/-- The continued fraction at depth `N` and the diagonal element of the resolvent. -/
theorem cfrac_error (hA : A.IsHermitian) (h0 : innerProd v0 v0 = 1) (z : ℂ) (hz : 0 < z.im) (N : ℕ) (hN : 1 ≤ N)
    (hb : ∀ i, i + 1 < N → lb A v0 i ≠ 0) (M : ℝ) (hM : 0 < M) (hs : ∀ i, |hA.eigenvalues i| ≤ M) :
    ‖cfrac z (la A v0) (lb A v0) N 0 - innerProd v0 ((z • (1 : Matrix (Fin n) (Fin n) ℂ) - A)⁻¹.mulVec v0)‖ ≤
      M / (z.im ^ 2 * Real.sinh (N * Real.arsinh (z.im / M))) := by
  have hTpos : 0 < Real.sinh (N * Real.arsinh (z.im / M)) := by
    rw [Real.sinh_pos_iff]
    have : 0 < Real.arsinh (z.im / M) := Real.arsinh_pos_iff.2 (div_pos hz hM)
    have : (0 : ℝ) < N := by exact_mod_cast hN
    positivity
  by_cases hl : lb A v0 (N - 1) = 0
  · rw [green_exact hA h0 z hz N hN hb hl, sub_self, norm_zero]
    positivity
  · obtain ⟨K, rfl⟩ : ∃ K, N = K + 1 := ⟨N - 1, by omega⟩
    rw [Nat.add_sub_cancel] at hl
    have hb' : ∀ i < K + 1, lb A v0 i ≠ 0 := by
      intro i hi
      by_cases h : i = K
      · rw [h]; exact hl
      · exact hb i (by omega)
    have ho := chain_orthonormal hA h0 (K + 1) hb'
    have hsum := resolvent_sum (A := A) z hz (la A v0) (lb A v0) (K + 1) (lv A v0) (rec_zero A v0) (fun k _ => rec_succ A v0 k)
      (fun i _ => Complex.conj_eq_iff_im.1 (la_real hA i)) K (by omega)
    rw [xs_last _ _ _ _ hN, mul_zero, zero_smul, add_zero] at hsum
    have hip : ∀ j ≤ K + 1, innerProd (lv A v0 j) (∑ s ∈ Finset.range (K + 1), xs z (la A v0) (lb A v0) (K + 1) s • lv A v0 s) =
        if j < K + 1 then xs z (la A v0) (lb A v0) (K + 1) j else 0 := by
      intro j hj
      rw [innerProd_sum]
      have : ∀ s ∈ Finset.range (K + 1), innerProd (lv A v0 j) (xs z (la A v0) (lb A v0) (K + 1) s • lv A v0 s) =
          if j = s then xs z (la A v0) (lb A v0) (K + 1) s else 0 := by
        intro s hs
        rw [innerProd_smul, ho j hj s (by have := Finset.mem_range.1 hs; omega)]
        split_ifs <;> simp
      rw [Finset.sum_congr rfl this, Finset.sum_ite_eq]
      simp only [Finset.mem_range]
    set x := ∑ s ∈ Finset.range (K + 1), xs z (la A v0) (lb A v0) (K + 1) s • lv A v0 s with hx
    set c := xs z (la A v0) (lb A v0) (K + 1) K with hc
    have h00 : lv A v0 0 = v0 := rfl
    have hgreen : innerProd v0 x = cfrac z (la A v0) (lb A v0) (K + 1) 0 := by
      have := hip 0 (by omega)
      rw [if_pos (by omega), h00] at this
      exact this
    have hxN : innerProd (lv A v0 (K + 1)) x = 0 := by
      have := hip (K + 1) le_rfl
      rwa [if_neg (by omega)] at this
    have hxK : innerProd (lv A v0 K) x = c := by
      have := hip K (by omega)
      rwa [if_pos (by omega)] at this
    -- the size of the solution
    have hxn : stateNorm x ≤ 1 / z.im := by
      have h1 : innerProd x ((z • (1 : Matrix (Fin n) (Fin n) ℂ) - A).mulVec x) = innerProd x v0 := by
        rw [hsum, h00, sub_eq_add_neg, ← neg_smul, innerProd_add, innerProd_smul, ← innerProd_symm (lv A v0 (K + 1)) x, hxN,
          star_zero, mul_zero, add_zero]
      have h2 : (innerProd x ((z • (1 : Matrix (Fin n) (Fin n) ℂ) - A).mulVec x)).im = z.im * stateNorm x ^ 2 := by
        rw [Matrix.sub_mulVec, Matrix.smul_mulVec, Matrix.one_mulVec, sub_eq_add_neg, innerProd_add, innerProd_smul,
          ← neg_one_smul ℂ, innerProd_smul, innerProd_stateNorm]
        have h3 : (innerProd x (A.mulVec x)).im = 0 := by
          apply Complex.conj_eq_iff_im.1
          have := innerProd_symm x (A.mulVec x)
          rw [← innerProd_herm A hA] at this
          exact this
        rw [Complex.add_im, mul_comm z, Complex.im_ofReal_mul, neg_one_mul, Complex.neg_im, h3]
        ring
      have h3 : z.im * stateNorm x ^ 2 ≤ stateNorm x := by
        rw [← h2, h1]
        refine (le_abs_self _).trans ((Complex.abs_im_le_norm _).trans ((innerProd_norm_le _ _).trans ?_))
        rw [stateNorm_one h0, mul_one]
      have h4 : 0 ≤ stateNorm x := norm_nonneg _
      rw [le_div_iff₀ hz]
      rcases h4.eq_or_lt with h | h
      · rw [← h]; norm_num
      · nlinarith
    have hvK : stateNorm (lv A v0 K) = 1 := stateNorm_one (by rw [ho K (by omega) K (by omega), if_pos rfl])
    have hvN : stateNorm (lv A v0 (K + 1)) = 1 := stateNorm_one (by rw [ho (K + 1) le_rfl (K + 1) le_rfl, if_pos rfl])
    have hcn : ‖c‖ ≤ 1 / z.im := by
      rw [← hxK]
      refine (innerProd_norm_le _ _).trans ?_
      rwa [hvK, one_mul]
    have hbn : ‖((lb A v0 K : ℝ) : ℂ)‖ ≤ M := by
      have h1 : innerProd (lv A v0 (K + 1)) (A.mulVec (lv A v0 K)) = (lb A v0 K : ℂ) := by
        cases K with
        | zero =>
          rw [rec_zero, innerProd_add, innerProd_smul, innerProd_smul, ho 1 (by omega) 0 (by omega), ho 1 (by omega) 1 (by omega)]
          simp
        | succ k =>
          rw [rec_succ, innerProd_add, innerProd_add, innerProd_smul, innerProd_smul, innerProd_smul,
            ho (k + 1 + 1) (by omega) k (by omega), ho (k + 1 + 1) (by omega) (k + 1) (by omega),
            ho (k + 1 + 1) (by omega) (k + 2) (by omega), if_neg (by omega), if_neg (by omega), if_pos rfl]
          simp
      rw [← h1]
      refine (innerProd_norm_le _ _).trans ?_
      rw [hvN, one_mul]
      refine (stateNorm_mulVec _ _).trans ?_
      rw [hvK, mul_one]
      exact herm_norm_le hA M hM.le hs
    have hu := (Matrix.isUnit_iff_isUnit_det _).1 (resolvent_unit (A := A) hA z hz)
    have hsol : x = (z • (1 : Matrix (Fin n) (Fin n) ℂ) - A)⁻¹.mulVec v0 -
        ((lb A v0 K : ℂ) * c) • (z • (1 : Matrix (Fin n) (Fin n) ℂ) - A)⁻¹.mulVec (lv A v0 (K + 1)) := by
      rw [h00] at hsum
      rw [← Matrix.mulVec_smul, ← Matrix.mulVec_sub, ← hsum, Matrix.mulVec_mulVec, Matrix.nonsing_inv_mul _ hu,
        Matrix.one_mulVec]
    have hdiff : cfrac z (la A v0) (lb A v0) (K + 1) 0 - innerProd v0 ((z • (1 : Matrix (Fin n) (Fin n) ℂ) - A)⁻¹.mulVec v0) =
        -(((lb A v0 K : ℂ) * c) * innerProd v0 ((z • (1 : Matrix (Fin n) (Fin n) ℂ) - A)⁻¹.mulVec (lv A v0 (K + 1)))) := by
      have := congrArg (innerProd v0) hsol
      rw [hgreen, sub_eq_add_neg, ← neg_smul, innerProd_add, innerProd_smul] at this
      rw [this]
      ring
    have hfar := resolvent_far hA h0 z hz (K + 1) hN hb' M hM hs
    rw [hdiff, norm_neg, norm_mul, norm_mul]
    calc ‖((lb A v0 K : ℝ) : ℂ)‖ * ‖c‖ * _ ≤ M * (1 / z.im) * (1 / (z.im * Real.sinh ((K + 1 : ℕ) * Real.arsinh (z.im / M)))) := by
          refine mul_le_mul (mul_le_mul hbn hcn (norm_nonneg _) hM.le) hfar (norm_nonneg _) (by positivity)
      _ = _ := by
          field_simp

end Verif.Tbpm

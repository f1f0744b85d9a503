import Verif.Spec.Bipartite
import Verif.Proof.Haydock
import Verif.Proof.KernelCheb
import Verif.Proof.TimeLocal

/-! # Electron-hole symmetry of operators -/

namespace Verif.Tbpm

open Matrix

variable {n : ℕ} {A : Matrix (Fin n) (Fin n) ℂ} {c : Fin n → Bool}

/-- Sign of a site. -/
def sgn (c : Fin n → Bool) (i : Fin n) : ℂ := if c i then -1 else 1

theorem sgn_mul (c : Fin n → Bool) (i : Fin n) : sgn c i * sgn c i = 1 := by unfold sgn; split_ifs <;> norm_num

theorem star_sgn (c : Fin n → Bool) (i : Fin n) : star (sgn c i) = sgn c i := by unfold sgn; split_ifs <;> simp

theorem flip_eq (c : Fin n → Bool) (x : CVec n) : flipState c x = (Matrix.diagonal (sgn c)).mulVec x := by
  funext i
  rw [Matrix.mulVec_diagonal]
  unfold flipState sgn
  split_ifs <;> simp

theorem flip_apply (c : Fin n → Bool) (x : CVec n) (i : Fin n) : flipState c x i = sgn c i * x i := by
  unfold flipState sgn
  split_ifs <;> simp

theorem sgn_sq (c : Fin n → Bool) : Matrix.diagonal (sgn c) * Matrix.diagonal (sgn c) = 1 := by
  rw [Matrix.diagonal_mul_diagonal, ← Matrix.diagonal_one]
  congr 1
  funext i
  exact sgn_mul c i

theorem flip_inner (c : Fin n → Bool) (x y : CVec n) : innerProd (flipState c x) (flipState c y) = innerProd x y := by
  unfold innerProd
  refine Finset.sum_congr rfl fun i _ => ?_
  rw [flip_apply, flip_apply, star_mul, star_sgn]
  linear_combination (star (x i) * y i) * sgn_mul c i

theorem flip_anti (h : Bipartite A c) : A * Matrix.diagonal (sgn c) = Matrix.diagonal (sgn c) * -A := by
  ext i j
  rw [Matrix.mul_diagonal, Matrix.diagonal_mul, Matrix.neg_apply]
  by_cases hij : c i = c j
  · rw [h i j hij]; simp
  · have : sgn c j = -sgn c i := by
      unfold sgn
      cases hi : c i <;> cases hj : c j <;> simp_all
    rw [this]; ring

theorem poly_neg_comm (h : Bipartite A c) (p : Polynomial ℂ) :
    Polynomial.aeval A p * Matrix.diagonal (sgn c) = Matrix.diagonal (sgn c) * Polynomial.aeval (-A) p := by
  induction p using Polynomial.induction_on' with
  | add p q hp hq => rw [map_add, map_add, add_mul, mul_add, hp, hq]
  | monomial k a =>
    rw [Polynomial.aeval_monomial, Polynomial.aeval_monomial]
    have hk : A ^ k * Matrix.diagonal (sgn c) = Matrix.diagonal (sgn c) * (-A) ^ k := by
      induction k with
      | zero => simp
      | succ k ih => rw [pow_succ, mul_assoc, flip_anti h, ← mul_assoc, ih, mul_assoc, ← pow_succ]
    rw [mul_assoc, hk, ← mul_assoc, Algebra.commutes, mul_assoc]

theorem chebT_neg (k : ℕ) (M : Matrix (Fin n) (Fin n) ℂ) : chebT k (-M) = (-1 : ℂ) ^ k • chebT k M := by
  induction k using Nat.twoStepInduction with
  | zero => simp [chebT_zero]
  | one => simp [chebT_one]
  | more k h0 h1 =>
    rw [chebT_succ, chebT_succ, h0, h1]
    simp only [pow_succ, smul_sub, mul_neg, neg_mul, mul_one, neg_smul, Matrix.mul_smul, neg_neg]

theorem U_flip {e : Env n} (h : Bipartite e.H c) (fwd : Bool) :
    e.U fwd * Matrix.diagonal (sgn c) = Matrix.diagonal (sgn c) * e.U (!fwd) := by
  rw [U_poly, poly_neg_comm h]
  congr 1
  unfold stepPoly Env.U
  rw [map_add, map_sum, Polynomial.aeval_C, Algebra.algebraMap_eq_smul_one]
  congr 1
  refine Finset.sum_congr rfl fun k _ => ?_
  rw [map_mul, Polynomial.aeval_C, Algebra.algebraMap_eq_smul_one, smul_mul_assoc, one_mul]
  change _ • chebT k (-e.H) = _
  rw [chebT_neg, smul_smul, mul_assoc, mul_assoc, mul_assoc, ← mul_pow]
  cases fwd <;> simp

theorem U_adjoint {e : Env n} (hH : e.H.IsHermitian) (fwd : Bool) : (e.U fwd)ᴴ = e.U (!fwd) := by
  unfold Env.U
  rw [Matrix.conjTranspose_add, Matrix.conjTranspose_sum, Matrix.conjTranspose_smul, Matrix.conjTranspose_one]
  congr 1
  · congr 1; exact Complex.conj_ofReal _
  · refine Finset.sum_congr rfl fun k _ => ?_
    rw [Matrix.conjTranspose_smul, (chebT_hermitian hH k).eq]
    congr 1
    cases fwd <;> simp

theorem U_pow_flip {e : Env n} (h : Bipartite e.H c) (fwd : Bool) (t : ℕ) :
    e.U fwd ^ t * Matrix.diagonal (sgn c) = Matrix.diagonal (sgn c) * e.U (!fwd) ^ t := by
  induction t with
  | zero => simp
  | succ t ih => rw [pow_succ, mul_assoc, U_flip h, ← mul_assoc, ih, mul_assoc, ← pow_succ]

theorem inner_adj (M : Matrix (Fin n) (Fin n) ℂ) (x y : CVec n) : innerProd x (M.mulVec y) = innerProd (Mᴴ.mulVec x) y := by
  simp only [innerProd, mulVec, dotProduct, star_sum, star_mul, Finset.mul_sum, Finset.sum_mul, Matrix.conjTranspose_apply, star_star]
  rw [Finset.sum_comm]
  exact Finset.sum_congr rfl fun i _ => Finset.sum_congr rfl fun j _ => by ring

/-- The correlation function of the reversed state is the conjugate one. -/
theorem corr_flip {e : Env n} (h : Bipartite e.H c) (hH : e.H.IsHermitian) (x : CVec n) (t : ℕ) :
    innerProd (flipState c x) ((e.U true ^ t).mulVec (flipState c x)) = star (innerProd x ((e.U true ^ t).mulVec x)) := by
  rw [flip_eq, Matrix.mulVec_mulVec, U_pow_flip h, ← Matrix.mulVec_mulVec, ← flip_eq, ← flip_eq, flip_inner, inner_adj,
    Matrix.conjTranspose_pow, U_adjoint hH, innerProd_symm]
  simp

theorem U_comm (e : Env n) (t : ℕ) : e.U true ^ t * e.U false ^ t = e.U false ^ t * e.U true ^ t := by
  rw [U_pow_poly, U_pow_poly, ← map_mul, ← map_mul, mul_comm]

/-- The norms of the propagated states agree. -/
theorem norm_flip {e : Env n} (h : Bipartite e.H c) (hH : e.H.IsHermitian) (x : CVec n) (t : ℕ) :
    innerProd ((e.U true ^ t).mulVec (flipState c x)) ((e.U true ^ t).mulVec (flipState c x)) =
      innerProd ((e.U true ^ t).mulVec x) ((e.U true ^ t).mulVec x) := by
  rw [flip_eq, Matrix.mulVec_mulVec, U_pow_flip h, ← Matrix.mulVec_mulVec, ← flip_eq, flip_inner, inner_adj, inner_adj _ _ x,
    Matrix.conjTranspose_pow, Matrix.conjTranspose_pow, U_adjoint hH, U_adjoint hH, Matrix.mulVec_mulVec, Matrix.mulVec_mulVec]
  simp [U_comm]

theorem flip_ldos (c : Fin n → Bool) (sites : List (Fin n)) (x : CVec n) :
    ldosState sites (flipState c x) = flipState c (ldosState sites x) := by
  have h1 : sites.foldl (fun w i => Function.update w i (flipState c x i)) (0 : CVec n) =
      flipState c (sites.foldl (fun w i => Function.update w i (x i)) (0 : CVec n)) := by
    funext i
    rw [ldosFold, flip_apply, flip_apply, ldosFold]
    split_ifs <;> simp
  unfold ldosState
  simp only [h1, flip_inner]
  funext i
  rw [flip_apply, flip_apply, mul_div_assoc]

/-! ## Recursion -/

theorem flip_linear (c : Fin n → Bool) (a b : ℂ) (x y z : CVec n) :
    flipState c (x - a • y - b • z) = flipState c x - a • flipState c y - b • flipState c z := by
  simp only [flip_eq, Matrix.mulVec_sub, Matrix.mulVec_smul]

theorem flip_smul (c : Fin n → Bool) (a : ℂ) (x : CVec n) : flipState c (a • x) = a • flipState c x := by
  simp only [flip_eq, Matrix.mulVec_smul]

theorem flip_mulVec (h : Bipartite A c) (x : CVec n) : A.mulVec (flipState c x) = -flipState c (A.mulVec x) := by
  rw [flip_eq, flip_eq, Matrix.mulVec_mulVec, flip_anti h, ← Matrix.mulVec_mulVec, Matrix.neg_mulVec, Matrix.mulVec_neg]

theorem sign_sq (k : ℕ) : ((-1 : ℂ) ^ k) * (-1) ^ k = 1 := by rw [← mul_pow]; norm_num

theorem sign_star (k : ℕ) : star ((-1 : ℂ) ^ k) = (-1) ^ k := by simp

theorem inner_sign (σ : ℂ) (h1 : σ * σ = 1) (h2 : star σ = σ) (x y : CVec n) : innerProd (σ • x) (σ • y) = innerProd x y := by
  rw [innerProd_smul, innerProd_smul_left, h2, ← mul_assoc, h1, one_mul]

theorem lanc_flip (h : Bipartite A c) (v : CVec n) (k : ℕ) :
    lanc A (flipState c v) k = ((-1 : ℂ) ^ (k + 1) • flipState c (lanc A v k).1, (lanc A v k).2.1,
      (-1 : ℂ) ^ k • flipState c (lanc A v k).2.2) := by
  induction k with
  | zero =>
    simp only [lanc, pow_zero, one_smul]
    congr 1
    funext i
    simp [flip_apply]
  | succ k ih =>
    simp only [lanc]
    rw [ih]
    simp only
    generalize (lanc A v k).1 = p
    generalize (lanc A v k).2.1 = b
    generalize (lanc A v k).2.2 = x
    have e1 : A.mulVec ((-1 : ℂ) ^ k • flipState c x) = (-1 : ℂ) ^ (k + 1) • flipState c (A.mulVec x) := by
      rw [Matrix.mulVec_smul, flip_mulVec h, pow_succ, smul_neg, mul_neg, mul_one, neg_smul]
    have e2 : innerProd ((-1 : ℂ) ^ k • flipState c x) (A.mulVec ((-1 : ℂ) ^ k • flipState c x)) = -innerProd x (A.mulVec x) := by
      rw [e1, pow_succ, mul_neg, mul_one, neg_smul, ← smul_neg, inner_sign _ (sign_sq k) (sign_star k)]
      have : -flipState c (A.mulVec x) = flipState c (-A.mulVec x) := by
        funext i
        simp [flip_apply]
      rw [this, flip_inner]
      simp [innerProd]
    have e3 : A.mulVec ((-1 : ℂ) ^ k • flipState c x) -
        innerProd ((-1 : ℂ) ^ k • flipState c x) (A.mulVec ((-1 : ℂ) ^ k • flipState c x)) • (-1 : ℂ) ^ k • flipState c x -
        (b : ℂ) • (-1 : ℂ) ^ (k + 1) • flipState c p =
        (-1 : ℂ) ^ (k + 1) • flipState c (A.mulVec x - innerProd x (A.mulVec x) • x - (b : ℂ) • p) := by
      rw [e2, e1, flip_linear]
      funext i
      simp only [Pi.sub_apply, Pi.smul_apply, smul_eq_mul]
      ring
    rw [e3]
    generalize A.mulVec x - innerProd x (A.mulVec x) • x - (b : ℂ) • p = w
    have e4 : normZ ((-1 : ℂ) ^ (k + 1) • flipState c w) = normZ w := by
      unfold normZ
      rw [inner_sign _ (sign_sq _) (sign_star _), flip_inner]
    rw [e4, flip_smul]
    refine Prod.ext ?_ (Prod.ext rfl ?_)
    · simp only [pow_succ]
      congr 1
      ring
    · simp only
      rw [smul_comm]

/-- The diagonal coefficients of the reversed state change their sign. -/
theorem la_flip (h : Bipartite A c) (v : CVec n) (k : ℕ) : la A (flipState c v) k = -la A v k := by
  unfold la lv
  rw [lanc_flip h]
  simp only
  rw [Matrix.mulVec_smul, inner_sign _ (sign_sq k) (sign_star k), flip_mulVec h]
  have : -flipState c (A.mulVec (lanc A v k).2.2) = flipState c (-A.mulVec (lanc A v k).2.2) := by
    funext i
    simp [flip_apply]
  rw [this, flip_inner]
  simp [innerProd]

theorem lb_flip (h : Bipartite A c) (v : CVec n) (k : ℕ) : lb A (flipState c v) k = lb A v k := by
  unfold lb
  rw [lanc_flip h]

theorem cfrac_flip (e d : ℝ) (a : ℕ → ℂ) (ha : ∀ i, (a i).im = 0) (b : ℕ → ℝ) (m s : ℕ) :
    cfrac ⟨-e, d⟩ (fun i => -a i) b m s = -star (cfrac ⟨e, d⟩ a b m s) := by
  induction m generalizing s with
  | zero => simp [cfrac]
  | succ m ih =>
    simp only [cfrac]
    rw [ih, star_div₀, star_one, ← neg_div, neg_div, ← div_neg]
    congr 1
    have h1 : (⟨-e, d⟩ : ℂ) = -star (⟨e, d⟩ : ℂ) := by apply Complex.ext <;> simp
    have h2 : star (a s) = a s := by apply Complex.ext <;> simp [ha s]
    have h3 : star (b s : ℂ) = b s := Complex.conj_ofReal _
    rw [h1, star_sub, star_sub, star_mul', star_pow, h2, h3]
    ring

theorem flip_site (c : Fin n → Bool) (sites : List (Fin n)) (x : ℕ → ℂ) (l : List ℕ) (w : CVec n) :
    (l.zip sites).foldl (fun w p => Function.update w p.2 (sgn c p.2 * x p.1)) (flipState c w) =
      flipState c ((l.zip sites).foldl (fun w p => Function.update w p.2 (x p.1)) w) := by
  induction l.zip sites generalizing w with
  | nil => rfl
  | cons p l ih =>
    rw [List.foldl_cons, List.foldl_cons, ← ih]
    congr 1
    funext i
    rw [flip_apply]
    by_cases hi : i = p.2
    · subst hi; simp
    · simp [hi, flip_apply]

end Verif.Tbpm

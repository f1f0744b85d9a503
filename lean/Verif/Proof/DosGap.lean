import Verif.Spec.Analysis
import Verif.Proof.Evolution
import Verif.Spec.DosGap
import Mathlib.Analysis.SpecialFunctions.Trigonometric.Bounds
import Mathlib.Algebra.Order.Field.GeomSum

/-! # The kernel of the density of states from the correlation function -/

namespace Verif.Analysis

open Verif.Tbpm Matrix
open scoped Matrix.Norms.L2Operator

/-! ## The Hanning kernel -/

theorem ioc_split (f : ℤ → ℂ) (m : ℕ) : ∑ t ∈ Finset.Ioc (-((m + 1 : ℕ) : ℤ)) ((m + 1 : ℕ) : ℤ), f t =
    f 0 + ∑ i ∈ Finset.range (m + 1), f (i + 1) + ∑ i ∈ Finset.range m, f (-(i + 1)) := by
  induction m with
  | zero =>
    have : Finset.Ioc (-((0 + 1 : ℕ) : ℤ)) ((0 + 1 : ℕ) : ℤ) = {0, 1} := by decide
    rw [this, Finset.sum_pair (by norm_num)]
    simp
  | succ m ih =>
    have h1 : Finset.Ioc (-((m + 1 + 1 : ℕ) : ℤ)) ((m + 1 + 1 : ℕ) : ℤ) =
        insert (-((m : ℤ) + 1)) (insert ((m : ℤ) + 1 + 1) (Finset.Ioc (-((m + 1 : ℕ) : ℤ)) ((m + 1 : ℕ) : ℤ))) := by
      ext t
      simp only [Finset.mem_Ioc, Finset.mem_insert]
      push_cast
      omega
    rw [h1, Finset.sum_insert, Finset.sum_insert, ih,
      Finset.sum_range_succ (fun i : ℕ => f ((i : ℤ) + 1)) (m + 1), Finset.sum_range_succ (fun i : ℕ => f (-((i : ℤ) + 1))) m]
    · push_cast
      ring
    · simp only [Finset.mem_Ioc]
      push_cast
      omega
    · simp only [Finset.mem_Ioc, Finset.mem_insert]
      push_cast
      omega

theorem abel_sum (h : ℕ → ℂ) (q : ℂ) (T : ℕ) : (1 - q) * ∑ i ∈ Finset.range T, h i * q ^ i =
    h 0 - h T * q ^ T + ∑ i ∈ Finset.range T, (h (i + 1) - h i) * q ^ (i + 1) := by
  induction T with
  | zero => simp
  | succ T ih =>
    rw [Finset.sum_range_succ, mul_add, ih, Finset.sum_range_succ]
    ring

/-- The window as a function of a real index difference. -/
theorem hanning_second (T i : ℕ) : windowHanning (i + 2) T - 2 * windowHanning (i + 1) T + windowHanning i T =
    -((1 - Real.cos (Real.pi / T)) * Real.cos (Real.pi * (i + 1) / T)) := by
  unfold windowHanning
  push_cast
  have e1 : Real.pi * ((i : ℝ) + 2) / T = Real.pi * (i + 1) / T + Real.pi / T := by ring
  have e2 : Real.pi * (i : ℝ) / T = Real.pi * (i + 1) / T - Real.pi / T := by ring
  rw [e1, e2, Real.cos_add, Real.cos_sub]
  ring

theorem hanning_zero (T : ℕ) : windowHanning 0 T = 1 := by
  unfold windowHanning
  norm_num

theorem hanning_one (T : ℕ) : windowHanning 1 T - 1 = -(1 - Real.cos (Real.pi / T)) / 2 := by
  unfold windowHanning
  push_cast
  rw [mul_one]
  ring

theorem hanning_last (T : ℕ) (hT : 0 < T) : windowHanning T T = 0 := by
  unfold windowHanning
  have : (T : ℝ) ≠ 0 := by exact_mod_cast hT.ne'
  rw [mul_div_assoc, div_self this, mul_one, Real.cos_pi]
  norm_num

theorem hanning_beyond (T : ℕ) (hT : 0 < T) : windowHanning (T + 1) T = (1 - Real.cos (Real.pi / T)) / 2 := by
  unfold windowHanning
  have : (T : ℝ) ≠ 0 := by exact_mod_cast hT.ne'
  have e : Real.pi * ((T + 1 : ℕ) : ℝ) / T = Real.pi / T + Real.pi := by
    push_cast
    field_simp
    ring
  rw [e, Real.cos_add_pi]
  ring

theorem hanning_before (T : ℕ) : windowHanning T (T + 1) = (1 - Real.cos (Real.pi / (T + 1 : ℕ))) / 2 := by
  unfold windowHanning
  have : ((T + 1 : ℕ) : ℝ) ≠ 0 := by positivity
  have e : Real.pi * (T : ℝ) / (T + 1 : ℕ) = Real.pi - Real.pi / (T + 1 : ℕ) := by
    field_simp
    push_cast
    ring
  rw [e, Real.cos_pi_sub]
  ring

theorem hanning_nonneg (i T : ℕ) : 0 ≤ windowHanning i T := by
  unfold windowHanning
  have := Real.neg_one_le_cos (Real.pi * i / T)
  norm_num
  linarith

theorem hanning_le_one (i T : ℕ) : windowHanning i T ≤ 1 := by
  unfold windowHanning
  have := Real.cos_le_one (Real.pi * i / T)
  norm_num
  linarith

/-- The kernel: the windowed sum of the phases. -/
noncomputable def dosKernel (T : ℕ) (th : ℝ) : ℂ :=
  ∑ t ∈ Finset.Ioc (-(T : ℤ)) T, (dosWeight windowHanning T t : ℂ) * Complex.exp (Complex.I * (th * t))

theorem kappa_le (T : ℕ) : 1 - Real.cos (Real.pi / T) ≤ Real.pi ^ 2 / (2 * T ^ 2) := by
  have := Real.one_sub_sq_div_two_le_cos (x := Real.pi / T)
  have e : Real.pi ^ 2 / (2 * (T : ℝ) ^ 2) = (Real.pi / T) ^ 2 / 2 := by rw [div_pow]; ring
  rw [e]
  linarith

theorem kernel_bound (m : ℕ) (th : ℝ) (hs : Real.sin (th / 2) ≠ 0) :
    ‖dosKernel (m + 1) th‖ ≤ 3 * Real.pi ^ 2 / (4 * (m + 1 : ℕ) * Real.sin (th / 2) ^ 2) := by
  set T := m + 1 with hT
  set q := Complex.exp (Complex.I * th) with hq
  set k := 1 - Real.cos (Real.pi / T) with hk
  have hk0 : 0 ≤ k := by have := Real.cos_le_one (Real.pi / T); rw [hk]; linarith
  have hqn : ‖q‖ = 1 := by rw [hq, mul_comm]; exact Complex.norm_exp_ofReal_mul_I th
  have hq0 : q ≠ 0 := Complex.exp_ne_zero _
  have hsq : star q = q⁻¹ := by
    rw [Complex.star_def, Complex.inv_def, Complex.normSq_eq_norm_sq, hqn]
    simp
  have hnorm : ‖1 - q‖ ^ 2 = 4 * Real.sin (th / 2) ^ 2 := by
    rw [norm_sub_rev, hq, Complex.norm_exp_I_mul_ofReal_sub_one, norm_mul, Real.norm_eq_abs, Real.norm_eq_abs, mul_pow, sq_abs, sq_abs]
    norm_num
  have hq1 : 1 - q ≠ 0 := by
    intro h
    rw [h, norm_zero] at hnorm
    have : 0 < Real.sin (th / 2) ^ 2 := by positivity
    nlinarith
  have hq1' : q - 1 ≠ 0 := by
    intro h
    exact hq1 (by linear_combination -h)
  set h : ℕ → ℂ := fun i => (windowHanning i T : ℂ) with hh
  set F := ∑ i ∈ Finset.range T, h i * q ^ i with hF
  set d : ℕ → ℂ := fun i => h (i + 1) - h i with hd
  set G := ∑ i ∈ Finset.range T, d i * q ^ i with hG
  have hpow : ∀ t : ℤ, Complex.exp (Complex.I * (th * t)) = q ^ t := by
    intro t
    rw [hq, ← Complex.exp_int_mul]
    congr 1
    ring
  have hTpos : 0 < T := by omega
  -- the sum in closed form
  have hsum : dosKernel T th = 1 + q * F + star (q * F) - (k / 2 : ℝ) * (q ^ T)⁻¹ := by
    unfold dosKernel
    rw [hT, ioc_split]
    have e0 : (dosWeight windowHanning (m + 1) 0 : ℂ) * Complex.exp (Complex.I * (th * ((0 : ℤ) : ℂ))) = 1 := by simp [dosWeight]
    have e1 : ∑ i ∈ Finset.range (m + 1), (dosWeight windowHanning (m + 1) ((i : ℤ) + 1) : ℂ) *
        Complex.exp (Complex.I * (th * (((i : ℤ) + 1 : ℤ) : ℂ))) = q * F := by
      rw [hF, Finset.mul_sum]
      refine Finset.sum_congr rfl fun i _ => ?_
      rw [hpow]
      have : dosWeight windowHanning (m + 1) ((i : ℤ) + 1) = windowHanning i T := by
        unfold dosWeight
        rw [if_neg (by omega), show ((i : ℤ) + 1).natAbs - 1 = i by omega]
      rw [this, hh, show ((i : ℤ) + 1) = ((i + 1 : ℕ) : ℤ) by push_cast; ring, zpow_natCast]
      ring
    have e2 : ∑ i ∈ Finset.range m, (dosWeight windowHanning (m + 1) (-((i : ℤ) + 1)) : ℂ) *
        Complex.exp (Complex.I * (th * ((-((i : ℤ) + 1) : ℤ) : ℂ))) = star (q * F) - (k / 2 : ℝ) * (q ^ T)⁻¹ := by
      have hterm : ∀ i : ℕ, (dosWeight windowHanning (m + 1) (-((i : ℤ) + 1)) : ℂ) *
          Complex.exp (Complex.I * (th * ((-((i : ℤ) + 1) : ℤ) : ℂ))) = h i * (q ^ (i + 1))⁻¹ := by
        intro i
        rw [hpow]
        have : dosWeight windowHanning (m + 1) (-((i : ℤ) + 1)) = windowHanning i T := by
          unfold dosWeight
          rw [if_neg (by omega), show (-((i : ℤ) + 1)).natAbs - 1 = i by omega]
        rw [this, hh, show (-((i : ℤ) + 1)) = -((i + 1 : ℕ) : ℤ) by push_cast; ring, _root_.zpow_neg, zpow_natCast]
      have hstar : star (q * F) = ∑ i ∈ Finset.range T, h i * (q ^ (i + 1))⁻¹ := by
        rw [hF, Finset.mul_sum, star_sum]
        refine Finset.sum_congr rfl fun i _ => ?_
        rw [star_mul, star_mul, star_pow, hsq, hh]
        rw [Complex.star_def, Complex.conj_ofReal, pow_succ, mul_inv, inv_pow]
        ring
      rw [hstar, hT, Finset.sum_range_succ, Finset.sum_congr rfl fun i _ => hterm i]
      have : h m = ((k / 2 : ℝ) : ℂ) := by
        rw [hh, hk]
        exact congrArg _ (hanning_before m)
      rw [this]
      ring
    push_cast at e0 e1 e2 ⊢
    rw [e0, e1, e2]
    ring
  have hF1 : (1 - q) * F = 1 + q * G := by
    rw [hF, abel_sum]
    have h0 : h 0 = 1 := by simp [hh, hanning_zero]
    have h1 : h T = 0 := by simp [hh, hanning_last T hTpos]
    rw [h0, h1, hG, Finset.mul_sum]
    simp only [zero_mul, sub_zero]
    congr 1
    refine Finset.sum_congr rfl fun i _ => ?_
    rw [hd]
    ring
  have hGn : ‖(1 - q) * G‖ ≤ (T + 1) * k := by
    rw [hG, abel_sum]
    have hd0 : ‖d 0‖ = k / 2 := by
      have : d 0 = ((-k / 2 : ℝ) : ℂ) := by
        rw [hd, hk, ← hanning_one]
        simp [hh, hanning_zero]
      rw [this, Complex.norm_real, Real.norm_eq_abs, neg_div, abs_neg, abs_of_nonneg (by positivity)]
    have hdT : ‖d T * q ^ T‖ = k / 2 := by
      have : d T = ((k / 2 : ℝ) : ℂ) := by
        rw [hd, hk, ← hanning_beyond T hTpos]
        simp [hh, hanning_last T hTpos]
      rw [this, norm_mul, norm_pow, hqn, one_pow, mul_one, Complex.norm_real, Real.norm_eq_abs, abs_of_nonneg (by positivity)]
    have hdd : ∀ i, ‖(d (i + 1) - d i) * q ^ (i + 1)‖ ≤ k := by
      intro i
      have : d (i + 1) - d i = ((-(k * Real.cos (Real.pi * (i + 1) / T)) : ℝ) : ℂ) := by
        rw [hk, ← hanning_second, hd, hh]
        push_cast
        ring
      rw [this, norm_mul, norm_pow, hqn, one_pow, mul_one, Complex.norm_real, Real.norm_eq_abs, abs_neg, abs_mul, abs_of_nonneg hk0]
      exact mul_le_of_le_one_right hk0 (Real.abs_cos_le_one _)
    refine (norm_add_le _ _).trans ?_
    have a1 := norm_sub_le (d 0) (d T * q ^ T)
    have a2 := (norm_sum_le (Finset.range T) fun i => (d (i + 1) - d i) * q ^ (i + 1)).trans (Finset.sum_le_sum fun i _ => hdd i)
    rw [Finset.sum_const, Finset.card_range, nsmul_eq_mul] at a2
    rw [hd0, hdT] at a1
    linarith
  have hn0 : 0 < ‖1 - q‖ := norm_pos_iff.2 hq1
  have hreal : 1 + q * F + star (q * F) = q * (q * G) / (1 - q) + star (q * (q * G) / (1 - q)) := by
    have hqF : q * F = q / (1 - q) + q * (q * G) / (1 - q) := by
      field_simp
      linear_combination hF1
    have hst : star (q / (1 - q)) = -1 - q / (1 - q) := by
      rw [star_div₀, star_sub, star_one, hsq]
      have : 1 - q⁻¹ ≠ 0 := by
        intro h0
        apply hq1'
        have e : q * (1 - q⁻¹) = q - 1 := by field_simp
        rw [← e, h0, mul_zero]
      field_simp
      ring
    rw [hqF, star_add, hst]
    ring
  have hX : ‖q * (q * G) / (1 - q)‖ ≤ (T + 1) * k / ‖1 - q‖ ^ 2 := by
    rw [norm_div, norm_mul, norm_mul, hqn, one_mul, one_mul]
    rw [norm_mul] at hGn
    rw [le_div_iff₀ (by positivity)]
    calc ‖G‖ / ‖1 - q‖ * ‖1 - q‖ ^ 2 = ‖1 - q‖ * ‖G‖ := by field_simp
      _ ≤ _ := hGn
  have hK : ‖dosKernel T th‖ ≤ 2 * ((T + 1) * k / ‖1 - q‖ ^ 2) + k / 2 := by
    rw [hsum, hreal]
    refine (norm_sub_le _ _).trans (add_le_add ((norm_add_le _ _).trans ?_) ?_)
    · rw [norm_star]
      linarith
    · rw [norm_mul, norm_inv, norm_pow, hqn, one_pow, inv_one, mul_one, Complex.norm_real, Real.norm_eq_abs,
        abs_of_nonneg (by positivity)]
  have hsin : Real.sin (th / 2) ^ 2 ≤ 1 := Real.sin_sq_le_one _
  have hsin0 : 0 < Real.sin (th / 2) ^ 2 := by positivity
  have hT' : (1 : ℝ) ≤ T := by exact_mod_cast hTpos
  have hkT : k * T ^ 2 ≤ Real.pi ^ 2 / 2 := by
    have := kappa_le T
    rw [← hk, le_div_iff₀ (by positivity)] at this
    linarith
  refine hK.trans ?_
  rw [hnorm, le_div_iff₀ (by positivity)]
  have e : (2 * ((T + 1) * k / (4 * Real.sin (th / 2) ^ 2)) + k / 2) * (4 * T * Real.sin (th / 2) ^ 2) =
      2 * T * (T + 1) * k + 2 * k * T * Real.sin (th / 2) ^ 2 := by
    field_simp
    ring
  rw [e]
  have e2 : 2 * k * T * Real.sin (th / 2) ^ 2 ≤ 2 * k * T := mul_le_of_le_one_right (by positivity) hsin
  have e3 : k * T ≤ k * T ^ 2 := by nlinarith [mul_nonneg hk0 (by linarith : (0 : ℝ) ≤ T)]
  nlinarith

/-! ## Correlation functions of states -/

variable {n : ℕ}

/-- The exact correlation function of a state. -/
noncomputable def stateCorr (H : Matrix (Fin n) (Fin n) ℂ) (tau : ℝ) (psi : CVec n) (t : ℕ) : ℂ :=
  innerProd psi (evolved H (t * tau) psi)

theorem stateCorr_at {H : Matrix (Fin n) (Fin n) ℂ} (hH : H.IsHermitian) (tau : ℝ) (psi : CVec n) (t : ℤ) :
    atTime (stateCorr H tau psi) t = innerProd psi ((hermFn hH fun x => Complex.exp (-(Complex.I * (t * tau)) * x)).mulVec psi) := by
  unfold atTime
  have hpos : ∀ s : ℕ, stateCorr H tau psi s =
      innerProd psi ((hermFn hH fun x => Complex.exp (-(Complex.I * (s * tau)) * x)).mulVec psi) := by
    intro s
    unfold stateCorr evolved
    rw [hermFn_exp hH]
    push_cast
    rfl
  split_ifs with h
  · rw [hpos]
    obtain ⟨s, rfl⟩ := Int.eq_ofNat_of_zero_le h
    simp
  · have hst : ∀ M : Matrix (Fin n) (Fin n) ℂ, star (innerProd psi (M.mulVec psi)) = innerProd psi (Mᴴ.mulVec psi) := by
      intro M
      rw [innerProd_symm]
      have hd : ∀ a b : CVec n, innerProd a b = star a ⬝ᵥ b := fun a b => rfl
      rw [hd, hd, Matrix.star_mulVec, Matrix.dotProduct_mulVec]
    rw [hpos, hst, hermFn_star]
    congr 2
    apply hermFn_congr hH
    intro i
    obtain ⟨s, rfl⟩ : ∃ s : ℕ, t = -(s : ℤ) := ⟨t.natAbs, by omega⟩
    rw [Complex.star_def, ← Complex.exp_conj]
    congr 1
    simp

theorem innerProd_isum (x : CVec n) (s : Finset ℤ) (f : ℤ → CVec n) :
    innerProd x (∑ k ∈ s, f k) = ∑ k ∈ s, innerProd x (f k) := by
  induction s using Finset.induction_on with
  | empty => simp [innerProd_zero]
  | insert a s ha ih => rw [Finset.sum_insert ha, Finset.sum_insert ha, innerProd_add, ih]

/-- The expectation value of a function of a Hermitian matrix is bounded by its values at the eigenvalues of which the state has a
component. -/
theorem herm_expect {H : Matrix (Fin n) (Fin n) ℂ} (hH : H.IsHermitian) (f : ℝ → ℂ) (B : ℝ) (psi : CVec n) (hpsi : innerProd psi psi = 1)
    (hf : ∀ i, innerProd (hH.eigenvectorBasis i) psi ≠ 0 → ‖f (hH.eigenvalues i)‖ ≤ B) :
    ‖innerProd psi ((hermFn hH f).mulVec psi)‖ ≤ B := by
  set U : Matrix (Fin n) (Fin n) ℂ := (hH.eigenvectorUnitary).1 with hU
  set a : CVec n := (star U).mulVec psi with ha
  have hai : ∀ i, a i = innerProd (hH.eigenvectorBasis i) psi := fun i => rfl
  have hD : ∀ D : Matrix (Fin n) (Fin n) ℂ, innerProd psi ((U * D * star U).mulVec psi) = star a ⬝ᵥ D.mulVec a := by
    intro D
    show star psi ⬝ᵥ _ = _
    rw [ha, Matrix.star_mulVec, ← Matrix.mulVec_mulVec, ← Matrix.mulVec_mulVec, Matrix.dotProduct_mulVec, star_eq_conjTranspose,
      conjTranspose_conjTranspose]
  have hone : ∑ i, ‖a i‖ ^ 2 = 1 := by
    have h1 := hD 1
    rw [mul_one, hU, Unitary.mul_star_self_of_mem (hH.eigenvectorUnitary).2, Matrix.one_mulVec, Matrix.one_mulVec, hpsi] at h1
    have h2 : (1 : ℂ) = ((∑ i, ‖a i‖ ^ 2 : ℝ) : ℂ) := by
      rw [h1]
      push_cast
      refine Finset.sum_congr rfl fun i _ => ?_
      rw [Pi.star_apply, Complex.star_def, Complex.conj_mul']
    exact_mod_cast h2.symm
  unfold hermFn
  rw [Unitary.conjStarAlgAut_apply, ← hU, hD]
  calc ‖star a ⬝ᵥ (diagonal fun i => f (hH.eigenvalues i)).mulVec a‖ = ‖∑ i, f (hH.eigenvalues i) * ((‖a i‖ ^ 2 : ℝ) : ℂ)‖ := by
        congr 1
        refine Finset.sum_congr rfl fun i _ => ?_
        rw [Matrix.mulVec_diagonal, Pi.star_apply, Complex.star_def, Complex.ofReal_pow, ← Complex.conj_mul']
        ring
    _ ≤ ∑ i, B * ‖a i‖ ^ 2 := by
        refine (norm_sum_le _ _).trans (Finset.sum_le_sum fun i _ => ?_)
        rw [norm_mul, Complex.norm_real, Real.norm_eq_abs, abs_of_nonneg (by positivity)]
        by_cases h0 : a i = 0
        · rw [h0]; simp
        · exact mul_le_mul_of_nonneg_right (hf i (by rwa [← hai])) (by positivity)
    _ = B := by rw [← Finset.mul_sum, hone, mul_one]

theorem state_spectrum {H : Matrix (Fin n) (Fin n) ℂ} (hH : H.IsHermitian) (T : ℕ) (tau en B : ℝ) (psi : CVec n)
    (hK : ∀ i, innerProd (hH.eigenvectorBasis i) psi ≠ 0 → ‖dosKernel T ((en - hH.eigenvalues i) * tau)‖ ≤ B)
    (hpsi : innerProd psi psi = 1) :
    ‖∑ t ∈ Finset.Ioc (-(T : ℤ)) T, (dosWeight windowHanning T t : ℂ) * atTime (stateCorr H tau psi) t *
      Complex.exp (Complex.I * en * t * tau)‖ ≤ B := by
  have key : ∑ t ∈ Finset.Ioc (-(T : ℤ)) T, (dosWeight windowHanning T t : ℂ) * atTime (stateCorr H tau psi) t *
      Complex.exp (Complex.I * en * t * tau) = innerProd psi ((hermFn hH fun x => dosKernel T ((en - x) * tau)).mulVec psi) := by
    unfold dosKernel
    rw [hermFn_sum, Matrix.sum_mulVec, innerProd_isum]
    refine Finset.sum_congr rfl fun t _ => ?_
    rw [stateCorr_at hH, hermFn_smul, Matrix.smul_mulVec, innerProd_smul, mul_assoc, mul_comm (innerProd _ _), ← innerProd_smul,
      ← Matrix.smul_mulVec, ← hermFn_smul]
    congr 3
    apply hermFn_congr hH
    intro i
    rw [← Complex.exp_add]
    congr 1
    push_cast
    ring
  rw [key]
  exact herm_expect hH (fun x => dosKernel T ((en - x) * tau)) B psi hpsi hK

theorem atTime_mean (N : ℕ) (seed : ℤ) (f : ℤ → ℕ → ℂ) (t : ℤ) :
    atTime (fun k => meanSamples ℂ N seed fun s => f s k) t = meanSamples ℂ N seed fun s => atTime (f s) t := by
  unfold atTime meanSamples
  split_ifs
  · rfl
  · rw [star_smul, star_sum, star_inv₀, star_natCast]

theorem mean_spectrum {H : Matrix (Fin n) (Fin n) ℂ} (hH : H.IsHermitian) (T : ℕ) (tau en B : ℝ) (hB : 0 ≤ B)
    (N : ℕ) (seed : ℤ) (rnd : ℤ → CVec n)
    (hK : ∀ s i, innerProd (hH.eigenvectorBasis i) (rnd s) ≠ 0 → ‖dosKernel T ((en - hH.eigenvalues i) * tau)‖ ≤ B)
    (hrnd : ∀ s, innerProd (rnd s) (rnd s) = 1) :
    spectrum windowHanning T tau (fun k => meanSamples ℂ N seed fun s => stateCorr H tau (rnd s) k) en ≤ B := by
  unfold spectrum
  simp only [atTime_mean]
  have : ∑ t ∈ Finset.Ioc (-(T : ℤ)) T, (dosWeight windowHanning T t : ℂ) *
      (meanSamples ℂ N seed fun s => atTime (stateCorr H tau (rnd s)) t) * Complex.exp (Complex.I * en * t * tau) =
      (N : ℂ)⁻¹ * ∑ j ∈ Finset.range N, ∑ t ∈ Finset.Ioc (-(T : ℤ)) T, (dosWeight windowHanning T t : ℂ) *
        atTime (stateCorr H tau (rnd (seed * (j + 1)))) t * Complex.exp (Complex.I * en * t * tau) := by
    unfold meanSamples
    rw [Finset.sum_comm, Finset.mul_sum]
    refine Finset.sum_congr rfl fun t _ => ?_
    rw [smul_eq_mul, Finset.mul_sum, Finset.mul_sum, Finset.sum_mul, Finset.mul_sum]
    refine Finset.sum_congr rfl fun j _ => ?_
    ring
  rw [this, norm_mul, norm_inv, Complex.norm_natCast]
  have hs : ‖∑ j ∈ Finset.range N, ∑ t ∈ Finset.Ioc (-(T : ℤ)) T, (dosWeight windowHanning T t : ℂ) *
        atTime (stateCorr H tau (rnd (seed * (j + 1)))) t * Complex.exp (Complex.I * en * t * tau)‖ ≤ N * B := by
    refine (norm_sum_le _ _).trans ?_
    refine (Finset.sum_le_sum fun j _ => state_spectrum hH T tau en B _ (hK _) (hrnd _)).trans ?_
    rw [Finset.sum_const, Finset.card_range, nsmul_eq_mul]
  rcases Nat.eq_zero_or_pos N with h0 | h0
  · subst h0
    simpa using hB
  · have : (0 : ℝ) < N := by exact_mod_cast h0
    rw [inv_mul_le_iff₀ this]
    exact hs

theorem weight_abs (T : ℕ) (t : ℤ) : |dosWeight windowHanning T t| ≤ 1 := by
  unfold dosWeight
  split_ifs
  · simp
  · rw [abs_of_nonneg (hanning_nonneg _ _)]
    exact hanning_le_one _ _

/-- Two correlation functions which are close have close spectra. -/
theorem spectrum_close (T : ℕ) (tau en del : ℝ) (a b : ℕ → ℂ) (h : ∀ t ≤ T, ‖a t - b t‖ ≤ del) :
    spectrum windowHanning T tau a en ≤ spectrum windowHanning T tau b en + 2 * T * del := by
  unfold spectrum
  have hd : ‖(∑ t ∈ Finset.Ioc (-(T : ℤ)) T, (dosWeight windowHanning T t : ℂ) * atTime a t * Complex.exp (Complex.I * en * t * tau)) -
      ∑ t ∈ Finset.Ioc (-(T : ℤ)) T, (dosWeight windowHanning T t : ℂ) * atTime b t * Complex.exp (Complex.I * en * t * tau)‖ ≤
      2 * T * del := by
    rw [← Finset.sum_sub_distrib]
    refine (norm_sum_le _ _).trans ?_
    have : ∀ t ∈ Finset.Ioc (-(T : ℤ)) T, ‖(dosWeight windowHanning T t : ℂ) * atTime a t * Complex.exp (Complex.I * en * t * tau) -
        (dosWeight windowHanning T t : ℂ) * atTime b t * Complex.exp (Complex.I * en * t * tau)‖ ≤ del := by
      intro t ht
      rw [Finset.mem_Ioc] at ht
      rw [← sub_mul, ← mul_sub, norm_mul, norm_mul]
      have e1 : ‖Complex.exp (Complex.I * en * t * tau)‖ = 1 := by
        rw [show Complex.I * en * t * tau = ((en * t * tau : ℝ) : ℂ) * Complex.I by push_cast; ring]
        exact Complex.norm_exp_ofReal_mul_I _
      have e2 : ‖atTime a t - atTime b t‖ ≤ del := by
        unfold atTime
        split_ifs
        · exact h _ (by omega)
        · rw [← star_sub, norm_star]
          exact h _ (by omega)
      rw [e1, mul_one, Complex.norm_real, Real.norm_eq_abs]
      calc |dosWeight windowHanning T t| * ‖atTime a t - atTime b t‖ ≤ 1 * ‖atTime a t - atTime b t‖ :=
            mul_le_mul_of_nonneg_right (weight_abs T t) (norm_nonneg _)
        _ ≤ del := by rw [one_mul]; exact e2
    refine (Finset.sum_le_sum this).trans ?_
    rw [Finset.sum_const, Int.card_Ioc, nsmul_eq_mul]
    have : ((((T : ℤ) - -(T : ℤ)).toNat : ℕ) : ℝ) = 2 * T := by
      rw [show ((T : ℤ) - -(T : ℤ)) = ((2 * T : ℕ) : ℤ) by push_cast; ring, Int.toNat_natCast]
      push_cast
      ring
    rw [this]
  have := norm_sub_norm_le (∑ t ∈ Finset.Ioc (-(T : ℤ)) T, (dosWeight windowHanning T t : ℂ) * atTime a t *
    Complex.exp (Complex.I * en * t * tau)) (∑ t ∈ Finset.Ioc (-(T : ℤ)) T, (dosWeight windowHanning T t : ℂ) * atTime b t *
    Complex.exp (Complex.I * en * t * tau))
  linarith

/-- The sum of the spectrum over the energies of the program is at least that of its value at `t = 0`. -/
theorem spectrum_total (window : ℕ → ℕ → ℝ) (T : ℕ) (hT : 0 < T) (R : ℝ) (hR : 0 < R) (corr : ℕ → ℂ) :
    2 * T * ‖corr 0‖ ≤ ∑ l ∈ Finset.range (2 * T),
      spectrum window T (2 * Real.pi / R) corr (((l : ℝ) - T) * (R / (2 * T))) := by
  have hT' : (T : ℂ) ≠ 0 := by exact_mod_cast hT.ne'
  have hR' : (R : ℂ) ≠ 0 := by exact_mod_cast hR.ne'
  unfold spectrum
  refine le_trans (le_of_eq ?_) (norm_sum_le _ _)
  rw [Finset.sum_comm]
  have hphase : ∀ t ∈ Finset.Ioc (-(T : ℤ)) T, ∑ l ∈ Finset.range (2 * T), (dosWeight window T t : ℂ) * atTime corr t *
      Complex.exp (Complex.I * ((((l : ℝ) - T) * (R / (2 * T)) : ℝ) : ℂ) * t * ((2 * Real.pi / R : ℝ) : ℂ)) =
      if t = 0 then 2 * T * corr 0 else 0 := by
    intro t ht
    rw [Finset.mem_Ioc] at ht
    rw [← Finset.mul_sum]
    set z := Complex.exp (Complex.I * (Real.pi * t / T)) with hz
    have hterm : ∀ l ∈ Finset.range (2 * T), Complex.exp (Complex.I * ((((l : ℝ) - T) * (R / (2 * T)) : ℝ) : ℂ) * t *
        ((2 * Real.pi / R : ℝ) : ℂ)) = Complex.exp (-(Complex.I * (Real.pi * t))) * z ^ l := by
      intro l _
      rw [hz, ← Complex.exp_nat_mul, ← Complex.exp_add]
      congr 1
      push_cast
      field_simp
      ring
    rw [Finset.sum_congr rfl hterm, ← Finset.mul_sum]
    split_ifs with h0
    · subst h0
      have : z = 1 := by rw [hz]; simp
      rw [this]
      simp [dosWeight, atTime]
      ring
    · have hz1 : z ≠ 1 := by
        intro h
        rw [hz, Complex.exp_eq_one_iff] at h
        obtain ⟨k, hk⟩ := h
        have hpi : (Real.pi : ℂ) ≠ 0 := by exact_mod_cast Real.pi_ne_zero
        have h2 : (t : ℂ) = 2 * k * T := by
          field_simp at hk
          have hI := Complex.I_ne_zero
          linear_combination hk
        have h3 : t = 2 * k * T := by exact_mod_cast h2
        rcases lt_trichotomy k 0 with hk0 | hk0 | hk0
        · nlinarith
        · subst hk0; omega
        · nlinarith
      have hzT : z ^ (2 * T) = 1 := by
        rw [hz, ← Complex.exp_nat_mul, Complex.exp_eq_one_iff]
        refine ⟨t, ?_⟩
        push_cast
        field_simp
      have : ∑ l ∈ Finset.range (2 * T), z ^ l = 0 := by
        rw [geom_sum_eq hz1, hzT, sub_self, zero_div]
      rw [this, mul_zero, mul_zero]
  rw [Finset.sum_congr rfl hphase, Finset.sum_ite_eq' (Finset.Ioc (-(T : ℤ)) T) (0 : ℤ) (fun _ => 2 * (T : ℂ) * corr 0),
    if_pos (by rw [Finset.mem_Ioc]; omega)]
  simp

theorem sin_far (R eta x : ℝ) (hR : 0 < R) (h0 : 0 < eta) (h1 : eta ≤ |x|) (h2 : |x| ≤ R - eta) :
    Real.sin (Real.pi * eta / R) ^ 2 ≤ Real.sin (x * (2 * Real.pi / R) / 2) ^ 2 ∧ 0 < Real.sin (Real.pi * eta / R) := by
  have hpi := Real.pi_pos
  have hs0 : 0 < Real.sin (Real.pi * eta / R) := by
    apply Real.sin_pos_of_pos_of_lt_pi (by positivity)
    rw [div_lt_iff₀ hR]
    nlinarith
  refine ⟨?_, hs0⟩
  have e : Real.sin (x * (2 * Real.pi / R) / 2) ^ 2 = Real.sin (Real.pi * |x| / R) ^ 2 := by
    rcases abs_choice x with h | h
    · rw [h]; congr 2; ring
    · rw [h, show Real.pi * -x / R = -(x * (2 * Real.pi / R) / 2) by ring, Real.sin_neg, neg_sq]
  rw [e]
  refine pow_le_pow_left₀ hs0.le ?_ 2
  set y := |x|
  rcases le_total y (R / 2) with h | h
  · apply Real.sin_le_sin_of_le_of_le_pi_div_two
    · have : 0 ≤ Real.pi * eta / R := by positivity
      linarith
    · rw [div_le_iff₀ hR]
      nlinarith
    · gcongr
  · rw [← Real.sin_pi_sub (Real.pi * y / R), show Real.pi - Real.pi * y / R = Real.pi * (R - y) / R by field_simp]
    apply Real.sin_le_sin_of_le_of_le_pi_div_two
    · have : 0 ≤ Real.pi * eta / R := by positivity
      linarith
    · rw [div_le_iff₀ hR]
      nlinarith
    · gcongr
      linarith

/-- The spectrum of the exact correlation functions at energies without states nearby. -/
theorem far_spectrum {H : Matrix (Fin n) (Fin n) ℂ} (hH : H.IsHermitian) (m : ℕ) (R eta en : ℝ) (hR : 0 < R) (he : 0 < eta)
    (sites : Fin n → Prop) (hfar : FarFrom H sites R eta en) (N : ℕ) (seed : ℤ) (rnd : ℤ → CVec n)
    (hsup : ∀ s i, ¬sites i → rnd s i = 0) (hrnd : ∀ s, innerProd (rnd s) (rnd s) = 1) :
    spectrum windowHanning (m + 1) (2 * Real.pi / R)
      (fun k => meanSamples ℂ N seed fun s => stateCorr H (2 * Real.pi / R) (rnd s) k) en ≤ leakage (m + 1) R eta := by
  refine mean_spectrum hH (m + 1) _ en _ (by unfold leakage; positivity) N seed rnd ?_ hrnd
  intro s i hi
  obtain ⟨h1, h2⟩ := hfar (hH.eigenvalues i) (hH.eigenvectorBasis i) (hH.mulVec_eigenvectorBasis i) (by
    by_contra hcon
    push Not at hcon
    apply hi
    refine Finset.sum_eq_zero fun k _ => ?_
    by_cases hk : sites k
    · rw [hcon k hk, star_zero, zero_mul]
    · rw [hsup s k hk, mul_zero])
  obtain ⟨h3, h4⟩ := sin_far R eta _ hR he h1 h2
  have h5 : 0 < Real.sin (Real.pi * eta / R) ^ 2 := by positivity
  refine (kernel_bound m _ ?_).trans ?_
  · intro h0
    rw [h0] at h3
    linarith
  · unfold leakage
    gcongr

end Verif.Analysis

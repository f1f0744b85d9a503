import Verif.Proof.DosGap
import Verif.Props.FermiOp
import Verif.Spec.QuasiEigen

/-! # The filter of the quasi-eigenstates -/

namespace Verif.Analysis

open Verif.Tbpm Matrix
open scoped Matrix.Norms.L2Operator

/-- The filter as a function of the phase per time step. -/
noncomputable def qeKernel (T : ℕ) (th : ℝ) : ℝ :=
  1 + 2 * ∑ t ∈ Finset.Icc 1 T, windowHanning t T * Real.cos (th * t)

theorem icc_range (T : ℕ) (f : ℕ → ℝ) (hf : f T = 0) (hT : 0 < T) : f 0 + ∑ t ∈ Finset.Icc 1 T, f t = ∑ i ∈ Finset.range T, f i := by
  have h1 : Finset.Icc 1 T = Finset.Ico 1 (T + 1) := by ext; simp only [Finset.mem_Icc, Finset.mem_Ico]; omega
  have h2 := Finset.sum_range_succ f T
  rw [hf, add_zero] at h2
  rw [h1, ← h2, Finset.range_eq_Ico, Finset.sum_eq_sum_Ico_succ_bot (by omega : 0 < T + 1)]

/-- One minus the sum is twice the real part of the windowed geometric sum. -/
theorem qe_eq (T : ℕ) (hT : 0 < T) (th : ℝ) :
    (qeKernel T th : ℂ) = (∑ i ∈ Finset.range T, (windowHanning i T : ℂ) * Complex.exp (Complex.I * th) ^ i) +
      star (∑ i ∈ Finset.range T, (windowHanning i T : ℂ) * Complex.exp (Complex.I * th) ^ i) - 1 := by
  have h := icc_range T (fun t => windowHanning t T * Real.cos (th * t)) (by simp [hanning_last T hT]) hT
  simp only [hanning_zero, Nat.cast_zero, mul_zero, Real.cos_zero, one_mul] at h
  have h2 : ∑ t ∈ Finset.Icc 1 T, windowHanning t T * Real.cos (th * t) =
      (∑ i ∈ Finset.range T, windowHanning i T * Real.cos (th * i)) - 1 := by linarith
  unfold qeKernel
  rw [h2, star_sum, ← Finset.sum_add_distrib]
  have : ∀ i ∈ Finset.range T, (windowHanning i T : ℂ) * Complex.exp (Complex.I * th) ^ i +
      star ((windowHanning i T : ℂ) * Complex.exp (Complex.I * th) ^ i) = ((2 * (windowHanning i T * Real.cos (th * i)) : ℝ) : ℂ) := by
    intro i _
    rw [Complex.star_def, Complex.add_conj, ← Complex.exp_nat_mul, Complex.re_ofReal_mul,
      show (i : ℂ) * (Complex.I * th) = ((th * i : ℝ) : ℂ) * Complex.I by push_cast; ring, Complex.exp_ofReal_mul_I_re]
  rw [Finset.sum_congr rfl this, ← Complex.ofReal_sum, ← Finset.mul_sum]
  push_cast
  ring

theorem qe_far (T : ℕ) (hT : 0 < T) (th : ℝ) (hs : Real.sin (th / 2) ≠ 0) :
    |qeKernel T th| ≤ Real.pi ^ 2 / (2 * T * Real.sin (th / 2) ^ 2) := by
  set q := Complex.exp (Complex.I * th) with hq
  set k := 1 - Real.cos (Real.pi / T) with hk
  have hk0 : 0 ≤ k := by have := Real.cos_le_one (Real.pi / T); rw [hk]; linarith
  have hqn : ‖q‖ = 1 := by rw [hq, mul_comm]; exact Complex.norm_exp_ofReal_mul_I th
  have hq0 : q ≠ 0 := Complex.exp_ne_zero _
  have hsq : star q = q⁻¹ := by
    rw [Complex.star_def, Complex.inv_def, Complex.normSq_eq_norm_sq, hqn]
    simp
  have hnorm : ‖1 - q‖ ^ 2 = 4 * Real.sin (th / 2) ^ 2 := by
    rw [norm_sub_rev, hq, Complex.norm_exp_I_mul_ofReal_sub_one, norm_mul, Real.norm_eq_abs, Real.norm_eq_abs, mul_pow, sq_abs, sq_abs]
    norm_num
  have hq1 : 1 - q ≠ 0 := by
    intro h
    rw [h, norm_zero] at hnorm
    have : 0 < Real.sin (th / 2) ^ 2 := by positivity
    nlinarith
  have hq1' : q - 1 ≠ 0 := by
    intro h
    exact hq1 (by linear_combination -h)
  set h : ℕ → ℂ := fun i => (windowHanning i T : ℂ) with hh
  set F := ∑ i ∈ Finset.range T, h i * q ^ i with hF
  set d : ℕ → ℂ := fun i => h (i + 1) - h i with hd
  set G := ∑ i ∈ Finset.range T, d i * q ^ i with hG
  have hF1 : (1 - q) * F = 1 + q * G := by
    rw [hF, abel_sum]
    have h0 : h 0 = 1 := by simp [hh, hanning_zero]
    have h1 : h T = 0 := by simp [hh, hanning_last T hT]
    rw [h0, h1, hG, Finset.mul_sum]
    simp only [zero_mul, sub_zero]
    congr 1
    refine Finset.sum_congr rfl fun i _ => ?_
    rw [hd]
    ring
  have hGn : ‖(1 - q) * G‖ ≤ (T + 1) * k := by
    rw [hG, abel_sum]
    have hd0 : ‖d 0‖ = k / 2 := by
      have : d 0 = ((-k / 2 : ℝ) : ℂ) := by
        rw [hd, hk, ← hanning_one]
        simp [hh, hanning_zero]
      rw [this, Complex.norm_real, Real.norm_eq_abs, neg_div, abs_neg, abs_of_nonneg (by positivity)]
    have hdT : ‖d T * q ^ T‖ = k / 2 := by
      have : d T = ((k / 2 : ℝ) : ℂ) := by
        rw [hd, hk, ← hanning_beyond T hT]
        simp [hh, hanning_last T hT]
      rw [this, norm_mul, norm_pow, hqn, one_pow, mul_one, Complex.norm_real, Real.norm_eq_abs, abs_of_nonneg (by positivity)]
    have hdd : ∀ i, ‖(d (i + 1) - d i) * q ^ (i + 1)‖ ≤ k := by
      intro i
      have : d (i + 1) - d i = ((-(k * Real.cos (Real.pi * (i + 1) / T)) : ℝ) : ℂ) := by
        rw [hk, ← hanning_second, hd, hh]
        push_cast
        ring
      rw [this, norm_mul, norm_pow, hqn, one_pow, mul_one, Complex.norm_real, Real.norm_eq_abs, abs_neg, abs_mul, abs_of_nonneg hk0]
      exact mul_le_of_le_one_right hk0 (Real.abs_cos_le_one _)
    refine (norm_add_le _ _).trans ?_
    have a1 := norm_sub_le (d 0) (d T * q ^ T)
    have a2 := (norm_sum_le (Finset.range T) fun i => (d (i + 1) - d i) * q ^ (i + 1)).trans (Finset.sum_le_sum fun i _ => hdd i)
    rw [Finset.sum_const, Finset.card_range, nsmul_eq_mul] at a2
    rw [hd0, hdT] at a1
    linarith
  have hn0 : 0 < ‖1 - q‖ := norm_pos_iff.2 hq1
  have hQ : (qeKernel T th : ℂ) = q * G / (1 - q) + star (q * G / (1 - q)) := by
    rw [qe_eq T hT th]
    have hFe : F = 1 / (1 - q) + q * G / (1 - q) := by
      rw [← add_div, eq_div_iff hq1, mul_comm]
      exact hF1
    have hst : star (1 / (1 - q)) = 1 - 1 / (1 - q) := by
      rw [star_div₀, star_sub, star_one, hsq]
      have : 1 - q⁻¹ ≠ 0 := by
        intro h0
        apply hq1'
        have e : q * (1 - q⁻¹) = q - 1 := by field_simp
        rw [← e, h0, mul_zero]
      field_simp
      ring
    have hF' : (∑ i ∈ Finset.range T, (windowHanning i T : ℂ) * q ^ i) = F := rfl
    rw [hF', hFe, star_add, hst]
    ring
  have hX : ‖q * G / (1 - q)‖ ≤ (T + 1) * k / ‖1 - q‖ ^ 2 := by
    rw [norm_div, norm_mul, hqn, one_mul]
    rw [norm_mul] at hGn
    rw [le_div_iff₀ (by positivity)]
    calc ‖G‖ / ‖1 - q‖ * ‖1 - q‖ ^ 2 = ‖1 - q‖ * ‖G‖ := by field_simp
      _ ≤ _ := hGn
  have hK : |qeKernel T th| ≤ 2 * ((T + 1) * k / ‖1 - q‖ ^ 2) := by
    rw [← Real.norm_eq_abs, ← Complex.norm_real, hQ]
    refine (norm_add_le _ _).trans ?_
    rw [norm_star]
    linarith
  have hsin0 : 0 < Real.sin (th / 2) ^ 2 := by positivity
  have hT' : (1 : ℝ) ≤ T := by exact_mod_cast hT
  have hkT : k * T ^ 2 ≤ Real.pi ^ 2 / 2 := by
    have := kappa_le T
    rw [← hk, le_div_iff₀ (by positivity)] at this
    linarith
  refine hK.trans ?_
  rw [hnorm, le_div_iff₀ (by positivity)]
  have e : 2 * ((T + 1) * k / (4 * Real.sin (th / 2) ^ 2)) * (2 * T * Real.sin (th / 2) ^ 2) = T * (T + 1) * k := by
    field_simp
    ring
  rw [e]
  have e3 : k * T ≤ k * T ^ 2 := by nlinarith [mul_nonneg hk0 (by linarith : (0 : ℝ) ≤ T)]
  nlinarith

/-- The sum of the window. -/
theorem hanning_total (T : ℕ) (hT : 0 < T) : 1 + 2 * ∑ t ∈ Finset.Icc 1 T, windowHanning t T = T := by
  rcases Nat.eq_or_lt_of_le (Nat.succ_le_of_lt hT) with h1 | h1
  · rw [← h1]
    simp [windowHanning]
  have h := icc_range T (fun t => windowHanning t T) (hanning_last T hT) hT
  simp only [hanning_zero] at h
  -- the cosines over half a period cancel in pairs
  have hrefl : ∑ i ∈ Finset.Icc 1 T, windowHanning i T + 1 = ∑ i ∈ Finset.range T, windowHanning i T := by linarith
  have hsym : ∑ i ∈ Finset.range T, windowHanning (i + 1) T = ∑ i ∈ Finset.range T, (1 - windowHanning i T) - 1 + 1 := by
    rw [← Finset.sum_range_reflect]
    rw [sub_add_cancel]
    refine Finset.sum_congr rfl fun i hi => ?_
    rw [Finset.mem_range] at hi
    unfold windowHanning
    have e : ((T - 1 - i + 1 : ℕ) : ℝ) = T - i := by
      rw [show T - 1 - i + 1 = T - i by omega, Nat.cast_sub hi.le]
    have hT' : (T : ℝ) ≠ 0 := by positivity
    rw [e, show Real.pi * ((T : ℝ) - i) / T = Real.pi - Real.pi * i / T by field_simp, Real.cos_pi_sub]
    ring
  have hshift : ∑ i ∈ Finset.range T, windowHanning (i + 1) T = ∑ i ∈ Finset.Icc 1 T, windowHanning i T := by
    rw [Finset.sum_bij (fun i _ => i + 1)]
    · intro i hi; simp only [Finset.mem_range, Finset.mem_Icc] at *; omega
    · intro i _ j _ hij; omega
    · intro b hb; simp only [Finset.mem_Icc] at hb; exact ⟨b - 1, by simp only [Finset.mem_range]; omega, by omega⟩
    · intro i _; rfl
  rw [sub_add_cancel, Finset.sum_sub_distrib, Finset.sum_const, Finset.card_range, nsmul_eq_mul, mul_one, hshift] at hsym
  linarith

/-- Close to the energy the filter is large. -/
theorem qe_near (T : ℕ) (hT : 0 < T) (th : ℝ) (h : |th| * T ≤ Real.pi / 4) : (T : ℝ) / 2 ≤ qeKernel T th := by
  have hT' : (0 : ℝ) < T := by exact_mod_cast hT
  have hpi := Real.pi_pos
  have hcos : ∀ t ∈ Finset.Icc 1 T, windowHanning t T * (1 / 2) ≤ windowHanning t T * Real.cos (th * t) := by
    intro t ht
    rw [Finset.mem_Icc] at ht
    refine mul_le_mul_of_nonneg_left ?_ (hanning_nonneg _ _)
    have h1 : |th * t| ≤ Real.pi / 3 := by
      rw [abs_mul, Nat.abs_cast]
      calc |th| * (t : ℝ) ≤ |th| * T := by gcongr; exact_mod_cast ht.2
        _ ≤ Real.pi / 4 := h
        _ ≤ Real.pi / 3 := by linarith
    rw [← Real.cos_abs, ← Real.cos_pi_div_three]
    exact Real.cos_le_cos_of_nonneg_of_le_pi (abs_nonneg _) (by linarith) h1
  have hsum := Finset.sum_le_sum hcos
  rw [← Finset.sum_mul] at hsum
  have := hanning_total T hT
  unfold qeKernel
  linarith

/-! ## Filtered states -/

variable {n : ℕ}

/-- A function of a Hermitian matrix applied to a state is bounded by its values at the eigenvalues of which the state has a
component. -/
theorem herm_bound {H : Matrix (Fin n) (Fin n) ℂ} (hH : H.IsHermitian) (f : ℝ → ℂ) (B : ℝ) (hB : 0 ≤ B) (psi : CVec n)
    (hf : ∀ i, innerProd (hH.eigenvectorBasis i) psi ≠ 0 → ‖f (hH.eigenvalues i)‖ ≤ B) :
    stateNorm ((hermFn hH f).mulVec psi) ≤ B * stateNorm psi := by
  have hone : ∀ x : CVec n, innerProd x x = 1 → (∀ i, innerProd (hH.eigenvectorBasis i) x ≠ 0 → ‖f (hH.eigenvalues i)‖ ≤ B) →
      stateNorm ((hermFn hH f).mulVec x) ≤ B := by
    intro x hx hfx
    have h1 : innerProd ((hermFn hH f).mulVec x) ((hermFn hH f).mulVec x) =
        innerProd x ((hermFn hH fun y => star (f y) * f y).mulVec x) := by
      rw [hermFn_mul hH (fun y => star (f y)) f, ← hermFn_star, ← Matrix.mulVec_mulVec]
      show star _ ⬝ᵥ _ = star _ ⬝ᵥ _
      rw [Matrix.star_mulVec, ← Matrix.dotProduct_mulVec]
    have h2 := herm_expect hH (fun y => star (f y) * f y) (B ^ 2) x hx (fun i hi => by
      rw [norm_mul, norm_star, ← sq]
      exact pow_le_pow_left₀ (norm_nonneg _) (hfx i hi) 2)
    rw [← h1, innerProd_stateNorm, Complex.norm_real, Real.norm_eq_abs, abs_of_nonneg (by positivity)] at h2
    exact le_of_sq_le_sq h2 hB
  rcases (norm_nonneg (WithLp.toLp 2 psi : EuclideanSpace ℂ (Fin n))).eq_or_lt with h0 | h0
  · have hz : psi = 0 := by
      have := norm_eq_zero.1 h0.symm
      simpa using this
    rw [hz, Matrix.mulVec_zero]
    simp [stateNorm]
  · have hs : 0 < stateNorm psi := h0
    set c : ℂ := (((stateNorm psi)⁻¹ : ℝ) : ℂ) with hc
    have hx : innerProd (c • psi) (c • psi) = 1 := by
      rw [innerProd_smul, innerProd_smul_left, innerProd_stateNorm, hc]
      simp only [Complex.star_def, Complex.conj_ofReal]
      rw [← Complex.ofReal_mul, ← Complex.ofReal_mul]
      have : (stateNorm psi)⁻¹ * ((stateNorm psi)⁻¹ * stateNorm psi ^ 2) = 1 := by field_simp
      rw [this, Complex.ofReal_one]
    have h := hone (c • psi) hx (fun i hi => hf i (fun h => hi (by rw [innerProd_smul, h, mul_zero])))
    rw [Matrix.mulVec_smul] at h
    have hn : ∀ y : CVec n, stateNorm (c • y) = (stateNorm psi)⁻¹ * stateNorm y := by
      intro y
      unfold stateNorm
      rw [WithLp.toLp_smul, norm_smul, hc, Complex.norm_real, Real.norm_eq_abs, abs_of_nonneg (by positivity)]
      rfl
    rw [hn, inv_mul_le_iff₀ hs] at h
    linarith

theorem stateNorm_add (x y : CVec n) : stateNorm (x + y) ≤ stateNorm x + stateNorm y := norm_add_le _ _

theorem stateNorm_smul (c : ℂ) (x : CVec n) : stateNorm (c • x) = ‖c‖ * stateNorm x := by
  unfold stateNorm
  rw [WithLp.toLp_smul, norm_smul]

theorem entry_le (x : CVec n) (j : Fin n) : ‖x j‖ ≤ stateNorm x := PiLp.norm_apply_le (WithLp.toLp 2 x) j

theorem stateNorm_sum {ι : Type*} (s : Finset ι) (f : ι → CVec n) : stateNorm (∑ i ∈ s, f i) ≤ ∑ i ∈ s, stateNorm (f i) := by
  unfold stateNorm
  rw [WithLp.toLp_sum]
  exact norm_sum_le _ _

theorem stateNorm_entries (x : CVec n) : stateNorm x ^ 2 = ∑ k, ‖x k‖ ^ 2 := EuclideanSpace.norm_sq_eq _

/-- The probabilities in a state that is mainly `u`. -/
theorem mainly (u z : CVec n) (hu : stateNorm u = 1) (al : ℂ) (rho A : ℝ) (hz : stateNorm z ≤ rho) (hA : A ≤ ‖al‖) (hA0 : rho < A)
    (j : Fin n) : al • u + z ≠ 0 ∧ |‖(al • u + z) j‖ ^ 2 / ∑ k, ‖(al • u + z) k‖ ^ 2 - ‖u j‖ ^ 2| ≤ 4 * rho / A := by
  set y := al • u + z with hy
  have hz0 : 0 ≤ stateNorm z := norm_nonneg _
  have hApos : 0 < A := by linarith
  have hal : 0 < ‖al‖ := by linarith
  have hau : stateNorm (al • u) = ‖al‖ := by rw [stateNorm_smul, hu, mul_one]
  have hd : |stateNorm y - ‖al‖| ≤ stateNorm z := by
    rw [← hau]
    have := abs_norm_sub_norm_le (WithLp.toLp 2 y : EuclideanSpace ℂ (Fin n)) (WithLp.toLp 2 (al • u))
    rw [← WithLp.toLp_sub, hy, add_sub_cancel_left] at this
    exact this
  have hypos : 0 < stateNorm y := by have := abs_le.1 hd; linarith
  refine ⟨fun h => by rw [h] at hypos; simp [stateNorm] at hypos, ?_⟩
  rw [← stateNorm_entries, ← div_pow]
  set p := ‖y j‖ / stateNorm y with hp
  have hp1 : p ≤ 1 := by rw [hp, div_le_one hypos]; exact entry_le y j
  have hp0 : 0 ≤ p := by positivity
  have hu1 : ‖u j‖ ≤ 1 := hu ▸ entry_le u j
  have hzj := (entry_le z j).trans hz
  have hmain : |p - ‖u j‖| ≤ 2 * rho / A := by
    have h1 : |p - ‖y j‖ / ‖al‖| ≤ rho / A := by
      have e : p - ‖y j‖ / ‖al‖ = p * ((‖al‖ - stateNorm y) / ‖al‖) := by rw [hp]; field_simp
      rw [e, abs_mul, abs_of_nonneg hp0, abs_div, abs_of_pos hal, abs_sub_comm]
      calc p * (|stateNorm y - ‖al‖| / ‖al‖) ≤ 1 * (rho / A) := by
            refine mul_le_mul hp1 (div_le_div₀ (by linarith) (hd.trans hz) hApos hA) (by positivity) zero_le_one
        _ = _ := one_mul _
    have h2 : |‖y j‖ / ‖al‖ - ‖u j‖| ≤ rho / A := by
      have e : ‖y j‖ / ‖al‖ - ‖u j‖ = (‖y j‖ - ‖al * u j‖) / ‖al‖ := by rw [norm_mul]; field_simp
      rw [e, abs_div, abs_of_pos hal]
      refine div_le_div₀ (by linarith) ?_ hApos hA
      have := abs_norm_sub_norm_le (y j) (al * u j)
      have e2 : y j - al * u j = z j := by rw [hy]; simp
      rw [e2] at this
      exact this.trans hzj
    have := abs_sub_le p (‖y j‖ / ‖al‖) ‖u j‖
    calc _ ≤ _ := this
      _ ≤ rho / A + rho / A := add_le_add h1 h2
      _ = _ := by ring
  have e : p ^ 2 - ‖u j‖ ^ 2 = (p + ‖u j‖) * (p - ‖u j‖) := by ring
  rw [e, abs_mul, abs_of_nonneg (by positivity)]
  calc (p + ‖u j‖) * |p - ‖u j‖| ≤ 2 * (2 * rho / A) := mul_le_mul (by linarith) hmain (abs_nonneg _) (by norm_num)
    _ = _ := by ring

/-! ## The filter made of the exact evolution -/

/-- The filter as a function of the Hamiltonian. -/
noncomputable def exactFilter {H : Matrix (Fin n) (Fin n) ℂ} (hH : H.IsHermitian) (T : ℕ) (tau en : ℝ) : Matrix (Fin n) (Fin n) ℂ :=
  hermFn hH fun x => (qeKernel T ((en - x) * tau) : ℂ)

theorem exactFilter_apply {H : Matrix (Fin n) (Fin n) ℂ} (hH : H.IsHermitian) (T : ℕ) (tau en : ℝ) (psi : CVec n) :
    (exactFilter hH T tau en).mulVec psi = psi + ∑ t ∈ Finset.Icc 1 T, (windowHanning t T : ℂ) •
      (Complex.exp (Complex.I * en * t * tau) • evolved H (t * tau) psi +
        Complex.exp (-(Complex.I * en * t * tau)) • evolved H (-(t * tau)) psi) := by
  have hfun : (fun x : ℝ => (qeKernel T ((en - x) * tau) : ℂ)) = fun x : ℝ => 1 + ∑ t ∈ Finset.Icc 1 T, (windowHanning t T : ℂ) *
      (Complex.exp (Complex.I * en * t * tau) * Complex.exp (-(Complex.I * ((t * tau : ℝ) : ℂ)) * x) +
        Complex.exp (-(Complex.I * en * t * tau)) * Complex.exp (-(Complex.I * ((-(t * tau) : ℝ) : ℂ)) * x)) := by
    funext x
    unfold qeKernel
    push_cast
    rw [Finset.mul_sum]
    congr 1
    refine Finset.sum_congr rfl fun t _ => ?_
    rw [← Complex.exp_add, ← Complex.exp_add, Complex.cos]
    rw [show Complex.I * en * t * tau + -(Complex.I * (t * tau)) * x = (en - x) * tau * t * Complex.I by ring,
      show -(Complex.I * en * t * tau) + -(Complex.I * -(t * tau)) * x = -((en - x) * tau * t) * Complex.I by ring]
    ring
  unfold exactFilter
  rw [hfun, hermFn_add hH (fun _ => 1), hermFn_const, hermFn_sum, Matrix.add_mulVec, one_smul, Matrix.one_mulVec, Matrix.sum_mulVec]
  congr 1
  refine Finset.sum_congr rfl fun t _ => ?_
  rw [hermFn_smul, hermFn_add hH (fun x : ℝ => Complex.exp (Complex.I * en * t * tau) * Complex.exp (-(Complex.I * ((t * tau : ℝ) : ℂ)) * x)),
    hermFn_smul, hermFn_smul, hermFn_exp, hermFn_exp, Matrix.smul_mulVec, Matrix.add_mulVec, Matrix.smul_mulVec, Matrix.smul_mulVec]
  rfl

/-- The error of the filter from the error of the steps. -/
theorem filter_error {e : Env n} {H : Matrix (Fin n) (Fin n) ℂ} (hH : H.IsHermitian) (T : ℕ) (hT : 0 < T) (tau en del : ℝ) (hd : 0 ≤ del)
    (psi : CVec n) (hf : ∀ t ≤ T, stateNorm ((e.U true ^ t).mulVec psi - evolved H (t * tau) psi) ≤ del)
    (hb : ∀ t ≤ T, stateNorm ((e.U false ^ t).mulVec psi - evolved H (-(t * tau)) psi) ≤ del) :
    stateNorm ((e.filter T tau en).mulVec psi - (exactFilter hH T tau en).mulVec psi) ≤ T * del := by
  have hw : ∀ t : ℕ, (1 + Real.cos (Real.pi * t / T)) / 2 = windowHanning t T := fun t => by unfold windowHanning; ring
  have hphase : ∀ x : ℝ, ‖Complex.exp (Complex.I * x)‖ = 1 := fun x => by rw [mul_comm]; exact Complex.norm_exp_ofReal_mul_I x
  have hdiff : (e.filter T tau en).mulVec psi - (exactFilter hH T tau en).mulVec psi = ∑ t ∈ Finset.Icc 1 T, (windowHanning t T : ℂ) •
      (Complex.exp (Complex.I * en * t * tau) • ((e.U true ^ t).mulVec psi - evolved H (t * tau) psi) +
        Complex.exp (-(Complex.I * en * t * tau)) • ((e.U false ^ t).mulVec psi - evolved H (-(t * tau)) psi)) := by
    rw [exactFilter_apply]
    unfold Env.filter
    rw [Matrix.add_mulVec, Matrix.one_mulVec, Matrix.sum_mulVec, add_sub_add_left_eq_sub, ← Finset.sum_sub_distrib]
    refine Finset.sum_congr rfl fun t _ => ?_
    rw [hw, Matrix.smul_mulVec, Matrix.add_mulVec, Matrix.smul_mulVec, Matrix.smul_mulVec, smul_sub, smul_sub]
    ext k
    simp only [Pi.sub_apply, Pi.smul_apply, Pi.add_apply, smul_eq_mul, Complex.real_smul]
    ring
  rw [hdiff]
  refine (stateNorm_sum _ _).trans ?_
  have hterm : ∀ t ∈ Finset.Icc 1 T, stateNorm ((windowHanning t T : ℂ) •
      (Complex.exp (Complex.I * en * t * tau) • ((e.U true ^ t).mulVec psi - evolved H (t * tau) psi) +
        Complex.exp (-(Complex.I * en * t * tau)) • ((e.U false ^ t).mulVec psi - evolved H (-(t * tau)) psi))) ≤
      2 * (windowHanning t T * del) := by
    intro t ht
    rw [Finset.mem_Icc] at ht
    rw [stateNorm_smul, Complex.norm_real, Real.norm_of_nonneg (hanning_nonneg _ _)]
    have h1 : ‖Complex.exp (Complex.I * en * t * tau)‖ = 1 := by
      rw [show Complex.I * en * t * tau = Complex.I * ((en * t * tau : ℝ) : ℂ) by push_cast; ring]; exact hphase _
    have h2 : ‖Complex.exp (-(Complex.I * en * t * tau))‖ = 1 := by
      rw [show -(Complex.I * en * t * tau) = Complex.I * ((-(en * t * tau) : ℝ) : ℂ) by push_cast; ring]; exact hphase _
    have h3 := stateNorm_add (Complex.exp (Complex.I * en * t * tau) • ((e.U true ^ t).mulVec psi - evolved H (t * tau) psi))
      (Complex.exp (-(Complex.I * en * t * tau)) • ((e.U false ^ t).mulVec psi - evolved H (-(t * tau)) psi))
    rw [stateNorm_smul, stateNorm_smul, h1, h2, one_mul, one_mul] at h3
    have h4 := hf t ht.2
    have h5 := hb t ht.2
    have := mul_le_mul_of_nonneg_left (h3.trans (add_le_add h4 h5)) (hanning_nonneg t T)
    linarith
  refine (Finset.sum_le_sum hterm).trans ?_
  rw [← Finset.mul_sum, ← Finset.sum_mul]
  have := hanning_total T hT
  nlinarith

/-! ## Near and far states -/

theorem qe_far_energy (T : ℕ) (hT : 0 < T) (R eta x : ℝ) (hR : 0 < R) (h0 : 0 < eta) (h1 : eta ≤ |x|) (h2 : |x| ≤ R - eta) :
    |qeKernel T (x * (2 * Real.pi / R))| ≤ filterLeak T R eta := by
  obtain ⟨hs, hs0⟩ := sin_far R eta x hR h0 h1 h2
  have hp : 0 < Real.sin (Real.pi * eta / R) ^ 2 := by positivity
  refine (qe_far T hT _ (fun h => by rw [h] at hs; norm_num at hs; linarith [pow_pos hs0 2, hs.symm ▸ hs0])).trans ?_
  unfold filterLeak
  have hT' : (0 : ℝ) < T := by exact_mod_cast hT
  gcongr

theorem qe_near_energy (T : ℕ) (hT : 0 < T) (R x : ℝ) (hR : 0 < R) (h : |x| ≤ R / (8 * T)) :
    (T : ℝ) / 2 ≤ qeKernel T (x * (2 * Real.pi / R)) := by
  have hT' : (0 : ℝ) < T := by exact_mod_cast hT
  apply qe_near T hT
  have hpi := Real.pi_pos
  rw [abs_mul, abs_of_pos (by positivity : 0 < 2 * Real.pi / R)]
  calc |x| * (2 * Real.pi / R) * T ≤ R / (8 * T) * (2 * Real.pi / R) * T := by gcongr
    _ = Real.pi / 4 := by field_simp; norm_num

theorem basis_ne {H : Matrix (Fin n) (Fin n) ℂ} (hH : H.IsHermitian) (i : Fin n) : (hH.eigenvectorBasis i).ofLp ≠ 0 := by
  intro h
  have h1 : hH.eigenvectorBasis i = 0 := by ext k; rw [h]; rfl
  exact hH.eigenvectorBasis.orthonormal.ne_zero i h1

/-- The part of a state orthogonal to `u` has only components of eigenvectors orthogonal to `u`. -/
theorem rest_far {H : Matrix (Fin n) (Fin n) ℂ} (hH : H.IsHermitian) (u : CVec n) (hu : innerProd u u = 1) (eps : ℝ)
    (hue : H.mulVec u = (eps : ℂ) • u) (psi : CVec n) (hpsi : innerProd u psi = 0) (i : Fin n)
    (hi : innerProd (hH.eigenvectorBasis i) psi ≠ 0) :
    ∃ v : CVec n, v ≠ 0 ∧ innerProd u v = 0 ∧ H.mulVec v = ((hH.eigenvalues i : ℝ) : ℂ) • v := by
  set b : CVec n := (hH.eigenvectorBasis i).ofLp with hb
  have hbe : H.mulVec b = ((hH.eigenvalues i : ℝ) : ℂ) • b := by
    rw [hb, hH.mulVec_eigenvectorBasis i]
    ext k
    simp
  set c := innerProd u b with hc
  refine ⟨b - c • u, fun h => ?_, ?_, ?_⟩
  · apply hi
    have hbu : b = c • u := sub_eq_zero.1 h
    show innerProd b psi = 0
    rw [hbu, innerProd_smul_left, hpsi, mul_zero]
  · rw [sub_eq_add_neg, ← neg_smul, innerProd_add, innerProd_smul, hu, ← hc]
    ring
  · have h1 := innerProd_herm H hH u b
    rw [hbe, hue, innerProd_smul, innerProd_smul_left, ← hc, Complex.star_def, Complex.conj_ofReal] at h1
    rw [Matrix.mulVec_sub, Matrix.mulVec_smul, hbe, hue, smul_sub, smul_smul, smul_smul, h1, mul_comm c]

end Verif.Analysis

import Verif.Proof.RandomAvg
import Verif.Spec.Tbpm
import Mathlib.Probability.Independence.Integration

/-! # Moments of `⟨ψ|A|ψ⟩` over random states

Lemmas for C124. -/

open MeasureTheory ProbabilityTheory Set

namespace Verif.Tbpm

/-- Products of amplitudes are integrable. -/
theorem amp_int {n : ℕ} (F : CVec n → ℂ) (hF : Measurable F) {C : ℝ} (hC : ∀ x : CVec n, (∀ i, ‖x i‖ ≤ 1) → ‖F x‖ ≤ C) :
    Integrable (fun d => F (randomState d)) (drawLaw n) := by
  refine Integrable.of_bound (hF.comp (measurable_pi_lambda _ state_measurable)).aestronglyMeasurable C ?_
  filter_upwards [draws_ok] with d hd
  exact hC _ fun i => norm_le_one hd.1 i

theorem amp_meas {n : ℕ} {F : CVec n → ℂ} (hF : Measurable F) : Measurable fun d : Fin n → ℝ × ℝ => F (randomState d) :=
  hF.comp (measurable_pi_lambda _ state_measurable)

theorem quarter : Complex.exp (2 * Real.pi * ((1 / 4 : ℝ) : ℂ) * Complex.I) = Complex.I := by
  have : (2 * Real.pi * ((1 / 4 : ℝ) : ℂ) * Complex.I) = Real.pi / 2 * Complex.I := by push_cast; ring
  rw [this, Complex.exp_pi_div_two_mul_I]

/-- First moments of the amplitudes. -/
theorem amp_first {n : ℕ} (i j : Fin n) : ∫ d, star (randomState d i) * randomState d j ∂drawLaw n = if i = j then 1 / (n : ℂ) else 0 := by
  split_ifs with h
  · subst h
    have : ∫ d, star (randomState d i) * randomState d i ∂drawLaw n = ∫ d, ((share d i : ℝ) : ℂ) ∂drawLaw n := by
      refine integral_congr_ae ?_
      filter_upwards [draws_ok] with d hd using share_eq hd.1 i
    rw [this, integral_complex_ofReal, mean_share]
    push_cast; rfl
  · refine mean_zero (fun x => star (x i) * x j) (amp_meas (F := fun x => star (x i) * x j) (Continuous.measurable (by fun_prop))) j (c := 1 / 4) (by norm_num) (by norm_num) (ζ := Complex.I) ?_ ?_
    · intro hI
      have := congrArg Complex.re hI
      simp at this
    · intro x
      simp only [quarter, if_true, if_neg h, one_mul]
      ring

/-- Second moments of the amplitudes. -/
theorem amp_second {n : ℕ} (i j k l : Fin n) :
    ∫ d, star (randomState d i) * randomState d j * (randomState d k * star (randomState d l)) ∂drawLaw n =
      ((if i = j ∧ k = l then 1 else 0) + (if i = k ∧ j = l then 1 else 0)) / (n * (n + 1)) := by
  have mz : ∀ p : Fin n, (if i = p then -Complex.I else 1) * (if j = p then Complex.I else 1) * ((if k = p then Complex.I else 1) * (if l = p then -Complex.I else 1)) ≠ 1 →
      ∫ d, star (randomState d i) * randomState d j * (randomState d k * star (randomState d l)) ∂drawLaw n = 0 := by
    intro p hp
    refine mean_zero (fun x => star (x i) * x j * (x k * star (x l)))
      (amp_meas (F := fun x => star (x i) * x j * (x k * star (x l))) (Continuous.measurable (by fun_prop))) p (c := 1 / 4) (by norm_num) (by norm_num) hp ?_
    intro x
    simp only [quarter]
    have hs : ∀ q : Fin n, star ((if q = p then Complex.I else 1) * x q) = (if q = p then -Complex.I else 1) * star (x q) := by
      intro q
      split_ifs
      · rw [star_mul', Complex.star_def, Complex.conj_I]
      · rw [one_mul, one_mul]
    rw [hs, hs]
    ring
  have hsh : ∀ a b : Fin n, ∫ d, star (randomState d a) * randomState d a * (star (randomState d b) * randomState d b) ∂drawLaw n =
      (if a = b then 2 else 1) / (n * (n + 1)) := by
    intro a b
    have : ∫ d, star (randomState d a) * randomState d a * (star (randomState d b) * randomState d b) ∂drawLaw n =
        ∫ d, ((share d a * share d b : ℝ) : ℂ) ∂drawLaw n := by
      refine integral_congr_ae ?_
      filter_upwards [draws_ok] with d hd
      rw [share_eq hd.1, share_eq hd.1, Complex.ofReal_mul]
    rw [this, integral_complex_ofReal, share_second]
    push_cast
    split_ifs <;> norm_num
  by_cases h1 : i = j
  · subst h1
    by_cases h2 : k = l
    · subst h2
      have e : ∀ d : Fin n → ℝ × ℝ, star (randomState d i) * randomState d i * (randomState d k * star (randomState d k)) =
          star (randomState d i) * randomState d i * (star (randomState d k) * randomState d k) := fun d => by ring
      simp only [e]
      rw [hsh]
      by_cases h3 : i = k
      · simp [h3]; norm_num
      · simp [h3]
    · rw [mz l ?_]
      · have h3 : ¬ (i = k ∧ i = l) := fun h => h2 (h.1.symm.trans h.2)
        simp [h2, h3]
      · rw [if_neg h2, if_pos rfl]
        by_cases h3 : i = l
        · rw [if_pos h3, if_pos h3]
          intro h
          have := congrArg Complex.re h
          simp at this
        · rw [if_neg h3, if_neg h3]
          intro h
          have := congrArg Complex.re h
          simp at this
  · by_cases h2 : i = k
    · subst h2
      by_cases h3 : j = l
      · subst h3
        have e : ∀ d : Fin n → ℝ × ℝ, star (randomState d i) * randomState d j * (randomState d i * star (randomState d j)) =
            star (randomState d i) * randomState d i * (star (randomState d j) * randomState d j) := fun d => by ring
        simp only [e]
        rw [hsh]
        simp [h1]
      · rw [mz j ?_]
        · simp [h1, h3]
        · rw [if_neg h1, if_neg h1, if_pos rfl, if_neg (Ne.symm h3)]
          intro h
          have := congrArg Complex.re h
          simp at this
    · rw [mz i ?_]
      · simp [h1, h2]
      · rw [if_pos rfl, if_neg (Ne.symm h1), if_neg (Ne.symm h2)]
        by_cases h3 : l = i
        · rw [if_pos h3]
          intro h
          have := congrArg Complex.re h
          simp at this
          norm_num at this
        · rw [if_neg h3]
          intro h
          have := congrArg Complex.re h
          simp at this


/-- The form `⟨x|A|x⟩`. -/
theorem form_expand {n : ℕ} (A : Matrix (Fin n) (Fin n) ℂ) (x : CVec n) : innerProd x (A.mulVec x) = ∑ i, ∑ j, A i j * (star (x i) * x j) := by
  unfold innerProd
  refine Finset.sum_congr rfl fun i _ => ?_
  rw [Matrix.mulVec, dotProduct, Finset.mul_sum]
  exact Finset.sum_congr rfl fun j _ => by ring

theorem form_meas {n : ℕ} (A : Matrix (Fin n) (Fin n) ℂ) : Measurable fun d : Fin n → ℝ × ℝ => innerProd (randomState d) (A.mulVec (randomState d)) := by
  simp only [form_expand]
  exact amp_meas (F := fun x => ∑ i, ∑ j, A i j * (star (x i) * x j)) (Continuous.measurable (by fun_prop))

theorem amp1_int {n : ℕ} (i j : Fin n) : Integrable (fun d => star (randomState d i) * randomState d j) (drawLaw n) :=
  amp_int (fun x => star (x i) * x j) (Continuous.measurable (by fun_prop)) (C := 1) fun x hx => by
    rw [norm_mul, norm_star]
    exact mul_le_one₀ (hx i) (norm_nonneg _) (hx j)

theorem amp2_int {n : ℕ} (i j k l : Fin n) :
    Integrable (fun d => star (randomState d i) * randomState d j * (randomState d k * star (randomState d l))) (drawLaw n) :=
  amp_int (fun x => star (x i) * x j * (x k * star (x l))) (Continuous.measurable (by fun_prop)) (C := 1) fun x hx => by
    rw [norm_mul, norm_mul, norm_mul, norm_star, norm_star]
    exact mul_le_one₀ (mul_le_one₀ (hx i) (norm_nonneg _) (hx j)) (by positivity) (mul_le_one₀ (hx k) (norm_nonneg _) (hx l))

theorem form_int {n : ℕ} (A : Matrix (Fin n) (Fin n) ℂ) : Integrable (fun d => innerProd (randomState d) (A.mulVec (randomState d))) (drawLaw n) := by
  simp only [form_expand]
  exact integrable_finsetSum _ fun i _ => integrable_finsetSum _ fun j _ => (amp1_int i j).const_mul _

/-- The mean of `⟨ψ|A|ψ⟩`. -/
theorem form_mean {n : ℕ} (A : Matrix (Fin n) (Fin n) ℂ) :
    ∫ d, innerProd (randomState d) (A.mulVec (randomState d)) ∂drawLaw n = A.trace / n := by
  simp only [form_expand]
  have h : ∀ i : Fin n, Integrable (fun d => ∑ j, A i j * (star (randomState d i) * randomState d j)) (drawLaw n) :=
    fun i => integrable_finsetSum _ fun j _ => (amp1_int i j).const_mul _
  rw [integral_finsetSum _ fun i _ => h i, Matrix.trace, Finset.sum_div]
  refine Finset.sum_congr rfl fun i _ => ?_
  rw [integral_finsetSum _ fun j _ => (amp1_int i j).const_mul (A i j), Matrix.diag]
  simp only [integral_const_mul, amp_first]
  simp only [mul_ite, mul_zero, Finset.sum_ite_eq, Finset.mem_univ, if_true]
  ring

theorem form_sq {n : ℕ} (A : Matrix (Fin n) (Fin n) ℂ) (x : CVec n) : innerProd x (A.mulVec x) * star (innerProd x (A.mulVec x)) =
    ∑ i, ∑ j, ∑ k, ∑ l, A i j * star (A k l) * (star (x i) * x j * (x k * star (x l))) := by
  rw [form_expand]
  simp only [star_sum, star_mul', star_star, Finset.sum_mul]
  simp only [Finset.mul_sum]
  refine Finset.sum_congr rfl fun i _ => Finset.sum_congr rfl fun j _ => Finset.sum_congr rfl fun k _ => Finset.sum_congr rfl fun l _ => ?_
  ring

theorem form_sq_int {n : ℕ} (A : Matrix (Fin n) (Fin n) ℂ) :
    Integrable (fun d => innerProd (randomState d) (A.mulVec (randomState d)) * star (innerProd (randomState d) (A.mulVec (randomState d)))) (drawLaw n) := by
  simp only [form_sq]
  exact integrable_finsetSum _ fun i _ => integrable_finsetSum _ fun j _ => integrable_finsetSum _ fun k _ => integrable_finsetSum _ fun l _ =>
    (amp2_int i j k l).const_mul _

/-- The mean of `|⟨ψ|A|ψ⟩|²`. -/
theorem form_second {n : ℕ} (A : Matrix (Fin n) (Fin n) ℂ) :
    ∫ d, innerProd (randomState d) (A.mulVec (randomState d)) * star (innerProd (randomState d) (A.mulVec (randomState d))) ∂drawLaw n =
      (A.trace * star A.trace + ∑ i, ∑ j, A i j * star (A i j)) / (n * (n + 1)) := by
  simp only [form_sq]
  rw [integral_finsetSum _ fun i _ => integrable_finsetSum _ fun j _ => integrable_finsetSum _ fun k _ => integrable_finsetSum _ fun l _ =>
    (amp2_int i j k l).const_mul _]
  have e : ∀ i : Fin n, ∫ d, ∑ j, ∑ k, ∑ l, A i j * star (A k l) * (star (randomState d i) * randomState d j * (randomState d k * star (randomState d l))) ∂drawLaw n =
      ∑ j, ∑ k, ∑ l, A i j * star (A k l) * (((if i = j ∧ k = l then 1 else 0) + (if i = k ∧ j = l then 1 else 0)) / (n * (n + 1))) := by
    intro i
    rw [integral_finsetSum _ fun j _ => integrable_finsetSum _ fun k _ => integrable_finsetSum _ fun l _ => (amp2_int i j k l).const_mul _]
    refine Finset.sum_congr rfl fun j _ => ?_
    rw [integral_finsetSum _ fun k _ => integrable_finsetSum _ fun l _ => (amp2_int i j k l).const_mul _]
    refine Finset.sum_congr rfl fun k _ => ?_
    rw [integral_finsetSum _ fun l _ => (amp2_int i j k l).const_mul _]
    refine Finset.sum_congr rfl fun l _ => ?_
    rw [integral_const_mul, amp_second]
  simp only [e]
  have e2 : ∀ i j k l : Fin n, A i j * star (A k l) * (((if i = j ∧ k = l then (1 : ℂ) else 0) + (if i = k ∧ j = l then 1 else 0)) / (n * (n + 1))) =
      ((if i = j then (if k = l then A i j * star (A k l) else 0) else 0) + (if i = k then (if j = l then A i j * star (A k l) else 0) else 0)) / (n * (n + 1)) := by
    intro i j k l
    rw [← ite_and, ← ite_and, mul_div_assoc', mul_add, mul_ite, mul_one, mul_zero, mul_ite, mul_one, mul_zero]
  simp only [e2, ← Finset.sum_div, Finset.sum_add_distrib]
  congr 2
  · have : ∀ i : Fin n, ∑ j, ∑ k, ∑ l, (if i = j then (if k = l then A i j * star (A k l) else 0) else 0) = A i i * star A.trace := by
      intro i
      rw [Finset.sum_eq_single i]
      · simp only [if_true, Finset.sum_ite_eq, Finset.mem_univ]
        rw [← Finset.mul_sum, Matrix.trace, star_sum]; rfl
      · intro j _ hj; simp [Ne.symm hj]
      · simp
    simp only [this]
    rw [← Finset.sum_mul]; rfl
  · refine Finset.sum_congr rfl fun i _ => Finset.sum_congr rfl fun j _ => ?_
    rw [Finset.sum_eq_single i]
    · simp
    · intro k _ hk; simp [Ne.symm hk]
    · simp

/-- The spread of a random number about its mean. -/
theorem sq_dev {Ω : Type*} [MeasurableSpace Ω] (P : Measure Ω) [IsProbabilityMeasure P] (X : Ω → ℂ) (h1 : Integrable X P)
    (h2 : Integrable (fun d => X d * star (X d)) P) (m : ℂ) (hm : ∫ d, X d ∂P = m) :
    ∫ d, (X d - m) * star (X d - m) ∂P = (∫ d, X d * star (X d) ∂P) - m * star m := by
  have hs : Integrable (fun d => star (X d)) P := (LinearIsometryEquiv.integrable_comp_iff (starₗᵢ ℂ)).mpr h1
  have hsm : ∫ d, star (X d) ∂P = star m := by
    have := integral_conj (μ := P) (f := X)
    rw [hm] at this
    exact this
  have e : ∀ d, (X d - m) * star (X d - m) = (X d * star (X d) + m * star m) - (star m * X d + m * star (X d)) := by
    intro d
    rw [star_sub]; ring
  simp only [e]
  have i1 : Integrable (fun d => X d * star (X d) + m * star m) P := h2.add (integrable_const _)
  have i2 : Integrable (fun d => star m * X d + m * star (X d)) P := (h1.const_mul _).add (hs.const_mul _)
  rw [integral_sub i1 i2, integral_add h2 (integrable_const _),
    integral_add (h1.const_mul _) (hs.const_mul _), integral_const_mul (star m) X, integral_const_mul m (fun d => star (X d)), hm, hsm]
  simp only [integral_const, probReal_univ, one_smul]
  ring

theorem norm_sq_star (z : ℂ) : ((‖z‖ ^ 2 : ℝ) : ℂ) = z * star z := by
  rw [Complex.star_def, Complex.mul_conj, Complex.normSq_eq_norm_sq]

/-- The variance of `⟨ψ|A|ψ⟩`. -/
theorem form_var {n : ℕ} (hn : 0 < n) (A : Matrix (Fin n) (Fin n) ℂ) :
    ∫ d, ‖innerProd (randomState d) (A.mulVec (randomState d)) - A.trace / n‖ ^ 2 ∂drawLaw n =
      (n * ∑ i, ∑ j, ‖A i j‖ ^ 2 - ‖A.trace‖ ^ 2) / (n ^ 2 * (n + 1)) := by
  have hn0 : (n : ℂ) ≠ 0 := by exact_mod_cast hn.ne'
  apply Complex.ofReal_injective
  rw [← integral_complex_ofReal]
  simp only [norm_sq_star]
  rw [sq_dev _ _ (form_int A) (form_sq_int A) _ (form_mean A), form_second]
  have hf : ∀ i j, ((‖A i j‖ : ℂ)) ^ 2 = A i j * star (A i j) := fun i j => by rw [← norm_sq_star]; push_cast; rfl
  have ht : ((‖A.trace‖ : ℂ)) ^ 2 = A.trace * star A.trace := by rw [← norm_sq_star]; push_cast; rfl
  push_cast
  simp only [hf, ht, star_div₀, star_natCast]
  have hn1 : (n : ℂ) + 1 ≠ 0 := by exact_mod_cast Nat.succ_ne_zero n
  field_simp
  ring

/-- The matrix of a product of two transformed states. -/
theorem inner_adjoint {n : ℕ} (A B : Matrix (Fin n) (Fin n) ℂ) (x : CVec n) :
    innerProd (A.mulVec x) (B.mulVec x) = innerProd x ((A.conjTranspose * B).mulVec x) := by
  change star (A.mulVec x) ⬝ᵥ B.mulVec x = star x ⬝ᵥ (A.conjTranspose * B).mulVec x
  rw [Matrix.star_mulVec, ← Matrix.mulVec_mulVec, ← Matrix.dotProduct_mulVec]

/-! Means over several samples -/

section
variable {Ω : Type*} [MeasurableSpace Ω] {P : Measure Ω} [IsProbabilityMeasure P] {n : ℕ} {D : ℤ → Ω → Fin n → ℝ × ℝ}

theorem draws_mean (h : IdealDraws P D) (A : Matrix (Fin n) (Fin n) ℂ) (s : ℤ) :
    Integrable (fun ω => innerProd (randomState (D s ω)) (A.mulVec (randomState (D s ω)))) P ∧
    ∫ ω, innerProd (randomState (D s ω)) (A.mulVec (randomState (D s ω))) ∂P = A.trace / n := by
  constructor
  · have := form_int A
    rw [← h.law s] at this
    exact (integrable_map_measure (form_meas A).aestronglyMeasurable (h.meas s).aemeasurable).1 this
  · rw [← form_mean A, ← h.law s, integral_map (h.meas s).aemeasurable (form_meas A).aestronglyMeasurable]

/-- The mean over the samples has the right mean. -/
theorem samples_mean (h : IdealDraws P D) (A : Matrix (Fin n) (Fin n) ℂ) (seed : ℤ) {N : ℕ} (hN : N ≠ 0) :
    ∫ ω, meanSamples ℂ N seed (fun s => innerProd (randomState (D s ω)) (A.mulVec (randomState (D s ω)))) ∂P = A.trace / n := by
  unfold meanSamples
  rw [integral_smul, integral_finsetSum _ fun j _ => (draws_mean h A _).1]
  simp only [(draws_mean h A _).2, Finset.sum_const, Finset.card_range, nsmul_eq_mul, smul_eq_mul]
  have : (N : ℂ) ≠ 0 := by exact_mod_cast hN
  field_simp

/-- Deviations of different samples are uncorrelated. -/
theorem samples_cov (h : IdealDraws P D) (A : Matrix (Fin n) (Fin n) ℂ) {s t : ℤ} (hst : s ≠ t) :
    ∫ ω, (innerProd (randomState (D s ω)) (A.mulVec (randomState (D s ω))) - A.trace / n) *
      star (innerProd (randomState (D t ω)) (A.mulVec (randomState (D t ω))) - A.trace / n) ∂P = 0 := by
  have hm := (form_meas A).sub_const (A.trace / n)
  have := (h.indep hst).integral_fun_comp_mul_comp (h.meas s).aemeasurable (h.meas t).aemeasurable
    (f := fun d => innerProd (randomState d) (A.mulVec (randomState d)) - A.trace / n)
    (g := fun d => star (innerProd (randomState d) (A.mulVec (randomState d)) - A.trace / n))
    hm.aestronglyMeasurable (continuous_star.measurable.comp hm).aestronglyMeasurable
  rw [this, integral_sub (draws_mean h A s).1 (integrable_const _), (draws_mean h A s).2]
  simp

theorem dev_int (h : IdealDraws P D) (A : Matrix (Fin n) (Fin n) ℂ) (s t : ℤ) :
    Integrable (fun ω => (innerProd (randomState (D s ω)) (A.mulVec (randomState (D s ω))) - A.trace / n) *
      star (innerProd (randomState (D t ω)) (A.mulVec (randomState (D t ω))) - A.trace / n)) P := by
  have hb : ∀ s, ∀ᵐ ω ∂P, ‖innerProd (randomState (D s ω)) (A.mulVec (randomState (D s ω))) - A.trace / n‖ ≤
      (∑ i, ∑ j, ‖A i j‖) + ‖A.trace / n‖ := by
    intro s
    have h1 : ∀ᵐ d ∂drawLaw n, ‖innerProd (randomState d) (A.mulVec (randomState d)) - A.trace / n‖ ≤
        (∑ i, ∑ j, ‖A i j‖) + ‖A.trace / n‖ := by
      filter_upwards [draws_ok] with d hd
      refine (norm_sub_le _ _).trans (add_le_add ?_ le_rfl)
      rw [form_expand]
      refine (norm_sum_le _ _).trans (Finset.sum_le_sum fun i _ => (norm_sum_le _ _).trans (Finset.sum_le_sum fun j _ => ?_))
      rw [norm_mul, norm_mul, norm_star]
      exact mul_le_of_le_one_right (norm_nonneg _) (mul_le_one₀ (norm_le_one hd.1 i) (norm_nonneg _) (norm_le_one hd.1 j))
    rw [← h.law s] at h1
    exact ae_of_ae_map (h.meas s).aemeasurable h1
  have hm : ∀ s, Measurable fun ω => innerProd (randomState (D s ω)) (A.mulVec (randomState (D s ω))) - A.trace / n :=
    fun s => ((form_meas A).sub_const (A.trace / n)).comp (h.meas s)
  refine Integrable.of_bound ((hm s).mul (continuous_star.measurable.comp (hm t))).aestronglyMeasurable
    (((∑ i, ∑ j, ‖A i j‖) + ‖A.trace / n‖) * ((∑ i, ∑ j, ‖A i j‖) + ‖A.trace / n‖)) ?_
  filter_upwards [hb s, hb t] with ω h1 h2
  rw [norm_mul, norm_star]
  exact mul_le_mul h1 h2 (norm_nonneg _) ((norm_nonneg _).trans h1)

/-- The variance of the mean over the samples. -/
theorem samples_var (hn : 0 < n) (h : IdealDraws P D) (A : Matrix (Fin n) (Fin n) ℂ) {seed : ℤ} (hs : seed ≠ 0) {N : ℕ} (hN : N ≠ 0) :
    ∫ ω, ‖meanSamples ℂ N seed (fun s => innerProd (randomState (D s ω)) (A.mulVec (randomState (D s ω)))) - A.trace / n‖ ^ 2 ∂P =
      (n * ∑ i, ∑ j, ‖A i j‖ ^ 2 - ‖A.trace‖ ^ 2) / (n ^ 2 * (n + 1)) / N := by
  have hN0 : (N : ℂ) ≠ 0 := by exact_mod_cast hN
  have hone : ∀ s, ∫ ω, (innerProd (randomState (D s ω)) (A.mulVec (randomState (D s ω))) - A.trace / n) *
      star (innerProd (randomState (D s ω)) (A.mulVec (randomState (D s ω))) - A.trace / n) ∂P =
      (((n * ∑ i, ∑ j, ‖A i j‖ ^ 2 - ‖A.trace‖ ^ 2) / (n ^ 2 * (n + 1)) : ℝ) : ℂ) := by
    intro s
    rw [← form_var hn A, ← integral_complex_ofReal]
    simp only [norm_sq_star]
    have hm := (form_meas A).sub_const (A.trace / n)
    rw [← h.law s]
    exact (integral_map (h.meas s).aemeasurable (hm.mul (continuous_star.measurable.comp hm)).aestronglyMeasurable).symm
  set V : ℝ := (n * ∑ i, ∑ j, ‖A i j‖ ^ 2 - ‖A.trace‖ ^ 2) / (n ^ 2 * (n + 1))
  set Y : ℤ → Ω → ℂ := fun s ω => innerProd (randomState (D s ω)) (A.mulVec (randomState (D s ω))) - A.trace / n with hY
  have e : ∀ ω, ((‖meanSamples ℂ N seed (fun s => innerProd (randomState (D s ω)) (A.mulVec (randomState (D s ω)))) - A.trace / n‖ ^ 2 : ℝ) : ℂ) =
      ((N : ℂ) ^ 2)⁻¹ * ∑ j ∈ Finset.range N, ∑ k ∈ Finset.range N, Y (seed * (j + 1)) ω * star (Y (seed * (k + 1)) ω) := by
    intro ω
    have e1 : meanSamples ℂ N seed (fun s => innerProd (randomState (D s ω)) (A.mulVec (randomState (D s ω)))) - A.trace / n =
        (N : ℂ)⁻¹ * ∑ j ∈ Finset.range N, Y (seed * (j + 1)) ω := by
      simp only [meanSamples, hY, Finset.sum_sub_distrib, Finset.sum_const, Finset.card_range, nsmul_eq_mul, smul_eq_mul]
      field_simp
    rw [norm_sq_star, e1, star_mul', star_inv₀, star_natCast, star_sum, ← Finset.sum_mul_sum]
    ring
  apply Complex.ofReal_injective
  rw [← integral_complex_ofReal]
  simp only [e]
  have i2 : ∀ j ∈ Finset.range N, Integrable (fun ω => ∑ k ∈ Finset.range N, Y (seed * (j + 1)) ω * star (Y (seed * (k + 1)) ω)) P :=
    fun j _ => integrable_finsetSum _ fun k _ => dev_int h A _ _
  rw [integral_const_mul, integral_finsetSum _ i2]
  have i3 : ∀ j ∈ Finset.range N, ∫ ω, ∑ k ∈ Finset.range N, Y (seed * (j + 1)) ω * star (Y (seed * (k + 1)) ω) ∂P = (V : ℂ) := by
    intro j hj
    rw [integral_finsetSum _ fun k _ => dev_int h A _ _, Finset.sum_eq_single j]
    · exact hone _
    · intro k _ hk
      refine samples_cov h A fun he => hk ?_
      have := mul_left_cancel₀ hs he
      omega
    · intro h'; exact absurd hj h'
  rw [Finset.sum_congr rfl i3, Finset.sum_const, Finset.card_range, nsmul_eq_mul]
  push_cast
  field_simp

end

end Verif.Tbpm

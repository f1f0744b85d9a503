import Verif.Props.Kernel
import Verif.Spec.RandomAvg
import Mathlib.Probability.Distributions.Exponential
import Mathlib.MeasureTheory.Group.Prod
import Mathlib.MeasureTheory.Constructions.Pi
import Mathlib.MeasureTheory.Integral.Prod
import Mathlib.Analysis.SpecialFunctions.Integrals.Basic

open MeasureTheory Set

/-! # Averages over random states

Lemmas for C124: the states made by `random_state` (random.f90:36-69) from independent uniform numbers. -/

namespace Verif.Tbpm

instance : IsProbabilityMeasure unif := ⟨by simp [unif]⟩

instance (n : ℕ) : IsProbabilityMeasure (drawLaw n) := by unfold drawLaw; infer_instance

/-- Rotation of a phase by a fraction `c` of the circle. -/
noncomputable def turn (c g : ℝ) : ℝ := if g < 1 - c then g + c else g + (c - 1)

theorem turn_measurable (c : ℝ) : Measurable (turn c) :=
  Measurable.ite (measurableSet_lt measurable_id measurable_const) (measurable_id.add_const _) (measurable_id.add_const _)

theorem turn_mp {c : ℝ} (h0 : 0 ≤ c) (h1 : c ≤ 1) : MeasurePreserving (turn c) unif unif := by
  refine ⟨turn_measurable c, ?_⟩
  ext S hS
  rw [Measure.map_apply (turn_measurable c) hS, unif, Measure.restrict_apply (turn_measurable c hS), Measure.restrict_apply hS]
  have e1 : turn c ⁻¹' S ∩ Ico 0 1 = ((fun x => x + c) ⁻¹' (S ∩ Ico c 1)) ∪ ((fun x => x + (c - 1)) ⁻¹' (S ∩ Ico 0 c)) := by
    ext x
    simp only [mem_inter_iff, mem_preimage, mem_Ico, mem_union, turn]
    split_ifs with h
    · constructor
      · rintro ⟨a, b, d⟩; exact Or.inl ⟨a, by linarith, by linarith⟩
      · rintro (⟨a, b, d⟩ | ⟨a, b, d⟩)
        · exact ⟨a, by linarith, by linarith⟩
        · exact absurd b (by linarith)
    · constructor
      · rintro ⟨a, b, d⟩; exact Or.inr ⟨a, by linarith, by linarith⟩
      · rintro (⟨a, b, d⟩ | ⟨a, b, d⟩)
        · exact absurd d (by linarith)
        · exact ⟨a, by linarith, by linarith⟩
  have hm1 : MeasurableSet (S ∩ Ico c 1) := hS.inter measurableSet_Ico
  have hm2 : MeasurableSet (S ∩ Ico 0 c) := hS.inter measurableSet_Ico
  have hm3 : MeasurableSet ((fun x : ℝ => x + (c - 1)) ⁻¹' (S ∩ Ico 0 c)) := (measurable_id.add_const _) hm2
  rw [e1, measure_union _ hm3, measure_preimage_add_right, measure_preimage_add_right, ← measure_union _ hm2,
    ← inter_union_distrib_left, union_comm, Ico_union_Ico_eq_Ico h0 h1]
  · rw [disjoint_iff_inter_eq_empty]; ext x; simp; intro _ a b _ d; linarith
  · rw [disjoint_iff_inter_eq_empty]
    ext x
    simp
    intro _ a b _ d; linarith

theorem turn_exp (c g : ℝ) : Complex.exp ⟨0, 2 * Real.pi * turn c g⟩ = Complex.exp (2 * Real.pi * c * Complex.I) * Complex.exp ⟨0, 2 * Real.pi * g⟩ := by
  have h : ∀ x : ℝ, (⟨0, 2 * Real.pi * x⟩ : ℂ) = 2 * Real.pi * x * Complex.I := by
    intro x; apply Complex.ext <;> simp
  rw [h, h, ← Complex.exp_add]
  unfold turn
  split_ifs
  · congr 1; push_cast; ring
  · rw [Complex.exp_eq_exp_iff_exists_int]
    exact ⟨-1, by push_cast; ring⟩

/-- Rotation of the phase of one amplitude. -/
noncomputable def turnAt {n : ℕ} (j : Fin n) (c : ℝ) (d : Fin n → ℝ × ℝ) : Fin n → ℝ × ℝ :=
  fun i => if i = j then ((d i).1, turn c (d i).2) else d i

theorem turnAt_mp {n : ℕ} (j : Fin n) {c : ℝ} (h0 : 0 ≤ c) (h1 : c ≤ 1) : MeasurePreserving (turnAt j c) (drawLaw n) (drawLaw n) := by
  have := measurePreserving_pi (fun _ : Fin n => unif.prod unif) (fun _ : Fin n => unif.prod unif)
    (f := fun i (p : ℝ × ℝ) => if i = j then (p.1, turn c p.2) else p) (by
      intro i
      by_cases h : i = j
      · simp only [h, if_true]
        exact (MeasurePreserving.id unif).prod (turn_mp h0 h1)
      · simp only [h, if_false]
        exact MeasurePreserving.id _)
  exact this

theorem turnAt_state {n : ℕ} (j : Fin n) (c : ℝ) (d : Fin n → ℝ × ℝ) (k : Fin n) :
    randomState (turnAt j c d) k = (if k = j then Complex.exp (2 * Real.pi * c * Complex.I) else 1) * randomState d k := by
  have h1 : ∀ i, (turnAt j c d i).1 = (d i).1 := by
    intro i; unfold turnAt; split_ifs <;> rfl
  unfold randomState
  simp only [h1]
  split_ifs with h
  · rw [show (turnAt j c d k).2 = turn c (d k).2 by simp [turnAt, h], turn_exp]
    ring
  · rw [show (turnAt j c d k).2 = (d k).2 by simp [turnAt, h]]
    ring

theorem state_measurable {n : ℕ} (k : Fin n) : Measurable fun d : Fin n → ℝ × ℝ => randomState d k := by
  have h2 : ∀ i : Fin n, Measurable fun d : Fin n → ℝ × ℝ => -1 * Real.log (1 - (d i).1) := fun i =>
    (Real.measurable_log.comp (measurable_const.sub (measurable_fst.comp (measurable_pi_apply i)))).const_mul _
  have h3 : Measurable fun d : Fin n → ℝ × ℝ => Real.sqrt (∑ i, -1 * Real.log (1 - (d i).1)) :=
    Real.continuous_sqrt.measurable.comp (Finset.measurable_sum _ fun i _ => h2 i)
  have h4 : Measurable fun d : Fin n → ℝ × ℝ => Complex.exp ⟨0, 2 * Real.pi * (d k).2⟩ := by
    have : (fun d : Fin n → ℝ × ℝ => Complex.exp ⟨0, 2 * Real.pi * (d k).2⟩) =
        fun d => Complex.exp ((2 * Real.pi * (d k).2 : ℝ) * Complex.I) := by
      funext d; congr 1; apply Complex.ext <;> simp
    rw [this]
    exact Complex.measurable_exp.comp ((Complex.measurable_ofReal.comp ((measurable_snd.comp (measurable_pi_apply k)).const_mul _)).mul_const _)
  exact ((Complex.measurable_ofReal.comp (Real.continuous_sqrt.measurable.comp (h2 k))).mul h4).div (Complex.measurable_ofReal.comp h3)

/-- A quantity which is multiplied by `ζ ≠ 1` when a phase is rotated has mean zero. -/
theorem mean_zero {n : ℕ} (F : CVec n → ℂ) (hF : Measurable fun d : Fin n → ℝ × ℝ => F (randomState d)) (j : Fin n) {c : ℝ} (h0 : 0 ≤ c) (h1 : c ≤ 1) {ζ : ℂ} (hζ : ζ ≠ 1)
    (hrot : ∀ x : CVec n, F (fun k => (if k = j then Complex.exp (2 * Real.pi * c * Complex.I) else 1) * x k) = ζ * F x) :
    ∫ d, F (randomState d) ∂drawLaw n = 0 := by
  have hm := turnAt_mp j h0 h1
  have e : ∫ d, F (randomState d) ∂drawLaw n = ∫ d, F (randomState (turnAt j c d)) ∂drawLaw n := by
    conv_lhs => rw [← hm.map_eq]
    rw [integral_map hm.measurable.aemeasurable hF.aestronglyMeasurable]
  have e2 : ∀ d, F (randomState (turnAt j c d)) = ζ * F (randomState d) := by
    intro d
    rw [← hrot]
    congr 1
    funext k
    exact turnAt_state j c d k
  simp only [e2] at e
  rw [integral_const_mul] at e
  have : (1 - ζ) * ∫ d, F (randomState d) ∂drawLaw n = 0 := by
    linear_combination e
  rcases mul_eq_zero.1 this with h | h
  · exact absurd (by linear_combination -h) hζ
  · exact h

/-- Renaming of the orbitals. -/
theorem perm_mp {n : ℕ} (σ : Equiv.Perm (Fin n)) : MeasurePreserving (fun (d : Fin n → ℝ × ℝ) k => d (σ k)) (drawLaw n) (drawLaw n) := by
  have := measurePreserving_piCongrLeft (α := fun _ : Fin n => ℝ × ℝ) (fun _ : Fin n => unif.prod unif) σ.symm
  convert! this using 1
  funext d k
  have h := Equiv.piCongrLeft_apply_apply (fun _ : Fin n => ℝ × ℝ) σ.symm d (σ k)
  simp only [Equiv.symm_apply_apply] at h
  exact h.symm

theorem perm_state {n : ℕ} (σ : Equiv.Perm (Fin n)) (d : Fin n → ℝ × ℝ) (k : Fin n) : randomState (fun i => d (σ i)) k = randomState d (σ k) := by
  unfold randomState
  simp only
  congr 3
  exact Equiv.sum_comp σ fun i => -1 * Real.log (1 - (d i).1)


/-- Every number drawn is in `[0, 1)`, and some first number is not zero. -/
theorem draws_ok {n : ℕ} : ∀ᵐ d ∂drawLaw n, (∀ i, 0 ≤ (d i).1 ∧ (d i).1 < 1) ∧ ∀ i, (d i).1 ≠ 0 := by
  have h1 : ∀ i : Fin n, ∀ᵐ d ∂drawLaw n, (0 ≤ (d i).1 ∧ (d i).1 < 1) ∧ (d i).1 ≠ 0 := by
    intro i
    have hu : ∀ᵐ x ∂unif, (0 ≤ x ∧ x < 1) ∧ x ≠ 0 := by
      have a : ∀ᵐ x ∂unif, x ∈ Ico (0 : ℝ) 1 := ae_restrict_mem measurableSet_Ico
      have b : ∀ᵐ x ∂unif, x ≠ 0 := by
        refine ae_restrict_of_ae ?_
        exact Measure.ae_ne volume 0
      filter_upwards [a, b] with x ha hb using ⟨ha, hb⟩
    have h2 : ∀ᵐ p ∂unif.prod unif, (0 ≤ p.1 ∧ p.1 < 1) ∧ p.1 ≠ 0 := Measure.quasiMeasurePreserving_fst.ae hu
    exact (measurePreserving_eval (fun _ : Fin n => unif.prod unif) i).quasiMeasurePreserving.ae h2
  filter_upwards [ae_all_iff.2 h1] with d hd using ⟨fun i => (hd i).1, fun i => (hd i).2⟩

/-- The share of an orbital in the norm. -/
noncomputable def share {n : ℕ} (d : Fin n → ℝ × ℝ) (k : Fin n) : ℝ := -1 * Real.log (1 - (d k).1) / ∑ i, -1 * Real.log (1 - (d i).1)

theorem log_nonneg' {x : ℝ} (h : 0 ≤ x ∧ x < 1) : 0 ≤ -1 * Real.log (1 - x) := by
  have := Real.log_nonpos (by linarith [h.2] : (0 : ℝ) ≤ 1 - x) (by linarith [h.1])
  linarith

theorem log_pos' {x : ℝ} (h : 0 ≤ x ∧ x < 1) (hx : x ≠ 0) : 0 < -1 * Real.log (1 - x) := by
  have := Real.log_neg (by linarith [h.2] : (0 : ℝ) < 1 - x) (by have := lt_of_le_of_ne h.1 (Ne.symm hx); linarith)
  linarith

theorem share_eq {n : ℕ} {d : Fin n → ℝ × ℝ} (h : ∀ i, 0 ≤ (d i).1 ∧ (d i).1 < 1) (k : Fin n) :
    star (randomState d k) * randomState d k = (share d k : ℂ) := by
  have hs : 0 ≤ ∑ i, -1 * Real.log (1 - (d i).1) := Finset.sum_nonneg fun i _ => log_nonneg' (h i)
  have e0 : star (Complex.exp ⟨0, 2 * Real.pi * (d k).2⟩) * Complex.exp ⟨0, 2 * Real.pi * (d k).2⟩ = 1 := by
    rw [Complex.star_def, ← Complex.exp_conj, ← Complex.exp_add]
    have : (starRingEnd ℂ) ⟨0, 2 * Real.pi * (d k).2⟩ + ⟨0, 2 * Real.pi * (d k).2⟩ = 0 := by
      apply Complex.ext <;> simp
    rw [this, Complex.exp_zero]
  unfold randomState share
  simp only
  rw [star_div₀, star_mul']
  have hr : ∀ x : ℝ, star (x : ℂ) = x := Complex.conj_ofReal
  rw [hr, hr]
  have h1 : (Real.sqrt (-1 * Real.log (1 - (d k).1)) : ℂ) * Real.sqrt (-1 * Real.log (1 - (d k).1)) = ((-1 * Real.log (1 - (d k).1) : ℝ) : ℂ) := by
    rw [← Complex.ofReal_mul, Real.mul_self_sqrt (log_nonneg' (h k))]
  have h2 : (Real.sqrt (∑ i, -1 * Real.log (1 - (d i).1)) : ℂ) * Real.sqrt (∑ i, -1 * Real.log (1 - (d i).1)) = ((∑ i, -1 * Real.log (1 - (d i).1) : ℝ) : ℂ) := by
    rw [← Complex.ofReal_mul, Real.mul_self_sqrt hs]
  rw [div_mul_div_comm, h2, Complex.ofReal_div, ← h1]
  congr 1
  linear_combination (Real.sqrt (-1 * Real.log (1 - (d k).1)) : ℂ) * Real.sqrt (-1 * Real.log (1 - (d k).1)) * e0

theorem share_nonneg {n : ℕ} {d : Fin n → ℝ × ℝ} (h : ∀ i, 0 ≤ (d i).1 ∧ (d i).1 < 1) (k : Fin n) : 0 ≤ share d k :=
  div_nonneg (log_nonneg' (h k)) (Finset.sum_nonneg fun i _ => log_nonneg' (h i))

theorem share_le {n : ℕ} {d : Fin n → ℝ × ℝ} (h : ∀ i, 0 ≤ (d i).1 ∧ (d i).1 < 1) (k : Fin n) : share d k ≤ 1 :=
  div_le_one_of_le₀ (Finset.single_le_sum (fun i _ => log_nonneg' (h i)) (Finset.mem_univ k)) (Finset.sum_nonneg fun i _ => log_nonneg' (h i))

theorem share_sum {n : ℕ} (hn : 0 < n) {d : Fin n → ℝ × ℝ} (h : ∀ i, 0 ≤ (d i).1 ∧ (d i).1 < 1) (h0 : ∀ i, (d i).1 ≠ 0) : ∑ k, share d k = 1 := by
  unfold share
  rw [← Finset.sum_div]
  refine div_self (ne_of_gt (Finset.sum_pos (fun i _ => log_pos' (h i) (h0 i)) ?_))
  have : Nonempty (Fin n) := ⟨⟨0, hn⟩⟩
  exact Finset.univ_nonempty

theorem share_measurable {n : ℕ} (k : Fin n) : Measurable fun d : Fin n → ℝ × ℝ => share d k := by
  have h2 : ∀ i : Fin n, Measurable fun d : Fin n → ℝ × ℝ => -1 * Real.log (1 - (d i).1) := fun i =>
    (Real.measurable_log.comp (measurable_const.sub (measurable_fst.comp (measurable_pi_apply i)))).const_mul _
  exact (h2 k).div (Finset.measurable_sum _ fun i _ => h2 i)

theorem perm_share {n : ℕ} (σ : Equiv.Perm (Fin n)) (d : Fin n → ℝ × ℝ) (k : Fin n) : share (fun i => d (σ i)) k = share d (σ k) := by
  unfold share
  congr 1
  exact Equiv.sum_comp σ fun i => -1 * Real.log (1 - (d i).1)

theorem norm_le_one {n : ℕ} {d : Fin n → ℝ × ℝ} (h : ∀ i, 0 ≤ (d i).1 ∧ (d i).1 < 1) (k : Fin n) : ‖randomState d k‖ ≤ 1 := by
  have h1 := share_eq h k
  have h2 : ‖randomState d k‖ * ‖randomState d k‖ = share d k := by
    have := congrArg norm h1
    rw [norm_mul, norm_star, Complex.norm_real, Real.norm_of_nonneg (share_nonneg h k)] at this
    exact this
  have := share_le h k
  nlinarith [norm_nonneg (randomState d k)]

/-- The mean share is `1 / n`. -/
theorem mean_share {n : ℕ} (k : Fin n) : ∫ d, share d k ∂drawLaw n = 1 / n := by
  have hn : 0 < n := k.pos
  have hint : ∀ i : Fin n, Integrable (fun d => share d i) (drawLaw n) := by
    intro i
    refine Integrable.of_bound (share_measurable i).aestronglyMeasurable 1 ?_
    filter_upwards [draws_ok] with d hd
    rw [Real.norm_of_nonneg (share_nonneg hd.1 i)]
    exact share_le hd.1 i
  have hsame : ∀ i : Fin n, ∫ d, share d i ∂drawLaw n = ∫ d, share d k ∂drawLaw n := by
    intro i
    have hm := perm_mp (Equiv.swap k i)
    conv_rhs => rw [← hm.map_eq]
    rw [integral_map hm.measurable.aemeasurable (share_measurable k).aestronglyMeasurable]
    refine integral_congr_ae (Filter.Eventually.of_forall fun d => ?_)
    simp only [perm_share, Equiv.swap_apply_left]
  have hsum : ∑ i : Fin n, ∫ d, share d i ∂drawLaw n = 1 := by
    rw [← integral_finsetSum _ fun i _ => hint i]
    have : ∫ d, ∑ i, share d i ∂drawLaw n = ∫ _, (1 : ℝ) ∂drawLaw n := by
      refine integral_congr_ae ?_
      filter_upwards [draws_ok] with d hd using share_sum hn hd.1 hd.2
    rw [this]; simp
  rw [Finset.sum_congr rfl fun i _ => hsame i, Finset.sum_const, Finset.card_univ, Fintype.card_fin, nsmul_eq_mul] at hsum
  have : (n : ℝ) ≠ 0 := by positivity
  field_simp
  linarith


open ProbabilityTheory

instance : IsProbabilityMeasure (expMeasure 1) := isProbabilityMeasure_expMeasure one_pos

/-- The squares of the amplitudes are drawn from the exponential distribution. -/
theorem expo_mp : MeasurePreserving (fun x => -1 * Real.log (1 - x)) unif (expMeasure 1) := by
  have hm : Measurable fun x : ℝ => -1 * Real.log (1 - x) := (Real.measurable_log.comp (measurable_const.sub measurable_id)).const_mul _
  refine ⟨hm, ?_⟩
  have : IsProbabilityMeasure (unif.map fun x => -1 * Real.log (1 - x)) := Measure.isProbabilityMeasure_map hm.aemeasurable
  refine Measure.ext_of_Iic _ _ fun t => ?_
  rw [← ENNReal.toReal_eq_toReal_iff' (measure_ne_top _ _) (measure_ne_top _ _)]
  have h2 : ((expMeasure 1) (Iic t)).toReal = cdf (expMeasure 1) t := by rw [cdf_eq_real]; rfl
  rw [h2, cdf_expMeasure_eq one_pos, Measure.map_apply hm measurableSet_Iic, unif, Measure.restrict_apply (hm measurableSet_Iic)]
  by_cases ht : 0 ≤ t
  · rw [if_pos ht]
    have e : (fun x : ℝ => -1 * Real.log (1 - x)) ⁻¹' Iic t ∩ Ico 0 1 = Icc 0 (1 - Real.exp (-t)) := by
      ext x
      simp only [mem_inter_iff, mem_preimage, mem_Iic, mem_Ico, mem_Icc]
      have hpos := Real.exp_pos (-t)
      constructor
      · rintro ⟨a, b, c⟩
        refine ⟨b, ?_⟩
        have : Real.exp (-t) ≤ 1 - x := by
          rw [← Real.exp_log (by linarith : (0 : ℝ) < 1 - x)]
          exact Real.exp_le_exp.2 (by linarith)
        linarith
      · rintro ⟨a, b⟩
        have h1 : Real.exp (-t) ≤ 1 - x := by linarith
        have := Real.log_le_log hpos h1
        rw [Real.log_exp] at this
        exact ⟨by linarith, a, by linarith⟩
    have he : Real.exp (-t) ≤ 1 := Real.exp_le_one_iff.2 (by linarith)
    rw [e, Real.volume_Icc, ENNReal.toReal_ofReal (by linarith)]
    simp
  · rw [if_neg ht]
    have e : (fun x : ℝ => -1 * Real.log (1 - x)) ⁻¹' Iic t ∩ Ico 0 1 = ∅ := by
      ext x
      simp only [mem_inter_iff, mem_preimage, mem_Iic, mem_Ico, mem_empty_iff_false, iff_false]
      rintro ⟨a, b, c⟩
      have := log_nonneg' ⟨b, c⟩
      linarith
    rw [e]; simp

theorem inner_zero (s : ℝ) : ∫ x, (if 0 ≤ x ∧ x ≤ s then 3 * x ^ 2 - 2 * x * s else 0) = 0 := by
  have : (fun x : ℝ => if 0 ≤ x ∧ x ≤ s then 3 * x ^ 2 - 2 * x * s else 0) = (Icc 0 s).indicator fun x => 3 * x ^ 2 - 2 * x * s := by
    funext x
    simp only [indicator, mem_Icc]
  rw [this, integral_indicator measurableSet_Icc]
  by_cases hs : 0 ≤ s
  · rw [integral_Icc_eq_integral_Ioc, ← intervalIntegral.integral_of_le hs]
    have e : ∀ x : ℝ, 3 * x ^ 2 - 2 * x * s = 3 * x ^ 2 - (2 * s) * x := fun x => by ring
    simp only [e]
    rw [intervalIntegral.integral_sub (by apply Continuous.intervalIntegrable; fun_prop) (by apply Continuous.intervalIntegrable; fun_prop),
      intervalIntegral.integral_const_mul, intervalIntegral.integral_const_mul, integral_pow, integral_id]
    norm_num
    ring
  · rw [Icc_eq_empty hs]; simp

/-- Two exponential variables, given their sum: `E x² = 2 E xy`. -/
theorem pair_moment (g : ℝ → ℝ) (hg : Measurable g) :
    ∫ p : ℝ × ℝ, (p.1 ^ 2 - 2 * p.1 * p.2) * g (p.1 + p.2) ∂((expMeasure 1).prod (expMeasure 1)) = 0 := by
  have hE : expMeasure 1 = volume.withDensity (exponentialPDF 1) := rfl
  have hmE : Measurable (exponentialPDF 1) := (measurable_exponentialPDFReal 1).ennreal_ofReal
  have hsf : SFinite (volume.withDensity (exponentialPDF 1)) := by rw [← hE]; infer_instance
  rw [hE, prod_withDensity hmE hmE, integral_withDensity_eq_integral_toReal_smul]
  · let Hf : ℝ × ℝ → ℝ := fun q => (if 0 ≤ q.1 ∧ q.1 ≤ q.2 then 3 * q.1 ^ 2 - 2 * q.1 * q.2 else 0) * (Real.exp (-q.2) * g q.2)
    have hH : Measurable Hf := by
      refine Measurable.mul (Measurable.ite ?_ (by fun_prop) measurable_const) (by fun_prop)
      exact (measurableSet_le measurable_const measurable_fst).inter (measurableSet_le measurable_fst measurable_snd)
    have e : (fun p : ℝ × ℝ => (exponentialPDF 1 p.1 * exponentialPDF 1 p.2).toReal • ((p.1 ^ 2 - 2 * p.1 * p.2) * g (p.1 + p.2))) =
        fun p => Hf (p.1, p.1 + p.2) := by
      funext p
      simp only [Hf, exponentialPDF_eq, smul_eq_mul, ENNReal.toReal_mul]
      by_cases h1 : 0 ≤ p.1
      · by_cases h2 : 0 ≤ p.2
        · rw [if_pos h1, if_pos h2, if_pos ⟨h1, by linarith⟩, ENNReal.toReal_ofReal (by positivity), ENNReal.toReal_ofReal (by positivity)]
          rw [neg_add, Real.exp_add]
          simp only [one_mul]
          ring
        · have h3 : ¬ (0 ≤ p.1 ∧ p.1 ≤ p.1 + p.2) := fun h => h2 (by linarith [h.2])
          rw [if_neg h2, if_neg h3]; simp
      · have h3 : ¬ (0 ≤ p.1 ∧ p.1 ≤ p.1 + p.2) := fun h => h1 h.1
        rw [if_neg h1, if_neg h3]; simp
    rw [e]
    have hm := measurePreserving_prod_add (volume : Measure ℝ) (volume : Measure ℝ)
    have e2 : ∫ p : ℝ × ℝ, Hf (p.1, p.1 + p.2) ∂((volume : Measure ℝ).prod volume) = ∫ q, Hf q ∂((volume : Measure ℝ).prod volume) := by
      conv_rhs => rw [← hm.map_eq]
      rw [integral_map hm.measurable.aemeasurable hH.aestronglyMeasurable]
    rw [e2]
    by_cases hi : Integrable Hf ((volume : Measure ℝ).prod volume)
    · rw [integral_prod_symm _ hi]
      simp only [Hf, integral_mul_const, inner_zero, zero_mul, integral_zero]
    · exact integral_undef hi
  · exact (hmE.comp measurable_fst).mul (hmE.comp measurable_snd)
  · refine Filter.Eventually.of_forall fun p => ENNReal.mul_lt_top ?_ ?_ <;> exact ENNReal.ofReal_lt_top

/-- `E p₀² = 2 E p₀ p₁` for the shares of the first two orbitals. -/
theorem share_moment {m : ℕ} : ∫ d, (share d (0 : Fin (m + 2)) ^ 2 - 2 * share d 0 * share d 1) ∂drawLaw (m + 2) = 0 := by
  let μ : Measure (ℝ × ℝ) := unif.prod unif
  let L : ℝ × ℝ → ℝ := fun p => -1 * Real.log (1 - p.1)
  have hL : MeasurePreserving L μ (expMeasure 1) := expo_mp.comp measurePreserving_fst
  let R : (Fin m → ℝ × ℝ) → ℝ := fun r => ∑ i, L (r i)
  let G : (ℝ × ℝ) × ℝ → ℝ := fun q => (q.1.1 ^ 2 - 2 * q.1.1 * q.1.2) * (1 / (q.1.1 + q.1.2 + q.2)) ^ 2
  have hG : Measurable G := by fun_prop
  have hR : Measurable R := Finset.measurable_sum _ fun i _ => hL.measurable.comp (measurable_pi_apply i)
  -- split off two coordinates
  have s1 := measurePreserving_piFinSuccAbove (fun _ : Fin (m + 2) => μ) 0
  have s2 := (MeasurePreserving.id μ).prod (measurePreserving_piFinSuccAbove (fun _ : Fin (m + 1) => μ) 0)
  have s3 := (measurePreserving_prodAssoc μ μ (Measure.pi fun _ : Fin m => μ)).symm
  have s4 := ((hL.prod hL).prod (MeasurePreserving.id (Measure.pi fun _ : Fin m => μ)))
  have s := s4.comp (s3.comp (s2.comp s1))
  have e : ∀ d : Fin (m + 2) → ℝ × ℝ, share d (0 : Fin (m + 2)) ^ 2 - 2 * share d 0 * share d 1 =
      (fun q : (ℝ × ℝ) × (Fin m → ℝ × ℝ) => G (q.1, R q.2)) ((L (d 0), L (d 1)), fun i => d i.succ.succ) := by
    intro d
    simp only [G, R, L, share, Fin.sum_univ_succ, Fin.succ_zero_eq_one]
    rw [← add_assoc]
    ring
  have e2 : ∀ d : Fin (m + 2) → ℝ × ℝ, (Prod.map (Prod.map L L) id ∘ MeasurableEquiv.prodAssoc.symm ∘
      Prod.map id (MeasurableEquiv.piFinSuccAbove (fun _ => ℝ × ℝ) 0) ∘ (MeasurableEquiv.piFinSuccAbove (fun _ => ℝ × ℝ) 0)) d =
      ((L (d 0), L (d 1)), fun i => d i.succ.succ) := by
    intro d
    rfl
  simp only [e]
  have hmeas : Measurable fun q : (ℝ × ℝ) × (Fin m → ℝ × ℝ) => G (q.1, R q.2) := hG.comp (measurable_fst.prodMk (hR.comp measurable_snd))
  have e3 := integral_map (μ := drawLaw (m + 2)) s.measurable.aemeasurable (f := fun q : (ℝ × ℝ) × (Fin m → ℝ × ℝ) => G (q.1, R q.2)) hmeas.aestronglyMeasurable
  simp only [e2] at e3
  rw [← e3, show Measure.map _ (drawLaw (m + 2)) = _ from s.map_eq]
  by_cases hi : Integrable (fun q : (ℝ × ℝ) × (Fin m → ℝ × ℝ) => G (q.1, R q.2)) (((expMeasure 1).prod (expMeasure 1)).prod (Measure.pi fun _ => μ))
  · rw [integral_prod_symm _ hi]
    have : ∀ r, ∫ p : ℝ × ℝ, G (p, R r) ∂((expMeasure 1).prod (expMeasure 1)) = 0 := fun r =>
      pair_moment (fun t => (1 / (t + R r)) ^ 2) (by fun_prop)
    simp only [this, integral_zero]
  · exact integral_undef hi


theorem share_int {n : ℕ} (F : (Fin n → ℝ) → ℝ) (hF : Measurable F) {C : ℝ} (hC : ∀ x : Fin n → ℝ, (∀ i, 0 ≤ x i ∧ x i ≤ 1) → |F x| ≤ C) :
    Integrable (fun d => F (share d)) (drawLaw n) := by
  refine Integrable.of_bound (hF.comp (measurable_pi_lambda _ share_measurable)).aestronglyMeasurable C ?_
  filter_upwards [draws_ok] with d hd
  exact hC _ fun i => ⟨share_nonneg hd.1 i, share_le hd.1 i⟩

theorem perm_mean {n : ℕ} (σ : Equiv.Perm (Fin n)) (F : (Fin n → ℝ) → ℝ) (hF : Measurable F) :
    ∫ d, F (fun k => share d (σ k)) ∂drawLaw n = ∫ d, F (share d) ∂drawLaw n := by
  have hm := perm_mp σ
  conv_rhs => rw [← hm.map_eq]
  have hmm : Measurable fun d : Fin n → ℝ × ℝ => F (share d) := hF.comp (measurable_pi_lambda _ share_measurable)
  rw [integral_map hm.measurable.aemeasurable hmm.aestronglyMeasurable]
  refine integral_congr_ae (Filter.Eventually.of_forall fun d => ?_)
  show F _ = F _
  congr 1
  funext k
  exact (perm_share σ d k).symm

/-- Second moments of the shares. -/
theorem share_second {n : ℕ} (i j : Fin n) : ∫ d, share d i * share d j ∂drawLaw n = (if i = j then 2 else 1) / (n * (n + 1)) := by
  have hn : 0 < n := i.pos
  have hint : ∀ i j : Fin n, Integrable (fun d => share d i * share d j) (drawLaw n) := by
    intro i j
    refine share_int (fun x => x i * x j) (by fun_prop) (C := 1) fun x hx => ?_
    rw [abs_of_nonneg (mul_nonneg (hx i).1 (hx j).1)]
    exact mul_le_one₀ (hx i).2 (hx j).1 (hx j).2
  -- all diagonal moments agree, all others agree
  have hdiag : ∀ k, ∫ d, share d k * share d k ∂drawLaw n = ∫ d, share d i * share d i ∂drawLaw n := by
    intro k
    have := perm_mean (Equiv.swap i k) (fun x => x i * x i) (by fun_prop)
    simpa only [Equiv.swap_apply_left] using this
  have hoff : ∀ a b c e : Fin n, a ≠ b → c ≠ e → ∫ d, share d a * share d b ∂drawLaw n = ∫ d, share d c * share d e ∂drawLaw n := by
    intro a b c e hab hce
    obtain ⟨σ, h1, h2⟩ : ∃ σ : Equiv.Perm (Fin n), σ c = a ∧ σ e = b := by
      refine ⟨(Equiv.swap c a).trans (Equiv.swap (Equiv.swap c a e) b), ?_, ?_⟩
      · simp only [Equiv.trans_apply, Equiv.swap_apply_left]
        refine Equiv.swap_apply_of_ne_of_ne ?_ hab
        intro h
        have := congrArg (Equiv.swap c a) h
        rw [Equiv.swap_apply_right, Equiv.swap_apply_self] at this
        exact hce this
      · simp only [Equiv.trans_apply, Equiv.swap_apply_left]
    have := perm_mean σ (fun x => x c * x e) (by fun_prop)
    simp only [h1, h2] at this
    exact this
  -- the sum rule
  have hsum : ∑ a : Fin n, ∑ b : Fin n, ∫ d, share d a * share d b ∂drawLaw n = 1 := by
    have e1 : ∀ a : Fin n, ∑ b : Fin n, ∫ d, share d a * share d b ∂drawLaw n = ∫ d, ∑ b, share d a * share d b ∂drawLaw n := fun a =>
      (integral_finsetSum _ fun b _ => hint a b).symm
    simp only [e1]
    rw [← integral_finsetSum _ fun a _ => integrable_finsetSum _ fun b _ => hint a b]
    have : ∫ d, ∑ a, ∑ b, share d a * share d b ∂drawLaw n = ∫ _, (1 : ℝ) ∂drawLaw n := by
      refine integral_congr_ae ?_
      filter_upwards [draws_ok] with d hd
      rw [← Finset.sum_mul_sum, share_sum hn hd.1 hd.2, one_mul]
    rw [this]; simp
  obtain _ | _ | m := n
  · exact absurd hn (by omega)
  · have hall : ∀ k : Fin 1, k = i := fun k => Subsingleton.elim _ _
    have hj : j = i := hall j
    subst hj
    rw [Fin.sum_univ_one, Fin.sum_univ_one, hall 0] at hsum
    rw [if_pos rfl, hsum]
    norm_num
  · have h01 : (0 : Fin (m + 2)) ≠ 1 := by simp
    set A := ∫ d, share d i * share d i ∂drawLaw (m + 2) with hA
    set B := ∫ d, share d (0 : Fin (m + 2)) * share d 1 ∂drawLaw (m + 2) with hB
    have hAB : A = 2 * B := by
      have h := share_moment (m := m)
      have e : ∀ d : Fin (m + 2) → ℝ × ℝ, share d 0 ^ 2 - 2 * share d 0 * share d 1 = share d 0 * share d 0 - 2 * (share d 0 * share d 1) := by
        intro d; ring
      simp only [e] at h
      rw [integral_sub (hint 0 0) ((hint 0 1).const_mul 2), integral_const_mul, hdiag 0] at h
      linarith
    have hval : ∀ a b : Fin (m + 2), ∫ d, share d a * share d b ∂drawLaw (m + 2) = B + if a = b then B else 0 := by
      intro a b
      by_cases h : a = b
      · subst h
        rw [hdiag a, if_pos rfl, hAB]; ring
      · rw [if_neg h, add_zero]
        exact hoff _ _ _ _ h h01
    simp only [hval] at hsum
    simp only [Finset.sum_add_distrib, Finset.sum_const, Finset.card_univ, Fintype.card_fin, Finset.sum_ite_eq, Finset.mem_univ, if_true, nsmul_eq_mul] at hsum
    rw [hval i j]
    have hpos : ((m : ℝ) + 2) * (m + 3) ≠ 0 := by positivity
    have hB' : B = 1 / (((m : ℝ) + 2) * (m + 3)) := by
      rw [eq_div_iff hpos]
      push_cast at hsum
      linarith
    rw [hB']
    split_ifs
    · push_cast; field_simp; ring
    · push_cast; field_simp; ring

end Verif.Tbpm

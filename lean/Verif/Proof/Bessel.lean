import Verif.Spec.Bessel
import Mathlib.Analysis.SpecialFunctions.Trigonometric.Chebyshev.Basic
import Mathlib.Analysis.SpecialFunctions.Trigonometric.Inverse
import Mathlib.Analysis.SpecificLimits.Normed
import Mathlib.Topology.Algebra.InfiniteSum.Constructions
import Mathlib.Topology.Algebra.InfiniteSum.NatInt
import Mathlib.Tactic.Ring
import Mathlib.Tactic.FieldSimp
import Mathlib.Tactic.Positivity
import Mathlib.Tactic.Linarith

/-! # Bessel functions: recurrence, Jacobi-Anger expansion, tails -/

namespace Verif

open Filter Topology

/-- A term of the power series. -/
noncomputable def bTerm (n : ℕ) (y : ℝ) (k : ℕ) : ℝ :=
  (-1) ^ k / (k.factorial * (n + k).factorial : ℝ) * y ^ (2 * k + n)

theorem besselJ_eq (n : ℕ) (x : ℝ) : besselJ n x = ∑' k, bTerm n (x / 2) k := rfl

theorem bTerm_bound (n : ℕ) (y : ℝ) (k : ℕ) :
    ‖bTerm n y k‖ ≤ |y| ^ n / n.factorial * ((y ^ 2) ^ k / k.factorial) := by
  unfold bTerm
  rw [norm_mul, norm_div, norm_pow, norm_neg, norm_one, one_pow, norm_pow, Real.norm_eq_abs, Real.norm_eq_abs,
    abs_of_pos (by positivity), pow_add, pow_mul, sq_abs]
  have h1 : (n.factorial : ℝ) ≤ (n + k).factorial := by exact_mod_cast Nat.factorial_le (by omega)
  have h2 : 1 / ((k.factorial : ℝ) * (n + k).factorial) ≤ 1 / (k.factorial * n.factorial) := by
    apply one_div_le_one_div_of_le (by positivity)
    exact mul_le_mul_of_nonneg_left h1 (by positivity)
  calc 1 / ((k.factorial : ℝ) * (n + k).factorial) * ((y ^ 2) ^ k * |y| ^ n)
      ≤ 1 / (k.factorial * n.factorial) * ((y ^ 2) ^ k * |y| ^ n) :=
        mul_le_mul_of_nonneg_right h2 (by positivity)
    _ = _ := by field_simp

theorem exp_hasSum (z : ℝ) : HasSum (fun k : ℕ => z ^ k / k.factorial) (Real.exp z) := by
  rw [Real.exp_eq_exp_ℝ]
  exact NormedSpace.expSeries_div_hasSum_exp z

theorem bTerm_summable (n : ℕ) (y : ℝ) : Summable (bTerm n y) :=
  Summable.of_norm_bounded (((exp_hasSum (y ^ 2)).summable).mul_left _) (bTerm_bound n y)

theorem besselJ_bound (n : ℕ) (x : ℝ) :
    |besselJ n x| ≤ |x / 2| ^ n / n.factorial * Real.exp ((x / 2) ^ 2) := by
  rw [besselJ_eq, ← Real.norm_eq_abs]
  exact tsum_of_norm_bounded ((exp_hasSum ((x / 2) ^ 2)).mul_left _) (bTerm_bound n (x / 2))

theorem besselJ_summable (x : ℝ) : Summable fun n => |besselJ n x| := by
  refine Summable.of_nonneg_of_le (fun _ => abs_nonneg _) (fun n => besselJ_bound n x) ?_
  exact ((exp_hasSum |x / 2|).summable).mul_right _

/-- The recurrence of Bessel functions. -/
theorem besselJ_rec (n : ℕ) (x : ℝ) :
    2 * (n + 1 : ℝ) * besselJ (n + 1) x = x * (besselJ n x + besselJ (n + 2) x) := by
  set y := x / 2 with hy
  have hx : x = 2 * y := by rw [hy]; ring
  have key : (n + 1 : ℝ) * besselJ (n + 1) x = y * besselJ n x + y * besselJ (n + 2) x := by
    rw [besselJ_eq, besselJ_eq, besselJ_eq, ← hy]
    rw [← tsum_mul_left, ← tsum_mul_left, ← tsum_mul_left]
    have s0 := (bTerm_summable n y).mul_left y
    have s1 := (bTerm_summable (n + 1) y).mul_left (n + 1 : ℝ)
    rw [s1.tsum_eq_zero_add, s0.tsum_eq_zero_add, add_assoc]
    rw [← ((summable_nat_add_iff 1).2 s0).tsum_add ((bTerm_summable (n + 2) y).mul_left y)]
    congr 1
    · simp only [bTerm, Nat.factorial, Nat.add_zero, Nat.mul_zero, Nat.zero_add, pow_zero]
      push_cast
      field_simp
      rw [pow_succ]; ring
    · refine tsum_congr fun k => ?_
      simp only [bTerm]
      have e1 : n + 1 + (k + 1) = (n + k + 1) + 1 := by ring
      have e2 : n + (k + 1) = n + k + 1 := by ring
      have e3 : n + 2 + k = (n + k + 1) + 1 := by ring
      rw [e1, e2, e3, Nat.factorial_succ (n + k + 1), Nat.factorial_succ k]
      push_cast
      have p1 : y ^ (2 * (k + 1) + (n + 1)) = y ^ (2 * k + n) * y ^ 3 := by rw [← pow_add]; ring_nf
      have p2 : y ^ (2 * (k + 1) + n) = y ^ (2 * k + n) * y ^ 2 := by rw [← pow_add]; ring_nf
      have p3 : y ^ (2 * k + (n + 2)) = y ^ (2 * k + n) * y ^ 2 := by rw [← pow_add]; ring_nf
      rw [p1, p2, p3, pow_succ (-1 : ℝ) k]
      have f1 : (k.factorial : ℝ) ≠ 0 := by positivity
      have f2 : ((n + k + 1).factorial : ℝ) ≠ 0 := by positivity
      have f3 : (k + 1 : ℝ) ≠ 0 := by positivity
      have f4 : (n + k + 1 + 1 : ℝ) ≠ 0 := by positivity
      field_simp
      ring
  calc 2 * (n + 1 : ℝ) * besselJ (n + 1) x = 2 * ((n + 1 : ℝ) * besselJ (n + 1) x) := by ring
    _ = _ := by rw [key, hx]; ring

/-! ## The generating function -/

/-- Pairs of exponents sorted by their difference. -/
def diffEquiv : (ℕ × ℕ) ⊕ (ℕ × ℕ) ≃ ℕ × ℕ where
  toFun := fun s => match s with
    | .inl (n, k) => (k + n, k)
    | .inr (n, p) => (p, p + n + 1)
  invFun := fun q => if q.2 ≤ q.1 then .inl (q.1 - q.2, q.2) else .inr (q.2 - q.1 - 1, q.1)
  left_inv := by
    rintro (⟨n, k⟩ | ⟨n, p⟩)
    · simp
    · have : ¬ (p + n + 1 ≤ p) := by omega
      simp only [this, if_false]
      congr 2
      omega
  right_inv := by
    rintro ⟨p, k⟩
    by_cases h : k ≤ p
    · simp only [h, if_true]
      ext <;> simp <;> omega
    · simp only [h, if_false]
      ext <;> simp <;> omega

theorem hasSum_prod_of_norm {f g : ℕ → ℂ} {s t : ℂ} (hf : HasSum f s) (hg : HasSum g t)
    (hf' : Summable fun k => ‖f k‖) (hg' : Summable fun k => ‖g k‖) :
    HasSum (fun q : ℕ × ℕ => f q.1 * g q.2) (s * t) :=
  hf.mul hg (summable_mul_of_summable_norm hf' hg')

theorem hasSum_by_difference {G : ℕ × ℕ → ℂ} {S : ℂ} (hG : HasSum G S) {L R : ℕ → ℂ}
    (hL : ∀ n, HasSum (fun k => G (k + n, k)) (L n)) (hR : ∀ n, HasSum (fun p => G (p, p + n + 1)) (R n)) :
    HasSum (fun n => L n + R n) S := by
  have h3 := (diffEquiv.hasSum_iff).2 hG
  have hs := h3.summable
  have hsl := hs.comp_injective Sum.inl_injective
  have hsr := hs.comp_injective Sum.inr_injective
  have h6 := (hsl.hasSum.sum hsr.hasSum).unique h3
  rw [← h6]
  exact (hsl.hasSum.prod_fiberwise hL).add (hsr.hasSum.prod_fiberwise hR)

theorem bessel_left (n k : ℕ) (y : ℝ) (w : ℂ) (hw : w ≠ 0) :
    ((y : ℂ) * w) ^ (k + n) / ((k + n).factorial : ℂ) * ((-((y : ℂ) * w⁻¹)) ^ k / (k.factorial : ℂ)) =
      ((bTerm n y k : ℝ) : ℂ) * w ^ n := by
  unfold bTerm
  push_cast
  rw [mul_pow, neg_pow, mul_pow, add_comm k n, pow_add w, inv_pow]
  have hwk : w ^ k ≠ 0 := pow_ne_zero _ hw
  have p1 : (y : ℂ) ^ (2 * k + n) = (y : ℂ) ^ (n + k) * (y : ℂ) ^ k := by rw [← pow_add]; ring_nf
  have f1 : (k.factorial : ℂ) ≠ 0 := by exact_mod_cast k.factorial_ne_zero
  have f2 : ((n + k).factorial : ℂ) ≠ 0 := by exact_mod_cast (n + k).factorial_ne_zero
  rw [p1]
  field_simp

theorem bessel_right (n k : ℕ) (y : ℝ) (w : ℂ) (hw : w ≠ 0) :
    ((y : ℂ) * w) ^ k / (k.factorial : ℂ) * ((-((y : ℂ) * w⁻¹)) ^ (k + n + 1) / ((k + n + 1).factorial : ℂ)) =
      (-1) ^ (n + 1) * ((bTerm (n + 1) y k : ℝ) : ℂ) * w⁻¹ ^ (n + 1) := by
  unfold bTerm
  push_cast
  rw [mul_pow, neg_pow, mul_pow, show k + n + 1 = k + (n + 1) by ring, show n + 1 + k = k + (n + 1) by ring,
    pow_add w⁻¹, pow_add (-1 : ℂ)]
  have hwk : w ^ k * w⁻¹ ^ k = 1 := by rw [← mul_pow, mul_inv_cancel₀ hw, one_pow]
  have p1 : (y : ℂ) ^ (2 * k + (n + 1)) = (y : ℂ) ^ k * (y : ℂ) ^ (k + (n + 1)) := by rw [← pow_add]; ring_nf
  rw [p1]
  have f1 : (k.factorial : ℂ) ≠ 0 := by exact_mod_cast k.factorial_ne_zero
  have f2 : ((k + (n + 1)).factorial : ℂ) ≠ 0 := by exact_mod_cast (k + (n + 1)).factorial_ne_zero
  calc (y : ℂ) ^ k * w ^ k / k.factorial * ((-1) ^ k * (-1) ^ (n + 1) * ((y : ℂ) ^ (k + (n + 1)) *
        (w⁻¹ ^ k * w⁻¹ ^ (n + 1))) / (k + (n + 1)).factorial)
      = (w ^ k * w⁻¹ ^ k) * ((-1) ^ (n + 1) * ((-1) ^ k / (k.factorial * (k + (n + 1)).factorial) *
        ((y : ℂ) ^ k * (y : ℂ) ^ (k + (n + 1)))) * w⁻¹ ^ (n + 1)) := by ring
    _ = _ := by rw [hwk, one_mul]

theorem cexp_hasSum (z : ℂ) : HasSum (fun k : ℕ => z ^ k / (k.factorial : ℂ)) (Complex.exp z) := by
  rw [Complex.exp_eq_exp_ℂ]
  exact NormedSpace.expSeries_div_hasSum_exp z

/-- `exp((x/2)(w - 1/w))` is the generating function of the Bessel functions. -/
theorem bessel_generating (x : ℝ) (w : ℂ) (hw : w ≠ 0) :
    HasSum (fun n : ℕ => (besselJ n x : ℂ) * w ^ n + (-1) ^ (n + 1) * (besselJ (n + 1) x : ℂ) * w⁻¹ ^ (n + 1))
      (Complex.exp ((x / 2 : ℂ) * (w - w⁻¹))) := by
  have hyc : (x / 2 : ℂ) * (w - w⁻¹) = ((x / 2 : ℝ) : ℂ) * w + -(((x / 2 : ℝ) : ℂ) * w⁻¹) := by push_cast; ring
  rw [hyc, Complex.exp_add]
  have h2 := hasSum_prod_of_norm (cexp_hasSum (((x / 2 : ℝ) : ℂ) * w)) (cexp_hasSum (-(((x / 2 : ℝ) : ℂ) * w⁻¹)))
    (NormedSpace.norm_expSeries_div_summable _) (NormedSpace.norm_expSeries_div_summable _)
  refine hasSum_by_difference h2 (fun n => ?_) (fun n => ?_)
  · simp only [bessel_left n _ (x / 2) w hw]
    refine HasSum.mul_right _ ?_
    rw [besselJ_eq]
    exact Complex.hasSum_ofReal.2 (bTerm_summable n (x / 2)).hasSum
  · simp only [bessel_right n _ (x / 2) w hw]
    refine HasSum.mul_right _ (HasSum.mul_left _ ?_)
    rw [besselJ_eq]
    exact Complex.hasSum_ofReal.2 (bTerm_summable (n + 1) (x / 2)).hasSum

/-- Jacobi-Anger expansion in Chebyshev polynomials. -/
theorem jacobi_anger (x y : ℝ) (hy : |y| ≤ 1) :
    HasSum (fun n : ℕ => 2 * (besselJ (n + 1) x : ℂ) * (-Complex.I) ^ (n + 1) *
        (Polynomial.Chebyshev.T ℂ (n + 1 : ℕ)).eval (y : ℂ))
      (Complex.exp (-(Complex.I * x * y)) - besselJ 0 x) := by
  obtain ⟨h1, h2⟩ := abs_le.1 hy
  set θ := Real.arccos y with hθ
  have hc : Real.cos θ = y := Real.cos_arccos h1 h2
  set w : ℂ := -Complex.I * Complex.exp (Complex.I * θ) with hw
  have hw0 : w ≠ 0 := mul_ne_zero (neg_ne_zero.2 Complex.I_ne_zero) (Complex.exp_ne_zero _)
  have hwi : w⁻¹ = Complex.I * Complex.exp (-(Complex.I * θ)) := by
    rw [hw, mul_inv, ← Complex.exp_neg, inv_neg, Complex.inv_I, neg_neg]
  have hd : (x / 2 : ℂ) * (w - w⁻¹) = -(Complex.I * x * y) := by
    rw [hwi, hw, ← hc]
    push_cast
    rw [Complex.cos, show (θ : ℂ) * Complex.I = Complex.I * θ by ring, show -(θ : ℂ) * Complex.I = -(Complex.I * θ) by ring]
    ring
  have hg := bessel_generating x w hw0
  rw [hd] at hg
  have pw : ∀ n : ℕ, w ^ n = (-Complex.I) ^ n * Complex.exp (Complex.I * (n * θ)) := by
    intro n
    rw [hw, mul_pow, ← Complex.exp_nat_mul]
    congr 2; ring
  have pwi : ∀ n : ℕ, (-1) ^ n * w⁻¹ ^ n = (-Complex.I) ^ n * Complex.exp (-(Complex.I * (n * θ))) := by
    intro n
    rw [hwi, mul_pow, ← Complex.exp_nat_mul, ← mul_assoc, ← mul_pow, neg_one_mul]
    congr 2; ring
  have cheb : ∀ n : ℕ, 2 * (Polynomial.Chebyshev.T ℂ (n : ℕ)).eval (y : ℂ) =
      Complex.exp (Complex.I * (n * θ)) + Complex.exp (-(Complex.I * (n * θ))) := by
    intro n
    rw [← hc, Complex.ofReal_cos, Polynomial.Chebyshev.T_complex_cos, Complex.cos]
    push_cast
    rw [show (n : ℂ) * θ * Complex.I = Complex.I * (n * θ) by ring,
      show -((n : ℂ) * θ) * Complex.I = -(Complex.I * (n * θ)) by ring]
    ring
  -- regroup
  have sL : Summable fun n : ℕ => (besselJ n x : ℂ) * w ^ n := by
    have nw : ‖w‖ = 1 := by
      rw [hw, norm_mul, norm_neg, Complex.norm_I, one_mul, mul_comm, Complex.norm_exp_ofReal_mul_I]
    refine Summable.of_norm ?_
    refine (besselJ_summable x).congr (fun n => ?_)
    rw [norm_mul, norm_pow, nw, one_pow, mul_one, Complex.norm_real, Real.norm_eq_abs]
  have sR : Summable fun n : ℕ => (-1) ^ (n + 1) * (besselJ (n + 1) x : ℂ) * w⁻¹ ^ (n + 1) := by
    have := hg.summable.sub sL
    refine this.congr (fun n => ?_)
    ring
  have e1 := hg.tsum_eq
  rw [sL.tsum_add sR, sL.tsum_eq_zero_add, add_assoc,
    ← ((summable_nat_add_iff 1).2 sL).tsum_add sR, pow_zero, mul_one] at e1
  have e2 : Complex.exp (-(Complex.I * x * y)) - besselJ 0 x =
      ∑' n : ℕ, ((besselJ (n + 1) x : ℂ) * w ^ (n + 1) + (-1) ^ (n + 1) * (besselJ (n + 1) x : ℂ) * w⁻¹ ^ (n + 1)) := by
    rw [← e1]; ring
  rw [e2]
  have e3 : ∀ n : ℕ, (besselJ (n + 1) x : ℂ) * w ^ (n + 1) + (-1) ^ (n + 1) * (besselJ (n + 1) x : ℂ) * w⁻¹ ^ (n + 1) =
      2 * (besselJ (n + 1) x : ℂ) * (-Complex.I) ^ (n + 1) * (Polynomial.Chebyshev.T ℂ (n + 1 : ℕ)).eval (y : ℂ) := by
    intro n
    have c := cheb (n + 1)
    calc _ = (besselJ (n + 1) x : ℂ) * (w ^ (n + 1) + (-1) ^ (n + 1) * w⁻¹ ^ (n + 1)) := by ring
      _ = (besselJ (n + 1) x : ℂ) * (-Complex.I) ^ (n + 1) * (2 * (Polynomial.Chebyshev.T ℂ (n + 1 : ℕ)).eval (y : ℂ)) := by
          rw [pw, pwi, c]; ring
      _ = _ := by ring
  have s3 : Summable fun n : ℕ => (besselJ (n + 1) x : ℂ) * w ^ (n + 1) +
      (-1) ^ (n + 1) * (besselJ (n + 1) x : ℂ) * w⁻¹ ^ (n + 1) := ((summable_nat_add_iff 1).2 sL).add sR
  have h4 := s3.hasSum
  simp only [e3] at h4 ⊢
  exact h4

/-! ## Decay -/

theorem bessel_lead (n : ℕ) (x : ℝ) (hx : 0 ≤ x) :
    |besselJ n x - (x / 2) ^ n / n.factorial| ≤
      (x / 2) ^ n / n.factorial * (Real.exp ((x / 2) ^ 2) / (n + 1)) := by
  set y := x / 2 with hy
  have hy0 : 0 ≤ y := by positivity
  rw [besselJ_eq, ← hy, (bTerm_summable n y).tsum_eq_zero_add]
  have e0 : bTerm n y 0 = y ^ n / n.factorial := by
    simp only [bTerm, pow_zero, Nat.factorial, Nat.add_zero, Nat.mul_zero, Nat.zero_add]
    push_cast
    field_simp
  rw [e0, add_sub_cancel_left, ← Real.norm_eq_abs]
  have hE := (exp_hasSum (y ^ 2)).summable
  have hb : ∀ k, ‖bTerm n y (k + 1)‖ ≤ y ^ n / n.factorial / (n + 1) * ((y ^ 2) ^ (k + 1) / (k + 1).factorial) := by
    intro k
    unfold bTerm
    rw [norm_mul, norm_div, norm_pow, norm_neg, norm_one, one_pow, norm_pow, Real.norm_eq_abs, Real.norm_eq_abs,
      abs_of_pos (by positivity), abs_of_nonneg hy0, pow_add, pow_mul]
    have h1 : ((n + 1 : ℝ) * n.factorial) ≤ (n + (k + 1)).factorial := by
      have : (n + 1).factorial ≤ (n + (k + 1)).factorial := Nat.factorial_le (by omega)
      rw [Nat.factorial_succ] at this
      exact_mod_cast this
    have h2 : 1 / (((k + 1).factorial : ℝ) * (n + (k + 1)).factorial) ≤ 1 / ((k + 1).factorial * ((n + 1) * n.factorial)) := by
      apply one_div_le_one_div_of_le (by positivity)
      exact mul_le_mul_of_nonneg_left h1 (by positivity)
    calc 1 / (((k + 1).factorial : ℝ) * (n + (k + 1)).factorial) * ((y ^ 2) ^ (k + 1) * y ^ n)
        ≤ 1 / ((k + 1).factorial * ((n + 1) * n.factorial)) * ((y ^ 2) ^ (k + 1) * y ^ n) :=
          mul_le_mul_of_nonneg_right h2 (by positivity)
      _ = _ := by field_simp
  have hs : HasSum (fun k : ℕ => y ^ n / n.factorial / (n + 1) * ((y ^ 2) ^ (k + 1) / (k + 1).factorial))
      (y ^ n / n.factorial / (n + 1) * (Real.exp (y ^ 2) - 1)) := by
    refine HasSum.mul_left _ ?_
    have := (hasSum_nat_add_iff' 1).2 (exp_hasSum (y ^ 2))
    simpa using this
  refine (tsum_of_norm_bounded hs hb).trans ?_
  have : y ^ n / n.factorial / (n + 1) * (Real.exp (y ^ 2) - 1) ≤ y ^ n / n.factorial / (n + 1) * Real.exp (y ^ 2) :=
    mul_le_mul_of_nonneg_left (by linarith) (by positivity)
  refine this.trans (le_of_eq ?_)
  field_simp

theorem bessel_far (x : ℝ) (hx : 0 ≤ x) : ∃ N : ℕ, ∀ n ≥ N, 0 ≤ besselJ (n + 1) x ∧ besselJ (n + 1) x ≤ besselJ n x := by
  set E := Real.exp ((x / 2) ^ 2) with hE
  have hE0 : 0 < E := Real.exp_pos _
  obtain ⟨N, hN⟩ := exists_nat_ge (2 * E + 3 * (x / 2))
  refine ⟨N, fun n hn => ?_⟩
  have hn' : (N : ℝ) ≤ n := by exact_mod_cast hn
  set a := (x / 2) ^ n / (n.factorial : ℝ) with ha
  have ha0 : 0 ≤ a := by positivity
  have h1 := abs_le.1 (bessel_lead n x hx)
  have h2 := abs_le.1 (bessel_lead (n + 1) x hx)
  rw [← hE] at h1 h2
  have e1 : (x / 2) ^ (n + 1) / ((n + 1).factorial : ℝ) = a * ((x / 2) / (n + 1)) := by
    rw [ha, pow_succ, Nat.factorial_succ]; push_cast; field_simp
  rw [e1] at h2
  push_cast at h2
  have r1 : E / (n + 1) ≤ 1 / 2 := by
    rw [div_le_div_iff₀ (by positivity) (by norm_num)]; nlinarith
  have r2 : E / (n + 1 + 1) ≤ 1 / 2 := by
    rw [div_le_div_iff₀ (by positivity) (by norm_num)]; nlinarith
  have r3 : (x / 2) / (n + 1) ≤ 1 / 3 := by
    rw [div_le_div_iff₀ (by positivity) (by norm_num)]; nlinarith
  have r4 : 0 ≤ (x / 2) / ((n : ℝ) + 1) := by positivity
  have b0 : 0 ≤ a * ((x / 2) / (n + 1)) := mul_nonneg ha0 r4
  have b1 : a * ((x / 2) / (n + 1)) ≤ a * (1 / 3) := mul_le_mul_of_nonneg_left r3 ha0
  have b2 : a * (E / (n + 1)) ≤ a * (1 / 2) := mul_le_mul_of_nonneg_left r1 ha0
  have b3 : a * ((x / 2) / (n + 1)) * (E / (n + 1 + 1)) ≤ a * ((x / 2) / (n + 1)) * (1 / 2) :=
    mul_le_mul_of_nonneg_left r2 b0
  constructor
  · linarith [h2.1]
  · linarith [h1.1, h2.2]

/-- Beyond its argument a Bessel function is not negative and decreases with the order. -/
theorem bessel_decay (x : ℝ) (hx : 0 < x) (n : ℕ) (hn : x ≤ n + 1) :
    0 ≤ besselJ (n + 1) x ∧ besselJ (n + 1) x ≤ besselJ n x ∧
      (2 * (n + 1 : ℝ) - x) * besselJ (n + 1) x ≤ x * besselJ n x := by
  obtain ⟨N, hN⟩ := bessel_far x hx.le
  have key : ∀ d n : ℕ, N ≤ n + d → x ≤ n + 1 → 0 ≤ besselJ (n + 1) x ∧ besselJ (n + 1) x ≤ besselJ n x := by
    intro d
    induction d with
    | zero => intro n h1 _; exact hN n (by omega)
    | succ d ih =>
      intro n h1 h2
      have h3 := ih (n + 1) (by omega) (by push_cast; linarith)
      have hr := besselJ_rec n x
      have h4 : 0 ≤ besselJ (n + 1) x := h3.1.trans h3.2
      refine ⟨h4, ?_⟩
      have h5 : x * besselJ (n + 1) x ≤ (n + 1) * besselJ (n + 1) x := mul_le_mul_of_nonneg_right h2 h4
      have h6 : x * besselJ (n + 2) x ≤ x * besselJ (n + 1) x := mul_le_mul_of_nonneg_left h3.2 hx.le
      have h7 : x * besselJ (n + 1) x ≤ x * besselJ n x := by nlinarith
      exact le_of_mul_le_mul_left h7 hx
  have h1 := key N n (by omega) hn
  have h2 := key N (n + 1) (by omega) (by push_cast; linarith)
  refine ⟨h1.1, h1.2, ?_⟩
  have hr := besselJ_rec n x
  have h6 : x * besselJ (n + 2) x ≤ x * besselJ (n + 1) x := mul_le_mul_of_nonneg_left h2.2 hx.le
  nlinarith

/-- The tail of the Bessel functions beyond the argument. -/
theorem bessel_tail (x : ℝ) (hx : 0 < x) (i : ℕ) (hi : x ≤ i) :
    ∑' n : ℕ, |besselJ (i + n) x| ≤ |besselJ i x| * ((x + 2) / 2) := by
  set r := x / (x + 2) with hr
  have hr0 : 0 ≤ r := by positivity
  have hr1 : r < 1 := by rw [hr, div_lt_one (by positivity)]; linarith
  have pos : ∀ n, 0 ≤ besselJ (i + n) x := by
    intro n
    have h := (bessel_decay x hx (i + n) (by push_cast; nlinarith [(Nat.cast_nonneg n : (0 : ℝ) ≤ n)]))
    exact h.1.trans h.2.1
  have step : ∀ n, besselJ (i + n + 1) x ≤ r * besselJ (i + n) x := by
    intro n
    have hnn : (0 : ℝ) ≤ n := Nat.cast_nonneg n
    have h := (bessel_decay x hx (i + n) (by push_cast; linarith))
    have h3 := h.2.2
    push_cast at h3
    have h4 : (x + 2) * besselJ (i + n + 1) x ≤ (2 * (i + n + 1 : ℝ) - x) * besselJ (i + n + 1) x :=
      mul_le_mul_of_nonneg_right (by linarith) h.1
    rw [hr, div_mul_eq_mul_div, le_div_iff₀ (by positivity)]
    linarith
  have geo : ∀ n, besselJ (i + n) x ≤ r ^ n * besselJ i x := by
    intro n
    induction n with
    | zero => simp
    | succ n ih =>
      calc besselJ (i + (n + 1)) x ≤ r * besselJ (i + n) x := step n
        _ ≤ r * (r ^ n * besselJ i x) := mul_le_mul_of_nonneg_left ih hr0
        _ = _ := by rw [pow_succ]; ring
  have hs : HasSum (fun n => r ^ n * besselJ i x) ((1 - r)⁻¹ * besselJ i x) :=
    (hasSum_geometric_of_lt_one hr0 hr1).mul_right _
  have hsum : Summable fun n => |besselJ (i + n) x| := by
    have := (summable_nat_add_iff i).2 (besselJ_summable x)
    exact this.congr (fun n => by rw [add_comm])
  have h1 : ∑' n : ℕ, |besselJ (i + n) x| ≤ (1 - r)⁻¹ * besselJ i x := by
    rw [← hs.tsum_eq]
    exact hsum.tsum_le_tsum (fun n => by rw [abs_of_nonneg (pos n)]; exact geo n) hs.summable
  have hi0 := pos 0
  rw [add_zero] at hi0
  rw [abs_of_nonneg hi0]
  refine h1.trans (le_of_eq ?_)
  have : (1 - r)⁻¹ = (x + 2) / 2 := by
    rw [hr]; field_simp; ring
  rw [this]; ring

/-! ## Truncation -/

theorem cheb_norm_le (n : ℕ) (y : ℝ) (hy : |y| ≤ 1) : ‖(Polynomial.Chebyshev.T ℂ n).eval (y : ℂ)‖ ≤ 1 := by
  obtain ⟨h1, h2⟩ := abs_le.1 hy
  rw [← Real.cos_arccos h1 h2, Complex.ofReal_cos, Polynomial.Chebyshev.T_complex_cos]
  have : (((n : ℤ) : ℂ) * (Real.arccos y : ℂ)) = (((n : ℝ) * Real.arccos y : ℝ) : ℂ) := by push_cast; rfl
  rw [this, ← Complex.ofReal_cos, Complex.norm_real]
  exact Real.abs_cos_le_one _

/-- The error of the Chebyshev series cut after `i ≥ 1` Bessel functions. -/
theorem bessel_trunc (x y : ℝ) (hy : |y| ≤ 1) (i : ℕ) (hi : 1 ≤ i) :
    ‖(besselJ 0 x : ℂ) + ∑ k ∈ Finset.Ico 1 i, 2 * (besselJ k x : ℂ) * (-Complex.I) ^ k *
        (Polynomial.Chebyshev.T ℂ k).eval (y : ℂ) - Complex.exp (-(Complex.I * x * y))‖ ≤
      2 * ∑' n : ℕ, |besselJ (i + n) x| := by
  obtain ⟨j, rfl⟩ : ∃ j, i = j + 1 := ⟨i - 1, by omega⟩
  have h := jacobi_anger x y hy
  have h1 := (hasSum_nat_add_iff' j).2 h
  have e1 : ∑ k ∈ Finset.Ico 1 (j + 1), 2 * (besselJ k x : ℂ) * (-Complex.I) ^ k *
        (Polynomial.Chebyshev.T ℂ k).eval (y : ℂ) = ∑ n ∈ Finset.range j, 2 * (besselJ (n + 1) x : ℂ) *
          (-Complex.I) ^ (n + 1) * (Polynomial.Chebyshev.T ℂ (n + 1 : ℕ)).eval (y : ℂ) := by
    rw [Finset.sum_Ico_eq_sum_range, Nat.add_sub_cancel]
    refine Finset.sum_congr rfl (fun k _ => ?_)
    rw [add_comm 1 k]
  have hsum : Summable fun n => |besselJ (j + 1 + n) x| := by
    have := (summable_nat_add_iff (j + 1)).2 (besselJ_summable x)
    exact this.congr (fun n => by rw [add_comm])
  have e2 := tsum_of_norm_bounded (hsum.hasSum.mul_left 2)
    (f := fun n => 2 * (besselJ (n + j + 1) x : ℂ) * (-Complex.I) ^ (n + j + 1) *
      (Polynomial.Chebyshev.T ℂ (n + j + 1 : ℕ)).eval (y : ℂ)) (by
      intro n
      rw [norm_mul, norm_mul, norm_mul, norm_pow, norm_neg, Complex.norm_I, one_pow, mul_one, Complex.norm_real,
        Real.norm_eq_abs, Complex.norm_ofNat, show j + 1 + n = n + j + 1 by ring]
      have := cheb_norm_le (n + j + 1) y hy
      exact mul_le_of_le_one_right (by positivity) this)
  rw [h1.tsum_eq] at e2
  rw [e1]
  refine le_trans (le_of_eq ?_) e2
  rw [← norm_neg]
  congr 1
  ring

theorem bessel_sum_ge (x : ℝ) : 1 ≤ 2 * ∑' n : ℕ, |besselJ n x| := by
  have h := bessel_trunc x 0 (by simp) 1 le_rfl
  have hs := besselJ_summable x
  simp only [Finset.Ico_self, Finset.sum_empty, add_zero, Complex.ofReal_zero, mul_zero, neg_zero, Complex.exp_zero] at h
  have h1 : (1 : ℝ) ≤ ‖(besselJ 0 x : ℂ) - 1‖ + |besselJ 0 x| := by
    have := norm_sub_norm_le (1 : ℂ) (besselJ 0 x : ℂ)
    rw [norm_one, Complex.norm_real, Real.norm_eq_abs, norm_sub_rev] at this
    linarith
  have h2 := hs.tsum_eq_zero_add
  simp only [add_comm 1] at h
  have := abs_nonneg (besselJ 0 x)
  linarith

/-- Two neighbouring Bessel functions of orders below the argument cannot both be tiny. -/
theorem bessel_no_early (x : ℝ) (hx : 0 < x) (eps : ℝ) (heps : 0 ≤ eps)
    (h : eps * 3 ^ ⌈x⌉₊ * (3 * ⌈x⌉₊ + 2) < 1) (i : ℕ) (h1 : |besselJ i x| ≤ eps) (h2 : |besselJ (i + 1) x| ≤ eps) :
    x ≤ i := by
  by_contra hlt
  rw [not_le] at hlt
  set M := ⌈x⌉₊ with hM
  have hMx : x ≤ M := Nat.le_ceil x
  have hiM : i < M := Nat.lt_ceil.2 hlt
  have hup : ∀ m : ℕ, m < M → (m : ℝ) < x := fun m hm => Nat.lt_ceil.1 hm
  have coef : ∀ n : ℕ, n + 1 < M → 2 * (n + 1 : ℝ) / x ≤ 2 := by
    intro n hn
    have := hup (n + 1) hn
    push_cast at this
    rw [div_le_iff₀ hx]; linarith
  have down : ∀ d : ℕ, d ≤ i → |besselJ (i - d) x| ≤ 3 ^ d * eps ∧ |besselJ (i + 1 - d) x| ≤ 3 ^ d * eps := by
    intro d
    induction d with
    | zero => intro _; simpa using ⟨h1, h2⟩
    | succ d ih =>
      intro hd
      obtain ⟨a, b⟩ := ih (by omega)
      obtain ⟨n, hn⟩ : ∃ n, i - (d + 1) = n := ⟨_, rfl⟩
      have e1 : i - d = n + 1 := by omega
      have e2 : i + 1 - d = n + 2 := by omega
      have e3 : i + 1 - (d + 1) = n + 1 := by omega
      rw [e1] at a
      rw [e2] at b
      rw [hn, e3]
      have hp : (0 : ℝ) ≤ 3 ^ d * eps := by positivity
      refine ⟨?_, a.trans (by rw [pow_succ]; linarith)⟩
      have hr := besselJ_rec n x
      have e4 : besselJ n x = 2 * (n + 1 : ℝ) / x * besselJ (n + 1) x - besselJ (n + 2) x := by
        field_simp; linarith
      rw [e4]
      refine (abs_sub _ _).trans ?_
      rw [abs_mul, abs_of_nonneg (by positivity : (0 : ℝ) ≤ 2 * (n + 1 : ℝ) / x)]
      have := mul_le_mul (coef n (by omega)) a (abs_nonneg _) (by norm_num)
      rw [pow_succ]; linarith
  have up : ∀ d : ℕ, i + 1 + d ≤ M → |besselJ (i + d) x| ≤ 3 ^ d * eps ∧ |besselJ (i + 1 + d) x| ≤ 3 ^ d * eps := by
    intro d
    induction d with
    | zero => intro _; simpa using ⟨h1, h2⟩
    | succ d ih =>
      intro hd
      obtain ⟨a, b⟩ := ih (by omega)
      have hp : (0 : ℝ) ≤ 3 ^ d * eps := by positivity
      have e1 : i + (d + 1) = i + 1 + d := by ring
      have e2 : i + 1 + (d + 1) = i + d + 2 := by ring
      have e3 : i + 1 + d = i + d + 1 := by ring
      rw [e1, e2]
      refine ⟨b.trans (by rw [pow_succ]; linarith), ?_⟩
      rw [e3] at b
      have hr := besselJ_rec (i + d) x
      have e4 : besselJ (i + d + 2) x = 2 * ((i + d : ℕ) + 1 : ℝ) / x * besselJ (i + d + 1) x - besselJ (i + d) x := by
        field_simp; linarith
      rw [e4]
      refine (abs_sub _ _).trans ?_
      rw [abs_mul, abs_of_nonneg (by positivity : (0 : ℝ) ≤ 2 * ((i + d : ℕ) + 1 : ℝ) / x)]
      have := mul_le_mul (coef (i + d) (by omega)) b (abs_nonneg _) (by norm_num)
      rw [pow_succ]; linarith
  have pw : ∀ d : ℕ, d ≤ M → (3 : ℝ) ^ d * eps ≤ 3 ^ M * eps := fun d hd =>
    mul_le_mul_of_nonneg_right (pow_le_pow_right₀ (by norm_num) hd) heps
  have all : ∀ n : ℕ, n ≤ M → |besselJ n x| ≤ 3 ^ M * eps := by
    intro n hn
    rcases Nat.lt_or_ge i n with hin | hin
    · have := (up (n - i - 1) (by omega)).2
      rw [show i + 1 + (n - i - 1) = n by omega] at this
      exact this.trans (pw _ (by omega))
    · have := (down (i - n) (by omega)).1
      rw [show i - (i - n) = n by omega] at this
      exact this.trans (pw _ (by omega))
  have htail := bessel_tail x hx M hMx
  have hs := besselJ_summable x
  have hsplit := hs.sum_add_tsum_nat_add M
  have hfin : ∑ n ∈ Finset.range M, |besselJ n x| ≤ M * (3 ^ M * eps) := by
    have := Finset.sum_le_card_nsmul (Finset.range M) (fun n => |besselJ n x|) (3 ^ M * eps)
      (fun n hn => all n (Finset.mem_range.1 hn).le)
    rwa [Finset.card_range, nsmul_eq_mul] at this
  have h0 := bessel_sum_ge x
  simp only [add_comm _ M] at hsplit
  have hM0 := all M le_rfl
  have hb : |besselJ M x| * ((x + 2) / 2) ≤ 3 ^ M * eps * ((M + 2) / 2) :=
    mul_le_mul hM0 (by linarith) (by positivity) (by positivity)
  nlinarith

end Verif

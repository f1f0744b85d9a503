import Verif.Spec.Evolution
import Verif.Model.Evolution
import Verif.Proof.Bessel
import Verif.Proof.Kernel
import Verif.Proof.TbpmKb
import Mathlib.Analysis.CStarAlgebra.Matrix
import Mathlib.Analysis.Matrix.Spectrum

/-! # Functions of Hermitian matrices and the error of the Chebyshev series -/

namespace Verif.Tbpm

open Matrix
open scoped Matrix.Norms.L2Operator

variable {n : ℕ}

/-- A function of a Hermitian matrix through its eigenvalues. -/
noncomputable def hermFn {H : Matrix (Fin n) (Fin n) ℂ} (hH : H.IsHermitian) (f : ℝ → ℂ) : Matrix (Fin n) (Fin n) ℂ :=
  Unitary.conjStarAlgAut ℂ _ hH.eigenvectorUnitary (diagonal fun i => f (hH.eigenvalues i))

theorem hermFn_congr {H : Matrix (Fin n) (Fin n) ℂ} (hH : H.IsHermitian) {f g : ℝ → ℂ}
    (h : ∀ i, f (hH.eigenvalues i) = g (hH.eigenvalues i)) : hermFn hH f = hermFn hH g := by
  unfold hermFn; simp only [h]

theorem hermFn_id {H : Matrix (Fin n) (Fin n) ℂ} (hH : H.IsHermitian) : hermFn hH (fun x => (x : ℂ)) = H :=
  hH.spectral_theorem.symm

theorem hermFn_add {H : Matrix (Fin n) (Fin n) ℂ} (hH : H.IsHermitian) (f g : ℝ → ℂ) :
    hermFn hH (fun x => f x + g x) = hermFn hH f + hermFn hH g := by
  unfold hermFn
  rw [← map_add, diagonal_add]

theorem hermFn_sub {H : Matrix (Fin n) (Fin n) ℂ} (hH : H.IsHermitian) (f g : ℝ → ℂ) :
    hermFn hH (fun x => f x - g x) = hermFn hH f - hermFn hH g := by
  unfold hermFn
  rw [← map_sub, diagonal_sub]

theorem hermFn_mul {H : Matrix (Fin n) (Fin n) ℂ} (hH : H.IsHermitian) (f g : ℝ → ℂ) :
    hermFn hH (fun x => f x * g x) = hermFn hH f * hermFn hH g := by
  unfold hermFn
  rw [← map_mul, diagonal_mul_diagonal]

theorem hermFn_smul {H : Matrix (Fin n) (Fin n) ℂ} (hH : H.IsHermitian) (c : ℂ) (f : ℝ → ℂ) :
    hermFn hH (fun x => c * f x) = c • hermFn hH f := by
  unfold hermFn
  rw [← map_smul, ← diagonal_smul]
  rfl

theorem hermFn_const {H : Matrix (Fin n) (Fin n) ℂ} (hH : H.IsHermitian) (c : ℂ) :
    hermFn hH (fun _ => c) = c • 1 := by
  unfold hermFn
  have : (diagonal fun _ : Fin n => c) = c • (1 : Matrix (Fin n) (Fin n) ℂ) := by
    rw [smul_one_eq_diagonal]
  rw [this, map_smul, map_one]

theorem hermFn_sum {H : Matrix (Fin n) (Fin n) ℂ} (hH : H.IsHermitian) {ι : Type*} (s : Finset ι) (f : ι → ℝ → ℂ) :
    hermFn hH (fun x => ∑ i ∈ s, f i x) = ∑ i ∈ s, hermFn hH (f i) := by
  classical
  induction s using Finset.induction_on with
  | empty =>
    simp only [Finset.sum_empty]
    rw [hermFn_const, zero_smul]
  | insert a s ha ih =>
    simp only [Finset.sum_insert ha]
    rw [hermFn_add, ih]

theorem hermFn_pow {H : Matrix (Fin n) (Fin n) ℂ} (hH : H.IsHermitian) (f : ℝ → ℂ) (k : ℕ) :
    hermFn hH (fun x => f x ^ k) = hermFn hH f ^ k := by
  unfold hermFn
  rw [← map_pow, diagonal_pow]
  rfl

theorem hermFn_poly {H : Matrix (Fin n) (Fin n) ℂ} (hH : H.IsHermitian) (p : Polynomial ℂ) :
    hermFn hH (fun x => p.eval (x : ℂ)) = Polynomial.aeval H p := by
  induction p using Polynomial.induction_on' with
  | add p q hp hq =>
    simp only [Polynomial.eval_add, map_add]
    rw [hermFn_add, hp, hq]
  | monomial k c =>
    simp only [Polynomial.eval_monomial, Polynomial.aeval_monomial]
    rw [hermFn_smul, hermFn_pow, hermFn_id, Algebra.algebraMap_eq_smul_one, smul_mul_assoc, one_mul]

theorem hermFn_exp {H : Matrix (Fin n) (Fin n) ℂ} (hH : H.IsHermitian) (c : ℂ) :
    hermFn hH (fun x => Complex.exp (c * x)) = NormedSpace.exp (c • H) := by
  have h1 : c • H = hermFn hH (fun x => c * x) := by rw [hermFn_smul, hermFn_id]
  rw [h1]
  unfold hermFn
  rw [Unitary.conjStarAlgAut_apply, Unitary.conjStarAlgAut_apply]
  set V := hH.eigenvectorUnitary with hV
  have hu : IsUnit (V : Matrix (Fin n) (Fin n) ℂ) := (Unitary.toUnits V).isUnit
  have hinv : (star V : Matrix (Fin n) (Fin n) ℂ) = (V : Matrix (Fin n) (Fin n) ℂ)⁻¹ := by
    symm
    apply Matrix.inv_eq_right_inv
    exact Unitary.coe_mul_star_self V
  rw [hinv, Matrix.exp_conj _ _ hu, Matrix.exp_diagonal]
  congr 3
  ext i
  rw [Pi.coe_exp, ← Complex.exp_eq_exp_ℂ]

theorem hermFn_norm {H : Matrix (Fin n) (Fin n) ℂ} (hH : H.IsHermitian) (f : ℝ → ℂ) (d : ℝ) (hd : 0 ≤ d)
    (h : ∀ i, ‖f (hH.eigenvalues i)‖ ≤ d) : ‖hermFn hH f‖ ≤ d := by
  unfold hermFn
  rw [Unitary.conjStarAlgAut_apply, ← Unitary.coe_star, CStarRing.norm_mul_coe_unitary, CStarRing.norm_coe_unitary_mul,
    l2_opNorm_diagonal, pi_norm_le_iff_of_nonneg hd]
  exact h

theorem hermFn_star {H : Matrix (Fin n) (Fin n) ℂ} (hH : H.IsHermitian) (f : ℝ → ℂ) :
    (hermFn hH f)ᴴ = hermFn hH (fun x => star (f x)) := by
  unfold hermFn
  rw [← star_eq_conjTranspose, ← map_star, star_eq_conjTranspose, diagonal_conjTranspose]
  rfl

theorem UnitSpectrum.eigenvalues {H : Matrix (Fin n) (Fin n) ℂ} (hH : H.IsHermitian) (hs : UnitSpectrum H) (i : Fin n) :
    |hH.eigenvalues i| ≤ 1 := by
  have h := hs (hH.eigenvalues i : ℂ) (hH.eigenvectorBasis i) ?_ ?_
  · rwa [Complex.norm_real, Real.norm_eq_abs] at h
  · intro h0
    have h1 := hH.eigenvectorBasis.orthonormal.1 i
    have h2 : hH.eigenvectorBasis i = 0 := by
      ext j; exact congrFun h0 j
    rw [h2, norm_zero] at h1
    exact zero_ne_one h1
  · rw [hH.mulVec_eigenvectorBasis]
    rfl

theorem stateNorm_mulVec (M : Matrix (Fin n) (Fin n) ℂ) (x : CVec n) : stateNorm (M.mulVec x) ≤ ‖M‖ * stateNorm x :=
  l2_opNorm_mulVec M (WithLp.toLp 2 x)

/-! ## One step -/

/-- What `Solver` passes to the drivers for a sample with the factor `rescale` and a time step `tstep`. -/
structure Env.Solver (e : Env n) (rescale tstep prec : ℝ) (besselMax : ℕ) : Prop where
  order : ∀ key k, IsOrder (e.sch key k)
  legal : e.ham.Legal n
  herm : e.H.IsHermitian
  spectrum : UnitSpectrum e.H
  series : ∃ l, besselSeries (fun k => besselJ k (tstep * rescale)) prec besselMax = .ok l ∧ e.nbes = l.length ∧
    ∀ k (h : k < l.length), e.bes k = l[k]

theorem solverEnv_spec {sch : List ℕ → ℕ → List (Fin n)} {ham : FCsr} (hr : Ready sch ham) {rescale scale prec : ℝ} {bmax : ℕ}
    {e : Env n} (he : solverEnv sch ham rescale scale prec bmax = .ok e) :
    e.Solver rescale (scale * getTimeStep rescale) prec bmax ∧ e.H = ham.toMatrix n := by
  unfold solverEnv at he
  cases hl : besselSeries (fun i => besselJ i (scale * getTimeStep rescale * rescale)) prec bmax with
  | error x => simp only [hl] at he; cases he
  | ok l =>
    simp only [hl] at he
    cases he
    exact ⟨⟨hr.order, hr.legal, hr.herm, hr.spectrum, l, hl, rfl, fun k hk => by simp [hk]⟩, rfl⟩

theorem time_scaled {rescale : ℝ} (h : rescale ≠ 0) (scale : ℝ) : scale * getTimeStep rescale * rescale = scale * Real.pi := by
  unfold getTimeStep energyRange
  field_simp

theorem bessel_three (x prec : ℝ) (h : Precise x prec) (m : ℕ) (h1 : |besselJ m x| ≤ prec) (h2 : |besselJ (m + 1) x| ≤ prec) :
    x ≤ m ∧ 3 ≤ m := by
  have hx0 : 0 < x := lt_of_lt_of_le one_pos h.step
  have hxm := bessel_no_early x hx0 prec h.nonneg h.decay m h1 h2
  refine ⟨hxm, ?_⟩
  by_contra hlt
  have hm1 : 1 ≤ m := by
    have : (1 : ℝ) ≤ m := h.step.trans hxm
    exact_mod_cast this
  have hp := h.nonneg
  have hsmall := h.small
  have hstep := h.step
  have hsum := bessel_sum_ge x
  have htail := bessel_tail x hx0 m hxm
  have hs := besselJ_summable x
  have back : ∀ k : ℕ, x * |besselJ k x| ≤ 2 * (k + 1 : ℝ) * |besselJ (k + 1) x| + x * |besselJ (k + 2) x| := by
    intro k
    have hr := besselJ_rec k x
    have h3 : x * besselJ k x = 2 * (k + 1 : ℝ) * besselJ (k + 1) x - x * besselJ (k + 2) x := by linarith
    have h4 : |x * besselJ k x| ≤ |2 * (k + 1 : ℝ) * besselJ (k + 1) x| + |x * besselJ (k + 2) x| := by
      rw [h3]; exact abs_sub _ _
    rwa [abs_mul, abs_mul (2 * (k + 1 : ℝ)), abs_mul x, abs_of_pos hx0, abs_of_pos (by positivity : (0 : ℝ) < 2 * (k + 1))] at h4
  have small : ∀ {a b c : ℝ}, x * a ≤ c * b + x * 1 * prec → 0 ≤ b → 0 ≤ c → a ≤ c * b + prec := by
    intro a b c hab hb hc
    by_contra hcon
    push Not at hcon
    have : x * (c * b + prec) < x * a := mul_lt_mul_of_pos_left hcon hx0
    have : c * b ≤ x * (c * b) := le_mul_of_one_le_left (mul_nonneg hc hb) hstep
    nlinarith
  interval_cases m
  · simp only [Nat.cast_one] at hxm
    have b0 := back 0
    simp only [Nat.cast_zero, zero_add] at b0
    rw [hs.tsum_eq_zero_add] at hsum
    have e1 : (∑' n : ℕ, |besselJ (n + 1) x|) = ∑' n : ℕ, |besselJ (1 + n) x| := by simp only [add_comm]
    rw [e1] at hsum
    have c1 : |besselJ 1 x| * ((x + 2) / 2) ≤ prec * ((x + 2) / 2) := mul_le_mul_of_nonneg_right h1 (by linarith)
    have c2 : x * |besselJ 2 x| ≤ x * prec := mul_le_mul_of_nonneg_left h2 hx0.le
    have c3 : |besselJ 0 x| ≤ 2 * |besselJ 1 x| + prec := small (by linarith) (abs_nonneg _) (by norm_num)
    nlinarith
  · have hxm' : x ≤ 2 := by exact_mod_cast hxm
    have b0 := back 0
    have b1 := back 1
    simp only [Nat.cast_zero, zero_add, Nat.cast_one, one_add_one_eq_two, show (1 : ℕ) + 2 = 3 from rfl] at b0 b1
    have f2 : |besselJ 2 x| ≤ prec := h1
    have f3 : |besselJ 3 x| ≤ prec := h2
    have hs1 : Summable fun n => |besselJ (n + 1) x| := (summable_nat_add_iff 1).2 hs
    rw [hs.tsum_eq_zero_add, hs1.tsum_eq_zero_add] at hsum
    have e1 : (∑' n : ℕ, |besselJ (n + 1 + 1) x|) = ∑' n : ℕ, |besselJ (2 + n) x| := by
      refine tsum_congr fun n => ?_
      rw [show n + 1 + 1 = 2 + n by ring]
    rw [e1] at hsum
    have c1 : |besselJ 2 x| * ((x + 2) / 2) ≤ prec * ((x + 2) / 2) := mul_le_mul_of_nonneg_right f2 (by linarith)
    have c3 : x * |besselJ 3 x| ≤ x * prec := mul_le_mul_of_nonneg_left f3 hx0.le
    have c2 : x * |besselJ 2 x| ≤ x * prec := mul_le_mul_of_nonneg_left f2 hx0.le
    have c4 : |besselJ 1 x| ≤ 4 * |besselJ 2 x| + prec := small (by linarith) (abs_nonneg _) (by norm_num)
    have c5 : |besselJ 0 x| ≤ 2 * |besselJ 1 x| + prec := small (by linarith) (abs_nonneg _) (by norm_num)
    simp only [zero_add] at hsum
    nlinarith

/-- The exact step. -/
noncomputable def exactU (e : Env n) (x : ℝ) (fwd : Bool) : Matrix (Fin n) (Fin n) ℂ :=
  NormedSpace.exp ((-(Complex.I * ((if fwd then x else -x : ℝ) : ℂ))) • e.H)

theorem solver_data {e : Env n} {rescale tstep prec : ℝ} {bmax : ℕ} (h : e.Solver rescale tstep prec bmax)
    (hp : Precise (tstep * rescale) prec) :
    3 ≤ e.nbes ∧ (∀ k < e.nbes, e.bes k = besselJ k (tstep * rescale)) ∧
      2 * ∑' k : ℕ, |besselJ (e.nbes + k) (tstep * rescale)| ≤ prec * (tstep * rescale + 2) := by
  obtain ⟨l, hl, hn, hb⟩ := h.series
  obtain ⟨hb1, hb2⟩ := bessel_series (fun k => besselJ k (tstep * rescale)) prec bmax
  by_cases hex : ∃ m < bmax, |besselJ m (tstep * rescale)| ≤ prec ∧ |besselJ (m + 1) (tstep * rescale)| ≤ prec
  · obtain ⟨hm1, hm2, hm3⟩ := Nat.find_spec hex
    rw [hb1 _ hm1 (fun i hi hh => Nat.find_min hex hi ⟨by omega, hh⟩) ⟨hm2, hm3⟩] at hl
    cases hl
    obtain ⟨h4, h5⟩ := bessel_three _ _ hp _ hm2 hm3
    have hlen : e.nbes = Nat.find hex := by rw [hn]; simp
    rw [hlen]
    refine ⟨h5, fun k hk => ?_, ?_⟩
    · rw [hb k (by simpa using hk)]
      simp
    · have hx0 : 0 < tstep * rescale := lt_of_lt_of_le one_pos hp.step
      have := bessel_tail _ hx0 _ h4
      have h6 : |besselJ (Nat.find hex) (tstep * rescale)| * ((tstep * rescale + 2) / 2) ≤
          prec * ((tstep * rescale + 2) / 2) := mul_le_mul_of_nonneg_right hm2 (by linarith)
      linarith
  · rw [hb2 fun i hi hh => hex ⟨i, hi, hh⟩] at hl
    cases hl

theorem solver_good {e : Env n} {rescale tstep prec : ℝ} {bmax : ℕ} (h : e.Solver rescale tstep prec bmax)
    (hp : Precise (tstep * rescale) prec) : e.Good :=
  ⟨h.order, h.legal, (solver_data h hp).1⟩

theorem U_hermFn (e : Env n) (hH : e.H.IsHermitian) (fwd : Bool) :
    e.U fwd = hermFn hH fun y => (e.bes 0 : ℂ) + ∑ k ∈ Finset.Ico 1 e.nbes,
      2 * e.bes k * (if fwd then -Complex.I else Complex.I) ^ k * (Polynomial.Chebyshev.T ℂ k).eval (y : ℂ) := by
  rw [hermFn_add, hermFn_const, hermFn_sum]
  unfold Env.U
  congr 1
  refine Finset.sum_congr rfl fun k _ => ?_
  rw [hermFn_smul, hermFn_poly]
  rfl

theorem step_error {e : Env n} {rescale tstep prec : ℝ} {bmax : ℕ} (h : e.Solver rescale tstep prec bmax)
    (hp : Precise (tstep * rescale) prec) (fwd : Bool) :
    ‖e.U fwd - exactU e (tstep * rescale) fwd‖ ≤ prec * (tstep * rescale + 2) := by
  obtain ⟨h3, hb, ht⟩ := solver_data h hp
  set x := tstep * rescale with hx
  have hd : 0 ≤ prec * (x + 2) := mul_nonneg hp.nonneg (by linarith [hp.step])
  unfold exactU
  rw [U_hermFn e h.herm, ← hermFn_exp h.herm, ← hermFn_sub]
  refine hermFn_norm h.herm _ _ hd fun i => ?_
  have hy := UnitSpectrum.eigenvalues h.herm h.spectrum i
  set y := h.herm.eigenvalues i with hydef
  rw [hb 0 (by omega), Finset.sum_congr rfl fun k hk => by
    rw [hb k (Finset.mem_Ico.1 hk).2]]
  refine le_trans ?_ ht
  cases fwd with
  | true =>
    have := bessel_trunc x y hy e.nbes (by omega)
    simp only [if_true]
    rwa [show -(Complex.I * (x : ℂ)) * (y : ℂ) = -(Complex.I * x * y) by ring]
  | false =>
    have := bessel_trunc x (-y) (by rwa [abs_neg]) e.nbes (by omega)
    simp only [Bool.false_eq_true, if_false]
    rw [show -(Complex.I * ((-x : ℝ) : ℂ)) * (y : ℂ) = -(Complex.I * x * ((-y : ℝ) : ℂ)) by push_cast; ring]
    have hsum : ∀ k ∈ Finset.Ico 1 e.nbes, 2 * (besselJ k x : ℂ) * Complex.I ^ k * (Polynomial.Chebyshev.T ℂ k).eval (y : ℂ) =
        2 * (besselJ k x : ℂ) * (-Complex.I) ^ k * (Polynomial.Chebyshev.T ℂ k).eval ((-y : ℝ) : ℂ) := by
      intro k _
      rw [Complex.ofReal_neg, Polynomial.Chebyshev.T_eval_neg, neg_pow Complex.I]
      have h1 : ((-1 : ℂ) ^ k * (-1) ^ k) = 1 := by rw [← mul_pow]; simp
      simp only [Int.cast_negOnePow, zpow_natCast]
      linear_combination (-(2 * (besselJ k x : ℂ) * Complex.I ^ k * (Polynomial.Chebyshev.T ℂ k).eval (y : ℂ))) * h1
    rwa [Finset.sum_congr rfl hsum]

/-! ## Many steps -/

theorem exactU_pow (e : Env n) (x : ℝ) (fwd : Bool) (t : ℕ) :
    exactU e x fwd ^ t = NormedSpace.exp ((-(Complex.I * ((if fwd then t * x else -(t * x) : ℝ) : ℂ))) • e.H) := by
  unfold exactU
  rw [← Matrix.exp_nsmul, ← Nat.cast_smul_eq_nsmul ℂ, smul_smul]
  congr 2
  cases fwd <;> simp <;> ring

theorem exactU_norm {e : Env n} (hH : e.H.IsHermitian) (x : ℝ) (fwd : Bool) : ‖exactU e x fwd‖ ≤ 1 := by
  unfold exactU
  rw [← hermFn_exp hH]
  refine hermFn_norm hH _ _ zero_le_one fun i => ?_
  rw [show -(Complex.I * ((if fwd then x else -x : ℝ) : ℂ)) * (hH.eigenvalues i : ℂ) =
    ((-((if fwd then x else -x : ℝ) * hH.eigenvalues i) : ℝ) : ℂ) * Complex.I by push_cast; ring, Complex.norm_exp_ofReal_mul_I]

theorem pow_error {A : Type*} [NormedRing A] {u w : A} {d : ℝ} (hd : ‖u - w‖ ≤ d) (hw : ‖w‖ ≤ 1) (h1 : ‖(1 : A)‖ ≤ 1) (t : ℕ) :
    ‖u ^ t - w ^ t‖ ≤ (1 + d) ^ t - 1 := by
  have hd0 : 0 ≤ d := (norm_nonneg _).trans hd
  have hwp : ∀ t : ℕ, ‖w ^ t‖ ≤ 1 := by
    intro t
    induction t with
    | zero => simpa using h1
    | succ t ih =>
      rw [pow_succ]
      exact (norm_mul_le _ _).trans (mul_le_one₀ ih (norm_nonneg _) hw)
  have hu : ‖u‖ ≤ 1 + d := by
    have := norm_add_le w (u - w)
    rw [add_sub_cancel] at this
    linarith
  induction t with
  | zero => simp
  | succ t ih =>
    have e1 : u ^ (t + 1) - w ^ (t + 1) = (u ^ t - w ^ t) * u + w ^ t * (u - w) := by
      rw [pow_succ, pow_succ, sub_mul, mul_sub]; abel
    rw [e1]
    refine (norm_add_le _ _).trans ?_
    have h2 : ‖(u ^ t - w ^ t) * u‖ ≤ ((1 + d) ^ t - 1) * (1 + d) :=
      (norm_mul_le _ _).trans (mul_le_mul ih hu (norm_nonneg _) ((norm_nonneg _).trans ih))
    have h3 : ‖w ^ t * (u - w)‖ ≤ 1 * d :=
      (norm_mul_le _ _).trans (mul_le_mul (hwp t) hd (norm_nonneg _) zero_le_one)
    rw [pow_succ]
    linarith

theorem one_norm_le : ‖(1 : Matrix (Fin n) (Fin n) ℂ)‖ ≤ 1 := by
  have := l2_opNorm_diagonal (𝕜 := ℂ) (fun _ : Fin n => (1 : ℂ))
  rw [diagonal_one] at this
  rw [this, pi_norm_le_iff_of_nonneg zero_le_one]
  intro i; simp

theorem steps_error {e : Env n} {rescale tstep prec : ℝ} {bmax : ℕ} (h : e.Solver rescale tstep prec bmax)
    (hp : Precise (tstep * rescale) prec) (fwd : Bool) (t : ℕ) :
    ‖e.U fwd ^ t - exactU e (tstep * rescale) fwd ^ t‖ ≤ (1 + prec * (tstep * rescale + 2)) ^ t - 1 :=
  pow_error (step_error h hp fwd) (exactU_norm h.herm _ _) one_norm_le t

theorem exact_evolved (e : Env n) (rescale tstep : ℝ) (fwd : Bool) (t : ℕ) (y : CVec n) :
    (exactU e (tstep * rescale) fwd ^ t).mulVec y =
      evolved ((rescale : ℂ) • e.H) (if fwd then t * tstep else -(t * tstep)) y := by
  unfold evolved
  rw [exactU_pow, smul_smul]
  congr 3
  cases fwd <;> simp <;> ring

theorem vec_error {e : Env n} {rescale tstep prec : ℝ} {bmax : ℕ} (h : e.Solver rescale tstep prec bmax)
    (hp : Precise (tstep * rescale) prec) (fwd : Bool) (t : ℕ) (y : CVec n) :
    stateNorm ((e.U fwd ^ t).mulVec y - evolved ((rescale : ℂ) • e.H) (if fwd then t * tstep else -(t * tstep)) y) ≤
      ((1 + prec * (tstep * rescale + 2)) ^ t - 1) * stateNorm y := by
  rw [← exact_evolved, ← Matrix.sub_mulVec]
  exact (stateNorm_mulVec _ _).trans (mul_le_mul_of_nonneg_right (steps_error h hp fwd t) (norm_nonneg _))

theorem innerProd_eq_inner (x y : CVec n) :
    innerProd x y = inner ℂ (WithLp.toLp 2 x : EuclideanSpace ℂ (Fin n)) (WithLp.toLp 2 y) := by
  rw [EuclideanSpace.inner_eq_star_dotProduct]
  unfold innerProd dotProduct
  refine Finset.sum_congr rfl fun i _ => ?_
  rw [mul_comm]
  rfl

theorem innerProd_norm_le (x y : CVec n) : ‖innerProd x y‖ ≤ stateNorm x * stateNorm y := by
  rw [innerProd_eq_inner]
  exact norm_inner_le_norm _ _

theorem innerProd_stateNorm (x : CVec n) : innerProd x x = ((stateNorm x ^ 2 : ℝ) : ℂ) := by
  rw [innerProd_eq_inner, inner_self_eq_norm_sq_to_K]
  push_cast
  rfl

theorem stateNorm_one {x : CVec n} (h : innerProd x x = 1) : stateNorm x = 1 := by
  rw [innerProd_stateNorm] at h
  have h1 : stateNorm x ^ 2 = 1 := by exact_mod_cast h
  have h2 : 0 ≤ stateNorm x := norm_nonneg _
  nlinarith

theorem evolved_norm {H : Matrix (Fin n) (Fin n) ℂ} (hH : H.IsHermitian) (t : ℝ) (x : CVec n) :
    stateNorm (evolved H t x) = stateNorm x := by
  have key : innerProd (evolved H t x) (evolved H t x) = innerProd x x := by
    have hu : (NormedSpace.exp ((-(Complex.I * t)) • H))ᴴ * NormedSpace.exp ((-(Complex.I * t)) • H) = 1 := by
      rw [← hermFn_exp hH, hermFn_star, ← hermFn_mul]
      rw [hermFn_congr hH (g := fun _ => (1 : ℂ)), hermFn_const, one_smul]
      intro i
      rw [Complex.star_def, ← Complex.exp_conj, ← Complex.exp_add]
      simp
    have : ∀ a b : CVec n, innerProd a b = star a ⬝ᵥ b := fun a b => rfl
    unfold evolved
    rw [this, this, Matrix.star_mulVec, ← Matrix.dotProduct_mulVec, Matrix.mulVec_mulVec, hu, Matrix.one_mulVec]
  rw [innerProd_stateNorm, innerProd_stateNorm] at key
  have h1 : stateNorm (evolved H t x) ^ 2 = stateNorm x ^ 2 := by exact_mod_cast key
  exact (sq_eq_sq₀ (norm_nonneg _) (norm_nonneg _)).1 h1

end Verif.Tbpm

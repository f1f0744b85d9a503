import Verif.Proof.Jackson
import Verif.Proof.Evolution
import Verif.Props.Fft
import Verif.Props.Evolution

/-! # C108: accuracy of the Fermi operator -/

namespace Verif.Fft

open Verif.Tbpm Matrix

theorem occupation_mem (beta mu : ℝ) (oneMinus : Bool) (x : ℝ) : 0 ≤ occupation beta mu oneMinus x ∧ occupation beta mu oneMinus x ≤ 1 := by
  have he := Real.exp_pos (beta * (x - mu))
  have h1 : 0 ≤ 1 / (1 + Real.exp (beta * (x - mu))) := by positivity
  have h2 : 1 / (1 + Real.exp (beta * (x - mu))) ≤ 1 := by rw [div_le_one (by positivity)]; linarith
  unfold occupation
  split <;> constructor <;> linarith

theorem occupation_lipschitz (beta mu : ℝ) (hb : 0 ≤ beta) (oneMinus : Bool) (x y : ℝ) :
    |occupation beta mu oneMinus x - occupation beta mu oneMinus y| ≤ beta / 4 * |x - y| := by
  have h := Jackson.fermi_lipschitz beta mu hb x y
  unfold occupation
  split
  · rw [show ∀ a b : ℝ, 1 - a - (1 - b) = -(a - b) from fun a b => by ring, abs_neg]
    exact h
  · exact h

theorem coef_series (sch : ℕ → List ℕ) (hsch : ∀ k, (sch k).Perm (List.range k)) (p : ℕ) (beta mu : ℝ) (oneMinus : Bool)
    (eps : ℝ) (junk : ℕ → ℝ) {c : ℕ → ℝ} {n : ℕ}
    (h : fermiChebCoef sch (p + 2) (2 ^ (p + 1)) beta mu oneMinus eps junk = some (c, n)) (θ : ℝ) :
    ∑ k ∈ Finset.range (2 ^ p), c k * Real.cos (k * θ) = Jackson.series (2 ^ p) (occupation beta mu oneMinus) θ := by
  obtain ⟨d, m, e1, e2⟩ := C91_coefficients sch hsch p beta mu oneMinus eps junk
  obtain ⟨rfl, rfl⟩ : d = c ∧ m = n := by rw [e1] at h; simpa using h
  unfold Jackson.series
  refine Finset.sum_congr rfl fun k hk => ?_
  rw [e2 k (Finset.mem_range.1 hk)]
  unfold Jackson.g Jackson.pt
  push_cast
  rw [show (2 : ℕ) * 2 ^ p = 2 ^ (p + 1) by ring, show (2 : ℝ) * 2 ^ p = 2 ^ (p + 1) by ring]

theorem full_error (sch : ℕ → List ℕ) (hsch : ∀ k, (sch k).Perm (List.range k)) (p : ℕ) (hp : 2 ≤ p) (beta mu : ℝ) (hb : 0 ≤ beta)
    (oneMinus : Bool) (eps : ℝ) (junk : ℕ → ℝ) {c : ℕ → ℝ} {n : ℕ}
    (h : fermiChebCoef sch (p + 2) (2 ^ (p + 1)) beta mu oneMinus eps junk = some (c, n)) (x : ℝ) (hx : |x| ≤ 1) (n' : ℕ) (hn : n' ≤ 2 ^ p) :
    let full := ∑ k ∈ Finset.range (2 ^ p), c k * (Polynomial.Chebyshev.T ℝ k).eval x
    let f := occupation beta mu oneMinus x
    (0 ≤ full ∧ full ≤ 1) ∧ |full - f| ≤ beta / 4 * Real.sin (2 * Real.pi / 2 ^ (p + 1)) ∧
    |∑ k ∈ Finset.range n', c k * (Polynomial.Chebyshev.T ℝ k).eval x - f| ≤
      beta / 4 * Real.sin (2 * Real.pi / 2 ^ (p + 1)) + ∑ k ∈ Finset.Ico n' (2 ^ p), |c k| := by
  intro full f
  obtain ⟨h1, h2⟩ := abs_le.1 hx
  set θ := Real.arccos x with hθ
  have hxθ : x = Real.cos θ := (Real.cos_arccos h1 h2).symm
  have hN : 4 ≤ 2 ^ p := by
    calc 4 = 2 ^ 2 := by norm_num
      _ ≤ 2 ^ p := Nat.pow_le_pow_right (by norm_num) hp
  have hT : ∀ k : ℕ, (Polynomial.Chebyshev.T ℝ k).eval x = Real.cos (k * θ) := by
    intro k
    rw [hxθ, Polynomial.Chebyshev.T_real_cos]
    norm_cast
  have hfull : full = Jackson.series (2 ^ p) (occupation beta mu oneMinus) θ := by
    rw [← coef_series sch hsch p beta mu oneMinus eps junk h θ]
    exact Finset.sum_congr rfl fun k _ => by rw [hT]
  have hq : Real.pi / ((2 ^ p : ℕ) : ℝ) = 2 * Real.pi / 2 ^ (p + 1) := by
    push_cast
    rw [pow_succ]
    field_simp
  have herr : |full - f| ≤ beta / 4 * Real.sin (2 * Real.pi / 2 ^ (p + 1)) := by
    rw [hfull, ← hq]
    have := Jackson.series_error (by omega : 3 ≤ 2 ^ p) (occupation beta mu oneMinus) (beta / 4) (by positivity)
      (occupation_lipschitz beta mu hb oneMinus) θ
    rwa [← hxθ] at this
  have hmem : 0 ≤ full ∧ full ≤ 1 := by
    rw [hfull]
    exact Jackson.series_mem (by omega) _ 0 1 (fun y _ => occupation_mem beta mu oneMinus y) θ
  refine ⟨hmem, herr, ?_⟩
  have hsplit : full = ∑ k ∈ Finset.range n', c k * (Polynomial.Chebyshev.T ℝ k).eval x +
      ∑ k ∈ Finset.Ico n' (2 ^ p), c k * (Polynomial.Chebyshev.T ℝ k).eval x := (Finset.sum_range_add_sum_Ico _ hn).symm
  have htail : |∑ k ∈ Finset.Ico n' (2 ^ p), c k * (Polynomial.Chebyshev.T ℝ k).eval x| ≤ ∑ k ∈ Finset.Ico n' (2 ^ p), |c k| := by
    refine (Finset.abs_sum_le_sum_abs _ _).trans (Finset.sum_le_sum fun k _ => ?_)
    rw [abs_mul, hT]
    exact mul_le_of_le_one_right (abs_nonneg _) (Real.abs_cos_le_one _)
  rw [show ∑ k ∈ Finset.range n', c k * (Polynomial.Chebyshev.T ℝ k).eval x - f = (full - f) -
    ∑ k ∈ Finset.Ico n' (2 ^ p), c k * (Polynomial.Chebyshev.T ℝ k).eval x by rw [hsplit]; ring]
  exact (abs_sub _ _).trans (add_le_add herr htail)

theorem kept_le {sch : ℕ → List ℕ} (hsch : ∀ k, (sch k).Perm (List.range k)) {p : ℕ} {beta mu : ℝ} {oneMinus : Bool} {eps : ℝ}
    {junk : ℕ → ℝ} {c : ℕ → ℝ} {n : ℕ} (h : fermiChebCoef sch (p + 2) (2 ^ (p + 1)) beta mu oneMinus eps junk = some (c, n)) :
    n ≤ 2 ^ p := by
  obtain ⟨c', -, n', e1, -, -, hn, -⟩ := C91_truncation sch hsch p beta mu oneMinus eps junk junk
  obtain ⟨rfl, rfl⟩ : c' = c ∧ n' = n := by rw [e1] at h; simpa using h
  exact hn

/-- C108: the full series of the coefficients, evaluated at any energy of the spectrum, is an occupation between 0 and 1, and differs
from the Fermi function (or its complement) by at most `beta/4 sin(2 pi / nr_Fermi_fft_steps)`.  The series used by the program, which
ends after the `n` coefficients kept, differs by at most the sum of the coefficients dropped in addition.  This holds for every number
of points which is a power of two and at least eight. -/
theorem C108_series (sch : ℕ → List ℕ) (hsch : ∀ k, (sch k).Perm (List.range k)) (p : ℕ) (hp : 2 ≤ p) (beta mu : ℝ) (hb : 0 ≤ beta)
    (oneMinus : Bool) (eps : ℝ) (junk : ℕ → ℝ) {c : ℕ → ℝ} {n : ℕ}
    (h : fermiChebCoef sch (p + 2) (2 ^ (p + 1)) beta mu oneMinus eps junk = some (c, n)) (x : ℝ) (hx : |x| ≤ 1) :
    let full := ∑ k ∈ Finset.range (2 ^ p), c k * (Polynomial.Chebyshev.T ℝ k).eval x
    let f := occupation beta mu oneMinus x
    (0 ≤ full ∧ full ≤ 1) ∧ |full - f| ≤ beta / 4 * Real.sin (2 * Real.pi / 2 ^ (p + 1)) ∧
    |∑ k ∈ Finset.range n, c k * (Polynomial.Chebyshev.T ℝ k).eval x - f| ≤
      beta / 4 * Real.sin (2 * Real.pi / 2 ^ (p + 1)) + ∑ k ∈ Finset.Ico n (2 ^ p), |c k| :=
  full_error sch hsch p hp beta mu hb oneMinus eps junk h x hx n (kept_le hsch h)

theorem fermiMatrix_fn {n : ℕ} {H : Matrix (Fin n) (Fin n) ℂ} (hH : H.IsHermitian) (beta mu : ℝ) (oneMinus : Bool) :
    fermiMatrix beta mu oneMinus H = hermFn hH fun x => (occupation beta mu oneMinus x : ℂ) := by
  have h1 : NormedSpace.exp ((beta : ℂ) • (H - (mu : ℂ) • 1)) = hermFn hH fun x => ((Real.exp (beta * (x - mu)) : ℝ) : ℂ) := by
    have hc : ((beta : ℂ) • (H - (mu : ℂ) • 1) : Matrix (Fin n) (Fin n) ℂ) = (beta : ℂ) • H + (-(beta * mu : ℂ)) • 1 := by
      rw [smul_sub, smul_smul, neg_smul, sub_eq_add_neg]
    rw [hc, Matrix.exp_add_of_commute _ _ ((Commute.one_right _).smul_right _), ← hermFn_exp hH]
    have h2 : NormedSpace.exp ((-(beta * mu : ℂ)) • (1 : Matrix (Fin n) (Fin n) ℂ)) = hermFn hH fun _ => Complex.exp (-(beta * mu)) := by
      rw [hermFn_const, smul_one_eq_diagonal, Matrix.exp_diagonal, smul_one_eq_diagonal]
      congr 1
      funext i
      rw [Pi.coe_exp, ← Complex.exp_eq_exp_ℂ]
    rw [h2, ← hermFn_mul]
    refine hermFn_congr hH fun i => ?_
    rw [← Complex.exp_add]
    push_cast
    congr 1
    ring
  have h3 : (1 + NormedSpace.exp ((beta : ℂ) • (H - (mu : ℂ) • 1)))⁻¹ = hermFn hH fun x => (occupation beta mu false x : ℂ) := by
    apply Matrix.inv_eq_right_inv
    rw [h1]
    have e1 : (1 : Matrix (Fin n) (Fin n) ℂ) = hermFn hH fun _ => 1 := by rw [hermFn_const, one_smul]
    rw [e1, ← hermFn_add, ← hermFn_mul]
    refine hermFn_congr hH fun i => ?_
    unfold occupation
    simp only [Bool.false_eq_true, if_false]
    have he := Real.exp_pos (beta * (hH.eigenvalues i - mu))
    rw [← Complex.ofReal_one, ← Complex.ofReal_add, ← Complex.ofReal_mul]
    congr 1
    field_simp
  unfold fermiMatrix
  rw [h3]
  cases oneMinus with
  | false => rfl
  | true =>
    simp only [if_true]
    have e1 : (1 : Matrix (Fin n) (Fin n) ℂ) = hermFn hH fun _ => 1 := by rw [hermFn_const, one_smul]
    rw [e1, ← hermFn_sub]
    refine hermFn_congr hH fun i => ?_
    unfold occupation
    simp

open scoped Matrix.Norms.L2Operator in
theorem chebSeries_error {n : ℕ} {e : Env n} (hH : e.H.IsHermitian) (hs : UnitSpectrum e.H) (sch : ℕ → List ℕ)
    (hsch : ∀ k, (sch k).Perm (List.range k)) (p : ℕ) (hp : 2 ≤ p) (beta mu : ℝ) (hb : 0 ≤ beta) (oneMinus : Bool) (eps : ℝ)
    (junk : ℕ → ℝ) {c : ℕ → ℝ} {m0 : ℕ} (h : fermiChebCoef sch (p + 2) (2 ^ (p + 1)) beta mu oneMinus eps junk = some (c, m0))
    (m : ℕ) (hm : m ≤ 2 ^ p) : ‖e.chebSeries (c, m) - fermiMatrix beta mu oneMinus e.H‖ ≤
      beta / 4 * Real.sin (2 * Real.pi / 2 ^ (p + 1)) + ∑ k ∈ Finset.Ico m (2 ^ p), |c k| := by
  have h1 : e.chebSeries (c, m) = hermFn hH fun x => ((∑ k ∈ Finset.range m, c k * (Polynomial.Chebyshev.T ℝ k).eval x : ℝ) : ℂ) := by
    unfold Env.chebSeries
    have hf : ∀ x : ℝ, ((∑ k ∈ Finset.range m, c k * (Polynomial.Chebyshev.T ℝ k).eval x : ℝ) : ℂ) =
        ∑ k ∈ Finset.range m, (c k : ℂ) * (Polynomial.Chebyshev.T ℂ k).eval (x : ℂ) := by
      intro x
      push_cast
      refine Finset.sum_congr rfl fun k _ => ?_
      rw [← Polynomial.Chebyshev.complex_ofReal_eval_T]
    simp only [hf]
    rw [hermFn_sum]
    refine Finset.sum_congr rfl fun k _ => ?_
    rw [hermFn_smul, hermFn_poly]
    rfl
  rw [h1, fermiMatrix_fn hH, ← hermFn_sub]
  have hnn : 0 ≤ beta / 4 * Real.sin (2 * Real.pi / 2 ^ (p + 1)) + ∑ k ∈ Finset.Ico m (2 ^ p), |c k| :=
    (abs_nonneg _).trans (full_error sch hsch p hp beta mu hb oneMinus eps junk h 0 (by simp) m hm).2.2
  refine hermFn_norm hH _ _ hnn fun i => ?_
  have := (full_error sch hsch p hp beta mu hb oneMinus eps junk h _ (UnitSpectrum.eigenvalues hH hs i) m hm).2.2
  rwa [← Complex.ofReal_sub, Complex.norm_real, Real.norm_eq_abs]

/-- C108: applied to a state, the operator of the program is the operator `1 / (1 + exp (beta (H - mu)))` (or one minus it) up to the
same error times the norm of the state, for every schedule.  `beta` and `mu` are in units of `rescale`. -/
theorem C108_operator {n : ℕ} {sch : List ℕ → ℕ → List (Fin n)} {ham : FCsr} (hr : Ready sch ham) (fsch : ℕ → List ℕ)
    (hfsch : ∀ k, (fsch k).Perm (List.range k)) (p : ℕ) (hp : 2 ≤ p) (beta mu : ℝ) (hb : 0 ≤ beta) (oneMinus : Bool) (eps : ℝ)
    (junk : ℕ → ℝ) {c : ℕ → ℝ} {m : ℕ} (h : fermiChebCoef fsch (p + 2) (2 ^ (p + 1)) beta mu oneMinus eps junk = some (c, m))
    (key : List ℕ) (y : CVec n) :
    stateNorm (fermiOp (sch key) ham c m y - (fermiMatrix beta mu oneMinus (ham.toMatrix n)).mulVec y) ≤
      (beta / 4 * Real.sin (2 * Real.pi / 2 ^ (p + 1)) + ∑ k ∈ Finset.Ico m (2 ^ p), |c k|) * stateNorm y := by
  let e : Env n := ⟨sch, ham, fun _ => 0, 3⟩
  have h1 : fermiOp (sch key) ham c m y = (e.chebSeries (c, max m 3)).mulVec y := by
    rw [fermiOp_eq (sch key) (hr.order key) ham hr.legal c m y]
    unfold Env.chebSeries
    rw [Matrix.sum_mulVec]
    refine Finset.sum_congr rfl fun k _ => ?_
    rw [Matrix.smul_mulVec]
    rfl
  have hm := kept_le hfsch h
  have hN : 4 ≤ 2 ^ p := by
    calc 4 = 2 ^ 2 := by norm_num
      _ ≤ 2 ^ p := Nat.pow_le_pow_right (by norm_num) hp
  rw [h1, ← Matrix.sub_mulVec]
  refine (stateNorm_mulVec _ _).trans (mul_le_mul_of_nonneg_right ?_ (stateNorm_nonneg y))
  refine (chebSeries_error (e := e) hr.herm hr.spectrum fsch hfsch p hp beta mu hb oneMinus eps junk h (max m 3) (by omega)).trans ?_
  gcongr
  exact le_max_left m 3

theorem hermFn_eigen {n : ℕ} {H : Matrix (Fin n) (Fin n) ℂ} (hH : H.IsHermitian) (f : ℝ → ℂ) (x : CVec n) (E : ℝ)
    (hx : H.mulVec x = (E : ℂ) • x) : (hermFn hH f).mulVec x = f E • x := by
  set V : Matrix (Fin n) (Fin n) ℂ := (hH.eigenvectorUnitary : Matrix (Fin n) (Fin n) ℂ) with hV
  have hVV : star V * V = 1 := Unitary.coe_star_mul_self hH.eigenvectorUnitary
  have hVV' : V * star V = 1 := Unitary.coe_mul_star_self hH.eigenvectorUnitary
  have hf : ∀ g : ℝ → ℂ, hermFn hH g = V * diagonal (fun i => g (hH.eigenvalues i)) * star V := fun g => by
    unfold hermFn
    rw [Unitary.conjStarAlgAut_apply]
  set z := (star V).mulVec x with hz
  have hzx : V.mulVec z = x := by rw [hz, Matrix.mulVec_mulVec, hVV', Matrix.one_mulVec]
  have hd : ∀ i, (hH.eigenvalues i : ℂ) * z i = E * z i := by
    have h1 : (hermFn hH fun y => (y : ℂ)).mulVec x = (E : ℂ) • x := by rw [hermFn_id]; exact hx
    rw [hf, ← Matrix.mulVec_mulVec, ← hz, ← Matrix.mulVec_mulVec] at h1
    have h2 := congrArg (star V).mulVec h1
    rw [Matrix.mulVec_mulVec, hVV, Matrix.one_mulVec, Matrix.mulVec_smul, ← hz] at h2
    intro i
    have := congrFun h2 i
    rwa [Matrix.mulVec_diagonal] at this
  rw [hf, ← Matrix.mulVec_mulVec, ← hz, ← Matrix.mulVec_mulVec]
  have h3 : (diagonal fun i => f (hH.eigenvalues i)).mulVec z = f E • z := by
    funext i
    rw [Matrix.mulVec_diagonal, Pi.smul_apply, smul_eq_mul]
    rcases eq_or_ne (z i) 0 with h0 | h0
    · rw [h0, mul_zero, mul_zero]
    · have := mul_right_cancel₀ h0 (hd i)
      rw [show hH.eigenvalues i = E from by exact_mod_cast this]
  rw [h3, Matrix.mulVec_smul, hzx]

/-- C108: the exact operator acts on an eigenstate as the Fermi function of its energy. -/
theorem C108_eigenstate {n : ℕ} {H : Matrix (Fin n) (Fin n) ℂ} (hH : H.IsHermitian) (beta mu : ℝ) (x : CVec n) (E : ℝ)
    (hx : H.mulVec x = (E : ℂ) • x) :
    (fermiMatrix beta mu false H).mulVec x = ((1 / (1 + Real.exp (beta * (E - mu))) : ℝ) : ℂ) • x ∧
    (fermiMatrix beta mu true H).mulVec x = ((1 - 1 / (1 + Real.exp (beta * (E - mu))) : ℝ) : ℂ) • x := by
  rw [fermiMatrix_fn hH, fermiMatrix_fn hH, hermFn_eigen hH _ x E hx, hermFn_eigen hH _ x E hx]
  unfold occupation
  simp

/-- Concrete case of C108: the dimer with eight points (no realistic number; the defaults are 2^15 points and a precision of 1e-10). -/
example (junk : ℕ → ℝ) (y : CVec 2) : ∃ c m, fermiChebCoef List.range 4 (2 ^ 3) 2 0.1 false 1e-10 junk = some (c, m) ∧
    stateNorm (fermiOp flip dimer c m y - (fermiMatrix 2 0.1 false (dimer.toMatrix 2)).mulVec y) ≤
      (2 / 4 * Real.sin (2 * Real.pi / 2 ^ 3) + ∑ k ∈ Finset.Ico m (2 ^ 2), |c k|) * stateNorm y := by
  obtain ⟨c, m, h, -⟩ := C91_coefficients List.range (fun _ => List.Perm.refl _) 2 2 0.1 false 1e-10 junk
  exact ⟨c, m, h, C108_operator dimer_ready List.range (fun _ => List.Perm.refl _) 2 le_rfl 2 0.1 (by norm_num) false 1e-10 junk h [] y⟩

end Verif.Fft

import Verif.Spec.Atom
import Mathlib.Algebra.Polynomial.Derivative
import Mathlib.Analysis.Calculus.Deriv.Polynomial
import Mathlib.Analysis.SpecialFunctions.ExpDeriv
import Mathlib.Analysis.SpecialFunctions.Sqrt
import Mathlib.Analysis.SpecialFunctions.Gamma.Basic
import Mathlib.Analysis.SpecialFunctions.Integrals.Basic
import Mathlib.Analysis.SpecialFunctions.PolynomialExp
import Mathlib.MeasureTheory.Integral.IntegralEqImproper
import Mathlib.Tactic.Linarith
import Mathlib.Tactic.FieldSimp
import Mathlib.Tactic.Ring
import Mathlib.Tactic.LinearCombination

/-! # Facts about the atomic wave functions -/

namespace Verif.AtomSpec

open Polynomial Atom

/-! ## The polynomial of `_kummer` -/

/-- Coefficients of the Kummer function `F(-p, g, x)`. -/
noncomputable def kc (p g : ℕ) : ℕ → ℝ
  | 0 => 1
  | k + 1 => kc p g k * (-(p : ℝ) + k) / (g + k) / (k + 1)

theorem kc_zero (p g : ℕ) : ∀ k, p < k → kc p g k = 0 := by
  intro k hk
  obtain ⟨d, rfl⟩ : ∃ d, k = p + 1 + d := ⟨k - (p + 1), by omega⟩
  induction d with
  | zero => simp [kc]
  | succ d ih =>
    have := ih (by omega)
    rw [show p + 1 + (d + 1) = (p + 1 + d) + 1 by omega, kc, this]
    simp

theorem kummer_eq (p g : ℕ) (x : ℝ) : kummer (-(p : ℤ)) g x = ∑ k ∈ Finset.range (p + 1), kc p g k * x ^ k := by
  have key : ∀ N : ℕ, (List.range N).foldl (fun (s : ℝ × ℝ) (i : ℕ) =>
      let ck := s.1 * (((-(p : ℤ) : ℤ) : ℝ) + i) / (((g : ℤ) : ℝ) + i) / (i + 1)
      (ck, s.2 + ck * x ^ (i + 1))) (1.0, 1.0) = (kc p g N, ∑ k ∈ Finset.range (N + 1), kc p g k * x ^ k) := by
    intro N
    induction N with
    | zero => simp [kc]; norm_num
    | succ N ih =>
      rw [List.range_succ, List.foldl_append, ih]
      simp only [List.foldl_cons, List.foldl_nil]
      rw [Finset.sum_range_succ _ (N + 1)]
      simp [kc]
  unfold kummer
  rw [key]
  simp

/-- The Kummer polynomial. -/
noncomputable def kp (p g : ℕ) : ℝ[X] := ∑ k ∈ Finset.range (p + 1), C (kc p g k) * X ^ k

theorem kp_coeff (p g k : ℕ) : (kp p g).coeff k = kc p g k := by
  unfold kp
  rw [finset_sum_coeff]
  simp only [coeff_C_mul, coeff_X_pow, mul_ite, mul_one, mul_zero]
  rw [Finset.sum_ite_eq]
  split_ifs with h
  · rfl
  · exact (kc_zero p g k (by simpa using h)).symm

theorem kp_eval (p g : ℕ) (x : ℝ) : (kp p g).eval x = ∑ k ∈ Finset.range (p + 1), kc p g k * x ^ k := by
  simp [kp, eval_finset_sum]

/-- Kummer's equation. -/
theorem kp_ode (p g : ℕ) (hg : 0 < g) : X * derivative (derivative (kp p g)) + (C (g : ℝ) - X) * derivative (kp p g) + C (p : ℝ) * kp p g = 0 := by
  have hrec : ∀ k, kc p g (k + 1) * ((g + k) * (k + 1)) = kc p g k * (-(p : ℝ) + k) := by
    intro k
    rw [kc]
    have h1 : (g : ℝ) + k ≠ 0 := by positivity
    have h2 : (k : ℝ) + 1 ≠ 0 := by positivity
    field_simp
  ext k
  rw [sub_mul]
  simp only [coeff_add, coeff_sub, coeff_C_mul, coeff_zero]
  cases k with
  | zero =>
    simp only [mul_coeff_zero, coeff_X_zero, zero_mul, coeff_derivative, kp_coeff]
    have := hrec 0
    push_cast at this ⊢
    linear_combination this
  | succ k =>
    simp only [coeff_X_mul, coeff_derivative, kp_coeff]
    have := hrec (k + 1)
    push_cast at this ⊢
    linear_combination this

/-! ## The radial function -/

/-- `exp(-κ r / 2) F(-p, g, κ r)`. -/
noncomputable def rf (p g : ℕ) (κ r : ℝ) : ℝ := Real.exp (-(κ * r) / 2) * (kp p g).eval (κ * r)

/-- Its derivative. -/
noncomputable def rf1 (p g : ℕ) (κ r : ℝ) : ℝ :=
  κ * (Real.exp (-(κ * r) / 2) * ((derivative (kp p g)).eval (κ * r) - (kp p g).eval (κ * r) / 2))

/-- Its second derivative. -/
noncomputable def rf2 (p g : ℕ) (κ r : ℝ) : ℝ :=
  κ ^ 2 * (Real.exp (-(κ * r) / 2) * ((derivative (derivative (kp p g))).eval (κ * r) - (derivative (kp p g)).eval (κ * r) + (kp p g).eval (κ * r) / 4))

theorem exp_poly_deriv (P : ℝ[X]) (κ r : ℝ) : HasDerivAt (fun r => Real.exp (-(κ * r) / 2) * P.eval (κ * r))
    (κ * (Real.exp (-(κ * r) / 2) * ((derivative P).eval (κ * r) - P.eval (κ * r) / 2))) r := by
  have h0 : HasDerivAt (fun r : ℝ => κ * r) κ r := by simpa using (hasDerivAt_id r).const_mul κ
  have h1 : HasDerivAt (fun r : ℝ => Real.exp (-(κ * r) / 2)) (Real.exp (-(κ * r) / 2) * (-κ / 2)) r := (h0.neg.div_const 2).exp
  have h2 : HasDerivAt (fun r : ℝ => P.eval (κ * r)) ((derivative P).eval (κ * r) * κ) r := (P.hasDerivAt (κ * r)).comp r h0
  refine (h1.mul h2).congr_deriv ?_
  ring

theorem rf_deriv (p g : ℕ) (κ r : ℝ) : HasDerivAt (rf p g κ) (rf1 p g κ r) r := exp_poly_deriv _ _ _

theorem rf1_deriv (p g : ℕ) (κ r : ℝ) : HasDerivAt (rf1 p g κ) (rf2 p g κ r) r := by
  have h := (exp_poly_deriv (derivative (kp p g) - C (1 / 2) * kp p g) κ r).const_mul κ
  have e : rf1 p g κ = fun r => κ * (Real.exp (-(κ * r) / 2) * (derivative (kp p g) - C (1 / 2) * kp p g).eval (κ * r)) := by
    funext r
    simp only [rf1, eval_sub, eval_mul, eval_C]
    ring
  rw [e]
  refine h.congr_deriv ?_
  simp only [rf2, derivative_sub, derivative_C_mul, eval_sub, eval_mul, eval_C]
  ring

/-- The radial equation, with `κ = 2 z / n`. -/
theorem rf_ode (p g : ℕ) (hg : 0 < g) (κ r : ℝ) (hr : r ≠ 0) :
    rf2 p g κ r + g / r * rf1 p g κ r + ((g / 2 + p) * κ / r - κ ^ 2 / 4) * rf p g κ r = 0 := by
  have h := congrArg (eval (κ * r)) (kp_ode p g hg)
  simp only [eval_add, eval_mul, eval_sub, eval_X, eval_C, eval_zero] at h
  unfold rf rf1 rf2
  generalize Real.exp (-(κ * r) / 2) = e
  field_simp
  linear_combination (8 * κ) * e * h

/-! ## The Laplacian of `f(r) S(x, y, z)` -/

theorem sqrt_deriv {t c : ℝ} (h : 0 < t ^ 2 + c) : HasDerivAt (fun t => Real.sqrt (t ^ 2 + c)) (t / Real.sqrt (t ^ 2 + c)) t := by
  have h1 : HasDerivAt (fun t : ℝ => t ^ 2 + c) (2 * t) t := by
    simpa using ((hasDerivAt_id t).pow 2).add_const c
  convert h1.sqrt h.ne' using 1
  field_simp

theorem line_deriv2 (f f1 f2 : ℝ → ℝ) (hf : ∀ r, HasDerivAt f (f1 r) r) (hf1 : ∀ r, HasDerivAt f1 (f2 r) r)
    (S S1 S2 : ℝ → ℝ) (hS : ∀ t, HasDerivAt S (S1 t) t) (hS1 : ∀ t, HasDerivAt S1 (S2 t) t) (c x : ℝ) (h : 0 < x ^ 2 + c) :
    deriv (deriv fun t => f (Real.sqrt (t ^ 2 + c)) * S t) x =
      f2 (Real.sqrt (x ^ 2 + c)) * (x ^ 2 / (x ^ 2 + c)) * S x +
      f1 (Real.sqrt (x ^ 2 + c)) * (1 / Real.sqrt (x ^ 2 + c) - x ^ 2 / ((x ^ 2 + c) * Real.sqrt (x ^ 2 + c))) * S x +
      2 * f1 (Real.sqrt (x ^ 2 + c)) * (x / Real.sqrt (x ^ 2 + c)) * S1 x + f (Real.sqrt (x ^ 2 + c)) * S2 x := by
  have e1 : ∀ t, 0 < t ^ 2 + c → HasDerivAt (fun t => f (Real.sqrt (t ^ 2 + c)) * S t)
      (f1 (Real.sqrt (t ^ 2 + c)) * (t / Real.sqrt (t ^ 2 + c)) * S t + f (Real.sqrt (t ^ 2 + c)) * S1 t) t := fun t ht =>
    ((hf _).comp t (sqrt_deriv ht)).mul (hS t)
  have hopen : ∀ᶠ t in nhds x, 0 < t ^ 2 + c := by
    have : Continuous fun t : ℝ => t ^ 2 + c := by fun_prop
    exact this.continuousAt.eventually (lt_mem_nhds h)
  have e2 : deriv (fun t => f (Real.sqrt (t ^ 2 + c)) * S t) =ᶠ[nhds x]
      fun t => f1 (Real.sqrt (t ^ 2 + c)) * (t / Real.sqrt (t ^ 2 + c)) * S t + f (Real.sqrt (t ^ 2 + c)) * S1 t := by
    filter_upwards [hopen] with t ht
    exact (e1 t ht).deriv
  rw [e2.deriv_eq]
  have hs : Real.sqrt (x ^ 2 + c) ≠ 0 := (Real.sqrt_pos.2 h).ne'
  have hsq : Real.sqrt (x ^ 2 + c) ^ 2 = x ^ 2 + c := Real.sq_sqrt h.le
  have d1 := (hf1 _).comp x (sqrt_deriv h)
  have d2 := (hasDerivAt_id x).div (sqrt_deriv h) hs
  have d3 := ((d1.mul d2).mul (hS x)).add (((hf _).comp x (sqrt_deriv h)).mul (hS1 x))
  refine d3.deriv.trans ?_
  change (f2 (Real.sqrt (x ^ 2 + c)) * (x / Real.sqrt (x ^ 2 + c)) * (x / Real.sqrt (x ^ 2 + c)) + f1 (Real.sqrt (x ^ 2 + c)) *
      ((1 * Real.sqrt (x ^ 2 + c) - x * (x / Real.sqrt (x ^ 2 + c))) / Real.sqrt (x ^ 2 + c) ^ 2)) * S x +
      (f1 (Real.sqrt (x ^ 2 + c)) * (x / Real.sqrt (x ^ 2 + c))) * S1 x +
      (f1 (Real.sqrt (x ^ 2 + c)) * (x / Real.sqrt (x ^ 2 + c)) * S1 x + f (Real.sqrt (x ^ 2 + c)) * S2 x) = _
  clear d1 d2 d3 e1 e2
  obtain ⟨s, hs'⟩ : ∃ s, s = Real.sqrt (x ^ 2 + c) := ⟨_, rfl⟩
  rw [← hs'] at hs hsq ⊢
  rw [← hsq]
  field_simp
  ring

/-! ## Polynomials in three variables -/

/-- A polynomial as a list of terms: coefficient and exponents. -/
abbrev Poly := List (ℤ × ℕ × ℕ × ℕ)

/-- Its value. -/
def ev (P : Poly) (x y z : ℝ) : ℝ := (P.map fun t => (t.1 : ℝ) * (x ^ t.2.1 * y ^ t.2.2.1 * z ^ t.2.2.2)).sum

/-- Derivatives. -/
def dX (P : Poly) : Poly := P.map fun t => (t.1 * t.2.1, t.2.1 - 1, t.2.2.1, t.2.2.2)
@[inherit_doc dX] def dY (P : Poly) : Poly := P.map fun t => (t.1 * t.2.2.1, t.2.1, t.2.2.1 - 1, t.2.2.2)
@[inherit_doc dX] def dZ (P : Poly) : Poly := P.map fun t => (t.1 * t.2.2.2, t.2.1, t.2.2.1, t.2.2.2 - 1)

theorem ev_cons (t : ℤ × ℕ × ℕ × ℕ) (P : Poly) (x y z : ℝ) : ev (t :: P) x y z = (t.1 : ℝ) * (x ^ t.2.1 * y ^ t.2.2.1 * z ^ t.2.2.2) + ev P x y z := rfl

theorem dX_deriv (P : Poly) (x y z : ℝ) : HasDerivAt (fun t => ev P t y z) (ev (dX P) x y z) x := by
  induction P with
  | nil => exact hasDerivAt_const _ _
  | cons t P ih =>
    have h := (((hasDerivAt_pow t.2.1 x).mul_const (y ^ t.2.2.1)).mul_const (z ^ t.2.2.2)).const_mul (t.1 : ℝ)
    refine (h.add ih).congr_deriv ?_
    simp only [dX, List.map_cons, ev_cons]
    push_cast
    ring

theorem dY_deriv (P : Poly) (x y z : ℝ) : HasDerivAt (fun t => ev P x t z) (ev (dY P) x y z) y := by
  induction P with
  | nil => exact hasDerivAt_const _ _
  | cons t P ih =>
    have h := (((hasDerivAt_pow t.2.2.1 y).const_mul (x ^ t.2.1)).mul_const (z ^ t.2.2.2)).const_mul (t.1 : ℝ)
    refine (h.add ih).congr_deriv ?_
    simp only [dY, List.map_cons, ev_cons]
    push_cast
    ring

theorem dZ_deriv (P : Poly) (x y z : ℝ) : HasDerivAt (fun t => ev P x y t) (ev (dZ P) x y z) z := by
  induction P with
  | nil => exact hasDerivAt_const _ _
  | cons t P ih =>
    have h := ((hasDerivAt_pow t.2.2.2 z).const_mul (x ^ t.2.1 * y ^ t.2.2.1)).const_mul (t.1 : ℝ)
    refine (h.add ih).congr_deriv ?_
    simp only [dZ, List.map_cons, ev_cons]
    push_cast
    ring

/-- Euler's identity. -/
theorem euler (P : Poly) (l : ℕ) (hP : ∀ t ∈ P, t.2.1 + t.2.2.1 + t.2.2.2 = l) (x y z : ℝ) :
    x * ev (dX P) x y z + y * ev (dY P) x y z + z * ev (dZ P) x y z = l * ev P x y z := by
  have hx : ∀ (x : ℝ) (a : ℕ), x * ((a : ℝ) * x ^ (a - 1)) = a * x ^ a := by
    intro x a
    cases a with
    | zero => simp
    | succ a => rw [Nat.add_sub_cancel, pow_succ]; ring
  induction P with
  | nil => simp [dX, dY, dZ, ev]
  | cons t P ih =>
    have h1 := ih fun t ht => hP t (List.mem_cons_of_mem _ ht)
    have h2 : (l : ℝ) = t.2.1 + t.2.2.1 + t.2.2.2 := by exact_mod_cast (hP t List.mem_cons_self).symm
    simp only [dX, dY, dZ, List.map_cons, ev_cons] at h1 ⊢
    push_cast
    have ha := hx x t.2.1
    have hb := hx y t.2.2.1
    have hc := hx z t.2.2.2
    rw [mul_add (l : ℝ), ← h1]
    rw [show (l : ℝ) * ((t.1 : ℝ) * (x ^ t.2.1 * y ^ t.2.2.1 * z ^ t.2.2.2)) =
      (t.2.1 + t.2.2.1 + t.2.2.2) * ((t.1 : ℝ) * (x ^ t.2.1 * y ^ t.2.2.1 * z ^ t.2.2.2)) by rw [← h2]]
    linear_combination ((t.1 : ℝ) * y ^ t.2.2.1 * z ^ t.2.2.2) * ha + ((t.1 : ℝ) * x ^ t.2.1 * z ^ t.2.2.2) * hb +
      ((t.1 : ℝ) * x ^ t.2.1 * y ^ t.2.2.1) * hc

/-- Homogeneity. -/
theorem ev_scale (P : Poly) (l : ℕ) (hP : ∀ t ∈ P, t.2.1 + t.2.2.1 + t.2.2.2 = l) (r x y z : ℝ) :
    ev P (r * x) (r * y) (r * z) = r ^ l * ev P x y z := by
  induction P with
  | nil => simp [ev]
  | cons t P ih =>
    rw [ev_cons, ev_cons, ih fun t ht => hP t (List.mem_cons_of_mem _ ht), ← hP t List.mem_cons_self]
    simp only [mul_pow, pow_add]
    ring

theorem laplacian_poly (f f1 f2 : ℝ → ℝ) (hf : ∀ r, HasDerivAt f (f1 r) r) (hf1 : ∀ r, HasDerivAt f1 (f2 r) r) (P : Poly) (l : ℕ)
    (hP : ∀ t ∈ P, t.2.1 + t.2.2.1 + t.2.2.2 = l)
    (hL : ∀ x y z, ev (dX (dX P)) x y z + ev (dY (dY P)) x y z + ev (dZ (dZ P)) x y z = 0) (x y z : ℝ) (h : 0 < x ^ 2 + y ^ 2 + z ^ 2) :
    laplacian (fun x y z => f (rad x y z) * ev P x y z) x y z =
      (f2 (rad x y z) + (2 * l + 2) / rad x y z * f1 (rad x y z)) * ev P x y z := by
  have hx : ∀ t, rad t y z = Real.sqrt (t ^ 2 + (y ^ 2 + z ^ 2)) := fun t => by rw [rad, add_assoc]
  have hy : ∀ t, rad x t z = Real.sqrt (t ^ 2 + (x ^ 2 + z ^ 2)) := fun t => by rw [rad]; congr 1; ring
  have hz : ∀ t, rad x y t = Real.sqrt (t ^ 2 + (x ^ 2 + y ^ 2)) := fun t => by rw [rad]; congr 1; ring
  have d1 := line_deriv2 f f1 f2 hf hf1 _ _ _ (fun t => dX_deriv P t y z) (fun t => dX_deriv (dX P) t y z) (y ^ 2 + z ^ 2) x (by linarith)
  have d2 := line_deriv2 f f1 f2 hf hf1 _ _ _ (fun t => dY_deriv P x t z) (fun t => dY_deriv (dY P) x t z) (x ^ 2 + z ^ 2) y (by linarith)
  have d3 := line_deriv2 f f1 f2 hf hf1 _ _ _ (fun t => dZ_deriv P x y t) (fun t => dZ_deriv (dZ P) x y t) (x ^ 2 + y ^ 2) z (by linarith)
  simp only [← hx, ← hy, ← hz] at d1 d2 d3
  rw [laplacian, d1, d2, d3]
  have hE := euler P l hP x y z
  have hH := hL x y z
  have hr : rad x y z ≠ 0 := (Real.sqrt_pos.2 h).ne'
  have hsq : rad x y z ^ 2 = x ^ 2 + y ^ 2 + z ^ 2 := Real.sq_sqrt h.le
  rw [show x ^ 2 + (y ^ 2 + z ^ 2) = rad x y z ^ 2 by rw [hsq]; ring, show y ^ 2 + (x ^ 2 + z ^ 2) = rad x y z ^ 2 by rw [hsq]; ring,
    show z ^ 2 + (x ^ 2 + y ^ 2) = rad x y z ^ 2 by rw [hsq]; ring]
  generalize rad x y z = r at *
  generalize ev (dX P) x y z = px at *
  generalize ev (dY P) x y z = py at *
  generalize ev (dZ P) x y z = pz at *
  generalize ev P x y z = p at *
  have e : ∀ a : ℝ, a / r ^ 2 * r ^ 2 = a := fun a => div_mul_cancel₀ _ (pow_ne_zero _ hr)
  field_simp
  have hx2 : x ^ 2 = r ^ 2 - y ^ 2 - z ^ 2 := by linarith
  linear_combination (r ^ 3 * f r) * hH + (2 * r ^ 2 * f1 r) * hE + p * (f1 r - r * f2 r) * hsq

/-! ## Integrals over the sphere -/

/-- `∫ cos^a sin^b` over a period. -/
noncomputable def iPhi (a b : ℕ) : ℝ := ∫ φ in (0 : ℝ)..2 * Real.pi, Real.cos φ ^ a * Real.sin φ ^ b

/-- `∫ sin^p cos^c` over half a period. -/
noncomputable def iTheta (p c : ℕ) : ℝ := ∫ θ in (0 : ℝ)..Real.pi, Real.sin θ ^ p * Real.cos θ ^ c

theorem cos_sin_deriv (a b : ℕ) (t : ℝ) : HasDerivAt (fun t => Real.cos t ^ (a + 1) * Real.sin t ^ (b + 1))
    ((b + 1) * (Real.cos t ^ (a + 2) * Real.sin t ^ b) - (a + 1) * (Real.cos t ^ a * Real.sin t ^ (b + 2))) t := by
  refine (((Real.hasDerivAt_cos t).pow (a + 1)).mul ((Real.hasDerivAt_sin t).pow (b + 1))).congr_deriv ?_
  simp only [Pi.pow_apply, Nat.add_sub_cancel]
  push_cast
  ring

theorem parts (a b : ℕ) (u v : ℝ) : (b + 1) * (∫ t in u..v, Real.cos t ^ (a + 2) * Real.sin t ^ b) -
    (a + 1) * (∫ t in u..v, Real.cos t ^ a * Real.sin t ^ (b + 2)) =
    Real.cos v ^ (a + 1) * Real.sin v ^ (b + 1) - Real.cos u ^ (a + 1) * Real.sin u ^ (b + 1) := by
  have hc1 : Continuous fun t : ℝ => Real.cos t ^ (a + 2) * Real.sin t ^ b := by fun_prop
  have hc2 : Continuous fun t : ℝ => Real.cos t ^ a * Real.sin t ^ (b + 2) := by fun_prop
  have h := intervalIntegral.integral_eq_sub_of_hasDerivAt (a := u) (b := v) (fun t _ => cos_sin_deriv a b t)
    (Continuous.intervalIntegrable (by fun_prop) _ _)
  rw [intervalIntegral.integral_sub (Continuous.intervalIntegrable (by fun_prop) _ _) (Continuous.intervalIntegrable (by fun_prop) _ _),
    intervalIntegral.integral_const_mul, intervalIntegral.integral_const_mul] at h
  exact h

theorem split_one (a b : ℕ) (u v : ℝ) : (∫ t in u..v, Real.cos t ^ (a + 2) * Real.sin t ^ b) + (∫ t in u..v, Real.cos t ^ a * Real.sin t ^ (b + 2)) =
    ∫ t in u..v, Real.cos t ^ a * Real.sin t ^ b := by
  have hc1 : Continuous fun t : ℝ => Real.cos t ^ (a + 2) * Real.sin t ^ b := by fun_prop
  have hc2 : Continuous fun t : ℝ => Real.cos t ^ a * Real.sin t ^ (b + 2) := by fun_prop
  rw [← intervalIntegral.integral_add (hc1.intervalIntegrable _ _) (hc2.intervalIntegrable _ _)]
  congr 1
  funext t
  have := Real.sin_sq_add_cos_sq t
  rw [pow_add, pow_add]
  linear_combination (Real.cos t ^ a * Real.sin t ^ b) * this

theorem iPhi_cos (a b : ℕ) : (a + b + 2) * iPhi (a + 2) b = (a + 1) * iPhi a b := by
  have h1 := parts a b 0 (2 * Real.pi)
  have h2 := split_one a b 0 (2 * Real.pi)
  simp at h1
  unfold iPhi
  linear_combination h1 + (a + 1 : ℝ) * h2

theorem iPhi_sin (a b : ℕ) : (a + b + 2) * iPhi a (b + 2) = (b + 1) * iPhi a b := by
  have h1 := parts a b 0 (2 * Real.pi)
  have h2 := split_one a b 0 (2 * Real.pi)
  simp at h1
  unfold iPhi
  linear_combination -h1 + (b + 1 : ℝ) * h2

theorem iTheta_comm (p c : ℕ) : iTheta p c = ∫ t in (0 : ℝ)..Real.pi, Real.cos t ^ c * Real.sin t ^ p := by
  unfold iTheta
  congr 1
  funext t
  ring

theorem iTheta_sin (p c : ℕ) : (p + c + 2) * iTheta (p + 2) c = (p + 1) * iTheta p c := by
  have h1 := parts c p 0 Real.pi
  have h2 := split_one c p 0 Real.pi
  simp at h1
  simp only [iTheta_comm]
  linear_combination -h1 + (p + 1 : ℝ) * h2

theorem iTheta_cos (p c : ℕ) : (p + c + 2) * iTheta p (c + 2) = (c + 1) * iTheta p c := by
  have h1 := parts c p 0 Real.pi
  have h2 := split_one c p 0 Real.pi
  simp at h1
  simp only [iTheta_comm]
  linear_combination h1 + (c + 1 : ℝ) * h2

/-- `(n - 1)!!` of an even number, zero for an odd one. -/
def df : ℕ → ℕ
  | 0 => 1
  | 1 => 0
  | n + 2 => (n + 1) * df n

/-- `(n + 1)!!` of an even number. -/
def ef : ℕ → ℕ
  | 0 => 1
  | 1 => 1
  | n + 2 => (n + 3) * ef n

/-- The mean of a monomial over the sphere. -/
def mean (a b c : ℕ) : ℚ := (df a * df b * df c : ℕ) / (ef (a + b + c) : ℕ)

theorem mean_a (a b c : ℕ) : mean (a + 2) b c = (a + 1) / (a + b + c + 3) * mean a b c := by
  rw [mean, mean, show a + 2 + b + c = (a + b + c) + 2 by ring, df, ef]
  push_cast
  rw [div_mul_div_comm]
  congr 1
  ring

theorem mean_b (b c : ℕ) : mean 0 (b + 2) c = (b + 1) / (b + c + 3) * mean 0 b c := by
  rw [mean, mean, show 0 + (b + 2) + c = b + c + 2 by ring, show 0 + b + c = b + c by ring, show df (b + 2) = (b + 1) * df b from rfl, ef]
  push_cast
  rw [div_mul_div_comm]
  congr 1
  ring

theorem mean_c (c : ℕ) : mean 0 0 (c + 2) = (c + 1) / (c + 3) * mean 0 0 c := by
  rw [mean, mean, show 0 + 0 + (c + 2) = c + 2 by ring, show 0 + 0 + c = c by ring, show df (c + 2) = (c + 1) * df c from rfl, ef]
  push_cast
  rw [div_mul_div_comm]
  congr 1
  ring

theorem iPhi_one (b : ℕ) : iPhi 1 b = 0 := by
  have h := intervalIntegral.integral_eq_sub_of_hasDerivAt (a := 0) (b := 2 * Real.pi) (f := fun t => Real.sin t ^ (b + 1))
    (f' := fun t => (b + 1) * (Real.cos t ^ 1 * Real.sin t ^ b)) (fun t _ => by
      refine ((Real.hasDerivAt_sin t).pow (b + 1)).congr_deriv ?_
      push_cast
      ring) (Continuous.intervalIntegrable (by fun_prop) _ _)
  rw [intervalIntegral.integral_const_mul] at h
  simp at h
  rcases h with h | h
  · have : (b : ℝ) + 1 > 0 := by positivity
    linarith
  · simpa [iPhi] using h

theorem iPhi_one' : iPhi 0 1 = 0 := by
  simp [iPhi]

theorem iTheta_one (p : ℕ) : iTheta p 1 = 0 := by
  have h := intervalIntegral.integral_eq_sub_of_hasDerivAt (a := 0) (b := Real.pi) (f := fun t => Real.sin t ^ (p + 1))
    (f' := fun t => (p + 1) * (Real.sin t ^ p * Real.cos t ^ 1)) (fun t _ => by
      refine ((Real.hasDerivAt_sin t).pow (p + 1)).congr_deriv ?_
      push_cast
      ring) (Continuous.intervalIntegrable (by fun_prop) _ _)
  rw [intervalIntegral.integral_const_mul] at h
  simp at h
  rcases h with h | h
  · have : (p : ℝ) + 1 > 0 := by positivity
    linarith
  · simpa [iTheta] using h

theorem mean_spec : ∀ a b c : ℕ, iPhi a b * iTheta (a + b + 1) c = 4 * Real.pi * (mean a b c : ℝ)
  | a + 2, b, c => by
    have ih := mean_spec a b c
    have h1 := iPhi_cos a b
    have h2 := iTheta_sin (a + b + 1) c
    rw [mean_a]
    push_cast at h2 ⊢
    have p1 : (a : ℝ) + b + 2 ≠ 0 := by positivity
    have p2 : (a : ℝ) + b + c + 3 ≠ 0 := by positivity
    have e1 : iPhi (a + 2) b = (a + 1) * iPhi a b / (a + b + 2) := by rw [← h1]; field_simp
    have e2 : iTheta (a + b + 1 + 2) c = (a + b + 1 + 1) * iTheta (a + b + 1) c / (a + b + c + 3) := by rw [← h2]; field_simp; ring
    rw [e1, show a + 2 + b + 1 = a + b + 1 + 2 by ring, e2]
    field_simp
    linear_combination ((a : ℝ) + b + 2) * ih
  | 1, b, c => by
    rw [iPhi_one]
    simp [mean, df]
  | 0, b + 2, c => by
    have ih := mean_spec 0 b c
    have h1 := iPhi_sin 0 b
    have h2 := iTheta_sin (b + 1) c
    rw [mean_b]
    push_cast at h1 h2 ⊢
    have p1 : (b : ℝ) + 2 ≠ 0 := by positivity
    have p2 : (b : ℝ) + c + 3 ≠ 0 := by positivity
    have e1 : iPhi 0 (b + 2) = (b + 1) * iPhi 0 b / (b + 2) := by rw [← h1]; field_simp; ring
    have e2 : iTheta (b + 1 + 2) c = (b + 1 + 1) * iTheta (b + 1) c / (b + c + 3) := by rw [← h2]; field_simp; ring
    rw [e1, show 0 + (b + 2) + 1 = b + 1 + 2 by ring, e2]
    rw [zero_add] at ih
    field_simp
    linear_combination ((b : ℝ) + 2) * ih
  | 0, 1, c => by
    rw [iPhi_one']
    simp [mean, df]
  | 0, 0, c + 2 => by
    have ih := mean_spec 0 0 c
    have h2 := iTheta_cos 1 c
    rw [mean_c]
    push_cast at h2 ⊢
    have p2 : (c : ℝ) + 3 ≠ 0 := by positivity
    have e2 : iTheta 1 (c + 2) = (c + 1) * iTheta 1 c / (c + 3) := by rw [← h2]; field_simp; ring
    rw [e2]
    simp only [zero_add] at ih
    field_simp
    linear_combination ih
  | 0, 0, 1 => by
    rw [iTheta_one]
    simp [mean, df]
  | 0, 0, 0 => by
    have h1 : iPhi 0 0 = 2 * Real.pi := by simp [iPhi]
    have h2 : iTheta (0 + 0 + 1) 0 = 2 := by simp [iTheta]; norm_num
    rw [h1, h2]
    simp [mean, df, ef]
    ring

theorem ev_continuous (P : Poly) {f g h : ℝ → ℝ} (hf : Continuous f) (hg : Continuous g) (hh : Continuous h) :
    Continuous fun t => ev P (f t) (g t) (h t) := by
  induction P with
  | nil => simpa [ev] using continuous_const
  | cons t P ih =>
    simp only [ev_cons]
    exact Continuous.add (by fun_prop) ih

theorem circle_integral (P : Poly) (θ : ℝ) : (∫ φ in (0 : ℝ)..2 * Real.pi,
    ev P (Real.sin θ * Real.cos φ) (Real.sin θ * Real.sin φ) (Real.cos θ) * Real.sin θ) =
      (P.map fun t => (t.1 : ℝ) * iPhi t.2.1 t.2.2.1 * (Real.sin θ ^ (t.2.1 + t.2.2.1 + 1) * Real.cos θ ^ t.2.2.2)).sum := by
  induction P with
  | nil => simp [ev]
  | cons t P ih =>
    simp only [ev_cons, add_mul, List.map_cons, List.sum_cons]
    have hc : Continuous fun φ => ev P (Real.sin θ * Real.cos φ) (Real.sin θ * Real.sin φ) (Real.cos θ) :=
      ev_continuous P (by fun_prop) (by fun_prop) (by fun_prop)
    have hc' : Continuous fun φ => ev P (Real.sin θ * Real.cos φ) (Real.sin θ * Real.sin φ) (Real.cos θ) * Real.sin θ := by fun_prop
    rw [intervalIntegral.integral_add (Continuous.intervalIntegrable (by fun_prop) _ _) (hc'.intervalIntegrable _ _), ih]
    congr 1
    rw [iPhi, mul_right_comm, ← intervalIntegral.integral_const_mul]
    congr 1
    funext φ
    rw [pow_succ, pow_add, mul_pow, mul_pow]
    ring

/-- The integral of a polynomial over the unit sphere. -/
theorem sphere_integral (P : Poly) : (∫ θ in (0 : ℝ)..Real.pi, ∫ φ in (0 : ℝ)..2 * Real.pi,
    ev P (Real.sin θ * Real.cos φ) (Real.sin θ * Real.sin φ) (Real.cos θ) * Real.sin θ) =
      4 * Real.pi * ((P.map fun t => (t.1 : ℚ) * mean t.2.1 t.2.2.1 t.2.2.2).sum : ℚ) := by
  simp only [circle_integral]
  induction P with
  | nil => simp
  | cons t P ih =>
    have h2 : ∀ P : Poly, Continuous fun θ : ℝ => (P.map fun t => (t.1 : ℝ) * iPhi t.2.1 t.2.2.1 * (Real.sin θ ^ (t.2.1 + t.2.2.1 + 1) * Real.cos θ ^ t.2.2.2)).sum := by
      intro P
      induction P with
      | nil => simpa using continuous_const
      | cons t P ih =>
        simp only [List.map_cons, List.sum_cons]
        exact Continuous.add (by fun_prop) ih
    simp only [List.map_cons, List.sum_cons]
    rw [intervalIntegral.integral_add (Continuous.intervalIntegrable (by fun_prop) _ _) ((h2 P).intervalIntegrable _ _), ih,
      intervalIntegral.integral_const_mul]
    have := mean_spec t.2.1 t.2.2.1 t.2.2.2
    rw [iTheta] at this
    push_cast
    rw [mul_add]
    congr 1
    linear_combination (t.1 : ℝ) * this

/-- Product of polynomials. -/
def pmul (P Q : Poly) : Poly := P.flatMap fun t => Q.map fun u => (t.1 * u.1, t.2.1 + u.2.1, t.2.2.1 + u.2.2.1, t.2.2.2 + u.2.2.2)

theorem ev_append (P Q : Poly) (x y z : ℝ) : ev (P ++ Q) x y z = ev P x y z + ev Q x y z := by
  simp [ev]

theorem ev_term_mul (t : ℤ × ℕ × ℕ × ℕ) (Q : Poly) (x y z : ℝ) :
    ev (Q.map fun u => (t.1 * u.1, t.2.1 + u.2.1, t.2.2.1 + u.2.2.1, t.2.2.2 + u.2.2.2)) x y z =
      (t.1 : ℝ) * (x ^ t.2.1 * y ^ t.2.2.1 * z ^ t.2.2.2) * ev Q x y z := by
  induction Q with
  | nil => simp [ev]
  | cons u Q ih =>
    rw [List.map_cons, ev_cons, ev_cons, ih, mul_add]
    congr 1
    push_cast
    rw [pow_add, pow_add, pow_add]
    ring

theorem ev_pmul (P Q : Poly) (x y z : ℝ) : ev (pmul P Q) x y z = ev P x y z * ev Q x y z := by
  induction P with
  | nil => simp [pmul, ev]
  | cons t P ih =>
    rw [pmul, List.flatMap_cons, ev_append, ← pmul, ih, ev_cons, add_mul, ev_term_mul]

/-- The solid harmonics as lists of terms. -/
def solidP : ℤ → ℤ → Poly
  | 0, 0 => [(1, 0, 0, 0)]
  | 1, -1 => [(1, 0, 1, 0)]
  | 1, 0 => [(1, 0, 0, 1)]
  | 1, 1 => [(1, 1, 0, 0)]
  | 2, -2 => [(1, 1, 1, 0)]
  | 2, -1 => [(1, 0, 1, 1)]
  | 2, 0 => [(2, 0, 0, 2), (-1, 2, 0, 0), (-1, 0, 2, 0)]
  | 2, 1 => [(1, 1, 0, 1)]
  | 2, 2 => [(1, 2, 0, 0), (-1, 0, 2, 0)]
  | 3, -3 => [(3, 2, 1, 0), (-1, 0, 3, 0)]
  | 3, -2 => [(1, 1, 1, 1)]
  | 3, -1 => [(4, 0, 1, 2), (-1, 2, 1, 0), (-1, 0, 3, 0)]
  | 3, 0 => [(2, 0, 0, 3), (-3, 2, 0, 1), (-3, 0, 2, 1)]
  | 3, 1 => [(4, 1, 0, 2), (-1, 3, 0, 0), (-1, 1, 2, 0)]
  | 3, 2 => [(1, 2, 0, 1), (-1, 0, 2, 1)]
  | 3, 3 => [(1, 3, 0, 0), (-3, 1, 2, 0)]
  | _, _ => []

/-- The sixteen orbitals. -/
theorem valid_cases {q : Atom.Qn} (h : Valid q) {p : ℤ → ℤ → Prop}
    (h00 : p 0 0) (h1a : p 1 (-1)) (h1b : p 1 0) (h1c : p 1 1) (h2a : p 2 (-2)) (h2b : p 2 (-1)) (h2c : p 2 0) (h2d : p 2 1) (h2e : p 2 2)
    (h3a : p 3 (-3)) (h3b : p 3 (-2)) (h3c : p 3 (-1)) (h3d : p 3 0) (h3e : p 3 1) (h3f : p 3 2) (h3g : p 3 3) : p q.l q.m := by
  obtain ⟨z, n, l, m⟩ := q
  have h1 := h.l_nonneg
  have h2 := h.l_le
  have h3 := abs_le.1 h.m_le
  simp only at h1 h2 h3 ⊢
  obtain ⟨h3, h4⟩ := h3
  interval_cases l <;> interval_cases m <;> assumption

theorem solid_ev {q : Atom.Qn} (h : Valid q) : ∀ x y z, solid q.l q.m x y z = ev (solidP q.l q.m) x y z := by
  refine valid_cases (p := fun l m => ∀ x y z, solid l m x y z = ev (solidP l m) x y z) h ?_ ?_ ?_ ?_ ?_ ?_ ?_ ?_ ?_ ?_ ?_ ?_ ?_ ?_ ?_ ?_ <;>
  · intro x y z
    simp [solid, solidP, ev]
    try ring

theorem solid_deg {q : Atom.Qn} (h : Valid q) : ∀ t ∈ solidP q.l q.m, t.2.1 + t.2.2.1 + t.2.2.2 = q.l.toNat := by
  refine valid_cases (p := fun l m => ∀ t ∈ solidP l m, t.2.1 + t.2.2.1 + t.2.2.2 = l.toNat) h ?_ ?_ ?_ ?_ ?_ ?_ ?_ ?_ ?_ ?_ ?_ ?_ ?_ ?_ ?_ ?_ <;> decide

theorem solid_harm {q : Atom.Qn} (h : Valid q) : ∀ x y z, ev (dX (dX (solidP q.l q.m))) x y z + ev (dY (dY (solidP q.l q.m))) x y z +
    ev (dZ (dZ (solidP q.l q.m))) x y z = 0 := by
  refine valid_cases (p := fun l m => ∀ x y z, ev (dX (dX (solidP l m))) x y z + ev (dY (dY (solidP l m))) x y z +
    ev (dZ (dZ (solidP l m))) x y z = 0) h ?_ ?_ ?_ ?_ ?_ ?_ ?_ ?_ ?_ ?_ ?_ ?_ ?_ ?_ ?_ ?_ <;>
  · intro x y z
    simp [dX, dY, dZ, solidP, ev]
    try ring

theorem coeff_sq (a b c d : ℕ) (hd : d ≠ 0) : Atom.coeff a b c d ^ 2 = (a : ℝ) ^ 2 / b ^ 2 * (c / (d * Real.pi)) := by
  have : 0 < (d : ℝ) := by positivity
  rw [Atom.coeff, mul_pow, div_pow, Real.sq_sqrt (by positivity)]

theorem ylm_norm {q : Atom.Qn} (h : Valid q) : Atom.ylmFactor q.l q.m ^ 2 * (4 * Real.pi *
    (((pmul (solidP q.l q.m) (solidP q.l q.m)).map fun t => (t.1 : ℚ) * mean t.2.1 t.2.2.1 t.2.2.2).sum : ℚ)) = 1 := by
  have key : ∀ (a b c d : ℕ) (P : Poly), d ≠ 0 → (a : ℚ) ^ 2 / b ^ 2 * (c / d) * (4 *
      ((pmul P P).map fun t => (t.1 : ℚ) * mean t.2.1 t.2.2.1 t.2.2.2).sum) = 1 →
      Atom.coeff a b c d ^ 2 * (4 * Real.pi * (((pmul P P).map fun t => (t.1 : ℚ) * mean t.2.1 t.2.2.1 t.2.2.2).sum : ℚ)) = 1 := by
    intro a b c d P hd hq
    rw [coeff_sq _ _ _ _ hd]
    have := congrArg (fun x : ℚ => (x : ℝ)) hq
    push_cast at this ⊢
    have hpi := Real.pi_ne_zero
    have hd' : (d : ℝ) ≠ 0 := by exact_mod_cast hd
    rw [← this]
    field_simp
  refine valid_cases (p := fun l m => Atom.ylmFactor l m ^ 2 * (4 * Real.pi *
    (((pmul (solidP l m) (solidP l m)).map fun t => (t.1 : ℚ) * mean t.2.1 t.2.2.1 t.2.2.2).sum : ℚ)) = 1) h
    ?_ ?_ ?_ ?_ ?_ ?_ ?_ ?_ ?_ ?_ ?_ ?_ ?_ ?_ ?_ ?_ <;>
  · simp only [Atom.ylmFactor]
    norm_num only [if_true, if_false]
    refine key _ _ _ _ _ (by decide) ?_
    decide +kernel

/-! ## The radial norm -/

/-- `∫_0^∞ e^{-x} x^k = k!`. -/
theorem integral_pow_exp (k : ℕ) : (∫ x in Set.Ioi (0 : ℝ), Real.exp (-x) * x ^ k) = (Nat.factorial k : ℝ) := by
  rw [← Real.Gamma_nat_eq_factorial, Real.Gamma_eq_integral (by positivity)]
  refine MeasureTheory.setIntegral_congr_fun measurableSet_Ioi fun x _ => ?_
  simp

theorem integrable_pow_exp (k : ℕ) : MeasureTheory.IntegrableOn (fun x : ℝ => Real.exp (-x) * x ^ k) (Set.Ioi 0) := by
  have := Real.GammaIntegral_convergent (s := (k : ℝ) + 1) (by positivity)
  refine this.congr_fun (fun x _ => ?_) measurableSet_Ioi
  simp

/-- The alternating sum with binomial weights. -/
noncomputable def alt (p : ℕ) (f : ℕ → ℝ) : ℝ := ∑ j ∈ Finset.range (p + 1), (-1) ^ j * (p.choose j : ℝ) * f j

theorem alt_succ (p : ℕ) (f : ℕ → ℝ) : alt (p + 1) f = alt p fun j => f j - f (j + 1) := by
  unfold alt
  rw [Finset.sum_range_succ']
  have h1 : ∀ j, (-1 : ℝ) ^ (j + 1) * ((p + 1).choose (j + 1) : ℝ) * f (j + 1) =
      -((-1) ^ j * (p.choose j : ℝ) * f (j + 1)) + (-1) ^ (j + 1) * (p.choose (j + 1) : ℝ) * f (j + 1) := by
    intro j
    rw [Nat.choose_succ_succ]
    push_cast
    ring
  simp only [h1, Finset.sum_add_distrib, mul_sub, Finset.sum_sub_distrib, Finset.sum_neg_distrib]
  have h2 := Finset.sum_range_succ' (fun j => (-1 : ℝ) ^ j * (p.choose j : ℝ) * f j) (p + 1)
  rw [Finset.sum_range_succ _ (p + 1)] at h2
  simp at h2 ⊢
  linear_combination -h2

theorem alt_factorial : ∀ (p a m : ℕ), alt p (fun j => ((a + m + j).factorial : ℝ) / (a + j).factorial) =
    (-1) ^ p * (m.descFactorial p : ℝ) * (a + m).factorial / (a + p).factorial
  | 0, a, m => by simp [alt]
  | p + 1, a, 0 => by
    rw [alt_succ]
    have : ∀ j, ((a + 0 + j).factorial : ℝ) / (a + j).factorial - ((a + 0 + (j + 1)).factorial : ℝ) / (a + (j + 1)).factorial = 0 := by
      intro j
      have h1 : ((a + j).factorial : ℝ) ≠ 0 := by positivity
      have h2 : ((a + (j + 1)).factorial : ℝ) ≠ 0 := by positivity
      rw [add_zero, div_self h1, div_self h2, sub_self]
    simp only [this]
    simp [alt]
  | p + 1, a, m + 1 => by
    have ih := alt_factorial p (a + 1) m
    rw [alt_succ]
    have : ∀ j, ((a + (m + 1) + j).factorial : ℝ) / (a + j).factorial - ((a + (m + 1) + (j + 1)).factorial : ℝ) / (a + (j + 1)).factorial =
        -(m + 1) * (((a + 1 + m + j).factorial : ℝ) / (a + 1 + j).factorial) := by
      intro j
      rw [show a + (m + 1) + (j + 1) = (a + 1 + m + j) + 1 by ring, show a + (m + 1) + j = a + 1 + m + j by ring,
        show a + (j + 1) = (a + j) + 1 by ring, show a + 1 + j = (a + j) + 1 by ring, Nat.factorial_succ (a + 1 + m + j), Nat.factorial_succ (a + j)]
      have h1 : ((a + j).factorial : ℝ) ≠ 0 := by positivity
      push_cast
      field_simp
      ring
    simp only [this]
    have h3 : alt p (fun j => -((m : ℝ) + 1) * (((a + 1 + m + j).factorial : ℝ) / (a + 1 + j).factorial)) =
        -(m + 1) * alt p (fun j => ((a + 1 + m + j).factorial : ℝ) / (a + 1 + j).factorial) := by
      unfold alt
      rw [Finset.mul_sum]
      refine Finset.sum_congr rfl fun j _ => ?_
      ring
    rw [h3, ih, Nat.succ_descFactorial_succ, show a + 1 + m = a + (m + 1) by ring, show a + 1 + p = a + (p + 1) by ring]
    push_cast
    ring

theorem kc_closed (p a : ℕ) : ∀ j, j ≤ p → kc p (a + 1) j = (-1) ^ j * (p.choose j : ℝ) * a.factorial / (a + j).factorial
  | 0, _ => by
    have h1 : (a.factorial : ℝ) ≠ 0 := by positivity
    simp [kc, h1]
  | j + 1, h => by
    rw [kc, kc_closed p a j (by omega)]
    have h1 : ((a + j).factorial : ℝ) ≠ 0 := by positivity
    have h2 := Nat.choose_succ_right_eq p j
    have h3 : (p.choose (j + 1) : ℝ) * (j + 1) = p.choose j * (p - j) := by
      have := congrArg (fun n : ℕ => (n : ℝ)) h2
      push_cast [Nat.cast_sub (show j ≤ p by omega)] at this
      exact this
    rw [show a + (j + 1) = (a + j) + 1 by ring, Nat.factorial_succ]
    push_cast
    have h4 : (a : ℝ) + 1 + j ≠ 0 := by positivity
    have h5 : (a : ℝ) + j + 1 ≠ 0 := by positivity
    have h6 : (j : ℝ) + 1 ≠ 0 := by positivity
    have h7 : (p.choose (j + 1) : ℝ) = p.choose j * (p - j) / (j + 1) := by rw [← h3]; field_simp
    rw [h7]
    field_simp
    ring

theorem moment (p a m : ℕ) : (∑ j ∈ Finset.range (p + 1), kc p (a + 1) j * ((a + m + j).factorial : ℝ)) =
    a.factorial * ((-1) ^ p * (m.descFactorial p : ℝ) * (a + m).factorial / (a + p).factorial) := by
  rw [← alt_factorial, alt, Finset.mul_sum]
  refine Finset.sum_congr rfl fun j hj => ?_
  rw [kc_closed p a j (by simpa [Nat.lt_succ_iff] using hj)]
  ring

theorem radial_moment (p a : ℕ) : (∑ i ∈ Finset.range (p + 1), ∑ j ∈ Finset.range (p + 1), kc p (a + 1) i * kc p (a + 1) j *
    ((a + 1 + i + j).factorial : ℝ)) = (a.factorial : ℝ) ^ 2 * p.factorial * (a + 2 * p + 1) / (a + p).factorial := by
  have h1 : ∀ i, (∑ j ∈ Finset.range (p + 1), kc p (a + 1) i * kc p (a + 1) j * ((a + 1 + i + j).factorial : ℝ)) =
      kc p (a + 1) i * (a.factorial * ((-1) ^ p * ((i + 1).descFactorial p : ℝ) * (a + (i + 1)).factorial / (a + p).factorial)) := by
    intro i
    rw [← moment, Finset.mul_sum]
    refine Finset.sum_congr rfl fun j _ => ?_
    rw [show a + (i + 1) + j = a + 1 + i + j by ring]
    ring
  simp only [h1]
  have hf : ∀ k : ℕ, (k.factorial : ℝ) ≠ 0 := fun k => by positivity
  have hs : ((-1 : ℝ) ^ p) ^ 2 = 1 := by rw [← pow_mul, mul_comm, pow_mul]; simp
  cases p with
  | zero =>
    have := hf a
    simp [kc, Nat.factorial_succ, ← add_assoc]
    field_simp
  | succ p =>
    rw [Finset.sum_range_succ, Finset.sum_range_succ, Finset.sum_eq_zero, kc_closed _ _ _ le_rfl, kc_closed _ _ _ (Nat.le_succ p)]
    · have e1 : ((p + 1 + 1).descFactorial (p + 1) : ℝ) = (p + 2) * (p + 1).factorial := by
        have h2 := Nat.descFactorial_succ (p + 1) p
        rw [Nat.descFactorial_self, Nat.add_sub_cancel_left, one_mul] at h2
        rw [Nat.succ_descFactorial_succ, ← h2]
        push_cast
        ring
      rw [Nat.descFactorial_self, e1, Nat.choose_self, Nat.choose_succ_self_right, show a + (p + 1 + 1) = (a + (p + 1)) + 1 by ring,
        Nat.factorial_succ (a + (p + 1)), show a + (p + 1) = (a + p) + 1 by ring, Nat.factorial_succ (a + p)]
      have := hf (a + p)
      have hs' : ((-1 : ℝ) ^ p) ^ 2 = 1 := by rw [← pow_mul, mul_comm, pow_mul]; simp
      rw [pow_succ]
      generalize (-1 : ℝ) ^ p = s at hs' ⊢
      push_cast
      field_simp
      linear_combination ((p : ℝ) + 2 + a + 1 + p) * (a.factorial : ℝ) ^ 2 * (p + 1).factorial * hs'
    · intro i hi
      have : (i + 1).descFactorial (p + 1) = 0 := Nat.descFactorial_eq_zero_iff_lt.2 (by simpa using hi)
      rw [this]
      simp

theorem radial_integral (p a : ℕ) : (∫ x in Set.Ioi (0 : ℝ), Real.exp (-x) * x ^ (a + 1) * (kp p (a + 1)).eval x ^ 2) =
    (a.factorial : ℝ) ^ 2 * p.factorial * (a + 2 * p + 1) / (a + p).factorial := by
  rw [← radial_moment]
  have h1 : ∀ x : ℝ, Real.exp (-x) * x ^ (a + 1) * (kp p (a + 1)).eval x ^ 2 =
      ∑ i ∈ Finset.range (p + 1), ∑ j ∈ Finset.range (p + 1), kc p (a + 1) i * kc p (a + 1) j * (Real.exp (-x) * x ^ (a + 1 + i + j)) := by
    intro x
    rw [kp_eval, pow_two, Finset.sum_mul_sum, Finset.mul_sum]
    refine Finset.sum_congr rfl fun i _ => ?_
    rw [Finset.mul_sum]
    refine Finset.sum_congr rfl fun j _ => ?_
    rw [pow_add x (a + 1 + i), pow_add x (a + 1)]
    ring
  simp only [h1]
  rw [MeasureTheory.integral_finset_sum _ fun i _ => MeasureTheory.integrable_finset_sum _ fun j _ => (integrable_pow_exp _).const_mul _]
  refine Finset.sum_congr rfl fun i _ => ?_
  rw [MeasureTheory.integral_finset_sum _ fun j _ => (integrable_pow_exp _).const_mul _]
  refine Finset.sum_congr rfl fun j _ => ?_
  rw [MeasureTheory.integral_const_mul, integral_pow_exp]

theorem radial_scaled (p a : ℕ) (κ : ℝ) (hκ : 0 < κ) : (∫ r in Set.Ioi (0 : ℝ), rf p (a + 1) κ r ^ 2 * r ^ (a + 1)) =
    (κ ^ (a + 2))⁻¹ * ((a.factorial : ℝ) ^ 2 * p.factorial * (a + 2 * p + 1) / (a + p).factorial) := by
  rw [← radial_integral]
  have h := MeasureTheory.integral_comp_mul_left_Ioi (fun x : ℝ => Real.exp (-x) * x ^ (a + 1) * (kp p (a + 1)).eval x ^ 2) 0 hκ
  rw [mul_zero, smul_eq_mul] at h
  have h2 : ∀ r : ℝ, rf p (a + 1) κ r ^ 2 * r ^ (a + 1) =
      (κ ^ (a + 1))⁻¹ * (Real.exp (-(κ * r)) * (κ * r) ^ (a + 1) * (kp p (a + 1)).eval (κ * r) ^ 2) := by
    intro r
    have h3 : Real.exp (-(κ * r)) = Real.exp (-(κ * r) / 2) ^ 2 := by
      rw [← Real.exp_nat_mul]
      congr 1
      push_cast
      ring
    rw [rf, h3, mul_pow κ r]
    have := (pow_pos hκ (a + 1)).ne'
    field_simp
  simp only [h2]
  rw [MeasureTheory.integral_const_mul, h, pow_succ κ (a + 1), mul_inv]
  ring

/-! ## Factors -/

theorem factorial_eq (n : ℕ) : Atom.factorial n = (n.factorial : ℝ) := by
  have key : ∀ N : ℕ, (List.range N).foldl (fun (y : ℝ) (i : ℕ) => y * ((i : ℝ) + 1)) 1.0 = (N.factorial : ℝ) := by
    intro N
    induction N with
    | zero => norm_num
    | succ N ih =>
      rw [List.range_succ, List.foldl_append, ih, Nat.factorial_succ]
      push_cast
      simp
      ring
  simpa [Atom.factorial] using key n

theorem rnlFactor_eq (z p l : ℕ) : Atom.rnlFactor z ((p + l + 1 : ℕ) : ℤ) l =
    2 / (((p + l + 1 : ℕ) : ℝ) ^ 2 * ((2 * l + 1).factorial : ℝ)) * Real.sqrt (((2 * l + 1 + p).factorial : ℝ) / p.factorial) * Real.sqrt ((z : ℝ) ^ 3) := by
  rw [Atom.rnlFactor]
  rw [show (2 * (l : ℤ) + 1) = ((2 * l + 1 : ℕ) : ℤ) by push_cast; ring,
    show (((p + l + 1 : ℕ) : ℤ) + l) = ((2 * l + 1 + p : ℕ) : ℤ) by push_cast; ring,
    show (((p + l + 1 : ℕ) : ℤ) - l - 1) = (p : ℤ) by push_cast; ring, factorial_eq, factorial_eq, factorial_eq]
  norm_num

theorem rnlFactor_pos (z p l : ℕ) (hz : 1 ≤ z) : 0 < Atom.rnlFactor z ((p + l + 1 : ℕ) : ℤ) l := by
  have : (0 : ℝ) < z := by exact_mod_cast hz
  rw [rnlFactor_eq]
  positivity

theorem rnl_norm (z p l : ℕ) (hz : 1 ≤ z) : Atom.rnlFactor z ((p + l + 1 : ℕ) : ℤ) l ^ 2 *
    (((2 * (z : ℝ) / ((p + l + 1 : ℕ) : ℝ)) ^ 3)⁻¹ * (((2 * l + 1).factorial : ℝ) ^ 2 * p.factorial * (((2 * l + 1 : ℕ) : ℝ) + 2 * p + 1) / (2 * l + 1 + p).factorial)) = 1 := by
  have hz' : (0 : ℝ) < z := by exact_mod_cast hz
  rw [rnlFactor_eq, mul_pow, mul_pow, Real.sq_sqrt (by positivity), Real.sq_sqrt (by positivity)]
  have h1 : ((2 * l + 1).factorial : ℝ) ≠ 0 := by positivity
  have h2 : (p.factorial : ℝ) ≠ 0 := by positivity
  have h3 : ((2 * l + 1 + p).factorial : ℝ) ≠ 0 := by positivity
  generalize ((2 * l + 1).factorial : ℝ) = A at *
  generalize (p.factorial : ℝ) = B at *
  generalize ((2 * l + 1 + p).factorial : ℝ) = D at *
  push_cast
  have h4 : (p : ℝ) + l + 1 ≠ 0 := by positivity
  field_simp
  ring

theorem ylmFactor_pos {q : Atom.Qn} (h : Valid q) : 0 < Atom.ylmFactor q.l q.m := by
  have hc : ∀ a b c d : ℕ, 0 < a → 0 < b → 0 < c → 0 < d → 0 < Atom.coeff a b c d := by
    intro a b c d ha hb hc hd
    have : (0 : ℝ) < a := by exact_mod_cast ha
    have : (0 : ℝ) < b := by exact_mod_cast hb
    have : (0 : ℝ) < c := by exact_mod_cast hc
    have : (0 : ℝ) < d := by exact_mod_cast hd
    have := Real.pi_pos
    rw [Atom.coeff]
    positivity
  refine valid_cases (p := fun l m => 0 < Atom.ylmFactor l m) h ?_ ?_ ?_ ?_ ?_ ?_ ?_ ?_ ?_ ?_ ?_ ?_ ?_ ?_ ?_ ?_ <;>
  · simp only [Atom.ylmFactor]
    norm_num only [if_true, if_false]
    exact hc _ _ _ _ (by decide) (by decide) (by decide) (by decide)

theorem ylm_eq {q : Atom.Qn} (h : Valid q) : ∀ x y z r, 0 < r → Atom.ylm q.l q.m x y z r = solid q.l q.m x y z / r ^ q.l := by
  refine valid_cases (p := fun l m => ∀ x y z r, 0 < r → Atom.ylm l m x y z r = solid l m x y z / r ^ l) h
    ?_ ?_ ?_ ?_ ?_ ?_ ?_ ?_ ?_ ?_ ?_ ?_ ?_ ?_ ?_ ?_ <;>
  · intro x y z r hr
    simp only [Atom.ylm, solid]
    norm_num only [if_true, if_false]
    have e2 : r ^ (2 : ℤ) = r ^ 2 := by norm_cast
    have e3 : r ^ (3 : ℤ) = r ^ 3 := by norm_cast
    simp only [e2, e3, zpow_zero, zpow_one]
    field_simp
    try ring

/-! ## Orthogonality -/

theorem exp_poly_integrable (c : ℝ) (hc : 0 < c) (P : ℝ[X]) :
    MeasureTheory.IntegrableOn (fun r : ℝ => Real.exp (-(c * r)) * P.eval r) (Set.Ioi 0) := by
  have h0 : ∀ k : ℕ, MeasureTheory.IntegrableOn (fun r : ℝ => Real.exp (-(c * r)) * r ^ k) (Set.Ioi 0) := by
    intro k
    have h1 := (MeasureTheory.integrableOn_Ioi_comp_mul_left_iff (fun x : ℝ => Real.exp (-x) * x ^ k) 0 hc).2 (by
      rw [mul_zero]; exact integrable_pow_exp k)
    have h2 : MeasureTheory.IntegrableOn (fun r : ℝ => (c ^ k)⁻¹ * (Real.exp (-(c * r)) * (c * r) ^ k)) (Set.Ioi 0) := h1.const_mul ((c ^ k)⁻¹)
    refine h2.congr_fun (fun r _ => ?_) measurableSet_Ioi
    have := (pow_pos hc k).ne'
    simp only [mul_pow]
    field_simp
  have h1 : (fun r : ℝ => Real.exp (-(c * r)) * P.eval r) = fun r => ∑ k ∈ P.support, P.coeff k * (Real.exp (-(c * r)) * r ^ k) := by
    funext r
    rw [eval_eq_sum, Polynomial.sum, Finset.mul_sum]
    refine Finset.sum_congr rfl fun k _ => ?_
    ring
  rw [h1]
  exact MeasureTheory.integrable_finset_sum _ fun k _ => (h0 k).const_mul _

theorem exp_poly_tendsto (c : ℝ) (hc : 0 < c) (P : ℝ[X]) :
    Filter.Tendsto (fun r : ℝ => Real.exp (-(c * r)) * P.eval r) Filter.atTop (nhds 0) := by
  have h1 := (Polynomial.tendsto_div_exp_atTop (P.comp (C c⁻¹ * X))).comp (Filter.tendsto_id.const_mul_atTop hc)
  refine h1.congr fun r => ?_
  simp only [Function.comp, eval_comp, eval_mul, eval_C, eval_X, id]
  rw [inv_mul_cancel_left₀ hc.ne', Real.exp_neg]
  ring

theorem rf_form (p g : ℕ) (κ r : ℝ) : rf p g κ r = Real.exp (-(κ * r) / 2) * ((kp p g).comp (C κ * X)).eval r := by
  simp [rf, eval_comp]

theorem rf1_form (p g : ℕ) (κ r : ℝ) : rf1 p g κ r = Real.exp (-(κ * r) / 2) *
    (C κ * ((derivative (kp p g)).comp (C κ * X) - C (1 / 2) * (kp p g).comp (C κ * X))).eval r := by
  simp [rf1, eval_comp]
  ring

theorem rf_orth (p₁ p₂ g : ℕ) (hg : 0 < g) (κ₁ κ₂ : ℝ) (h1 : 0 < κ₁) (h2 : 0 < κ₂) (hne : κ₁ ≠ κ₂)
    (h : ((g : ℝ) / 2 + p₁) * κ₁ = (g / 2 + p₂) * κ₂) :
    (∫ r in Set.Ioi (0 : ℝ), rf p₁ g κ₁ r * rf p₂ g κ₂ r * r ^ g) = 0 := by
  have hc : 0 < (κ₁ + κ₂) / 2 := by positivity
  have hexp : ∀ r, Real.exp (-(κ₁ * r) / 2) * Real.exp (-(κ₂ * r) / 2) = Real.exp (-((κ₁ + κ₂) / 2 * r)) := by
    intro r
    rw [← Real.exp_add]
    congr 1
    ring
  have hint : MeasureTheory.IntegrableOn (fun r : ℝ => (κ₂ ^ 2 / 4 - κ₁ ^ 2 / 4) * (rf p₁ g κ₁ r * rf p₂ g κ₂ r * r ^ g)) (Set.Ioi 0) := by
    refine MeasureTheory.Integrable.const_mul ?_ _
    refine (exp_poly_integrable _ hc ((kp p₁ g).comp (C κ₁ * X) * (kp p₂ g).comp (C κ₂ * X) * X ^ g)).congr_fun (fun r _ => ?_) measurableSet_Ioi
    simp only [rf_form, ← hexp, eval_mul, eval_pow, eval_X]
    ring
  have hlim : Filter.Tendsto (fun r => r ^ g * (rf p₁ g κ₁ r * rf1 p₂ g κ₂ r - rf1 p₁ g κ₁ r * rf p₂ g κ₂ r)) Filter.atTop (nhds 0) := by
    refine (exp_poly_tendsto _ hc (X ^ g * ((kp p₁ g).comp (C κ₁ * X) *
      (C κ₂ * ((derivative (kp p₂ g)).comp (C κ₂ * X) - C (1 / 2) * (kp p₂ g).comp (C κ₂ * X))) -
      (C κ₁ * ((derivative (kp p₁ g)).comp (C κ₁ * X) - C (1 / 2) * (kp p₁ g).comp (C κ₁ * X))) * (kp p₂ g).comp (C κ₂ * X)))).congr fun r => ?_
    simp only [rf_form, rf1_form, ← hexp, eval_mul, eval_sub, eval_pow, eval_X, eval_C]
    ring
  have hderiv : ∀ r ∈ Set.Ioi (0 : ℝ), HasDerivAt (fun r => r ^ g * (rf p₁ g κ₁ r * rf1 p₂ g κ₂ r - rf1 p₁ g κ₁ r * rf p₂ g κ₂ r))
      ((κ₂ ^ 2 / 4 - κ₁ ^ 2 / 4) * (rf p₁ g κ₁ r * rf p₂ g κ₂ r * r ^ g)) r := by
    intro r hr
    have hr' : r ≠ 0 := (Set.mem_Ioi.1 hr).ne'
    refine ((hasDerivAt_pow g r).mul (((rf_deriv p₁ g κ₁ r).mul (rf1_deriv p₂ g κ₂ r)).sub
      ((rf1_deriv p₁ g κ₁ r).mul (rf_deriv p₂ g κ₂ r)))).congr_deriv ?_
    have e1 := rf_ode p₁ g hg κ₁ r hr'
    have e2 := rf_ode p₂ g hg κ₂ r hr'
    have e3 : r ^ g = r ^ (g - 1) * r := by rw [← pow_succ, Nat.sub_add_cancel hg]
    rw [h] at e1
    simp only [Pi.mul_apply, Pi.sub_apply]
    rw [e3]
    have e4 : rf2 p₁ g κ₁ r = -(g / r * rf1 p₁ g κ₁ r + ((g / 2 + p₂) * κ₂ / r - κ₁ ^ 2 / 4) * rf p₁ g κ₁ r) := by linear_combination e1
    have e5 : rf2 p₂ g κ₂ r = -(g / r * rf1 p₂ g κ₂ r + ((g / 2 + p₂) * κ₂ / r - κ₂ ^ 2 / 4) * rf p₂ g κ₂ r) := by linear_combination e2
    rw [e4, e5]
    field_simp
    ring
  have hcont : ContinuousWithinAt (fun r => r ^ g * (rf p₁ g κ₁ r * rf1 p₂ g κ₂ r - rf1 p₁ g κ₁ r * rf p₂ g κ₂ r)) (Set.Ici 0) 0 := by
    refine ContinuousAt.continuousWithinAt ?_
    exact ((hasDerivAt_pow g 0).mul (((rf_deriv p₁ g κ₁ 0).mul (rf1_deriv p₂ g κ₂ 0)).sub
      ((rf1_deriv p₁ g κ₁ 0).mul (rf_deriv p₂ g κ₂ 0)))).continuousAt
  have key := MeasureTheory.integral_Ioi_of_hasDerivAt_of_tendsto hcont hderiv hint hlim
  rw [MeasureTheory.integral_const_mul, zero_pow hg.ne', zero_mul, sub_zero] at key
  rcases mul_eq_zero.1 key with h3 | h3
  · exfalso
    apply hne
    have : (κ₂ - κ₁) * (κ₂ + κ₁) = 0 := by linear_combination 4 * h3
    rcases mul_eq_zero.1 this with h4 | h4
    · linarith
    · linarith
  · exact h3

theorem ylm_orth {q q' : Atom.Qn} (h : Valid q) (h' : Valid q') (hne : ¬ (q.l = q'.l ∧ q.m = q'.m)) :
    ((pmul (solidP q.l q.m) (solidP q'.l q'.m)).map fun t => (t.1 : ℚ) * mean t.2.1 t.2.2.1 t.2.2.2).sum = 0 := by
  obtain ⟨z, n, l, m⟩ := q
  obtain ⟨z', n', l', m'⟩ := q'
  have h1 := h.l_nonneg
  have h2 := h.l_le
  have h3 := abs_le.1 h.m_le
  have h1' := h'.l_nonneg
  have h2' := h'.l_le
  have h3' := abs_le.1 h'.m_le
  simp only at h1 h2 h3 h1' h2' h3' hne ⊢
  obtain ⟨h3, h4⟩ := h3
  obtain ⟨h3', h4'⟩ := h3'
  clear h h'
  interval_cases l <;> interval_cases m <;> interval_cases l' <;> interval_cases m' <;>
    first
    | exact absurd ⟨rfl, rfl⟩ hne
    | decide +kernel

/-! ## The orbitals -/

/-- The radial part divided by `r^l`. -/
noncomputable def orbF (q : Atom.Qn) (r : ℝ) : ℝ :=
  Atom.rnlFactor q.z q.n q.l * Atom.ylmFactor q.l q.m * (2 * q.z / q.n : ℝ) ^ q.l *
    rf (q.n - q.l - 1).toNat (2 * q.l + 2).toNat (2 * q.z / q.n) r

/-- The orbital. -/
noncomputable def orb (q : Atom.Qn) (x y z : ℝ) : ℝ := orbF q (rad x y z) * solid q.l q.m x y z

/-- Natural numbers behind valid quantum numbers. -/
theorem valid_nat {q : Atom.Qn} (h : Valid q) : ∃ z p l : ℕ, 1 ≤ z ∧ q.z = z ∧ q.n = ((p + l + 1 : ℕ) : ℤ) ∧ q.l = l := by
  have h1 := h.z_pos
  have h2 := h.l_nonneg
  have h3 := h.l_lt
  refine ⟨q.z.toNat, (q.n - q.l - 1).toNat, q.l.toNat, ?_, ?_, ?_, ?_⟩ <;> omega

/-- The radial part in terms of them. -/
theorem orbF_nat {q : Atom.Qn} {z p l : ℕ} (hz : q.z = z) (hn : q.n = ((p + l + 1 : ℕ) : ℤ)) (hl : q.l = l) (r : ℝ) :
    orbF q r = Atom.rnlFactor z ((p + l + 1 : ℕ) : ℤ) l * Atom.ylmFactor q.l q.m * (2 * z / ((p + l + 1 : ℕ) : ℝ)) ^ l *
      rf p (2 * l + 1 + 1) (2 * z / ((p + l + 1 : ℕ) : ℝ)) r := by
  rw [orbF, hz, hn, hl]
  rw [show (((p + l + 1 : ℕ) : ℤ) - l - 1).toNat = p by omega, show (2 * (l : ℤ) + 2).toNat = 2 * l + 1 + 1 by omega, zpow_natCast]
  push_cast
  rfl

theorem kappa_pos {z p l : ℕ} (hz : 1 ≤ z) : 0 < (2 * z / ((p + l + 1 : ℕ) : ℝ) : ℝ) := by
  have : (0 : ℝ) < z := by exact_mod_cast hz
  positivity

theorem rf_zero (p g : ℕ) (κ : ℝ) : rf p g κ 0 = 1 := by
  rw [rf, kp_eval, Finset.sum_range_succ']
  simp [kc]

theorem orbF_pos {q : Atom.Qn} (h : Valid q) : 0 < orbF q 0 := by
  obtain ⟨z, p, l, hz1, hz, hn, hl⟩ := valid_nat h
  rw [orbF_nat hz hn hl, rf_zero]
  have h1 := rnlFactor_pos z p l hz1
  have h2 := ylmFactor_pos h
  have h3 := kappa_pos (p := p) (l := l) hz1
  positivity

theorem orbF_continuous (q : Atom.Qn) : Continuous (orbF q) := by
  have h : Continuous (rf (q.n - q.l - 1).toNat (2 * q.l + 2).toNat (2 * q.z / q.n)) :=
    continuous_iff_continuousAt.2 fun r => (rf_deriv _ _ _ r).continuousAt
  unfold orbF
  exact continuous_const.mul h

theorem rad_sq (x y z : ℝ) : rad x y z ^ 2 = x ^ 2 + y ^ 2 + z ^ 2 := Real.sq_sqrt (by positivity)

theorem orb_stationary {q : Atom.Qn} (h : Valid q) (x y z : ℝ) (hr : 0 < rad x y z) :
    -(1 / 2) * laplacian (orb q) x y z - q.z / rad x y z * orb q x y z = -(q.z ^ 2 / (2 * q.n ^ 2)) * orb q x y z := by
  obtain ⟨Z, p, l, hz1, hz, hn, hl⟩ := valid_nat h
  set κ : ℝ := 2 * Z / ((p + l + 1 : ℕ) : ℝ) with hκ
  set A : ℝ := Atom.rnlFactor Z ((p + l + 1 : ℕ) : ℤ) l * Atom.ylmFactor q.l q.m * κ ^ l with hA
  have e0 : orb q = fun x y z => (fun r => A * rf p (2 * l + 1 + 1) κ r) (rad x y z) * ev (solidP q.l q.m) x y z := by
    funext x y z
    rw [orb, solid_ev h, orbF_nat hz hn hl]
  have hd := solid_deg h
  rw [hl, Int.toNat_natCast] at hd
  have hpos : 0 < x ^ 2 + y ^ 2 + z ^ 2 := by
    rw [← rad_sq]
    positivity
  have key := laplacian_poly (fun r => A * rf p (2 * l + 1 + 1) κ r) (fun r => A * rf1 p (2 * l + 1 + 1) κ r) (fun r => A * rf2 p (2 * l + 1 + 1) κ r)
    (fun r => (rf_deriv _ _ _ r).const_mul A) (fun r => (rf1_deriv _ _ _ r).const_mul A) (solidP q.l q.m) l (by rw [hl]; exact hd) (solid_harm h) x y z hpos
  rw [e0, key]
  have ode := rf_ode p (2 * l + 1 + 1) (by omega) κ (rad x y z) hr.ne'
  beta_reduce
  generalize ev (solidP q.l q.m) x y z = S
  generalize hR : rad x y z = R at *
  generalize rf p (2 * l + 1 + 1) κ R = f0 at *
  generalize rf1 p (2 * l + 1 + 1) κ R = f1 at *
  generalize rf2 p (2 * l + 1 + 1) κ R = f2 at *
  rw [hz, hn]
  have hn0 : ((p + l + 1 : ℕ) : ℝ) ≠ 0 := by positivity
  have hκn : κ * ((p + l + 1 : ℕ) : ℝ) = 2 * Z := by rw [hκ]; field_simp
  have hf2 : f2 = -(((2 * l + 1 + 1 : ℕ) : ℝ) / R * f1 + ((((2 * l + 1 + 1 : ℕ) : ℝ) / 2 + p) * κ / R - κ ^ 2 / 4) * f0) := by
    linear_combination ode
  have e2 : (((2 * l + 1 + 1 : ℕ) : ℝ) / 2 + p) * κ = 2 * Z := by
    rw [← hκn]
    push_cast
    ring
  rw [e2] at hf2
  have e3 : κ ^ 2 / 4 = (Z : ℝ) ^ 2 / ((p + l + 1 : ℕ) : ℝ) ^ 2 := by
    rw [hκ, div_pow]
    ring
  rw [e3] at hf2
  rw [hf2]
  push_cast at hn0 ⊢
  have hR0 := hr.ne'
  field_simp
  ring

theorem rad_sphere (r θ φ : ℝ) (hr : 0 < r) :
    rad (r * Real.sin θ * Real.cos φ) (r * Real.sin θ * Real.sin φ) (r * Real.cos θ) = r := by
  rw [rad]
  have h1 := Real.sin_sq_add_cos_sq θ
  have h2 := Real.sin_sq_add_cos_sq φ
  rw [show (r * Real.sin θ * Real.cos φ) ^ 2 + (r * Real.sin θ * Real.sin φ) ^ 2 + (r * Real.cos θ) ^ 2 = r ^ 2 by
    linear_combination r ^ 2 * Real.sin θ ^ 2 * h2 + r ^ 2 * h1]
  exact Real.sqrt_sq hr.le

/-- The overlap of two orbitals factorises. -/
theorem overlap_factor {q q' : Atom.Qn} (h : Valid q) (h' : Valid q') :
    spaceIntegral (fun x y z => orb q x y z * orb q' x y z) =
      (∫ r in Set.Ioi (0 : ℝ), orbF q r * orbF q' r * r ^ (q.l.toNat + q'.l.toNat + 2)) *
      (4 * Real.pi * (((pmul (solidP q.l q.m) (solidP q'.l q'.m)).map fun t => (t.1 : ℚ) * mean t.2.1 t.2.2.1 t.2.2.2).sum : ℚ)) := by
  rw [spaceIntegral, ← MeasureTheory.integral_mul_const]
  refine MeasureTheory.setIntegral_congr_fun measurableSet_Ioi fun r hr => ?_
  have hr' : 0 < r := hr
  beta_reduce
  rw [← sphere_integral, ← intervalIntegral.integral_const_mul]
  congr 1
  funext θ
  rw [← intervalIntegral.integral_const_mul]
  congr 1
  funext φ
  rw [orb, orb, rad_sphere r θ φ hr', solid_ev h, solid_ev h', ev_pmul, mul_assoc r, mul_assoc r, ev_scale _ _ (solid_deg h), ev_scale _ _ (solid_deg h')]
  rw [pow_add, pow_add]
  ring

theorem orb_normalised {q : Atom.Qn} (h : Valid q) : spaceIntegral (fun x y z => orb q x y z ^ 2) = 1 := by
  simp only [pow_two]
  rw [overlap_factor h h]
  obtain ⟨z, p, l, hz1, hz, hn, hl⟩ := valid_nat h
  have hκ := kappa_pos (p := p) (l := l) hz1
  have h1 := radial_scaled p (2 * l + 1) _ hκ
  have h2 := rnl_norm z p l hz1
  have h3 := ylm_norm h
  simp only [orbF_nat hz hn hl]
  rw [hl, Int.toNat_natCast] at *
  generalize (2 * z / ((p + l + 1 : ℕ) : ℝ) : ℝ) = κ at *
  generalize Atom.rnlFactor (z : ℤ) ((p + l + 1 : ℕ) : ℤ) l = R at *
  generalize Atom.ylmFactor (l : ℤ) q.m = Y at *
  have e : ∀ r : ℝ, R * Y * κ ^ l * rf p (2 * l + 1 + 1) κ r * (R * Y * κ ^ l * rf p (2 * l + 1 + 1) κ r) * r ^ (l + l + 2) =
      R ^ 2 * Y ^ 2 * κ ^ (2 * l) * (rf p (2 * l + 1 + 1) κ r ^ 2 * r ^ (2 * l + 1 + 1)) := by
    intro r
    rw [show l + l + 2 = 2 * l + 1 + 1 by ring, pow_mul, pow_two κ]
    ring
  simp only [e]
  rw [MeasureTheory.integral_const_mul, h1]
  generalize (4 * Real.pi * (((pmul (solidP (l : ℤ) q.m) (solidP (l : ℤ) q.m)).map fun t => (t.1 : ℚ) * mean t.2.1 t.2.2.1 t.2.2.2).sum : ℚ)) = M at *
  generalize (((2 * l + 1).factorial : ℝ) ^ 2 * p.factorial * (((2 * l + 1 : ℕ) : ℝ) + 2 * p + 1) / (2 * l + 1 + p).factorial) = N at *
  have e3 : κ ^ (2 * l) * (κ ^ (2 * l + 1 + 2))⁻¹ = (κ ^ 3)⁻¹ := by
    have := (pow_pos hκ (2 * l)).ne'
    have := hκ.ne'
    rw [show 2 * l + 1 + 2 = 2 * l + 3 by ring, pow_add]
    field_simp
  calc R ^ 2 * Y ^ 2 * κ ^ (2 * l) * ((κ ^ (2 * l + 1 + 2))⁻¹ * N) * M = (R ^ 2 * ((κ ^ (2 * l) * (κ ^ (2 * l + 1 + 2))⁻¹) * N)) * (Y ^ 2 * M) := by ring
    _ = 1 := by rw [e3, h2, h3, one_mul]

theorem orb_orthogonal {q q' : Atom.Qn} (h : Valid q) (h' : Valid q') (hzz : q.z = q'.z) (hne : q ≠ q') :
    spaceIntegral (fun x y z => orb q x y z * orb q' x y z) = 0 := by
  rw [overlap_factor h h']
  by_cases hlm : q.l = q'.l ∧ q.m = q'.m
  · obtain ⟨z, p, l, hz1, hz, hn, hl⟩ := valid_nat h
    obtain ⟨z', p', l', hz1', hz', hn', hl'⟩ := valid_nat h'
    have e1 : l' = l := by omega
    have e2 : z' = z := by omega
    subst e1 e2
    have hpp : p ≠ p' := by
      intro hp
      apply hne
      obtain ⟨a, b, c, d⟩ := q
      obtain ⟨a', b', c', d'⟩ := q'
      simp only [Atom.Qn.mk.injEq] at *
      refine ⟨hzz, ?_, hlm.1, hlm.2⟩
      rw [hn, hn', hp]
    have hzp : (0 : ℝ) < z' := by exact_mod_cast hz1
    have ho := rf_orth p p' (2 * l' + 1 + 1) (by omega) _ _ (kappa_pos (p := p) (l := l') hz1) (kappa_pos (p := p') (l := l') hz1)
      (by
        intro hk
        rw [div_eq_div_iff (by positivity) (by positivity)] at hk
        have hk2 : (((p' + l' + 1 : ℕ) : ℝ)) = ((p + l' + 1 : ℕ) : ℝ) := mul_left_cancel₀ (by positivity) hk
        have hk3 : p' + l' + 1 = p + l' + 1 := by exact_mod_cast hk2
        omega)
      (by
        push_cast
        have a1 : (p : ℝ) + l' + 1 ≠ 0 := by positivity
        have a2 : (p' : ℝ) + l' + 1 ≠ 0 := by positivity
        field_simp
        ring)
    simp only [orbF_nat hz hn hl, orbF_nat hz' hn' hl']
    rw [hl, hl', Int.toNat_natCast]
    generalize (2 * z' / ((p + l' + 1 : ℕ) : ℝ) : ℝ) = κ at *
    generalize (2 * z' / ((p' + l' + 1 : ℕ) : ℝ) : ℝ) = κ' at *
    generalize Atom.rnlFactor (z' : ℤ) ((p + l' + 1 : ℕ) : ℤ) l' = R at *
    generalize Atom.rnlFactor (z' : ℤ) ((p' + l' + 1 : ℕ) : ℤ) l' = R' at *
    have e : ∀ (Y Y' r : ℝ), R * Y * κ ^ l' * rf p (2 * l' + 1 + 1) κ r * (R' * Y' * κ' ^ l' * rf p' (2 * l' + 1 + 1) κ' r) * r ^ (l' + l' + 2) =
        R * R' * Y * Y' * κ ^ l' * κ' ^ l' * (rf p (2 * l' + 1 + 1) κ r * rf p' (2 * l' + 1 + 1) κ' r * r ^ (2 * l' + 1 + 1)) := by
      intro Y Y' r
      rw [show l' + l' + 2 = 2 * l' + 1 + 1 by ring]
      ring
    simp only [e]
    rw [MeasureTheory.integral_const_mul, ho]
    ring
  · rw [ylm_orth h h' hlm]
    simp

theorem orb_isOrbitals : IsOrbitals orb where
  shape q hq := ⟨orbF q, orbF_continuous q, orbF_pos hq, fun _ _ _ => rfl⟩
  stationary _ hq := orb_stationary hq
  normalised _ hq := orb_normalised hq
  orthogonal _ _ hq hq' hz hne := orb_orthogonal hq hq' hz hne

/-- The value written away from the nucleus. -/
theorem gridval_orb {q : Atom.Qn} (h : Valid q) (c0 o : Fin 3 → ℝ) (res : ℝ) (i j k : ℕ)
    (hr : 1.0e-7 ≤ rad (o 0 + res * i - c0 0) (o 1 + res * j - c0 1) (o 2 + res * k - c0 2)) :
    Atom.gridval c0 q o res i j k = orb q (o 0 + res * i - c0 0) (o 1 + res * j - c0 1) (o 2 + res * k - c0 2) := by
  rw [Atom.gridval]
  rw [rad] at hr
  rw [if_neg (not_lt.2 hr), orb, rad]
  generalize o 0 + res * i - c0 0 = x at *
  generalize o 1 + res * j - c0 1 = y at *
  generalize o 2 + res * k - c0 2 = w at *
  generalize Real.sqrt (x ^ 2 + y ^ 2 + w ^ 2) = r at *
  have hr0 : 0 < r := lt_of_lt_of_le (by norm_num) hr
  rw [ylm_eq h x y w r hr0]
  obtain ⟨z, p, l, hz1, hz, hn, hl⟩ := valid_nat h
  rw [orbF_nat hz hn hl, Atom.radial, hz, hn]
  generalize solid q.l q.m x y w = S
  generalize Atom.ylmFactor q.l q.m = Y
  rw [hl, show -((p + l + 1 : ℕ) : ℤ) + l + 1 = -(p : ℤ) by push_cast; ring, show (2 * (l : ℤ) + 2) = ((2 * l + 1 + 1 : ℕ) : ℤ) by push_cast; ring]
  rw [kummer_eq, ← kp_eval, rf, zpow_natCast, zpow_natCast]
  have e1 : (2.0 * ((z : ℤ) : ℝ) / (((p + l + 1 : ℕ) : ℤ) : ℝ) * r) = 2 * z / ((p + l + 1 : ℕ) : ℝ) * r := by
    push_cast
    norm_num
  rw [e1]
  generalize (2 * z / ((p + l + 1 : ℕ) : ℝ) : ℝ) = κ
  rw [show -0.5 * (κ * r) = -(κ * r) / 2 by norm_num; ring, mul_pow]
  have := (pow_pos hr0 l).ne'
  field_simp

/-- The loops write every point of the grid. -/
theorem setCube_eq (c0 : Fin 3 → ℝ) (q : Atom.Qn) (o : Fin 3 → ℝ) (N : Fin 3 → ℕ) (res : ℝ) (cube : ℕ → ℕ → ℕ → ℝ) (i j k : ℕ) :
    Atom.setCube c0 q o N res cube i j k =
      if i < N 0 ∧ j < N 1 ∧ k < N 2 then Atom.gridval c0 q o res i j k else cube i j k := by
  have h3 : ∀ (n a b : ℕ) (cube : ℕ → ℕ → ℕ → ℝ), ((List.range n).foldl (fun (cube : ℕ → ℕ → ℕ → ℝ) (k : ℕ) =>
      fun i' j' k' => if i' = a ∧ j' = b ∧ k' = k then Atom.gridval c0 q o res a b k else cube i' j' k') cube) i j k =
      if i = a ∧ j = b ∧ k < n then Atom.gridval c0 q o res i j k else cube i j k := by
    intro n a b cube
    induction n with
    | zero => simp
    | succ n ih =>
      rw [List.range_succ, List.foldl_append, List.foldl_cons, List.foldl_nil]
      rw [ih]
      by_cases h1 : i = a ∧ j = b ∧ k = n
      · obtain ⟨rfl, rfl, rfl⟩ := h1
        simp
      · rw [if_neg h1]
        by_cases h2 : i = a ∧ j = b ∧ k < n
        · rw [if_pos h2, if_pos ⟨h2.1, h2.2.1, by omega⟩]
        · rw [if_neg h2, if_neg]
          rintro ⟨r1, r2, r3⟩
          rcases Nat.lt_succ_iff_lt_or_eq.1 r3 with r | r
          · exact h2 ⟨r1, r2, r⟩
          · exact h1 ⟨r1, r2, r⟩
  have h2 : ∀ (n a : ℕ) (cube : ℕ → ℕ → ℕ → ℝ), ((List.range n).foldl (fun (cube : ℕ → ℕ → ℕ → ℝ) (j : ℕ) =>
      (List.range (N 2)).foldl (fun (cube : ℕ → ℕ → ℕ → ℝ) (k : ℕ) =>
      fun i' j' k' => if i' = a ∧ j' = j ∧ k' = k then Atom.gridval c0 q o res a j k else cube i' j' k') cube) cube) i j k =
      if i = a ∧ j < n ∧ k < N 2 then Atom.gridval c0 q o res i j k else cube i j k := by
    intro n a cube
    induction n with
    | zero => simp
    | succ n ih =>
      rw [List.range_succ, List.foldl_append, List.foldl_cons, List.foldl_nil, h3, ih]
      split_ifs <;> first | rfl | (exfalso; omega)
  rw [Atom.setCube]
  generalize N 0 = n
  induction n with
  | zero => simp
  | succ n ih =>
    rw [List.range_succ, List.foldl_append, List.foldl_cons, List.foldl_nil, h2, ih]
    split_ifs <;> first | rfl | (exfalso; omega)

end Verif.AtomSpec

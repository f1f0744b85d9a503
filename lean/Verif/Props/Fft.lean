import Verif.Proof.Fft
import Verif.Proof.Analysis

/-! # Fourier transform and Fermi coefficients: C63, C91 -/

namespace Verif.Fft
open Verif.Tbpm

/-! ## C63 -/

/-- C63: for every length `2^p`, every input, every odd `sgn` (the callers use 1 and -1) and every order of the iterations of the
parallel loops, the transform ends (the loop of the bit reversal runs at most `p + 1` times at each step) and its result is the
discrete Fourier transform of the input. -/
theorem C63_dft (sch : ℕ → List ℕ) (hsch : ∀ k, (sch k).Perm (List.range k)) (p : ℕ) (sgn : ℤ) (hs : Odd sgn) (x : ℕ → ℂ) :
    ∃ y, fftInplace sch (p + 1) sgn (2 ^ p) x = some y ∧ ∀ k < 2 ^ p,
      y k = ∑ m ∈ Finset.range (2 ^ p), x m * Complex.exp (sgn * (2 * Real.pi * Complex.I) * k * m / (2 ^ p : ℕ)) := by
  obtain ⟨y, h1, h2⟩ := fft_eq sch hsch (p + 1) p (Nat.lt_succ_self p) sgn hs x
  exact ⟨y, h1, h2⟩

/-- The transform does not use what lies beyond the array. -/
theorem dft_congr (sgn : ℤ) (n : ℕ) (x y : ℕ → ℂ) (h : ∀ m < n, x m = y m) (k : ℕ) : dft sgn n x k = dft sgn n y k :=
  Finset.sum_congr rfl fun m hm => by rw [h m (Finset.mem_range.1 hm)]

/-- C63: transforming back restores the input times its length, even if the schedules of the two transforms differ. -/
theorem C63_inverse (sch sch' : ℕ → List ℕ) (hsch : ∀ k, (sch k).Perm (List.range k)) (hsch' : ∀ k, (sch' k).Perm (List.range k)) (p : ℕ)
    (x : ℕ → ℂ) : ∃ y z, fftInplace sch (p + 1) 1 (2 ^ p) x = some y ∧ fftInplace sch' (p + 1) (-1) (2 ^ p) y = some z ∧
      ∀ k < 2 ^ p, z k = 2 ^ p * x k := by
  obtain ⟨y, h1, h2⟩ := fft_eq sch hsch (p + 1) p (Nat.lt_succ_self p) 1 odd_one x
  obtain ⟨z, h3, h4⟩ := fft_eq sch' hsch' (p + 1) p (Nat.lt_succ_self p) (-1) (by decide) y
  refine ⟨y, z, h1, h3, fun k hk => ?_⟩
  rw [h4 k hk, dft_congr (-1) _ y _ h2 k]
  have := Verif.Analysis.ifft_inverse (2 ^ p) x k hk
  rw [← this, Finset.mul_sum]
  unfold dft
  refine Finset.sum_congr rfl fun m _ => ?_
  unfold Verif.Analysis.ifft
  have hp : ((2 ^ p : ℕ) : ℂ) ≠ 0 := Nat.cast_ne_zero.2 (by positivity)
  rw [show (2 : ℂ) ^ p = ((2 ^ p : ℕ) : ℂ) by push_cast; rfl]
  have e1 : ∀ l : ℕ, Complex.exp (((1 : ℤ) : ℂ) * (2 * Real.pi * Complex.I) * m * l / (2 ^ p : ℕ)) =
      Complex.exp (2 * Real.pi * Complex.I * m * l / (2 ^ p : ℕ)) := fun l => by simp
  have e2 : Complex.exp (((-1 : ℤ) : ℂ) * (2 * Real.pi * Complex.I) * k * m / (2 ^ p : ℕ)) =
      Complex.exp (-(2 * Real.pi * Complex.I * m * k / (2 ^ p : ℕ))) := by congr 1; push_cast; ring
  simp only [e1]
  rw [e2]
  field_simp

/-- Concrete case of C63: the transform of length 2, with the trivial schedules. -/
example (x : ℕ → ℂ) : ∃ y, fftInplace List.range 2 (-1) (2 ^ 1) x = some y ∧ y 0 = x 0 + x 1 ∧ y 1 = x 0 - x 1 := by
  obtain ⟨y, h, hy⟩ := C63_dft List.range (fun _ => List.Perm.refl _) 1 (-1) (by decide) x
  refine ⟨y, h, ?_, ?_⟩
  · rw [hy 0 (by norm_num)]; simp [Finset.sum_range_succ]
  · rw [hy 1 (by norm_num)]
    have : Complex.exp (((-1 : ℤ) : ℂ) * (2 * Real.pi * Complex.I) * (1 : ℕ) * (1 : ℕ) / (2 ^ 1 : ℕ)) = -1 := by
      rw [show ((-1 : ℤ) : ℂ) * (2 * Real.pi * Complex.I) * (1 : ℕ) * (1 : ℕ) / (2 ^ 1 : ℕ) = -(Real.pi * Complex.I) by
        push_cast; ring, Complex.exp_neg, Complex.exp_pi_mul_I]
      norm_num
    rw [show 2 ^ 1 = 2 from rfl] at *
    rw [Finset.sum_range_succ, Finset.sum_range_one, this]
    simp [sub_eq_add_neg]

/-- The bit reversal of C63 is not trivial: without it the elements 1 and 2 of a transform of length 4 are exchanged. -/
example (x : ℕ → ℂ) : stages List.range (-1) (2 ^ 2) (2 ^ 2) x 1 = dft (-1) (2 ^ 2) x 2 :=
  stages_eq List.range (fun _ => List.Perm.refl _) (-1) (by decide) 2 x 1 (by norm_num)

/-! ## C91: Chebyshev coefficients of the Fermi operator -/

theorem fermiDist_eq (beta mu e : ℝ) : (fermiDist beta mu e).2 = 1 / (1 + Real.exp (beta * (e - mu))) := by
  unfold fermiDist
  split
  · simp only
    rw [show beta * (mu - e) = -(beta * (e - mu)) by ring, Real.exp_neg]
    have := Real.exp_pos (beta * (e - mu))
    field_simp
    ring
  · rfl

/-- The function expanded: Fermi function or its complement. -/
noncomputable def occupation (beta mu : ℝ) (oneMinus : Bool) (e : ℝ) : ℝ :=
  if oneMinus then 1 - 1 / (1 + Real.exp (beta * (e - mu))) else 1 / (1 + Real.exp (beta * (e - mu)))

/-- C91: for every number `2^(p+1)` of points the coefficients are `g_k * 2/N Σ_m f(cos θ_m) cos(k θ_m)`, `θ_m = 2 pi m / N`, with
the factors `g_k` of the Jackson kernel (1/2 for `k = 0`), where `f` is the Fermi function or its complement. -/
theorem C91_coefficients (sch : ℕ → List ℕ) (hsch : ∀ k, (sch k).Perm (List.range k)) (p : ℕ) (beta mu : ℝ) (oneMinus : Bool) (eps : ℝ)
    (junk : ℕ → ℝ) : ∃ c n, fermiChebCoef sch (p + 2) (2 ^ (p + 1)) beta mu oneMinus eps junk = some (c, n) ∧
      ∀ k < 2 ^ p, c k = (if k = 0 then 1 / 2 else
          ((2 ^ p - k) * Real.cos (Real.pi / 2 ^ p * k) + Real.cos (Real.pi / 2 ^ p) / Real.sin (Real.pi / 2 ^ p) *
            Real.sin (Real.pi / 2 ^ p * k)) / 2 ^ p) *
        (1 / 2 ^ p * ∑ m ∈ Finset.range (2 ^ (p + 1)), occupation beta mu oneMinus (Real.cos (2 * Real.pi * m / 2 ^ (p + 1))) *
          Real.cos (k * (2 * Real.pi * m / 2 ^ (p + 1)))) := by
  have hf : (fun i : ℕ => if oneMinus = true then ((1 - (fermiDist beta mu (Real.cos (i * (2 * Real.pi / (2 ^ (p + 1) : ℕ))))).2 : ℝ) : ℂ)
      else ((fermiDist beta mu (Real.cos (i * (2 * Real.pi / (2 ^ (p + 1) : ℕ))))).2 : ℂ)) =
      fun i : ℕ => ((occupation beta mu oneMinus (Real.cos (2 * Real.pi * i / 2 ^ (p + 1))) : ℝ) : ℂ) := by
    funext i
    rw [fermiDist_eq, show (i : ℝ) * (2 * Real.pi / (2 ^ (p + 1) : ℕ)) = 2 * Real.pi * i / 2 ^ (p + 1) by push_cast; ring]
    unfold occupation
    split <;> rfl
  obtain ⟨y, h1, h2⟩ := fft_eq sch hsch (p + 2) (p + 1) (by omega) (-1) (by decide)
    (fun i : ℕ => ((occupation beta mu oneMinus (Real.cos (2 * Real.pi * i / 2 ^ (p + 1))) : ℝ) : ℂ))
  have hn : 2 ^ (p + 1) / 2 = 2 ^ p := by rw [pow_succ]; omega
  refine ⟨_, _, by unfold fermiChebCoef; simp only [hf, h1, Option.map_some]; rfl, fun k hk => ?_⟩
  simp only [hn]
  rw [if_pos hk, h2 k (by rw [pow_succ]; omega), dft_re]
  have hs : ∀ m ∈ Finset.range (2 ^ (p + 1)), occupation beta mu oneMinus (Real.cos (2 * Real.pi * m / 2 ^ (p + 1))) *
      Real.cos (2 * Real.pi * k * m / (2 ^ (p + 1) : ℕ)) =
      occupation beta mu oneMinus (Real.cos (2 * Real.pi * m / 2 ^ (p + 1))) * Real.cos (k * (2 * Real.pi * m / 2 ^ (p + 1))) := by
    intro m _
    congr 2; push_cast; ring
  rw [Finset.sum_congr rfl hs]
  unfold jacksonKernel
  push_cast
  split <;> norm_num <;> ring

/-- C91: before truncation the series of the Fermi function and of its complement add up to the series of 1. -/
theorem C91_complement (sch sch' : ℕ → List ℕ) (hsch : ∀ k, (sch k).Perm (List.range k)) (hsch' : ∀ k, (sch' k).Perm (List.range k)) (p : ℕ)
    (beta mu eps : ℝ) (junk junk' : ℕ → ℝ) (c c' : ℕ → ℝ) (n n' : ℕ)
    (h : fermiChebCoef sch (p + 2) (2 ^ (p + 1)) beta mu false eps junk = some (c, n))
    (h' : fermiChebCoef sch' (p + 2) (2 ^ (p + 1)) beta mu true eps junk' = some (c', n')) (k : ℕ) (hk : k < 2 ^ p) :
    c k + c' k = if k = 0 then 1 else 0 := by
  obtain ⟨d, m, e1, e2⟩ := C91_coefficients sch hsch p beta mu false eps junk
  obtain ⟨d', m', e1', e2'⟩ := C91_coefficients sch' hsch' p beta mu true eps junk'
  obtain ⟨rfl, rfl⟩ : d = c ∧ m = n := by rw [e1] at h; simpa using h
  obtain ⟨rfl, rfl⟩ : d' = c' ∧ m' = n' := by rw [e1'] at h'; simpa using h'
  rw [e2 k hk, e2' k hk, ← mul_add, ← mul_add, ← Finset.sum_add_distrib]
  have hs : ∀ m ∈ Finset.range (2 ^ (p + 1)), (occupation beta mu false (Real.cos (2 * Real.pi * m / 2 ^ (p + 1))) *
      Real.cos (k * (2 * Real.pi * m / 2 ^ (p + 1))) + occupation beta mu true (Real.cos (2 * Real.pi * m / 2 ^ (p + 1))) *
      Real.cos (k * (2 * Real.pi * m / 2 ^ (p + 1))) : ℝ) = Real.cos (2 * Real.pi * k * m / (2 ^ (p + 1) : ℕ)) := by
    intro m _
    rw [← add_mul]
    unfold occupation
    simp only [Bool.false_eq_true, if_false, if_true, add_sub_cancel, one_mul]
    congr 1; push_cast; ring
  rw [Finset.sum_congr rfl hs]
  have hz : (∑ m ∈ Finset.range (2 ^ (p + 1)), Real.cos (2 * Real.pi * k * m / (2 ^ (p + 1) : ℕ)) : ℝ) = if k = 0 then 2 ^ (p + 1) else 0 := by
    have hk' : k < 2 ^ (p + 1) := by rw [pow_succ]; omega
    have := Verif.Analysis.ifft_inverse (2 ^ (p + 1)) (fun i => if i = 0 then 1 else 0) k hk'
    have hi : ∀ m, Verif.Analysis.ifft (2 ^ (p + 1)) (fun i => if i = 0 then 1 else 0) m = 1 / ((2 ^ (p + 1) : ℕ) : ℂ) := by
      intro m
      unfold Verif.Analysis.ifft
      simp
    simp only [hi, ← Finset.mul_sum] at this
    have hN : ((2 ^ (p + 1) : ℕ) : ℂ) ≠ 0 := Nat.cast_ne_zero.2 (by positivity)
    have h2 := congrArg Complex.re (congrArg (((2 ^ (p + 1) : ℕ) : ℂ) * ·) this)
    simp only [← mul_assoc, mul_one_div_cancel hN, one_mul, Complex.re_sum] at h2
    rw [Finset.sum_congr rfl fun m _ => by
      rw [show (-(2 * Real.pi * Complex.I * m * k / (2 ^ (p + 1) : ℕ)) : ℂ) =
        ((-(2 * Real.pi * k * m / (2 ^ (p + 1) : ℕ)) : ℝ) : ℂ) * Complex.I by push_cast; ring, Complex.exp_ofReal_mul_I_re,
        Real.cos_neg]] at h2
    rw [h2]
    split
    · simp only [mul_one]
      norm_cast
    · simp
  rw [hz]
  split
  · rw [pow_succ]; field_simp
  · simp

/-- C91: the series is cut after the first coefficient which, with the next one, is below the precision, and nowhere else; the
number of coefficients does not depend on the contents of the array before the call, although one element is read unset. -/
theorem C91_truncation (sch : ℕ → List ℕ) (hsch : ∀ k, (sch k).Perm (List.range k)) (p : ℕ) (beta mu : ℝ) (oneMinus : Bool) (eps : ℝ)
    (junk junk' : ℕ → ℝ) : ∃ c c' n, fermiChebCoef sch (p + 2) (2 ^ (p + 1)) beta mu oneMinus eps junk = some (c, n) ∧
      fermiChebCoef sch (p + 2) (2 ^ (p + 1)) beta mu oneMinus eps junk' = some (c', n) ∧ (∀ k < n, c k = c' k) ∧ n ≤ 2 ^ p ∧
      (∀ i, i + 1 < n → eps ≤ |c i| ∨ eps ≤ |c (i + 1)|) ∧ (n < 2 ^ p → |c (n - 1)| < eps ∧ |c n| < eps) := by
  have hn : 2 ^ (p + 1) / 2 = 2 ^ p := by rw [pow_succ]; omega
  have key : ∃ y : ℕ → ℂ, ∀ j : ℕ → ℝ, fermiChebCoef sch (p + 2) (2 ^ (p + 1)) beta mu oneMinus eps j =
      some (fun i => if i < 2 ^ p then jacksonKernel (2 ^ p) i * (y i).re / (2 ^ p : ℕ) else j i,
        truncateCoef (fun i => if i < 2 ^ p then jacksonKernel (2 ^ p) i * (y i).re / (2 ^ p : ℕ) else j i) eps (2 ^ p)) := by
    unfold fermiChebCoef
    obtain ⟨y, h1, -⟩ := fft_eq sch hsch (p + 2) (p + 1) (by omega) (-1) (by decide)
      (fun i : ℕ => if oneMinus = true then ((1 - (fermiDist beta mu (Real.cos (i * (2 * Real.pi / (2 ^ (p + 1) : ℕ))))).2 : ℝ) : ℂ)
      else ((fermiDist beta mu (Real.cos (i * (2 * Real.pi / (2 ^ (p + 1) : ℕ))))).2 : ℂ))
    refine ⟨y, fun j => ?_⟩
    simp only [h1, Option.map_some, hn]
  obtain ⟨y, hy⟩ := key
  have hc : ∀ i < 2 ^ p, (fun i => if i < 2 ^ p then jacksonKernel (2 ^ p) i * (y i).re / (2 ^ p : ℕ) else junk i) i =
      (fun i => if i < 2 ^ p then jacksonKernel (2 ^ p) i * (y i).re / (2 ^ p : ℕ) else junk' i) i := by
    intro i hi
    beta_reduce
    rw [if_pos hi, if_pos hi]
  have hs := truncate_spec (fun i => if i < 2 ^ p then jacksonKernel (2 ^ p) i * (y i).re / (2 ^ p : ℕ) else junk i) eps (2 ^ p)
  refine ⟨_, _, _, hy junk, by rw [hy junk', truncate_congr _ _ eps _ hc], fun k hk => hc k (by omega), hs.1, hs.2.1, fun h => ?_⟩
  obtain ⟨i, h1, h2, h3⟩ := hs.2.2 h
  rw [h1]
  exact ⟨h2, h3⟩

/-- Concrete case of C91: at infinite temperature the series is the constant 1/2. -/
example (junk : ℕ → ℝ) : ∃ c n, fermiChebCoef List.range 4 (2 ^ 3) 0 0 false (1 / 10) junk = some (c, n) ∧ c 0 = 1 / 2 := by
  obtain ⟨c, n, h, hc⟩ := C91_coefficients List.range (fun _ => List.Perm.refl _) 2 0 0 false (1 / 10) junk
  refine ⟨c, n, h, ?_⟩
  rw [hc 0 (by norm_num)]
  simp [occupation]
  norm_num

end Verif.Fft

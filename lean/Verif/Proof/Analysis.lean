import Verif.Spec.Analysis
import Mathlib.RingTheory.RootsOfUnity.Complex
import Mathlib.Algebra.BigOperators.Field
import Mathlib.Data.List.GetD
import Mathlib.Tactic.LinearCombination

/-! # Analysis of correlation functions: proofs -/

namespace Verif.Analysis
open Verif.Tbpm

/-- The value at the slot `m` of the symmetrised correlation function. -/
noncomputable def slot (n : ℕ) (window : ℕ → ℕ → ℝ) (corr : ℕ → ℂ) (t : ℤ) : ℂ := dosWeight window n t * atTime corr t

theorem neg_loop (n : ℕ) (window : ℕ → ℕ → ℝ) (corr x : ℕ → ℂ) (k : ℕ) (hk : k ≤ n - 1) (m : ℕ) :
    (List.range k).foldl (negStep n window corr) x m =
      if n ≤ m ∧ m < n + k then slot n window corr (m - (n - 1 : ℕ))
      else if n - 1 - k ≤ m ∧ m < n - 1 then slot n window corr (m - (n - 1 : ℕ)) else x m := by
  induction k with
  | zero =>
    have h1 : ¬ (n ≤ m ∧ m < n + 0) := by omega
    have h2 : ¬ (n - 1 - 0 ≤ m ∧ m < n - 1) := by omega
    rw [if_neg h1, if_neg h2]; rfl
  | succ k ih =>
    rw [List.range_succ, List.foldl_append, List.foldl_cons, List.foldl_nil]
    have hs : ∀ y : ℕ → ℂ, negStep n window corr y k m = if m = n - k - 2 then window k n * star (corr (k + 1)) else
        if m = n + k then window k n * corr (k + 1) else y m := fun y => by
      unfold negStep; simp only [Function.update_apply]
    rw [hs, ih (by omega)]
    by_cases h1 : m = n - k - 2
    · have h2 : ¬ (n ≤ m ∧ m < n + (k + 1)) := by omega
      have h3 : n - 1 - (k + 1) ≤ m ∧ m < n - 1 := by omega
      rw [if_pos h1, if_neg h2, if_pos h3]
      have ht : (m : ℤ) - (n - 1 : ℕ) = -((k : ℤ) + 1) := by omega
      have hn : (-((k : ℤ) + 1)).natAbs = k + 1 := by omega
      rw [ht]; unfold slot dosWeight atTime
      rw [hn, if_neg (by omega), if_neg (by omega)]
      simp
    · rw [if_neg h1]
      by_cases h4 : m = n + k
      · have h2 : n ≤ m ∧ m < n + (k + 1) := by omega
        rw [if_pos h4, if_pos h2]
        have ht : (m : ℤ) - (n - 1 : ℕ) = (k : ℤ) + 1 := by omega
        have hn : ((k : ℤ) + 1).natAbs = k + 1 := by omega
        rw [ht]; unfold slot dosWeight atTime
        rw [hn, if_neg (by omega), if_pos (by omega)]
        simp
      · rw [if_neg h4]
        have e1 : (n ≤ m ∧ m < n + (k + 1)) ↔ (n ≤ m ∧ m < n + k) := by omega
        have e2 : (n - 1 - (k + 1) ≤ m ∧ m < n - 1) ↔ (n - 1 - k ≤ m ∧ m < n - 1) := by omega
        simp only [e1, e2]

theorem corrNegTime_eq (n : ℕ) (hn : 0 < n) (window : ℕ → ℕ → ℝ) (corr junk : ℕ → ℂ) (m : ℕ) (hm : m < 2 * n) :
    corrNegTime n window corr junk m = slot n window corr (m - (n - 1 : ℕ)) := by
  unfold corrNegTime
  rw [neg_loop _ _ _ _ _ le_rfl]
  split
  · rfl
  · split
    · rfl
    · by_cases h : m = 2 * n - 1
      · subst h
        rw [Function.update_self]
        have ht : ((2 * n - 1 : ℕ) : ℤ) - (n - 1 : ℕ) = n := by omega
        rw [ht]; unfold slot dosWeight atTime
        rw [if_neg (by omega), if_pos (by omega)]
        simp
      · have hm' : m = n - 1 := by omega
        subst hm'
        rw [Function.update_of_ne h, Function.update_self]
        simp [slot, dosWeight, atTime]

theorem update_loop {A : Type*} (f : ℕ → A) (g : ℕ → ℕ) (hg : Function.Injective g) (l : List ℕ) (d : ℕ → A) (k : ℕ) :
    (l.foldl (fun d i => Function.update d (g i) (f i)) d) k = (if h : ∃ i ∈ l, g i = k then f h.choose else d k) := by
  induction l using List.reverseRecOn with
  | nil => simp
  | append_singleton l a ih =>
    rw [List.foldl_append, List.foldl_cons, List.foldl_nil, Function.update_apply]
    by_cases hk : k = g a
    · rw [if_pos hk]
      have h : ∃ i ∈ l ++ [a], g i = k := ⟨a, by simp, hk.symm⟩
      rw [dif_pos h]
      exact congrArg f (hg (hk ▸ h.choose_spec.2.symm))
    · rw [if_neg hk, ih]
      by_cases h : ∃ i ∈ l, g i = k
      · have h' : ∃ i ∈ l ++ [a], g i = k := by obtain ⟨i, hi, e⟩ := h; exact ⟨i, by simp [hi], e⟩
        rw [dif_pos h, dif_pos h']
        exact congrArg f (hg (h.choose_spec.2.trans h'.choose_spec.2.symm))
      · have h' : ¬ ∃ i ∈ l ++ [a], g i = k := by
          rintro ⟨i, hi, e⟩
          rcases List.mem_append.1 hi with hi | hi
          · exact h ⟨i, hi, e⟩
          · exact hk (by rw [List.mem_singleton.1 hi] at e; exact e.symm)
        rw [dif_neg h, dif_neg h']

theorem upd_hi {A : Type*} (f : ℕ → A) (n k : ℕ) (d : ℕ → A) (m : ℕ) :
    ((List.range k).foldl (fun d i => Function.update d (i + n) (f i)) d) m = if n ≤ m ∧ m < n + k then f (m - n) else d m := by
  induction k with
  | zero => rw [if_neg (by omega)]; rfl
  | succ k ih =>
    rw [List.range_succ, List.foldl_append, List.foldl_cons, List.foldl_nil, Function.update_apply, ih]
    by_cases h : m = k + n
    · rw [if_pos h, if_pos (by omega)]; congr 1; omega
    · rw [if_neg h]
      have e : (n ≤ m ∧ m < n + (k + 1)) ↔ (n ≤ m ∧ m < n + k) := by omega
      simp only [e]

theorem upd_lo {A : Type*} (f : ℕ → A) (n k : ℕ) (d : ℕ → A) (m : ℕ) :
    ((List.range' n k).foldl (fun d i => Function.update d (i - n) (f i)) d) m = if m < k then f (m + n) else d m := by
  induction k with
  | zero => simp
  | succ k ih =>
    rw [List.range'_concat, List.foldl_append, List.foldl_cons, List.foldl_nil, Function.update_apply, ih]
    by_cases h : m = n + 1 * k - n
    · rw [if_pos h, if_pos (by omega)]; congr 1; omega
    · rw [if_neg h]
      have e : (m < k + 1) ↔ (m < k) := by omega
      simp only [e]

theorem dosFill_eq (n : ℕ) (fft : ℕ → ℂ) (j : ℕ) (hj : j < 2 * n) :
    dosFill n fft j = if j < n then ‖fft (j + n)‖ else ‖fft (j - n)‖ := by
  unfold dosFill
  rw [upd_lo (fun i => ‖fft i‖) n n]
  split
  · rfl
  · rw [upd_hi (fun i => ‖fft i‖) n n, if_pos (by omega)]

/-- The common phase of the transform drops out. -/
theorem ifft_slot (n : ℕ) (hn : 0 < n) (window : ℕ → ℕ → ℝ) (corr junk : ℕ → ℂ) (k : ℕ) :
    ‖ifft (2 * n) (corrNegTime n window corr junk) k‖ =
      (1 / (2 * n : ℝ)) * ‖∑ t ∈ Finset.Ioc (-(n : ℤ)) n, slot n window corr t *
        Complex.exp (2 * Real.pi * Complex.I * k * t / (2 * n : ℕ))‖ := by
  unfold ifft
  have h0 : ∑ m ∈ Finset.range (2 * n), corrNegTime n window corr junk m *
        Complex.exp (2 * Real.pi * Complex.I * k * m / (2 * n : ℕ)) =
      Complex.exp ((2 * Real.pi * k * (n - 1 : ℕ) / (2 * n : ℕ) : ℝ) * Complex.I) *
      ∑ t ∈ Finset.Ioc (-(n : ℤ)) n, slot n window corr t * Complex.exp (2 * Real.pi * Complex.I * k * t / (2 * n : ℕ)) := by
    rw [Finset.mul_sum]
    refine Finset.sum_bij (fun m _ => (m : ℤ) - (n - 1 : ℕ)) ?_ ?_ ?_ ?_
    · intro m hm; rw [Finset.mem_range] at hm; rw [Finset.mem_Ioc]; omega
    · intro a _ b _ h; simpa using h
    · intro t ht; rw [Finset.mem_Ioc] at ht
      exact ⟨(t + (n - 1 : ℕ)).toNat, by rw [Finset.mem_range]; omega, by omega⟩
    · intro m hm
      rw [Finset.mem_range] at hm
      rw [corrNegTime_eq n hn window corr junk m hm, mul_left_comm, ← Complex.exp_add]
      congr 2
      push_cast
      have : (n : ℂ) ≠ 0 := by exact_mod_cast hn.ne'
      field_simp
      ring
  rw [h0, norm_mul, norm_mul, Complex.norm_exp_ofReal_mul_I, one_mul]
  congr 1
  simp

theorem spectrum_eq (n : ℕ) (hn : 0 < n) (window : ℕ → ℕ → ℝ) (corr junk : ℕ → ℂ) (range : ℝ) (hr : range ≠ 0) (j : ℕ)
    (hj : j < 2 * n) :
    dosFill n (ifft (2 * n) (corrNegTime n window corr junk)) j =
      (1 / (2 * n : ℝ)) * spectrum window n (2 * Real.pi / range) corr (((j : ℝ) - n) * (range / (2 * n))) := by
  rw [dosFill_eq n _ j hj]
  have hn' : (n : ℂ) ≠ 0 := by exact_mod_cast hn.ne'
  have hr' : (range : ℂ) ≠ 0 := by exact_mod_cast hr
  unfold spectrum
  split
  next h =>
    rw [ifft_slot n hn]
    congr 2
    refine Finset.sum_congr rfl fun t _ => ?_
    unfold slot
    congr 1
    rw [← Complex.exp_periodic.sub_int_mul_eq (x := 2 * Real.pi * Complex.I * (j + n : ℕ) * t / (2 * n : ℕ)) t]
    congr 1
    push_cast
    field_simp
    ring
  next h =>
    rw [ifft_slot n hn]
    congr 2
    refine Finset.sum_congr rfl fun t _ => ?_
    unfold slot
    congr 2
    push_cast [Nat.cast_sub (not_lt.1 h)]
    field_simp

theorem ifft_inverse (N : ℕ) (x : ℕ → ℂ) (m : ℕ) (hm : m < N) :
    ∑ k ∈ Finset.range N, ifft N x k * Complex.exp (-(2 * Real.pi * Complex.I * k * m / N)) = x m := by
  have hN : (N : ℂ) ≠ 0 := by exact_mod_cast (by omega : N ≠ 0)
  have hprim := Complex.isPrimitiveRoot_exp N (by omega)
  have h1 : ∀ k ∈ Finset.range N, ifft N x k * Complex.exp (-(2 * Real.pi * Complex.I * k * m / N)) =
      ∑ l ∈ Finset.range N, (1 / (N : ℂ)) * x l * (Complex.exp (2 * Real.pi * Complex.I * ((l : ℂ) - m) / N)) ^ k := by
    intro k _
    unfold ifft
    rw [Finset.mul_sum, Finset.sum_mul]
    refine Finset.sum_congr rfl fun l _ => ?_
    have e : Complex.exp (2 * Real.pi * Complex.I * k * l / N) * Complex.exp (-(2 * Real.pi * Complex.I * k * m / N)) =
        Complex.exp (2 * Real.pi * Complex.I * ((l : ℂ) - m) / N) ^ k := by
      rw [← Complex.exp_nat_mul, ← Complex.exp_add]; congr 1; ring
    rw [← e]; ring
  rw [Finset.sum_congr rfl h1, Finset.sum_comm]
  rw [Finset.sum_eq_single m]
  · simp [hN]
  · intro l hl hlm
    rw [← Finset.mul_sum]
    set z := Complex.exp (2 * Real.pi * Complex.I * ((l : ℂ) - m) / N) with hz
    have hz1 : z ≠ 1 := by
      rw [hz, Ne, Complex.exp_eq_one_iff]
      rintro ⟨p, hp⟩
      have h2 : (2 * Real.pi * Complex.I : ℂ) ≠ 0 := Complex.two_pi_I_ne_zero
      have h3 : ((l : ℂ) - m) = p * N := by
        field_simp at hp
        linear_combination hp
      have h4 : (l : ℤ) - m = p * N := by exact_mod_cast h3
      rw [Finset.mem_range] at hl
      have h5 : (p : ℤ) = 0 := by
        by_contra hp0
        rcases lt_or_gt_of_ne hp0 with h | h <;> nlinarith
      rw [h5] at h4
      omega
    have hzN : z ^ N = 1 := by
      rw [hz, ← Complex.exp_nat_mul, Complex.exp_eq_one_iff]
      exact ⟨(l : ℤ) - m, by push_cast; field_simp⟩
    have := mul_geom_sum z N
    rw [hzN, sub_self] at this
    rcases mul_eq_zero.1 this with h | h
    · exact absurd (sub_eq_zero.1 h) hz1
    · rw [h, mul_zero]
  · intro h; exact absurd (Finset.mem_range.2 hm) h

theorem dosFill_nonneg (n : ℕ) (fft : ℕ → ℂ) (j : ℕ) (hj : j < 2 * n) : 0 ≤ dosFill n fft j := by
  rw [dosFill_eq n fft j hj]; split <;> exact norm_nonneg _

/-- A correlation function which does not vanish at `t = 0` has a spectrum which does not vanish. -/
theorem dos_total (n : ℕ) (hn : 0 < n) (window : ℕ → ℕ → ℝ) (corr junk : ℕ → ℂ) (h0 : corr 0 ≠ 0) :
    0 < ∑ j ∈ Finset.range (2 * n), dosFill n (ifft (2 * n) (corrNegTime n window corr junk)) j := by
  refine lt_of_le_of_ne (Finset.sum_nonneg fun j hj => dosFill_nonneg n _ j (Finset.mem_range.1 hj)) fun h => h0 ?_
  have hz := (Finset.sum_eq_zero_iff_of_nonneg fun j hj => dosFill_nonneg n _ j (Finset.mem_range.1 hj)).1 h.symm
  have hz' : ∀ k ∈ Finset.range (2 * n), ifft (2 * n) (corrNegTime n window corr junk) k = 0 := by
    intro k hk
    rw [Finset.mem_range] at hk
    by_cases hkn : k < n
    · have := hz (k + n) (by rw [Finset.mem_range]; omega)
      rw [dosFill_eq _ _ _ (by omega), if_neg (by omega), Nat.add_sub_cancel] at this
      exact norm_eq_zero.1 this
    · have := hz (k - n) (by rw [Finset.mem_range]; omega)
      rw [dosFill_eq _ _ _ (by omega), if_pos (by omega), Nat.sub_add_cancel (by omega)] at this
      exact norm_eq_zero.1 this
  have hi := ifft_inverse (2 * n) (corrNegTime n window corr junk) (n - 1) (by omega)
  rw [Finset.sum_congr rfl fun k hk => by rw [hz' k hk, zero_mul], Finset.sum_const_zero,
    corrNegTime_eq n hn window corr junk _ (by omega)] at hi
  simpa [slot, dosWeight, atTime] using hi.symm

theorem foldl_sum {A : Type*} [AddCommMonoid A] (f : ℕ → A) (k : ℕ) (a : A) :
    (List.range k).foldl (fun s i => s + f i) a = a + ∑ i ∈ Finset.range k, f i := by
  induction k with
  | zero => simp
  | succ k ih => rw [List.range_succ, List.foldl_append, List.foldl_cons, List.foldl_nil, ih, Finset.sum_range_succ, add_assoc]

theorem getD_map_range {A : Type*} (f : ℕ → A) (n i : ℕ) (d : A) (h : i < n) : ((List.range n).map f).getD i d = f i := by
  rw [List.getD_eq_getElem _ _ (by simpa using h)]; simp

theorem sigma_loop (n : ℕ) (f : ℕ → ℝ) (k : ℕ) (hk : k ≤ n) (m : ℕ) :
    (List.range k).foldl (fun s i => Function.update (Function.update s (n + i) (f i)) (n - i) (f i)) (fun _ => (0 : ℝ)) m =
      if n ≤ m ∧ m < n + k then f (m - n) else if m < n ∧ n < m + k then f (n - m) else 0 := by
  induction k with
  | zero => rw [if_neg (by omega), if_neg (by omega)]; rfl
  | succ k ih =>
    rw [List.range_succ, List.foldl_append, List.foldl_cons, List.foldl_nil]
    simp only [Function.update_apply]
    rw [ih (by omega)]
    by_cases h1 : m = n - k
    · rw [if_pos h1]
      by_cases hk0 : k = 0
      · rw [if_pos (by omega)]; congr 1; omega
      · rw [if_neg (by omega), if_pos (by omega)]; congr 1; omega
    · rw [if_neg h1]
      by_cases h2 : m = n + k
      · rw [if_pos h2, if_pos (by omega)]; congr 1; omega
      · rw [if_neg h2]
        have e1 : (n ≤ m ∧ m < n + (k + 1)) ↔ (n ≤ m ∧ m < n + k) := by omega
        have e2 : (m < n ∧ n < m + (k + 1)) ↔ (m < n ∧ n < m + k) := by omega
        simp only [e1, e2]

theorem bcast_master {A : Type*} [Zero A] (w : World) (f : ℕ → A) (r : ℕ) (hr : r < w.size) :
    bcast w (fun r => if r = 0 then f r else 0) r = f 0 := by
  unfold bcast
  split
  · simp
  · next h =>
    have := w.serial (by simpa using h)
    have h0 : r = 0 := by omega
    simp [h0]

theorem omegas_getD (c : Ctx) (i : ℕ) (hi : i < c.tnr) : (omegas c).getD i 0 = i * c.energyRange / c.tnr :=
  getD_map_range _ _ _ _ hi

theorem acReal_congr (c : Ctx) (window : ℕ → ℕ → ℝ) (a b : ℕ → ℂ) (h : ∀ k, k ≠ 0 → k < c.tnr → a k = b k) :
    acReal c window a = acReal c window b := by
  funext i
  unfold acReal
  simp only [foldl_sum]
  have hs : ∀ om : ℝ, ∑ k ∈ Finset.range c.tnr, 2 * window (k + 1) c.tnr * Real.sin (om * k * (Real.pi / c.energyRange)) * (a k).im =
      ∑ k ∈ Finset.range c.tnr, 2 * window (k + 1) c.tnr * Real.sin (om * k * (Real.pi / c.energyRange)) * (b k).im := by
    intro om
    refine Finset.sum_congr rfl fun k hk => ?_
    by_cases h0 : k = 0
    · simp [h0]
    · rw [h k h0 (Finset.mem_range.1 hk)]
  rw [hs]

theorem omega_ne (c : Ctx) (i : ℕ) (hi : i ≠ 0) (hin : i < c.tnr) (hr : c.energyRange ≠ 0) :
    (i * c.energyRange / c.tnr : ℝ) ≠ 0 := by
  have : (i : ℝ) ≠ 0 := by exact_mod_cast hi
  have : (c.tnr : ℝ) ≠ 0 := by exact_mod_cast (by omega : c.tnr ≠ 0)
  positivity

theorem acReal_zero (c : Ctx) (window : ℕ → ℕ → ℝ) (corr : ℕ → ℂ) : acReal c window corr 0 = 0 := by
  unfold acReal
  have : (omegas c).getD 0 0 = 0 := by
    by_cases h : 0 < c.tnr
    · rw [omegas_getD c 0 h]; simp
    · have : c.tnr = 0 := by omega
      simp [omegas, this]
  simp only [this, if_true]

theorem acReal_eq (c : Ctx) (window : ℕ → ℕ → ℝ) (corr : ℕ → ℂ) (i : ℕ) (hi : i ≠ 0) (hin : i < c.tnr) (hr : c.energyRange ≠ 0) :
    acReal c window corr i = c.nrOrbitals / (c.cell * c.extended) *
      ((Real.exp (-c.beta * (i * c.energyRange / c.tnr)) - 1) / (i * c.energyRange / c.tnr)) *
      ∑ k ∈ Finset.range c.tnr, Real.pi / c.energyRange *
        (2 * window (k + 1) c.tnr * Real.sin (i * c.energyRange / c.tnr * (k * (Real.pi / c.energyRange))) * (corr k).im) := by
  unfold acReal
  simp only [omegas_getD c i hin, if_neg (omega_ne c i hi hin hr), foldl_sum, zero_add, ← mul_assoc, ← Finset.mul_sum]
  rw [Finset.mul_sum, Finset.mul_sum, Finset.sum_mul, Finset.sum_div]
  refine Finset.sum_congr rfl fun k _ => ?_
  ring

end Verif.Analysis

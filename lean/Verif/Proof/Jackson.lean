import Mathlib.Analysis.SpecialFunctions.Sigmoid
import Mathlib.Analysis.Calculus.MeanValue
import Mathlib.Analysis.SpecialFunctions.Trigonometric.Bounds
import Mathlib.Tactic.LinearCombination
import Mathlib.Tactic.FieldSimp

/-! # The Jackson kernel is positive and narrow -/

namespace Verif.Jackson

open Finset

theorem sum_square_split (F : ℕ → ℕ → ℝ) (hF : ∀ a b, F a b = F b a) (N : ℕ) :
    ∑ a ∈ range N, ∑ b ∈ range N, F a b =
      ∑ a ∈ range N, F a a + 2 * ∑ j ∈ range N, ∑ a ∈ range (N - 1 - j), F a (a + j + 1) := by
  induction N with
  | zero => simp
  | succ N ih =>
    rw [sum_range_succ]
    simp only [sum_range_succ (fun b => F _ b)]
    rw [sum_add_distrib, ih]
    have h1 : ∑ j ∈ range (N + 1), ∑ a ∈ range (N + 1 - 1 - j), F a (a + j + 1) =
        ∑ j ∈ range N, ∑ a ∈ range (N - 1 - j), F a (a + j + 1) + ∑ j ∈ range N, F j N := by
      rw [sum_range_succ, Nat.add_sub_cancel, Nat.sub_self, range_zero, sum_empty, add_zero,
        ← sum_range_reflect (fun j => F j N), ← sum_add_distrib]
      refine sum_congr rfl fun j hj => ?_
      have hj := mem_range.1 hj
      rw [show N - j = N - 1 - j + 1 by omega, sum_range_succ]
      congr 2
      omega
    rw [h1]
    have h2 : ∑ b ∈ range N, F N b = ∑ b ∈ range N, F b N := sum_congr rfl fun b _ => hF _ _
    rw [h2]
    ring

/-- The factors of the kernel. -/
noncomputable def g (N : ℕ) (k : ℕ) : ℝ :=
  ((N - k) * Real.cos (Real.pi / N * k) + Real.cos (Real.pi / N) / Real.sin (Real.pi / N) * Real.sin (Real.pi / N * k)) / N

/-- The kernel. -/
noncomputable def K (N : ℕ) (u : ℝ) : ℝ := 1 + 2 * ∑ k ∈ Ico 1 N, g N k * Real.cos (k * u)

theorem sin_q_pos {N : ℕ} (hN : 2 ≤ N) : 0 < Real.sin (Real.pi / N) := by
  have h2 : (2 : ℝ) ≤ N := by exact_mod_cast hN
  apply Real.sin_pos_of_pos_of_lt_pi
  · exact div_pos Real.pi_pos (by linarith)
  · exact div_lt_self Real.pi_pos (by linarith)

theorem autocorr {N : ℕ} (hN : 2 ≤ N) (k : ℕ) (hk : k ≤ N) :
    ∑ v ∈ range (N - k), Real.sin (Real.pi / N * (v + 1)) * Real.sin (Real.pi / N * (v + k + 1)) = N / 2 * g N k := by
  have hs := sin_q_pos hN
  have hN0 : (N : ℝ) ≠ 0 := by positivity
  set q := Real.pi / N with hq
  have hqN : q * N = Real.pi := by rw [hq]; field_simp
  have tele : ∀ n : ℕ, ∑ v ∈ range n, 2 * Real.sin q * Real.cos (q * (2 * v + k + 2)) =
      Real.sin (q * (2 * n + k + 1)) - Real.sin (q * (k + 1)) := by
    intro n
    induction n with
    | zero => simp
    | succ n ih =>
      rw [sum_range_succ, ih]
      have e1 : Real.sin (q * (2 * ((n + 1 : ℕ) : ℝ) + k + 1)) = Real.sin (q * (2 * n + k + 2) + q) := by
        congr 1; push_cast; ring
      have e2 : Real.sin (q * (2 * n + k + 1)) = Real.sin (q * (2 * n + k + 2) - q) := by congr 1; ring
      rw [e1, e2, Real.sin_add, Real.sin_sub]
      ring
  have t := tele (N - k)
  have e3 : Real.sin (q * (2 * ((N - k : ℕ) : ℝ) + k + 1)) = -Real.sin (q * (k - 1)) := by
    rw [Nat.cast_sub hk, show q * (2 * ((N : ℝ) - k) + k + 1) = 2 * (q * N) - q * (k - 1) by ring, hqN, Real.sin_two_pi_sub]
  have e4 : Real.sin (q * (k - 1)) + Real.sin (q * (k + 1)) = 2 * Real.sin (q * k) * Real.cos q := by
    rw [mul_sub, mul_add, mul_one, Real.sin_sub, Real.sin_add]; ring
  rw [e3, ← mul_sum] at t
  have t' : ∑ v ∈ range (N - k), Real.cos (q * (2 * v + k + 2)) = -(Real.cos q / Real.sin q * Real.sin (q * k)) := by
    field_simp
    linarith
  have e5 : ∀ v ∈ range (N - k), Real.sin (q * (v + 1)) * Real.sin (q * (v + k + 1)) =
      1 / 2 * (Real.cos (q * k) - Real.cos (q * (2 * v + k + 2))) := by
    intro v _
    rw [show q * (2 * (v : ℝ) + k + 2) = q * (v + k + 1) + q * (v + 1) by ring,
      show q * (k : ℝ) = q * (v + k + 1) - q * (v + 1) by ring, Real.cos_add, Real.cos_sub]
    ring
  rw [sum_congr rfl e5, ← mul_sum, sum_sub_distrib, t', sum_const, card_range, nsmul_eq_mul, Nat.cast_sub hk]
  unfold g
  rw [← hq]
  field_simp
  ring

theorem g_zero {N : ℕ} (hN : 2 ≤ N) : g N 0 = 1 := by
  have hN0 : (N : ℝ) ≠ 0 := by positivity
  unfold g
  simp [hN0]

theorem K_nonneg {N : ℕ} (hN : 2 ≤ N) (u : ℝ) : 0 ≤ K N u := by
  have hN0 : (0 : ℝ) < N := by positivity
  set q := Real.pi / N with hq
  have key : (∑ a ∈ range N, Real.sin (q * (a + 1)) * Real.cos (a * u)) ^ 2 +
      (∑ a ∈ range N, Real.sin (q * (a + 1)) * Real.sin (a * u)) ^ 2 = N / 2 * K N u := by
    have h1 : (∑ a ∈ range N, Real.sin (q * (a + 1)) * Real.cos (a * u)) ^ 2 +
        (∑ a ∈ range N, Real.sin (q * (a + 1)) * Real.sin (a * u)) ^ 2 =
        ∑ a ∈ range N, ∑ b ∈ range N, Real.sin (q * (a + 1)) * Real.sin (q * (b + 1)) * Real.cos ((b - a) * u) := by
      rw [sq, sq, sum_mul_sum, sum_mul_sum, ← sum_add_distrib]
      refine sum_congr rfl fun a _ => ?_
      rw [← sum_add_distrib]
      refine sum_congr rfl fun b _ => ?_
      rw [sub_mul, Real.cos_sub]
      ring
    rw [h1, sum_square_split (fun a b => Real.sin (q * (a + 1)) * Real.sin (q * (b + 1)) * Real.cos (((b : ℝ) - a) * u))]
    · have h0 := autocorr hN 0 (Nat.zero_le _)
      rw [g_zero hN, Nat.sub_zero] at h0
      simp only [Nat.cast_zero, add_zero, mul_one] at h0
      have e0 : ∑ a ∈ range N, Real.sin (q * (a + 1)) * Real.sin (q * (a + 1)) * Real.cos (((a : ℝ) - a) * u) = N / 2 := by
        rw [← h0]
        refine sum_congr rfl fun a _ => ?_
        rw [sub_self, zero_mul, Real.cos_zero, mul_one]
      rw [e0]
      unfold K
      have e1 : ∑ k ∈ Ico 1 N, g N k * Real.cos (k * u) = ∑ j ∈ range (N - 1), g N (j + 1) * Real.cos (((j + 1 : ℕ) : ℝ) * u) := by
        rw [sum_Ico_eq_sum_range]
        refine sum_congr rfl fun j _ => ?_
        rw [add_comm 1 j]
      have e2 : ∀ j ∈ range N, ∑ a ∈ range (N - 1 - j), Real.sin (q * (a + 1)) * Real.sin (q * ((a + j + 1 : ℕ) + 1)) *
          Real.cos ((((a + j + 1 : ℕ) : ℝ) - a) * u) = N / 2 * (g N (j + 1) * Real.cos (((j + 1 : ℕ) : ℝ) * u)) := by
        intro j hj
        have hj := mem_range.1 hj
        rw [← mul_assoc, ← autocorr hN (j + 1) (by omega), sum_mul, show N - (j + 1) = N - 1 - j by omega]
        refine sum_congr rfl fun a _ => ?_
        push_cast
        congr 1
        · congr 2
          ring
        · congr 1
          ring
      rw [sum_congr rfl e2, e1]
      obtain ⟨M, rfl⟩ : ∃ M, N = M + 1 := ⟨N - 1, by omega⟩
      rw [Nat.add_sub_cancel, sum_range_succ, ← mul_sum]
      have hlast : g (M + 1) (M + 1) = 0 := by
        have := autocorr hN (M + 1) le_rfl
        rw [Nat.sub_self, range_zero, sum_empty] at this
        rcases mul_eq_zero.1 this.symm with h | h
        · exfalso; linarith
        · exact h
      rw [hlast]
      ring
    · intro a b
      rw [show ((a : ℝ) - b) * u = -(((b : ℝ) - a) * u) by ring, Real.cos_neg]
      ring
  have hp : 0 ≤ N / 2 * K N u := by rw [← key]; positivity
  exact nonneg_of_mul_nonneg_right hp (by positivity)

theorem cos_sum_zero {M : ℕ} (j : ℕ) (h0 : 0 < j) (h1 : j < M) :
    ∑ m ∈ range M, Real.cos (j * (2 * Real.pi * m / M)) = 0 := by
  have hM : (0 : ℝ) < M := by exact_mod_cast (lt_trans h0 h1)
  set a := Real.pi * j / M with ha
  have hs : 0 < Real.sin a := by
    apply Real.sin_pos_of_pos_of_lt_pi
    · rw [ha]
      have : (0 : ℝ) < j := by exact_mod_cast h0
      exact div_pos (mul_pos Real.pi_pos this) hM
    · rw [ha, div_lt_iff₀ hM]
      have : (j : ℝ) < M := by exact_mod_cast h1
      exact mul_lt_mul_of_pos_left this Real.pi_pos
  have tele : ∀ n : ℕ, ∑ m ∈ range n, 2 * Real.sin a * Real.cos (j * (2 * Real.pi * m / M)) =
      Real.sin ((2 * n - 1) * a) + Real.sin a := by
    intro n
    induction n with
    | zero => simp
    | succ n ih =>
      rw [sum_range_succ, ih]
      have e1 : Real.sin ((2 * ((n + 1 : ℕ) : ℝ) - 1) * a) = Real.sin (2 * n * a + a) := by congr 1; push_cast; ring
      have e2 : Real.sin ((2 * (n : ℝ) - 1) * a) = Real.sin (2 * n * a - a) := by congr 1; ring
      have e3 : Real.cos (j * (2 * Real.pi * n / M)) = Real.cos (2 * n * a) := by congr 1; rw [ha]; ring
      rw [e1, e2, e3, Real.sin_add, Real.sin_sub]
      ring
  have t := tele M
  have e4 : Real.sin ((2 * (M : ℝ) - 1) * a) = -Real.sin a := by
    have : (2 * (M : ℝ) - 1) * a = (j : ℝ) * (2 * Real.pi) - a := by rw [ha]; field_simp
    rw [this, Real.sin_nat_mul_two_pi_sub]
  rw [e4, ← mul_sum, neg_add_cancel] at t
  exact (mul_eq_zero.1 t).resolve_left (by positivity)

/-- The points. -/
noncomputable def pt (N m : ℕ) : ℝ := 2 * Real.pi * m / (2 * N : ℕ)

/-- The weight of a point. -/
noncomputable def wt (N : ℕ) (θ : ℝ) (m : ℕ) : ℝ := 1 + 2 * ∑ k ∈ Ico 1 N, g N k * Real.cos (k * θ) * Real.cos (k * pt N m)

theorem wt_nonneg {N : ℕ} (hN : 2 ≤ N) (θ : ℝ) (m : ℕ) : 0 ≤ wt N θ m := by
  have : wt N θ m = (K N (θ - pt N m) + K N (θ + pt N m)) / 2 := by
    unfold wt K
    rw [show ∀ a b : ℝ, (1 + 2 * a + (1 + 2 * b)) / 2 = 1 + (a + b) from fun a b => by ring, ← sum_add_distrib, mul_sum]
    congr 1
    refine sum_congr rfl fun k _ => ?_
    rw [mul_sub, mul_add, Real.cos_sub, Real.cos_add]
    ring
  rw [this]
  have h1 := K_nonneg hN (θ - pt N m)
  have h2 := K_nonneg hN (θ + pt N m)
  positivity

theorem moment {N : ℕ} (θ : ℝ) (j : ℕ) (hj : 0 < j) (hj2 : j < N) :
    ∑ m ∈ range (2 * N), wt N θ m * Real.cos (j * pt N m) = 2 * N * (g N j * Real.cos (j * θ)) := by
  have hz : ∀ i : ℕ, 0 < i → i < 2 * N → ∑ m ∈ range (2 * N), Real.cos (i * pt N m) = 0 := fun i a b => cos_sum_zero i a b
  have e1 : ∀ m ∈ range (2 * N), wt N θ m * Real.cos (j * pt N m) = Real.cos (j * pt N m) +
      ∑ k ∈ Ico 1 N, g N k * Real.cos (k * θ) * (2 * Real.cos (k * pt N m) * Real.cos (j * pt N m)) := by
    intro m _
    unfold wt
    rw [add_mul, one_mul, mul_assoc, sum_mul, mul_sum]
    congr 1
    refine sum_congr rfl fun k _ => ?_
    ring
  rw [sum_congr rfl e1, sum_add_distrib, hz j hj (by omega), zero_add, sum_comm]
  have e2 : ∀ k ∈ Ico 1 N, ∑ m ∈ range (2 * N), g N k * Real.cos (k * θ) * (2 * Real.cos (k * pt N m) * Real.cos (j * pt N m)) =
      if k = j then 2 * N * (g N j * Real.cos (j * θ)) else 0 := by
    intro k hk
    obtain ⟨hk1, hk2⟩ := mem_Ico.1 hk
    rw [← mul_sum]
    have e3 : ∀ m ∈ range (2 * N), 2 * Real.cos (k * pt N m) * Real.cos (j * pt N m) =
        Real.cos (((k + j : ℕ) : ℝ) * pt N m) + Real.cos (((k : ℝ) - j) * pt N m) := by
      intro m _
      push_cast
      rw [add_mul, sub_mul, Real.cos_add, Real.cos_sub]
      ring
    rw [sum_congr rfl e3, sum_add_distrib, hz (k + j) (by omega) (by omega), zero_add]
    split_ifs with h
    · subst h
      simp
      ring
    · have : ∑ m ∈ range (2 * N), Real.cos (((k : ℝ) - j) * pt N m) = 0 := by
        rcases lt_or_gt_of_ne h with h | h
        · rw [← hz (j - k) (by omega) (by omega)]
          refine sum_congr rfl fun m _ => ?_
          rw [Nat.cast_sub h.le, ← Real.cos_neg]
          congr 1; ring
        · rw [← hz (k - j) (by omega) (by omega)]
          refine sum_congr rfl fun m _ => ?_
          rw [Nat.cast_sub h.le]
      rw [this, mul_zero]
  rw [sum_congr rfl e2, sum_ite_eq' (Ico 1 N) j, if_pos (mem_Ico.2 ⟨hj, hj2⟩)]

theorem moment_zero {N : ℕ} (θ : ℝ) : ∑ m ∈ range (2 * N), wt N θ m = 2 * N := by
  have e1 : ∀ m ∈ range (2 * N), wt N θ m = 1 + ∑ k ∈ Ico 1 N, 2 * (g N k * Real.cos (k * θ)) * Real.cos (k * pt N m) := by
    intro m _
    unfold wt
    rw [mul_sum]
    congr 1
    refine sum_congr rfl fun k _ => ?_
    ring
  rw [sum_congr rfl e1, sum_add_distrib, sum_comm]
  have e2 : ∀ k ∈ Ico 1 N, ∑ m ∈ range (2 * N), 2 * (g N k * Real.cos (k * θ)) * Real.cos (k * pt N m) = 0 := by
    intro k hk
    obtain ⟨hk1, hk2⟩ := mem_Ico.1 hk
    rw [← mul_sum]
    have : ∑ m ∈ range (2 * N), Real.cos (k * pt N m) = 0 := cos_sum_zero k hk1 (by omega)
    rw [this, mul_zero]
  rw [sum_congr rfl e2]
  simp

theorem variance {N : ℕ} (hN : 3 ≤ N) (θ : ℝ) :
    ∑ m ∈ range (2 * N), wt N θ m * (Real.cos (pt N m) - Real.cos θ) ^ 2 ≤ 2 * N * Real.sin (Real.pi / N) ^ 2 := by
  have hN' : (3 : ℝ) ≤ N := by exact_mod_cast hN
  have hN0 : (N : ℝ) ≠ 0 := by linarith
  have m1 := moment (N := N) θ 1 one_pos (by omega)
  have m2 := moment (N := N) θ 2 two_pos (by omega)
  have m0 := moment_zero (N := N) θ
  have hs := sin_q_pos (N := N) (by omega)
  have g1 : g N 1 = Real.cos (Real.pi / N) := by
    unfold g
    have := hs.ne'
    rw [Nat.cast_one, mul_one]
    field_simp
    ring
  have g2 : g N 2 = (1 + (N - 1) * (2 * Real.cos (Real.pi / N) ^ 2 - 1)) / N := by
    unfold g
    have := hs.ne'
    rw [Nat.cast_two, mul_comm (Real.pi / N) 2, Real.cos_two_mul, Real.sin_two_mul]
    field_simp
    ring
  have e1 : ∀ m ∈ range (2 * N), wt N θ m * (Real.cos (pt N m) - Real.cos θ) ^ 2 =
      (1 / 2 + Real.cos θ ^ 2) * wt N θ m + 1 / 2 * (wt N θ m * Real.cos ((2 : ℕ) * pt N m)) -
        2 * Real.cos θ * (wt N θ m * Real.cos ((1 : ℕ) * pt N m)) := by
    intro m _
    rw [Nat.cast_two, Nat.cast_one, one_mul, Real.cos_two_mul]
    ring
  rw [sum_congr rfl e1, sum_sub_distrib, sum_add_distrib, ← mul_sum, ← mul_sum, ← mul_sum, m0, m1, m2, g1, g2, Nat.cast_one, one_mul,
    Nat.cast_two, Real.cos_two_mul]
  have hsc := Real.sin_sq_add_cos_sq (Real.pi / N)
  have hc : 1 / 2 ≤ Real.cos (Real.pi / N) := by
    rw [← Real.cos_pi_div_three]
    apply Real.cos_le_cos_of_nonneg_of_le_pi
    · positivity
    · linarith [Real.pi_pos]
    · exact div_le_div_of_nonneg_left Real.pi_pos.le (by norm_num) hN'
  have hc1 := Real.cos_le_one (Real.pi / N)
  have hx : Real.cos θ ^ 2 ≤ 1 := Real.cos_sq_le_one θ
  have hx0 : 0 ≤ Real.cos θ ^ 2 := sq_nonneg _
  rw [show Real.sin (Real.pi / N) ^ 2 = 1 - Real.cos (Real.pi / N) ^ 2 by linarith]
  set c := Real.cos (Real.pi / N)
  have hexp : (1 / 2 + Real.cos θ ^ 2) * (2 * (N : ℝ)) + 1 / 2 * (2 * N * ((1 + (N - 1) * (2 * c ^ 2 - 1)) / N * (2 * Real.cos θ ^ 2 - 1))) -
      2 * Real.cos θ * (2 * N * (c * Real.cos θ)) =
      2 * ((1 - Real.cos θ ^ 2) * ((N - 1) * (1 - c ^ 2)) + Real.cos θ ^ 2 * (N * (1 - c) ^ 2 + (1 - c ^ 2))) := by
    field_simp
    ring
  rw [hexp]
  set X := Real.cos θ ^ 2
  have a1 : ((N : ℝ) - 1) * (1 - c ^ 2) ≤ N * (1 - c ^ 2) := by nlinarith
  have a2 : (N : ℝ) * (1 - c) ^ 2 + (1 - c ^ 2) ≤ N * (1 - c ^ 2) := by
    have h1 : 0 ≤ 1 - c := by linarith
    have h2 : 0 ≤ ((N : ℝ) - 1) * (1 + c) - N * (1 - c) := by nlinarith
    nlinarith [mul_nonneg h1 h2]
  nlinarith [mul_le_mul_of_nonneg_left a1 (by linarith : 0 ≤ 1 - X), mul_le_mul_of_nonneg_left a2 hx0]

/-- The smoothed series of the values `f (cos (pt m))`. -/
noncomputable def series (N : ℕ) (f : ℝ → ℝ) (θ : ℝ) : ℝ :=
  ∑ k ∈ range N, (if k = 0 then 1 / 2 else g N k) *
    (1 / N * ∑ m ∈ range (2 * N), f (Real.cos (pt N m)) * Real.cos (k * pt N m)) * Real.cos (k * θ)

theorem series_eq {N : ℕ} (hN : 1 ≤ N) (f : ℝ → ℝ) (θ : ℝ) :
    2 * N * series N f θ = ∑ m ∈ range (2 * N), wt N θ m * f (Real.cos (pt N m)) := by
  have hN0 : (N : ℝ) ≠ 0 := by positivity
  unfold series
  rw [range_eq_Ico N, sum_eq_sum_Ico_succ_bot (by omega)]
  simp only [zero_add, if_true, Nat.cast_zero, zero_mul, Real.cos_zero, mul_one]
  have e1 : ∀ m ∈ range (2 * N), wt N θ m * f (Real.cos (pt N m)) = f (Real.cos (pt N m)) +
      ∑ k ∈ Ico 1 N, 2 * g N k * Real.cos (k * θ) * (f (Real.cos (pt N m)) * Real.cos (k * pt N m)) := by
    intro m _
    unfold wt
    rw [add_mul, one_mul, mul_assoc, sum_mul, mul_sum]
    congr 1
    refine sum_congr rfl fun k _ => ?_
    ring
  rw [sum_congr rfl e1, sum_add_distrib, sum_comm, mul_add]
  congr 1
  · field_simp
  · rw [mul_sum]
    refine sum_congr rfl fun k hk => ?_
    rw [if_neg (by have := (mem_Ico.1 hk).1; omega), ← mul_sum]
    field_simp

theorem series_mem {N : ℕ} (hN : 2 ≤ N) (f : ℝ → ℝ) (a b : ℝ) (hf : ∀ x, |x| ≤ 1 → a ≤ f x ∧ f x ≤ b) (θ : ℝ) :
    a ≤ series N f θ ∧ series N f θ ≤ b := by
  have hN0 : (0 : ℝ) < 2 * N := by positivity
  have he := series_eq (by omega : 1 ≤ N) f θ
  have h0 := moment_zero (N := N) θ
  have lo : ∑ m ∈ range (2 * N), wt N θ m * a ≤ ∑ m ∈ range (2 * N), wt N θ m * f (Real.cos (pt N m)) :=
    sum_le_sum fun m _ => mul_le_mul_of_nonneg_left (hf _ (Real.abs_cos_le_one _)).1 (wt_nonneg hN θ m)
  have hi : ∑ m ∈ range (2 * N), wt N θ m * f (Real.cos (pt N m)) ≤ ∑ m ∈ range (2 * N), wt N θ m * b :=
    sum_le_sum fun m _ => mul_le_mul_of_nonneg_left (hf _ (Real.abs_cos_le_one _)).2 (wt_nonneg hN θ m)
  rw [← sum_mul, h0, ← he] at lo hi
  exact ⟨le_of_mul_le_mul_left lo hN0, le_of_mul_le_mul_left hi hN0⟩

theorem series_error {N : ℕ} (hN : 3 ≤ N) (f : ℝ → ℝ) (L : ℝ) (hL : 0 ≤ L) (hf : ∀ x y, |f x - f y| ≤ L * |x - y|) (θ : ℝ) :
    |series N f θ - f (Real.cos θ)| ≤ L * Real.sin (Real.pi / N) := by
  have hN0 : (0 : ℝ) < 2 * N := by positivity
  have hs := sin_q_pos (N := N) (by omega)
  set s := Real.sin (Real.pi / N) with hsdef
  have he := series_eq (by omega : 1 ≤ N) f θ
  have h0 := moment_zero (N := N) θ
  have hv := variance hN θ
  have e1 : 2 * N * (series N f θ - f (Real.cos θ)) =
      ∑ m ∈ range (2 * N), wt N θ m * (f (Real.cos (pt N m)) - f (Real.cos θ)) := by
    rw [mul_sub, he]
    simp only [mul_sub]
    rw [sum_sub_distrib, ← sum_mul, h0]
  have e2 : ∀ m ∈ range (2 * N), |wt N θ m * (f (Real.cos (pt N m)) - f (Real.cos θ))| ≤
      L / (2 * s) * (wt N θ m * (Real.cos (pt N m) - Real.cos θ) ^ 2) + L * s / 2 * wt N θ m := by
    intro m _
    have hw := wt_nonneg (by omega : 2 ≤ N) θ m
    rw [abs_mul, abs_of_nonneg hw]
    set d := Real.cos (pt N m) - Real.cos θ with hd
    have h1 := hf (Real.cos (pt N m)) (Real.cos θ)
    have h2 : |d| ≤ d ^ 2 / (2 * s) + s / 2 := by
      rw [div_add_div _ _ (by positivity) (by norm_num), le_div_iff₀ (by positivity)]
      nlinarith [sq_nonneg (|d| - s), sq_abs d]
    calc wt N θ m * |f (Real.cos (pt N m)) - f (Real.cos θ)| ≤ wt N θ m * (L * |d|) := mul_le_mul_of_nonneg_left h1 hw
      _ ≤ wt N θ m * (L * (d ^ 2 / (2 * s) + s / 2)) :=
        mul_le_mul_of_nonneg_left (mul_le_mul_of_nonneg_left h2 hL) hw
      _ = _ := by ring
  have e3 : |2 * N * (series N f θ - f (Real.cos θ))| ≤ 2 * N * (L * s) := by
    rw [e1]
    refine (abs_sum_le_sum_abs _ _).trans ((sum_le_sum e2).trans ?_)
    rw [sum_add_distrib, ← mul_sum, ← mul_sum, h0]
    have : L / (2 * s) * ∑ m ∈ range (2 * N), wt N θ m * (Real.cos (pt N m) - Real.cos θ) ^ 2 ≤ L / (2 * s) * (2 * N * s ^ 2) :=
      mul_le_mul_of_nonneg_left hv (by positivity)
    refine (add_le_add_left this _).trans (le_of_eq ?_)
    field_simp
    ring
  rw [abs_mul, abs_of_pos hN0] at e3
  exact le_of_mul_le_mul_left e3 hN0

/-- The Fermi function is Lipschitz. -/
theorem fermi_lipschitz (beta mu : ℝ) (hb : 0 ≤ beta) (x y : ℝ) :
    |1 / (1 + Real.exp (beta * (x - mu))) - 1 / (1 + Real.exp (beta * (y - mu)))| ≤ beta / 4 * |x - y| := by
  have hder : ∀ t : ℝ, HasDerivAt (fun t => 1 / (1 + Real.exp t)) (-(Real.exp t) / (1 + Real.exp t) ^ 2) t := by
    intro t
    have h1 : HasDerivAt (fun t => 1 + Real.exp t) (Real.exp t) t := (Real.hasDerivAt_exp t).const_add 1
    have h2 := h1.inv (by positivity : (1 + Real.exp t) ≠ 0)
    simp only [one_div]
    exact h2
  have hbound : ∀ t : ℝ, ‖-(Real.exp t) / (1 + Real.exp t) ^ 2‖ ≤ 1 / 4 := by
    intro t
    have he := Real.exp_pos t
    rw [norm_div, norm_neg, Real.norm_eq_abs, Real.norm_eq_abs, abs_of_pos he, abs_of_pos (by positivity),
      div_le_div_iff₀ (by positivity) (by norm_num)]
    nlinarith [sq_nonneg (Real.exp t - 1)]
  have h := Convex.norm_image_sub_le_of_norm_hasDerivWithin_le (f := fun t : ℝ => 1 / (1 + Real.exp t)) (s := Set.univ)
    (fun t _ => (hder t).hasDerivWithinAt) (fun t _ => hbound t) convex_univ (Set.mem_univ (beta * (y - mu)))
    (Set.mem_univ (beta * (x - mu)))
  rw [Real.norm_eq_abs, Real.norm_eq_abs] at h
  refine h.trans (le_of_eq ?_)
  rw [show beta * (x - mu) - beta * (y - mu) = beta * (x - y) by ring, abs_mul, abs_of_nonneg hb]
  ring

end Verif.Jackson

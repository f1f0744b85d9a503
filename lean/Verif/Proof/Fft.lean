import Verif.Spec.Fft
import Mathlib.Analysis.SpecialFunctions.Trigonometric.Basic
import Mathlib.Tactic.LinearCombination

/-! # The Fourier transform: proofs -/

namespace Verif.Fft
open Verif.Tbpm

/-! ## Bit reversal -/

/-- Reversal of the lowest `s` bits. -/
def rev : ℕ → ℕ → ℕ
  | 0, _ => 0
  | s + 1, b => rev s (b / 2) + 2 ^ s * (b % 2)

theorem rev_lt (s b : ℕ) : rev s b < 2 ^ s := by
  induction s generalizing b with
  | zero => simp [rev]
  | succ s ih =>
    have := ih (b / 2)
    have h2 : b % 2 < 2 := Nat.mod_lt _ two_pos
    rw [rev, pow_succ]
    nlinarith

theorem rev_child (s a c : ℕ) (hc : c < 2) : rev (s + 1) (2 * a + c) = rev s a + 2 ^ s * c := by
  rw [rev, show (2 * a + c) / 2 = a by omega, show (2 * a + c) % 2 = c by omega]

theorem rev_top (s b c : ℕ) (hb : b < 2 ^ s) (hc : c < 2) : rev (s + 1) (b + 2 ^ s * c) = 2 * rev s b + c := by
  induction s generalizing b with
  | zero =>
    have : b = 0 := by simpa using hb
    subst this
    simp [rev]; omega
  | succ s ih =>
    have h1 : b + 2 ^ (s + 1) * c = 2 * (b / 2 + 2 ^ s * c) + b % 2 := by
      have := Nat.div_add_mod b 2
      rw [pow_succ]; ring_nf; ring_nf at this; omega
    rw [h1, rev_child _ _ _ (Nat.mod_lt _ two_pos), ih _ (by rw [pow_succ] at hb; omega)]
    rw [rev]
    ring

theorem rev_rev (s b : ℕ) (hb : b < 2 ^ s) : rev s (rev s b) = b := by
  induction s generalizing b with
  | zero => simp [rev] at *; omega
  | succ s ih =>
    rw [show rev (s + 1) b = rev s (b / 2) + 2 ^ s * (b % 2) from rfl, rev_top s _ _ (rev_lt s _) (Nat.mod_lt _ two_pos), ih _ (by rw [pow_succ] at hb; omega)]
    omega

theorem nextJ_rev (p : ℕ) (i fuel : ℕ) (hf : p < fuel) (hi : i + 1 < 2 ^ p) :
    nextJ fuel (2 ^ p / 2) (rev p i + 1) = some (rev p (i + 1) + 1) := by
  induction p generalizing i fuel with
  | zero => simp at hi
  | succ p ih =>
    obtain ⟨fuel, rfl⟩ : ∃ f, fuel = f + 1 := ⟨fuel - 1, by omega⟩
    have hk : 2 ^ (p + 1) / 2 = 2 ^ p := by rw [pow_succ]; omega
    obtain ⟨a, c, hc, rfl⟩ : ∃ a c, c < 2 ∧ i = 2 * a + c := ⟨i / 2, i % 2, Nat.mod_lt _ two_pos, by omega⟩
    rw [hk, nextJ, rev_child _ _ _ hc]
    have hlt := rev_lt p a
    have hc' : c = 0 ∨ c = 1 := by omega
    rcases hc' with rfl | rfl
    · rw [if_neg (by omega), rev_child _ _ 1 (by norm_num)]
      congr 1; omega
    · rw [if_pos (by omega), show 2 * a + 1 + 1 = 2 * (a + 1) + 0 by ring, rev_child _ _ 0 (by norm_num)]
      have := ih a fuel (by omega) (by rw [pow_succ] at hi; omega)
      rw [show rev p a + 2 ^ p * 1 + 1 - 2 ^ p = rev p a + 1 by omega, this]
      simp

theorem rev_zero (p : ℕ) : rev p 0 = 0 := by
  induction p with
  | zero => rfl
  | succ p ih => rw [rev]; simpa using ih

theorem rev_last (p : ℕ) : rev p (2 ^ p - 1) = 2 ^ p - 1 := by
  induction p with
  | zero => rfl
  | succ p ih =>
    have : 0 < 2 ^ p := by positivity
    rw [show 2 ^ (p + 1) - 1 = 2 * (2 ^ p - 1) + 1 by rw [pow_succ]; omega, rev_child _ _ _ (by norm_num), ih]
    omega

theorem permute_loop (p fuel : ℕ) (hf : p < fuel) (x : ℕ → ℂ) (m : ℕ) (hm : m ≤ 2 ^ p - 1) :
    ∃ y, (List.range' 1 m).foldlM (fun (st : ℕ × (ℕ → ℂ)) i =>
      let (j, x) := st
      let x' := if i < j then Function.update (Function.update x (j - 1) (x (i - 1))) (i - 1) (x (j - 1)) else x
      (nextJ fuel (2 ^ p / 2) j).map fun j' => (j', x')) (1, x) = some (rev p m + 1, y) ∧
      ∀ t < 2 ^ p, y t = if t < m ∨ rev p t < m then x (rev p t) else x t := by
  induction m with
  | zero => exact ⟨x, by rw [rev_zero]; rfl, by simp⟩
  | succ m ih =>
    obtain ⟨y, hy, hv⟩ := ih (by omega)
    have hmp : m < 2 ^ p := by omega
    rw [List.range'_concat, List.foldlM_append, hy]
    simp only [Option.bind_eq_bind, Option.bind_some, List.foldlM_cons, List.foldlM_nil, Option.pure_def, one_mul]
    have hj : (rev p m + 1) - 1 = rev p m := by omega
    have hi : 1 + m - 1 = m := by omega
    rw [nextJ_rev p m fuel hf (by omega)]
    simp only [Option.map_some, Option.bind_some, hj, hi]
    refine ⟨_, rfl, fun t ht => ?_⟩
    have hrr := rev_rev p m hmp
    have hrt := rev_rev p t ht
    have hrm := rev_lt p m
    have hym := hv m hmp
    have hyr := hv (rev p m) hrm
    by_cases hlt : 1 + m < rev p m + 1
    · rw [if_pos hlt]
      by_cases h1 : t = m
      · subst h1
        rw [Function.update_self, hyr, hrr, if_neg (by omega), if_pos (by omega)]
      · rw [Function.update_of_ne h1]
        by_cases h2 : t = rev p m
        · subst h2
          rw [Function.update_self, hym, hrr, if_neg (by omega), if_pos (by omega)]
        · rw [Function.update_of_ne h2, hv t ht]
          have h3 : rev p t ≠ m := fun h => h2 (by rw [← h, hrt])
          have e : (t < m + 1 ∨ rev p t < m + 1) ↔ (t < m ∨ rev p t < m) := by omega
          simp only [e]
    · rw [if_neg hlt, hv t ht]
      by_cases h1 : t = m
      · subst h1
        by_cases h4 : rev p t < t
        · rw [if_pos (by omega), if_pos (by omega)]
        · have : rev p t = t := by omega
          rw [this]; simp
      · by_cases h3 : rev p t = m
        · have h5 : rev p m = t := by rw [← h3, hrt]
          rw [if_pos (by omega), if_pos (by omega)]
        · have e : (t < m + 1 ∨ rev p t < m + 1) ↔ (t < m ∨ rev p t < m) := by omega
          simp only [e]

theorem permute_eq (p fuel : ℕ) (hf : p < fuel) (x : ℕ → ℂ) :
    ∃ j y, permute fuel (2 ^ p) x = some (j, y) ∧ ∀ t < 2 ^ p, y t = x (rev p t) := by
  obtain ⟨y, hy, hv⟩ := permute_loop p fuel hf x (2 ^ p - 1) le_rfl
  refine ⟨_, y, hy, fun t ht => ?_⟩
  rw [hv t ht]
  by_cases h : t = 2 ^ p - 1
  · subst h; rw [rev_last]; simp
  · rw [if_pos (by omega)]

/-! ## Stages -/

/-- What a stage does to the element at `t`. -/
noncomputable def stageVal (sgn : ℤ) (L h : ℕ) (x : ℕ → ℂ) (t : ℕ) : ℂ :=
  if t % L < h then x t + x (t + h)
  else (x (t - h) - x t) * Complex.exp ⟨0, sgn * (2 * Real.pi / L) * (t % L - h : ℕ)⟩

theorem col_loop (sgn : ℤ) (h : ℕ) (hh : 0 < h) (j : ℕ) (hj : j < h) (x : ℕ → ℂ) (Q : ℕ) (t : ℕ) :
    ((List.range Q).map fun q => j + q * (2 * h)).foldl (butterfly sgn (2 * Real.pi / (2 * h : ℕ)) h j) x t =
      if t < Q * (2 * h) ∧ (t % (2 * h)) % h = j then stageVal sgn (2 * h) h x t else x t := by
  induction Q generalizing t with
  | zero => simp
  | succ Q ih =>
    rw [List.range_succ, List.map_append, List.foldl_append, List.map_cons, List.map_nil, List.foldl_cons, List.foldl_nil]
    have hdm : ∀ a, a < 2 * h → (a + Q * (2 * h)) % (2 * h) = a := fun a ha => by
      rw [Nat.add_mul_mod_self_right, Nat.mod_eq_of_lt ha]
    have m1 : (j + Q * (2 * h)) % (2 * h) = j := hdm j (by omega)
    have m2 : (j + Q * (2 * h) + h) % (2 * h) = j + h := by
      rw [show j + Q * (2 * h) + h = (j + h) + Q * (2 * h) by ring]; exact hdm _ (by omega)
    set y := ((List.range Q).map fun q => j + q * (2 * h)).foldl (butterfly sgn (2 * Real.pi / (2 * h : ℕ)) h j) x with hy
    have r1 : y (j + Q * (2 * h)) = x (j + Q * (2 * h)) := by rw [ih, if_neg (by omega)]
    have r2 : y (j + Q * (2 * h) + h) = x (j + Q * (2 * h) + h) := by rw [ih, if_neg (by omega)]
    have hb : butterfly sgn (2 * Real.pi / (2 * h : ℕ)) h j y (j + Q * (2 * h)) =
        Function.update (Function.update y (j + Q * (2 * h)) (y (j + Q * (2 * h)) + y (j + Q * (2 * h) + h))) (j + Q * (2 * h) + h)
          ((y (j + Q * (2 * h)) - y (j + Q * (2 * h) + h)) * Complex.exp ⟨0, sgn * (2 * Real.pi / (2 * h : ℕ)) * j⟩) := rfl
    rw [hb]
    by_cases h1 : t = j + Q * (2 * h) + h
    · subst h1
      rw [Function.update_self, r1, r2, if_pos ⟨by rw [add_one_mul]; omega, by
        rw [m2, Nat.add_mod_right, Nat.mod_eq_of_lt hj]⟩]
      unfold stageVal
      rw [m2, if_neg (by omega), Nat.add_sub_cancel, Nat.add_sub_cancel]
    · rw [Function.update_of_ne h1]
      by_cases h2 : t = j + Q * (2 * h)
      · subst h2
        rw [Function.update_self, r1, r2, if_pos ⟨by rw [add_one_mul]; omega, by rw [m1, Nat.mod_eq_of_lt hj]⟩]
        unfold stageVal
        rw [m1, if_pos hj]
      · rw [Function.update_of_ne h2, ih]
        have e : (t < Q * (2 * h) ∧ t % (2 * h) % h = j) ↔ (t < (Q + 1) * (2 * h) ∧ t % (2 * h) % h = j) := by
          constructor
          · rintro ⟨a, b⟩; exact ⟨by rw [add_one_mul]; omega, b⟩
          · rintro ⟨a, b⟩
            refine ⟨?_, b⟩
            by_contra hge
            obtain ⟨d, rfl⟩ : ∃ d, t = d + Q * (2 * h) := ⟨t - Q * (2 * h), by omega⟩
            have hd : d < 2 * h := by rw [add_one_mul] at a; omega
            rw [hdm d hd] at b
            by_cases hdh : d < h
            · rw [Nat.mod_eq_of_lt hdh] at b; omega
            · obtain ⟨d', rfl⟩ : ∃ d', d = d' + h := ⟨d - h, by omega⟩
              rw [Nat.add_mod_right, Nat.mod_eq_of_lt (by omega)] at b
              omega
        simp only [e]

theorem column_eq (sgn : ℤ) (h M : ℕ) (hh : 0 < h) (j : ℕ) (hj : j < h) (x : ℕ → ℂ) (t : ℕ) :
    column sgn (M * (2 * h)) (2 * h) h x j t =
      if t < M * (2 * h) ∧ (t % (2 * h)) % h = j then stageVal sgn (2 * h) h x t else x t := by
  unfold column strided
  have : (M * (2 * h) - j + 2 * h - 1) / (2 * h) = M := by
    rcases Nat.eq_zero_or_pos M with rfl | hM
    · rw [Nat.zero_mul]; apply Nat.div_eq_of_lt; omega
    · have h1 : 2 * h ≤ M * (2 * h) := Nat.le_mul_of_pos_left _ hM
      rw [show M * (2 * h) - j + 2 * h - 1 = (2 * h - 1 - j) + M * (2 * h) by omega, Nat.add_mul_div_right _ _ (by omega),
        Nat.div_eq_of_lt (by omega), zero_add]
  rw [this]
  exact col_loop sgn h hh j hj x M t

theorem stage_loop (sgn : ℤ) (h M : ℕ) (hh : 0 < h) (x : ℕ → ℂ) (l : List ℕ) (hl : ∀ j ∈ l, j < h) (hnd : l.Nodup) (t : ℕ)
    (ht : t < M * (2 * h)) :
    l.foldl (column sgn (M * (2 * h)) (2 * h) h) x t =
      if (t % (2 * h)) % h ∈ l then stageVal sgn (2 * h) h x t else x t := by
  induction l using List.reverseRecOn generalizing t with
  | nil => simp
  | append_singleton l j ih =>
    have hj : j < h := hl j (by simp)
    have hnd' : l.Nodup ∧ j ∉ l := by
      rw [List.nodup_append] at hnd
      exact ⟨hnd.1, fun hm => hnd.2.2 j hm j (by simp) rfl⟩
    have ih' := fun t ht => ih (fun k hk => hl k (by simp [hk])) hnd'.1 t ht
    rw [List.foldl_append, List.foldl_cons, List.foldl_nil, column_eq sgn h M hh j hj]
    by_cases hjt : t % (2 * h) % h = j
    · rw [if_pos ⟨ht, hjt⟩, if_pos (by rw [hjt]; simp)]
      have hlt := Nat.mod_lt t (show 0 < 2 * h by omega)
      have hdm := Nat.div_add_mod t (2 * h)
      unfold stageVal
      by_cases h1 : t % (2 * h) < h
      · have hb : t + h < M * (2 * h) := by
          have h3 : t / (2 * h) < M := Nat.div_lt_of_lt_mul (by rw [mul_comm]; exact ht)
          have h4 : (t / (2 * h) + 1) * (2 * h) ≤ M * (2 * h) := Nat.mul_le_mul_right _ h3
          rw [Nat.succ_mul, mul_comm] at h4
          omega
        have hm : (t + h) % (2 * h) = t % (2 * h) + h := by
          conv_lhs => rw [← hdm]
          rw [show 2 * h * (t / (2 * h)) + t % (2 * h) + h = (t % (2 * h) + h) + 2 * h * (t / (2 * h)) by ring,
            Nat.add_mul_mod_self_left, Nat.mod_eq_of_lt (by omega)]
        rw [if_pos h1, if_pos h1, ih' t ht, ih' _ hb, if_neg (by rw [hjt]; exact hnd'.2),
          if_neg (by rw [hm, Nat.add_mod_right, hjt]; exact hnd'.2)]
      · have hm : (t - h) % (2 * h) = t % (2 * h) - h := by
          conv_lhs => rw [← hdm]
          rw [show 2 * h * (t / (2 * h)) + t % (2 * h) - h = (t % (2 * h) - h) + 2 * h * (t / (2 * h)) by omega,
            Nat.add_mul_mod_self_left, Nat.mod_eq_of_lt (by omega)]
        have hm' : (t - h) % (2 * h) % h = j := by
          rw [hm, ← hjt]
          conv_rhs => rw [show t % (2 * h) = (t % (2 * h) - h) + h by omega, Nat.add_mod_right]
        rw [if_neg h1, if_neg h1, ih' t ht, ih' (t - h) (by omega), if_neg (by rw [hm']; exact hnd'.2),
          if_neg (by rw [hjt]; exact hnd'.2)]
    · rw [if_neg (fun hc => hjt hc.2), ih' t ht]
      have e : (t % (2 * h) % h ∈ l ++ [j]) ↔ (t % (2 * h) % h ∈ l) := by
        rw [List.mem_append, List.mem_singleton]; exact or_iff_left hjt
      simp only [e]

/-- One stage with any order of the parallel loop. -/
theorem stage_eq (sgn : ℤ) (h M : ℕ) (hh : 0 < h) (x : ℕ → ℂ) (l : List ℕ) (hl : l.Perm (List.range h)) (t : ℕ)
    (ht : t < M * (2 * h)) :
    l.foldl (column sgn (M * (2 * h)) (2 * h) h) x t = stageVal sgn (2 * h) h x t := by
  rw [stage_loop sgn h M hh x l (fun j hj => List.mem_range.1 (hl.mem_iff.1 hj)) (hl.nodup_iff.2 List.nodup_range) t ht,
    if_pos (hl.mem_iff.2 (List.mem_range.2 (Nat.mod_lt _ hh)))]

/-! ## Transforms of halves -/

theorem sum_halves (h : ℕ) (f : ℕ → ℂ) : ∑ m ∈ Finset.range (2 * h), f m = ∑ m ∈ Finset.range h, (f m + f (m + h)) := by
  rw [two_mul, Finset.sum_range_add, Finset.sum_add_distrib]
  congr 1
  exact Finset.sum_congr rfl fun m _ => by rw [add_comm]

theorem dft_even (sgn : ℤ) (h : ℕ) (hh : 0 < h) (y : ℕ → ℂ) (q : ℕ) :
    dft sgn (2 * h) y (2 * q) = dft sgn h (fun j => y j + y (j + h)) q := by
  unfold dft
  rw [sum_halves]
  have hh' : (h : ℂ) ≠ 0 := by exact_mod_cast hh.ne'
  refine Finset.sum_congr rfl fun m _ => ?_
  have e1 : Complex.exp (sgn * (2 * Real.pi * Complex.I) * (2 * q : ℕ) * m / (2 * h : ℕ)) =
      Complex.exp (sgn * (2 * Real.pi * Complex.I) * q * m / h) := by
    congr 1; push_cast; field_simp
  have e2 : Complex.exp (sgn * (2 * Real.pi * Complex.I) * (2 * q : ℕ) * (m + h : ℕ) / (2 * h : ℕ)) =
      Complex.exp (sgn * (2 * Real.pi * Complex.I) * q * m / h) := by
    rw [← Complex.exp_periodic.int_mul (sgn * q) (sgn * (2 * Real.pi * Complex.I) * q * m / h)]
    congr 1; push_cast; field_simp
  rw [e1, e2]; ring

theorem dft_odd (sgn : ℤ) (hs : Odd sgn) (h : ℕ) (hh : 0 < h) (y : ℕ → ℂ) (q : ℕ) :
    dft sgn (2 * h) y (2 * q + 1) =
      dft sgn h (fun j => (y j - y (j + h)) * Complex.exp ⟨0, sgn * (2 * Real.pi / (2 * h : ℕ)) * j⟩) q := by
  unfold dft
  rw [sum_halves]
  have hh' : (h : ℂ) ≠ 0 := by exact_mod_cast hh.ne'
  obtain ⟨s, rfl⟩ := hs
  refine Finset.sum_congr rfl fun m _ => ?_
  have e0 : (⟨0, ((2 * s + 1 : ℤ) : ℝ) * (2 * Real.pi / (2 * h : ℕ)) * m⟩ : ℂ) =
      ((2 * s + 1 : ℤ) : ℂ) * (2 * Real.pi * Complex.I) * m / (2 * h : ℕ) := by
    rw [Complex.mk_eq_add_mul_I]
    push_cast; ring
  have e1 : Complex.exp (((2 * s + 1 : ℤ) : ℂ) * (2 * Real.pi * Complex.I) * (2 * q + 1 : ℕ) * m / (2 * h : ℕ)) =
      Complex.exp (((2 * s + 1 : ℤ) : ℂ) * (2 * Real.pi * Complex.I) * m / (2 * h : ℕ)) *
        Complex.exp (((2 * s + 1 : ℤ) : ℂ) * (2 * Real.pi * Complex.I) * q * m / h) := by
    rw [← Complex.exp_add]
    congr 1; push_cast; field_simp
    ring
  have e2 : Complex.exp (((2 * s + 1 : ℤ) : ℂ) * (2 * Real.pi * Complex.I) * (2 * q + 1 : ℕ) * (m + h : ℕ) / (2 * h : ℕ)) =
      -Complex.exp (((2 * s + 1 : ℤ) : ℂ) * (2 * Real.pi * Complex.I) * (2 * q + 1 : ℕ) * m / (2 * h : ℕ)) := by
    rw [show ((2 * s + 1 : ℤ) : ℂ) * (2 * Real.pi * Complex.I) * (2 * q + 1 : ℕ) * (m + h : ℕ) / (2 * h : ℕ) =
        (((2 * s + 1 : ℤ) : ℂ) * (2 * Real.pi * Complex.I) * (2 * q + 1 : ℕ) * m / (2 * h : ℕ) + Real.pi * Complex.I) +
          ((2 * s * q + s + q : ℤ) : ℂ) * (2 * Real.pi * Complex.I) by push_cast; field_simp; ring,
      Complex.exp_periodic.int_mul, Complex.exp_add, Complex.exp_pi_mul_I]
    ring
  beta_reduce
  rw [e2, e1, e0]; ring

/-! ## All stages -/

/-- After `s` stages the blocks of length `2^(p-s)` contain sequences whose transforms are the parts of the transform of `x` with
indices `2^s q + rev s b`. -/
def Inv (sgn : ℤ) (p s : ℕ) (x y : ℕ → ℂ) : Prop :=
  ∀ b < 2 ^ s, ∀ q < 2 ^ (p - s), dft sgn (2 ^ (p - s)) (fun j => y (b * 2 ^ (p - s) + j)) q = dft sgn (2 ^ p) x (2 ^ s * q + rev s b)

theorem inv_step (sgn : ℤ) (hs : Odd sgn) (p s : ℕ) (hsp : s < p) (x y y' : ℕ → ℂ) (hI : Inv sgn p s x y)
    (hy : ∀ t < 2 ^ p, y' t = stageVal sgn (2 * 2 ^ (p - (s + 1))) (2 ^ (p - (s + 1))) y t) : Inv sgn p (s + 1) x y' := by
  set h := 2 ^ (p - (s + 1)) with hh
  have hL : 2 ^ (p - s) = 2 * h := by rw [hh, ← pow_succ']; congr 1; omega
  have hp : 2 ^ p = 2 ^ s * (2 * h) := by rw [← hL, ← pow_add]; congr 1; omega
  have hpos : 0 < h := by rw [hh]; positivity
  intro b hb q hq
  rw [← hh] at hq ⊢
  obtain ⟨a, c, hc, rfl⟩ : ∃ a c, c < 2 ∧ b = 2 * a + c := ⟨b / 2, b % 2, Nat.mod_lt _ two_pos, by omega⟩
  have ha : a < 2 ^ s := by rw [pow_succ] at hb; omega
  have hbnd : a * (2 * h) + 2 * h ≤ 2 ^ p := by
    rw [hp, ← Nat.succ_mul]; exact Nat.mul_le_mul_right _ ha
  have hmod : ∀ d < 2 * h, (a * (2 * h) + d) % (2 * h) = d := fun d hd => by
    rw [add_comm, Nat.add_mul_mod_self_right, Nat.mod_eq_of_lt hd]
  have hA := hI a ha (2 * q + c) (by rw [hL]; omega)
  rw [hL] at hA
  rw [rev_child _ _ _ hc, show 2 ^ (s + 1) * q + (rev s a + 2 ^ s * c) = 2 ^ s * (2 * q + c) + rev s a by rw [pow_succ]; ring, ← hA]
  have hc' : c = 0 ∨ c = 1 := by omega
  rcases hc' with rfl | rfl
  · rw [add_zero, add_zero, dft_even sgn h hpos]
    unfold dft
    refine Finset.sum_congr rfl fun j hj => ?_
    rw [Finset.mem_range] at hj
    have e : 2 * a * h + j = a * (2 * h) + j := by ring
    beta_reduce
    rw [e, hy _ (by omega)]
    unfold stageVal
    rw [hmod j (by omega), if_pos hj, add_assoc]
  · rw [dft_odd sgn hs h hpos]
    unfold dft
    refine Finset.sum_congr rfl fun j hj => ?_
    rw [Finset.mem_range] at hj
    have e : (2 * a + 1) * h + j = a * (2 * h) + (j + h) := by ring
    beta_reduce
    rw [e, hy _ (by omega)]
    unfold stageVal
    rw [hmod (j + h) (by omega), if_neg (by omega), Nat.add_sub_cancel, show a * (2 * h) + (j + h) - h = a * (2 * h) + j by omega]

theorem stages_inv (sch : ℕ → List ℕ) (hsch : ∀ k, (sch k).Perm (List.range k)) (sgn : ℤ) (hs : Odd sgn) (p d s : ℕ) (hd : s + d = p)
    (x y : ℕ → ℂ) (hI : Inv sgn p s x y) : Inv sgn p p x (stages sch sgn (2 ^ p) (2 ^ d) y) := by
  induction d generalizing s y with
  | zero =>
    rw [stages, if_pos (by norm_num)]
    have : s = p := by omega
    rwa [this] at hI
  | succ d ih =>
    have h2 : 2 ^ (d + 1) / 2 = 2 ^ d := by rw [pow_succ]; omega
    have hpos : 0 < 2 ^ d := by positivity
    rw [stages, h2, if_neg (by omega)]
    refine ih (s + 1) (by omega) _ (inv_step sgn hs p s (by omega) x y _ hI fun t ht => ?_)
    have e : p - (s + 1) = d := by omega
    have hp : 2 ^ p = 2 ^ s * (2 * 2 ^ d) := by rw [← pow_succ', ← pow_add]; congr 1; omega
    rw [e, hp, pow_succ' 2 d]
    exact stage_eq sgn (2 ^ d) (2 ^ s) hpos y (sch (2 ^ d)) (hsch _) t (by rw [← hp]; exact ht)

theorem stages_eq (sch : ℕ → List ℕ) (hsch : ∀ k, (sch k).Perm (List.range k)) (sgn : ℤ) (hs : Odd sgn) (p : ℕ) (x : ℕ → ℂ) (b : ℕ)
    (hb : b < 2 ^ p) : stages sch sgn (2 ^ p) (2 ^ p) x b = dft sgn (2 ^ p) x (rev p b) := by
  have h := stages_inv sch hsch sgn hs p p 0 (by omega) x x (by
    intro b hb q hq
    have : b = 0 := by simpa using hb
    subst this
    simp [rev])
  have := h b hb 0 (by simp)
  simpa [dft] using this

theorem fft_eq (sch : ℕ → List ℕ) (hsch : ∀ k, (sch k).Perm (List.range k)) (fuel p : ℕ) (hf : p < fuel) (sgn : ℤ) (hs : Odd sgn)
    (x : ℕ → ℂ) : ∃ y, fftInplace sch fuel sgn (2 ^ p) x = some y ∧ ∀ k < 2 ^ p, y k = dft sgn (2 ^ p) x k := by
  obtain ⟨j, y, h1, h2⟩ := permute_eq p fuel hf (stages sch sgn (2 ^ p) (2 ^ p) x)
  refine ⟨y, by unfold fftInplace; rw [h1]; rfl, fun k hk => ?_⟩
  rw [h2 k hk, stages_eq sch hsch sgn hs p x _ (rev_lt p k), rev_rev p k hk]

/-! ## Fermi coefficients -/

theorem dft_re (n : ℕ) (f : ℕ → ℝ) (k : ℕ) :
    (dft (-1) n (fun i => (f i : ℂ)) k).re = ∑ m ∈ Finset.range n, f m * Real.cos (2 * Real.pi * k * m / n) := by
  unfold dft
  rw [Complex.re_sum]
  refine Finset.sum_congr rfl fun m _ => ?_
  rw [show (((-1 : ℤ) : ℂ) * (2 * Real.pi * Complex.I) * k * m / n) = ((-(2 * Real.pi * k * m / n) : ℝ) : ℂ) * Complex.I by
    push_cast; ring, Complex.re_ofReal_mul, Complex.exp_ofReal_mul_I_re, Real.cos_neg]

theorem truncate_congr (a b : ℕ → ℝ) (eps : ℝ) (n : ℕ) (h : ∀ i < n, a i = b i) : truncateCoef a eps n = truncateCoef b eps n := by
  have key : ∀ (c : ℕ → ℝ), truncateCoef c eps n = match (List.range (n - 1)).find? (fun i => |c i| < eps ∧ |c (i + 1)| < eps) with
      | some i => i + 1
      | none => n := by
    intro c
    unfold truncateCoef
    rcases Nat.eq_zero_or_pos n with rfl | hn
    · rfl
    · obtain ⟨m, rfl⟩ : ∃ m, n = m + 1 := ⟨n - 1, by omega⟩
      rw [Nat.add_sub_cancel, List.range_succ, List.find?_append]
      cases hf : (List.range m).find? (fun i => |c i| < eps ∧ |c (i + 1)| < eps) with
      | some i => simp
      | none =>
        by_cases hm : |c m| < eps ∧ |c (m + 1)| < eps
        · simp [List.find?_cons, hm]
        · simp [List.find?_cons, hm]
  have hc : (List.range (n - 1)).find? (fun i => |a i| < eps ∧ |a (i + 1)| < eps) =
      (List.range (n - 1)).find? (fun i => |b i| < eps ∧ |b (i + 1)| < eps) := by
    refine List.find?_congr fun i hi => ?_
    rw [List.mem_range] at hi
    rw [h i (by omega), h (i + 1) (by omega)]
  rw [key a, key b, hc]

theorem truncate_spec (c : ℕ → ℝ) (eps : ℝ) (n : ℕ) : truncateCoef c eps n ≤ n ∧
    (∀ i, i + 1 < truncateCoef c eps n → eps ≤ |c i| ∨ eps ≤ |c (i + 1)|) ∧
    (truncateCoef c eps n < n → ∃ i, truncateCoef c eps n = i + 1 ∧ |c i| < eps ∧ |c (i + 1)| < eps) := by
  unfold truncateCoef
  cases hf : (List.range n).find? (fun i => |c i| < eps ∧ |c (i + 1)| < eps) with
  | some i =>
    simp only
    have h1 := List.find?_some hf
    have h2 := List.mem_of_find?_eq_some hf
    rw [List.mem_range] at h2
    refine ⟨h2, fun j hj => ?_, fun _ => ⟨i, rfl, by simpa using h1⟩⟩
    have := List.find?_range_eq_some.1 hf
    have h3 := this.2.2 j (by omega)
    simp only [Bool.not_eq_true', decide_eq_false_iff_not, not_and_or, not_lt] at h3
    exact h3
  | none =>
    simp only
    refine ⟨le_rfl, fun j hj => ?_, fun h => absurd h (lt_irrefl _)⟩
    have := List.find?_eq_none.1 hf j (List.mem_range.2 (by omega))
    simp only [decide_eq_true_eq, not_and_or, not_lt] at this
    exact this

end Verif.Fft

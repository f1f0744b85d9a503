import Verif.Spec.ParamFit
import Mathlib.Tactic.Ring
import Mathlib.Tactic.Linarith
import Mathlib.Tactic.FieldSimp
import Mathlib.Tactic.FinCases
import Mathlib.Tactic.NormNum
import Mathlib.Tactic.Positivity
import Mathlib.Algebra.Order.BigOperators.Group.Finset
import Mathlib.Algebra.Order.BigOperators.Group.List

/-!
# Fitting of parameters to bands (C118)
-/

namespace Verif.Props

open Verif.ParamFit

theorem scaleCols {m n : ℕ} (w : List ℝ) (s : ℕ) (d : Fin m → Fin n → ℝ) (a : Fin m) (b : Fin n) :
    (w.zipIdx s).foldl (fun d q => scaleCol d q.2 q.1) d a b =
      if s ≤ b ∧ (b : ℕ) < s + w.length then d a b * w.getD (b - s) 0 else d a b := by
  induction w generalizing s d with
  | nil => rw [if_neg (by simp)]; rfl
  | cons x w ih =>
    rw [List.zipIdx_cons, List.foldl_cons, ih]
    simp only [scaleCol, List.length_cons]
    by_cases h1 : (b : ℕ) = s
    · rw [if_neg (by omega), if_pos h1, if_pos (by omega), h1]; simp
    · rw [if_neg h1]
      by_cases h2 : s ≤ b ∧ (b : ℕ) < s + (w.length + 1)
      · rw [if_pos (by omega), if_pos h2, show (b : ℕ) - s = (b - (s + 1)) + 1 by omega, List.getD_cons_succ]
      · rw [if_neg (by omega), if_neg h2]

theorem flatten_get {m n : ℕ} (d : Fin m → Fin n → ℝ) (a : Fin m) (b : Fin n) :
    (flatten d)[(a : ℕ) * n + b]? = some (d a b) := by
  unfold flatten
  have key : ∀ (l : List (Fin m)) (i : ℕ) (x : Fin m), l[i]? = some x →
      (l.flatMap fun a => (List.finRange n).map fun b => d a b)[i * n + b]? = some (d x b) := by
    intro l
    induction l with
    | nil => simp
    | cons y l ih =>
      intro i x hx
      rw [List.flatMap_cons]
      cases i with
      | zero =>
        rw [List.getElem?_append_left (by simp)]
        simp at hx
        subst hx
        simp
      | succ i =>
        rw [List.getElem?_append_right (by simp; nlinarith)]
        rw [show (i + 1) * n + b - ((List.finRange n).map fun b => d y b).length = i * n + b by
          simp [Nat.succ_mul]; omega]
        exact ih i x (by simpa using hx)
  exact key _ a a (by simp)

theorem flatten_sum {m n : ℕ} (d : Fin m → Fin n → ℝ) : ((flatten d).map (· ^ 2)).sum = ∑ a, ∑ b, d a b ^ 2 := by
  unfold flatten
  rw [List.map_flatMap]
  have : ∀ l : List (Fin m), (l.flatMap fun a => ((List.finRange n).map fun b => d a b).map (· ^ 2)).sum =
      (l.map fun a => ∑ b, d a b ^ 2).sum := by
    intro l
    induction l with
    | nil => simp
    | cons x l ih =>
      rw [List.flatMap_cons, List.sum_append, ih, List.map_cons, List.sum_cons, List.map_map]
      rw [← List.sum_ofFn, List.ofFn_eq_map]; rfl
  rw [this, ← List.ofFn_eq_map, List.sum_ofFn]

variable {m n : ℕ} {P : Type*}

/-- Weights with which the object works: all one, or the absolute values of the given weights divided by their sum. -/
theorem init_weights (ref : Fin m → Fin n → ℝ) (wt : Weights) (o : Fit m n) (h : init ref wt = .ok o) :
    o.ref = ref ∧ o.weights.length = n ∧ (wt = .absent ∧ (∀ b : Fin n, o.weights.getD b 0 = 1) ∨
      ∃ w : List ℝ, wt = .float w ∧ w.length = n ∧ 0 < (w.map fun x => |x|).sum ∧
        ∀ b : Fin n, o.weights.getD b 0 = |w.getD b 0| / (w.map fun x => |x|).sum) := by
  cases wt with
  | absent =>
    simp only [init, Except.ok.injEq] at h
    subst h
    refine ⟨rfl, by simp, Or.inl ⟨rfl, fun b => by simp⟩⟩
  | float w =>
    simp only [init] at h
    split_ifs at h with h1 h2
    simp only [Except.ok.injEq] at h
    subst h
    push Not at h1
    refine ⟨rfl, by simp [h1], Or.inr ⟨w, rfl, h1, ?_, fun b => ?_⟩⟩
    · exact lt_of_le_of_ne (List.sum_nonneg (by simp)) (Ne.symm h2)
    · have : (b : ℕ) < w.length := by rw [h1]; exact b.2
      simp [List.getD_eq_getElem?_getD, this]
  | int w =>
    simp only [init] at h
    split_ifs at h

theorem sum_abs_list (l : List ℝ) (h : l.length = n) : (l.map fun x => |x|).sum = ∑ c : Fin n, |l.getD c 0| := by
  subst h
  rw [← List.sum_ofFn]
  congr 1
  apply List.ext_getElem <;> simp

/-- **C118.** What is minimised: element `a * n + b` of the vector returned by `estimate_error` is the difference between
the reference and the fitted energy of band `b` at k-point `a`, times the weight of the band; the sum of squares is the
weighted deviation.  The weight of a band is 1 if no weights are given, otherwise the absolute value of the given weight divided
by the sum of absolute values. -/
theorem C118_error (ref : Fin m → Fin n → ℝ) (wt : Weights) (o : Fit m n) (h : init ref wt = .ok o)
    (bandsFit : P → Fin m → Fin n → ℝ) :
    ∃ w : Fin n → ℝ, IsWeight wt w ∧
      (∀ p, (estimateError o bandsFit p).length = m * n ∧
        (∀ (a : Fin m) (b : Fin n), (estimateError o bandsFit p)[(a : ℕ) * n + b]? = some (w b * (ref a b - bandsFit p a b))) ∧
        ((estimateError o bandsFit p).map (· ^ 2)).sum = deviation ref (bandsFit p) w) := by
  obtain ⟨h1, h2, h3⟩ := init_weights ref wt o h
  refine ⟨fun b => o.weights.getD b 0, ?_, fun p => ?_⟩
  · rcases h3 with ⟨h3, h4⟩ | ⟨l, h3, h4, h5, h6⟩
    · exact Or.inl ⟨h3, h4⟩
    · exact Or.inr ⟨l, h3, h4, fun b => by simp only [h6, sum_abs_list l h4]⟩
  · have e : o.weights.zipIdx.foldl (fun d q => scaleCol d q.2 q.1) (fun a b => o.ref a b - bandsFit p a b) =
        fun (a : Fin m) (b : Fin n) => o.weights.getD b 0 * (ref a b - bandsFit p a b) := by
      funext a b
      rw [scaleCols, if_pos ⟨Nat.zero_le _, by rw [h2]; have := b.2; omega⟩, h1, mul_comm]; rfl
    unfold estimateError
    rw [e]
    refine ⟨by simp [flatten, List.length_flatMap], fun a b => flatten_get _ a b, ?_⟩
    rw [flatten_sum]; rfl

/-- **C118.** If the minimiser of SciPy finds the least sum of squares, `fit` returns parameters of least weighted
deviation; if some parameters reproduce the reference bands exactly, then so do the returned ones, in every band
with a non-zero weight. -/
theorem C118_fit (ref : Fin m → Fin n → ℝ) (wt : Weights) (o : Fit m n) (h : init ref wt = .ok o)
    (bandsFit : P → Fin m → Fin n → ℝ) (leastsq : (P → List ℝ) → P → P × ℤ) (hl : Minimises leastsq) (p0 p : P)
    (hp : fit leastsq o bandsFit p0 = .ok p) :
    ∃ w : Fin n → ℝ, IsWeight wt w ∧ (∀ q, deviation ref (bandsFit p) w ≤ deviation ref (bandsFit q) w) ∧
      ((∃ q, bandsFit q = ref) → ∀ a b, w b ≠ 0 → bandsFit p a b = ref a b) := by
  obtain ⟨w, hw, he⟩ := C118_error ref wt o h bandsFit
  have hmin : ∀ q, deviation ref (bandsFit p) w ≤ deviation ref (bandsFit q) w := by
    intro q
    unfold fit at hp
    simp only at hp
    split_ifs at hp with hs
    simp only [Except.ok.injEq] at hp
    have := hl (estimateError o bandsFit) p0 (by simpa using hs) q
    rwa [hp, (he p).2.2, (he q).2.2] at this
  refine ⟨w, hw, hmin, ?_⟩
  rintro ⟨q, hq⟩ a b hb
  have h0 : deviation ref (bandsFit p) w ≤ 0 := by
    have := hmin q
    rwa [hq, show deviation ref ref w = 0 by simp [deviation]] at this
  have h1 : (w b * (ref a b - bandsFit p a b)) ^ 2 ≤ deviation ref (bandsFit p) w := by
    unfold deviation
    refine le_trans ?_ (Finset.single_le_sum (f := fun a => ∑ b, (w b * (ref a b - bandsFit p a b)) ^ 2)
      (fun a _ => Finset.sum_nonneg fun b _ => sq_nonneg _) (Finset.mem_univ a))
    exact Finset.single_le_sum (f := fun b => (w b * (ref a b - bandsFit p a b)) ^ 2) (fun b _ => sq_nonneg _) (Finset.mem_univ b)
  have h2 : w b * (ref a b - bandsFit p a b) = 0 := by
    have := le_antisymm (h1.trans h0) (sq_nonneg _)
    exact pow_eq_zero_iff (two_ne_zero) |>.1 this
  have h3 := (mul_eq_zero.1 h2).resolve_left hb
  linarith

/-- **C118.** Multiplying all weights by the same non-zero number, or changing their signs, changes nothing. -/
theorem C118_scale (ref : Fin m → Fin n → ℝ) (w : List ℝ) (c : ℝ) (hc : c ≠ 0) :
    init ref (.float (w.map fun x => c * x)) = init ref (.float w) := by
  have hs : ((w.map fun x => c * x).map fun x => |x|).sum = |c| * (w.map fun x => |x|).sum := by
    induction w with
    | nil => simp
    | cons x w ih => simp only [List.map_cons, List.sum_cons, ih, abs_mul]; ring
  have hc' : |c| ≠ 0 := abs_ne_zero.2 hc
  simp only [init, List.length_map]
  rw [hs]
  by_cases h1 : w.length ≠ n
  · rw [if_pos h1, if_pos h1]
  · rw [if_neg h1, if_neg h1]
    by_cases h2 : (w.map fun x => |x|).sum = 0
    · rw [if_pos (by rw [h2, mul_zero]), if_pos h2]
    · rw [if_neg (mul_ne_zero hc' h2), if_neg h2]
      congr 2
      simp only [List.map_map]
      apply List.map_congr_left
      intro x _
      simp only [Function.comp, abs_mul]
      exact mul_div_mul_left _ _ hc'

/-- **C118.** Weights are accepted exactly when they are absent or a float array with one entry per band, not all zero; a fit whose
status is not one of 1, 2, 3, 4 raises `RuntimeError`. -/
theorem C118_accepts (ref : Fin m → Fin n → ℝ) (wt : Weights) :
    ((∃ o, init ref wt = .ok o) ↔ wt = .absent ∨ ∃ w : List ℝ, wt = .float w ∧ w.length = n ∧ ∃ x ∈ w, x ≠ 0) ∧
    ∀ (leastsq : (P → List ℝ) → P → P × ℤ) (o : Fit m n) (bandsFit : P → Fin m → Fin n → ℝ) (p0 : P),
      fit leastsq o bandsFit p0 = .error .runtime ↔ (leastsq (estimateError o bandsFit) p0).2 ∉ ([1, 2, 3, 4] : List ℤ) := by
  constructor
  · cases wt with
    | absent => simp [init]
    | float w =>
      have hz : (w.map fun x => |x|).sum = 0 ↔ ∀ x ∈ w, x = 0 := by
        induction w with
        | nil => simp
        | cons x w ih =>
          have h1 := abs_nonneg x
          have h2 : 0 ≤ (w.map fun x => |x|).sum := List.sum_nonneg (by simp)
          simp only [List.map_cons, List.sum_cons, List.mem_cons, forall_eq_or_imp]
          rw [← ih, ← abs_eq_zero (a := x)]
          constructor
          · intro h; constructor <;> linarith
          · rintro ⟨h3, h4⟩; rw [h3, h4, add_zero]
      simp only [init, reduceCtorEq, false_or, Weights.float.injEq, exists_eq_left']
      by_cases h1 : w.length = n
      · by_cases h2 : (w.map fun x => |x|).sum = 0
        · have := hz.1 h2
          simp only [h1, h2, ne_eq, not_true_eq_false, if_false, if_true, reduceCtorEq, exists_false, true_and, false_iff]
          push Not; exact this
        · have h3 : ∃ x ∈ w, x ≠ 0 := by
            by_contra hh; push Not at hh; exact h2 (hz.2 hh)
          simp [h1, h2, h3]
      · simp [h1]
    | int w =>
      simp only [init, reduceCtorEq, false_and, exists_false, or_false, iff_false]
      split_ifs <;> simp
  · intro leastsq o bandsFit p0
    unfold fit
    simp only
    split_ifs with h <;> simp_all

/-! ### Non-vacuity -/

/-- Two bands with weights 1 and -3 at one k-point: the weights used are 1/4 and 3/4. -/
example : ∃ o, init (m := 1) (n := 2) (fun _ _ => 2) (.float [1, -3]) = .ok o ∧
    estimateError o (fun (p : ℝ) _ b => if b = 0 then p else 0) 6 = [-1, 3 / 2] := by
  refine ⟨⟨fun _ _ => 2, [1 / 4, 3 / 4]⟩, by norm_num [init], ?_⟩
  simp [estimateError, ParamFit.flatten, List.finRange_succ, scaleCol]
  norm_num

end Verif.Props

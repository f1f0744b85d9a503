import Verif.Proof.Kernel
import Mathlib.LinearAlgebra.Matrix.Hermitian
import Mathlib.LinearAlgebra.Matrix.NonsingularInverse
import Mathlib.Analysis.Complex.Basic

/-! # Proofs about the Haydock recursion and the continued fraction -/

namespace Verif.Tbpm
open Matrix

variable {n : ℕ}

theorem innerProd_add (x y z : CVec n) : innerProd x (y + z) = innerProd x y + innerProd x z := by
  simp [innerProd, mul_add, Finset.sum_add_distrib]

theorem innerProd_smul (c : ℂ) (x y : CVec n) : innerProd x (c • y) = c * innerProd x y := by
  simp only [innerProd, Pi.smul_apply, smul_eq_mul, Finset.mul_sum]
  exact Finset.sum_congr rfl fun i _ => by ring

theorem innerProd_zero (x : CVec n) : innerProd x 0 = 0 := by simp [innerProd]

theorem innerProd_symm (x y : CVec n) : star (innerProd x y) = innerProd y x := by
  simp only [innerProd, star_sum, star_mul, star_star]

theorem innerProd_smul_left (c : ℂ) (x y : CVec n) : innerProd (c • x) y = star c * innerProd x y := by
  rw [← innerProd_symm, innerProd_smul, star_mul, innerProd_symm, mul_comm]

theorem innerProd_add_left (x y z : CVec n) : innerProd (x + y) z = innerProd x z + innerProd y z := by
  rw [← innerProd_symm, innerProd_add, star_add, innerProd_symm, innerProd_symm]

theorem innerProd_herm (A : Matrix (Fin n) (Fin n) ℂ) (hA : A.IsHermitian) (x y : CVec n) :
    innerProd x (A.mulVec y) = innerProd (A.mulVec x) y := by
  simp only [innerProd, mulVec, dotProduct, star_sum, star_mul, Finset.mul_sum, Finset.sum_mul]
  rw [Finset.sum_comm]
  refine Finset.sum_congr rfl fun j _ => Finset.sum_congr rfl fun i _ => ?_
  rw [← hA.apply j i]
  simp
  ring

theorem innerProd_self (x : CVec n) : innerProd x x = ((∑ i, ‖x i‖ ^ 2 : ℝ) : ℂ) := by
  simp only [innerProd]
  push_cast
  refine Finset.sum_congr rfl fun i _ => ?_
  rw [← Complex.mul_conj']
  rw [mul_comm]
  rfl

theorem innerProd_self_eq (x : CVec n) : innerProd x x = ((normZ x ^ 2 : ℝ) : ℂ) := by
  rw [normZ, innerProd_self, Complex.ofReal_re, Real.sq_sqrt (Finset.sum_nonneg fun i _ => by positivity)]

theorem normZ_eq_zero (x : CVec n) : normZ x = 0 ↔ x = 0 := by
  constructor
  · intro h
    have h1 := innerProd_self x
    rw [innerProd_self_eq, h] at h1
    have h2 : ∑ i, ‖x i‖ ^ 2 = 0 := by
      have : ((∑ i, ‖x i‖ ^ 2 : ℝ) : ℂ) = ((0 : ℝ) : ℂ) := by rw [← h1]; simp
      exact_mod_cast this
    rw [Finset.sum_eq_zero_iff_of_nonneg (fun i _ => by positivity)] at h2
    funext i
    simpa using h2 i (Finset.mem_univ i)
  · rintro rfl
    simp [normZ, innerProd]

theorem normZ_nonneg (x : CVec n) : 0 ≤ normZ x := Real.sqrt_nonneg _

/-! ## The chain -/

/-- Step of the recursion: previous vector, coefficient and current vector. -/
noncomputable def lanc (A : Matrix (Fin n) (Fin n) ℂ) (v0 : CVec n) : ℕ → CVec n × ℝ × CVec n
  | 0 => (0, 0, v0)
  | k + 1 =>
    let s := lanc A v0 k
    let w := A.mulVec s.2.2 - innerProd s.2.2 (A.mulVec s.2.2) • s.2.2 - (s.2.1 : ℂ) • s.1
    (s.2.2, normZ w, ((normZ w : ℝ) : ℂ)⁻¹ • w)

/-- Vector `k` of the chain. -/
noncomputable def lv (A : Matrix (Fin n) (Fin n) ℂ) (v0 : CVec n) (k : ℕ) : CVec n := (lanc A v0 k).2.2

/-- Diagonal coefficient `k` of the chain. -/
noncomputable def la (A : Matrix (Fin n) (Fin n) ℂ) (v0 : CVec n) (k : ℕ) : ℂ := innerProd (lv A v0 k) (A.mulVec (lv A v0 k))

/-- Off-diagonal coefficient `k` of the chain, joining the vectors `k` and `k + 1`. -/
noncomputable def lb (A : Matrix (Fin n) (Fin n) ℂ) (v0 : CVec n) (k : ℕ) : ℝ := (lanc A v0 (k + 1)).2.1

/-- Unnormalised vector `k + 1` of the chain. -/
noncomputable def lw (A : Matrix (Fin n) (Fin n) ℂ) (v0 : CVec n) (k : ℕ) : CVec n :=
  A.mulVec (lv A v0 k) - la A v0 k • lv A v0 k - ((lanc A v0 k).2.1 : ℂ) • (lanc A v0 k).1

variable (A : Matrix (Fin n) (Fin n) ℂ) (v0 : CVec n)

theorem lb_eq (k : ℕ) : lb A v0 k = normZ (lw A v0 k) := rfl

theorem lv_succ (k : ℕ) : lv A v0 (k + 1) = ((lb A v0 k : ℝ) : ℂ)⁻¹ • lw A v0 k := rfl

theorem lw_zero : lw A v0 0 = A.mulVec (lv A v0 0) - la A v0 0 • lv A v0 0 := by
  simp [lw, lanc]

theorem lw_succ (k : ℕ) : lw A v0 (k + 1) = A.mulVec (lv A v0 (k + 1)) - la A v0 (k + 1) • lv A v0 (k + 1) -
    (lb A v0 k : ℂ) • lv A v0 k := rfl

theorem lw_smul (k : ℕ) : lw A v0 k = (lb A v0 k : ℂ) • lv A v0 (k + 1) := by
  rw [lv_succ]
  by_cases h : lb A v0 k = 0
  · have : lw A v0 k = 0 := (normZ_eq_zero _).1 (by rw [← lb_eq, h])
    simp [this]
  · rw [smul_smul, mul_inv_cancel₀ (by exact_mod_cast h), one_smul]

theorem rec_zero : A.mulVec (lv A v0 0) = la A v0 0 • lv A v0 0 + (lb A v0 0 : ℂ) • lv A v0 1 := by
  rw [← lw_smul, lw_zero]
  abel

theorem rec_succ (k : ℕ) : A.mulVec (lv A v0 (k + 1)) =
    (lb A v0 k : ℂ) • lv A v0 k + la A v0 (k + 1) • lv A v0 (k + 1) + (lb A v0 (k + 1) : ℂ) • lv A v0 (k + 2) := by
  rw [← lw_smul, lw_succ]
  abel

variable {A v0}

theorem la_real (hA : A.IsHermitian) (k : ℕ) : star (la A v0 k) = la A v0 k := by
  rw [la, innerProd_symm, innerProd_herm A hA]

theorem chain_orthonormal (hA : A.IsHermitian) (h0 : innerProd v0 v0 = 1) (d : ℕ) (hb : ∀ i < d, lb A v0 i ≠ 0) :
    ∀ i ≤ d, ∀ j ≤ d, innerProd (lv A v0 i) (lv A v0 j) = if i = j then 1 else 0 := by
  induction d with
  | zero =>
    intro i hi j hj
    obtain rfl : i = 0 := by omega
    obtain rfl : j = 0 := by omega
    simpa [lv, lanc] using h0
  | succ d ih =>
    replace ih := ih fun i hi => hb i (by omega)
    have hbd : ((lb A v0 d : ℝ) : ℂ) ≠ 0 := by exact_mod_cast hb d (by omega)
    have key : ∀ i ≤ d, innerProd (lv A v0 i) (lw A v0 d) = 0 := by
      intro i hi
      have hAi : innerProd (lv A v0 i) (A.mulVec (lv A v0 d)) = if i = d then la A v0 d else
          if i + 1 = d then ((lb A v0 i : ℝ) : ℂ) else 0 := by
        by_cases hid : i = d
        · subst hid
          simp [la]
        · rw [if_neg hid, innerProd_herm A hA]
          cases i with
          | zero =>
            rw [rec_zero, innerProd_add_left, innerProd_smul_left, innerProd_smul_left, ih 0 (by omega) d le_rfl,
              ih 1 (by omega) d le_rfl, if_neg hid]
            split_ifs <;> simp
          | succ i =>
            rw [rec_succ, innerProd_add_left, innerProd_add_left, innerProd_smul_left, innerProd_smul_left, innerProd_smul_left,
              ih i (by omega) d le_rfl, ih (i + 1) (by omega) d le_rfl, ih (i + 2) (by omega) d le_rfl, if_neg hid,
              if_neg (by omega : i ≠ d)]
            split_ifs <;> simp
      cases d with
      | zero =>
        obtain rfl : i = 0 := by omega
        rw [lw_zero, sub_eq_add_neg, ← neg_smul, innerProd_add, innerProd_smul, hAi, ih 0 le_rfl 0 le_rfl]
        simp
      | succ d =>
        rw [lw_succ, sub_eq_add_neg, sub_eq_add_neg, ← neg_smul, ← neg_smul, innerProd_add, innerProd_add, innerProd_smul,
          innerProd_smul, hAi, ih i hi (d + 1) le_rfl, ih i hi d (by omega)]
        by_cases h1 : i = d + 1
        · subst h1
          simp
        · by_cases h2 : i = d
          · subst h2
            simp
          · simp [h1, h2]
    have hnew : ∀ i ≤ d, innerProd (lv A v0 i) (lv A v0 (d + 1)) = 0 := by
      intro i hi
      rw [lv_succ, innerProd_smul, key i hi, mul_zero]
    intro i hi j hj
    by_cases h1 : i = d + 1
    · by_cases h2 : j = d + 1
      · subst h1 h2
        rw [lv_succ, innerProd_smul, innerProd_smul_left, innerProd_self_eq, ← lb_eq]
        have : star (((lb A v0 d : ℝ) : ℂ)⁻¹) = ((lb A v0 d : ℝ) : ℂ)⁻¹ := by
          rw [← Complex.ofReal_inv]
          exact Complex.conj_ofReal _
        rw [this]
        push_cast
        field_simp
        simp
      · subst h1
        rw [← innerProd_symm, hnew j (by omega), if_neg (by omega)]
        simp
    · by_cases h2 : j = d + 1
      · subst h2
        rw [hnew i (by omega), if_neg h1]
      · exact ih i (by omega) j (by omega)

/-- A phase of the first vector does not change the coefficients. -/
theorem lanc_phase (A : Matrix (Fin n) (Fin n) ℂ) (v0 : CVec n) (c : ℂ) (hc : ‖c‖ = 1) (k : ℕ) :
    lanc A (c • v0) k = (c • (lanc A v0 k).1, (lanc A v0 k).2.1, c • (lanc A v0 k).2.2) := by
  have hcc : star c * c = 1 := by
    have := Complex.conj_mul' c
    rw [hc] at this
    simpa using this
  induction k with
  | zero => simp [lanc]
  | succ k ih =>
    have hw : A.mulVec (c • (lanc A v0 k).2.2) - innerProd (c • (lanc A v0 k).2.2) (A.mulVec (c • (lanc A v0 k).2.2)) •
        (c • (lanc A v0 k).2.2) - ((lanc A v0 k).2.1 : ℂ) • (c • (lanc A v0 k).1) =
        c • (A.mulVec (lanc A v0 k).2.2 - innerProd (lanc A v0 k).2.2 (A.mulVec (lanc A v0 k).2.2) • (lanc A v0 k).2.2 -
          ((lanc A v0 k).2.1 : ℂ) • (lanc A v0 k).1) := by
      rw [Matrix.mulVec_smul, innerProd_smul, innerProd_smul_left, ← mul_assoc, mul_comm c, hcc, one_mul]
      funext i
      simp only [Pi.sub_apply, Pi.smul_apply, smul_eq_mul]
      ring
    have hn : ∀ w : CVec n, normZ (c • w) = normZ w := by
      intro w
      unfold normZ
      rw [innerProd_smul, innerProd_smul_left, ← mul_assoc, mul_comm c, hcc, one_mul]
    simp only [lanc, ih, hw, hn, smul_comm c]

theorem chain_phase (A : Matrix (Fin n) (Fin n) ℂ) (v0 : CVec n) (c : ℂ) (hc : ‖c‖ = 1) (k : ℕ) :
    la A (c • v0) k = la A v0 k ∧ lb A (c • v0) k = lb A v0 k := by
  have hcc : star c * c = 1 := by
    have := Complex.conj_mul' c
    rw [hc] at this
    simpa using this
  refine ⟨?_, ?_⟩
  · unfold la lv
    rw [lanc_phase A v0 c hc]
    simp only
    rw [Matrix.mulVec_smul, innerProd_smul, innerProd_smul_left, ← mul_assoc, mul_comm c, hcc, one_mul]
  · unfold lb
    rw [lanc_phase A v0 c hc]

/-! ## The loop with rotating buffers -/

theorem hayInit_spec (sch : ℕ → List (Fin n)) (hs : ∀ k, IsOrder (sch k)) (m : FCsr) (hm : m.Legal n) (r : ℝ) (v0 : CVec n)
    (A : Matrix (Fin n) (Fin n) ℂ) (hA : A = (r : ℂ) • m.toMatrix n) :
    let st := hayInit sch m r v0
    st.mem 0 = lv A v0 0 ∧ st.mem 1 = lv A v0 1 ∧ st.coefa 0 = la A v0 0 ∧ st.coefb 0 = lb A v0 0 := by
  have hbuf : amv (sch 1) (r : ℂ) m v0 = A.mulVec v0 := by
    rw [amv_eq _ (hs 1) _ m hm, hA, Matrix.smul_mulVec]
  have hv : lv A v0 0 = v0 := rfl
  have ha : la A v0 0 = innerProd v0 (A.mulVec v0) := rfl
  have hw : axpy (-innerProd v0 (A.mulVec v0)) v0 (A.mulVec v0) = lw A v0 0 := by
    rw [lw_zero, hv, ha]
    funext i
    simp [axpy]
    ring
  simp only [hayInit, hbuf, hw]
  refine ⟨by simp [hv], ?_, by simp [ha], by simp [lb_eq]⟩
  rw [lv_succ, lb_eq]
  funext i
  simp [div_eq_inv_mul]

theorem hay_loop (sch : ℕ → List (Fin n)) (hs : ∀ k, IsOrder (sch k)) (m : FCsr) (hm : m.Legal n) (r : ℝ) (v0 : CVec n)
    (A : Matrix (Fin n) (Fin n) ℂ) (hA : A = (r : ℂ) • m.toMatrix n) (k : ℕ) :
    let st := (List.range' 2 k).foldl (hayBody sch m r) (hayInit sch m r v0)
    st.mem st.p1 = lv A v0 k ∧ st.mem st.p2 = lv A v0 (k + 1) ∧ st.p1 ≠ st.p2 ∧ st.p1 ≠ st.pbuf ∧ st.p2 ≠ st.pbuf ∧
      (∀ i ≤ k, st.coefa i = la A v0 i) ∧ (∀ i ≤ k, st.coefb i = lb A v0 i) := by
  induction k with
  | zero =>
    obtain ⟨h1, h2, h3, h4⟩ := hayInit_spec sch hs m hm r v0 A hA
    refine ⟨h1, h2, ?_, ?_, ?_, ?_, ?_⟩
    · simp [hayInit]
    · simp [hayInit]
    · simp [hayInit]
    · intro i hi
      obtain rfl : i = 0 := by omega
      exact h3
    · intro i hi
      obtain rfl : i = 0 := by omega
      exact h4
  | succ k ih =>
    rw [List.range'_concat, List.foldl_append]
    simp only [List.foldl_cons, List.foldl_nil]
    generalize (List.range' 2 k).foldl (hayBody sch m r) (hayInit sch m r v0) = st at ih
    obtain ⟨h1, h2, h12, h1b, h2b, ha, hb⟩ := ih
    have hbuf : amv (sch (2 + 1 * k)) (r : ℂ) m (lv A v0 (k + 1)) = A.mulVec (lv A v0 (k + 1)) := by
      rw [amv_eq _ (hs _) _ m hm, ← Matrix.smul_mulVec, ← hA]
    have hw : axpbypz (-la A v0 (k + 1)) (lv A v0 (k + 1)) (-lb A v0 k) (lv A v0 k) (A.mulVec (lv A v0 (k + 1))) =
        lw A v0 (k + 1) := by
      rw [lw_succ]
      funext i
      simp [axpbypz]
      ring
    have e2 : 2 + 1 * k - 2 = k := by omega
    have e1 : 2 + 1 * k - 1 = k + 1 := by omega
    have hla : innerProd (lv A v0 (k + 1)) (A.mulVec (lv A v0 (k + 1))) = la A v0 (k + 1) := rfl
    simp only [hayBody, Function.update_self, Function.update_of_ne h1b, Function.update_of_ne h2b, Function.update_idem, hbuf,
      h1, h2, e1, e2, hb k le_rfl, hla, hw]
    refine ⟨?_, ?_, h2b, h12.symm, h1b.symm, ?_, ?_⟩
    · trivial
    · rw [lv_succ A v0 (k + 1), lb_eq]
      funext i
      simp [div_eq_inv_mul]
    · intro i hi
      by_cases h : i = k + 1
      · subst h; simp
      · rw [Function.update_of_ne h, ha i (by omega)]
    · intro i hi
      by_cases h : i = k + 1
      · subst h; simp [lb_eq]
      · rw [Function.update_of_ne h, hb i (by omega)]

theorem haydock_coef (sch : ℕ → List (Fin n)) (hs : ∀ k, IsOrder (sch k)) (m : FCsr) (hm : m.Legal n) (r : ℝ) (v0 : CVec n)
    (depth : ℕ) (hd : 1 ≤ depth) (i : ℕ) (hi : i < depth) :
    (haydock sch m r v0 depth).coefa i = la ((r : ℂ) • m.toMatrix n) v0 i ∧
      (haydock sch m r v0 depth).coefb i = lb ((r : ℂ) • m.toMatrix n) v0 i := by
  obtain ⟨-, -, -, -, -, ha, hb⟩ := hay_loop sch hs m hm r v0 _ rfl (depth - 1)
  exact ⟨ha i (by omega), hb i (by omega)⟩

/-! ## The continued fraction -/

/-- Continued fraction with the levels `s, ..., s + c - 1`. -/
noncomputable def cfrac (z : ℂ) (a : ℕ → ℂ) (b : ℕ → ℝ) : ℕ → ℕ → ℂ
  | 0, _ => 0
  | c + 1, s => 1 / (z - a s - (b s : ℂ) ^ 2 * cfrac z a b c (s + 1))

theorem green_eq (e d : ℝ) (a : ℕ → ℂ) (b : ℕ → ℝ) (depth : ℕ) : greenFunction e d a b depth = cfrac ⟨e, d⟩ a b depth 0 := by
  unfold greenFunction
  rw [List.foldl_reverse, List.range_eq_range']
  have : ∀ c s, List.foldr (fun i g => 1 / ((⟨e, d⟩ : ℂ) - a i - (b i : ℂ) ^ 2 * g)) 0 (List.range' s c) = cfrac ⟨e, d⟩ a b c s := by
    intro c
    induction c with
    | zero => intro s; rfl
    | succ c ih =>
      intro s
      rw [List.range'_succ, List.foldr_cons, ih]
      rfl
  exact this depth 0

theorem cfrac_im (z : ℂ) (hz : 0 < z.im) (a : ℕ → ℂ) (b : ℕ → ℝ) (c : ℕ) :
    ∀ s, (∀ i, s ≤ i → i < s + c → (a i).im = 0) → (cfrac z a b c s).im ≤ 0 ∧ (0 < c → (cfrac z a b c s).im < 0) ∧
      (0 < c → z - a s - (b s : ℂ) ^ 2 * cfrac z a b (c - 1) (s + 1) ≠ 0) ∧ ‖cfrac z a b c s‖ ≤ 1 / z.im := by
  induction c with
  | zero =>
    intro s _
    refine ⟨by simp [cfrac], by simp, by simp, ?_⟩
    simp only [cfrac, norm_zero]
    positivity
  | succ c ih =>
    intro s ha
    obtain ⟨h1, -⟩ := ih (s + 1) fun i h1 h2 => ha i (by omega) (by omega)
    have has := ha s le_rfl (by omega)
    have him : z.im ≤ (z - a s - (b s : ℂ) ^ 2 * cfrac z a b c (s + 1)).im := by
      have : ((b s : ℂ) ^ 2 * cfrac z a b c (s + 1)).im = b s ^ 2 * (cfrac z a b c (s + 1)).im := by
        rw [← Complex.ofReal_pow, Complex.im_ofReal_mul]
      rw [Complex.sub_im, Complex.sub_im, has, this]
      nlinarith [sq_nonneg (b s)]
    set w := z - a s - (b s : ℂ) ^ 2 * cfrac z a b c (s + 1) with hw
    have hwim : 0 < w.im := lt_of_lt_of_le hz him
    have hw0 : w ≠ 0 := by
      intro h
      rw [h] at hwim
      simp at hwim
    have hc : cfrac z a b (c + 1) s = w⁻¹ := by rw [cfrac, ← hw, one_div]
    have hneg : (cfrac z a b (c + 1) s).im < 0 := by
      rw [hc, Complex.inv_im]
      have := Complex.normSq_pos.2 hw0
      rw [neg_div]
      exact neg_lt_zero.2 (div_pos hwim this)
    refine ⟨hneg.le, fun _ => hneg, fun _ => hw0, ?_⟩
    rw [hc, norm_inv, one_div]
    apply inv_anti₀ hz
    exact him.trans ((le_abs_self _).trans (Complex.abs_im_le_norm w))

/-! ## The resolvent -/

/-- Coefficients of the solution along the chain. -/
noncomputable def xs (z : ℂ) (a : ℕ → ℂ) (b : ℕ → ℝ) (N : ℕ) : ℕ → ℂ
  | 0 => cfrac z a b N 0
  | s + 1 => (b s : ℂ) * cfrac z a b (N - (s + 1)) (s + 1) * xs z a b N s

theorem xs_eq (z : ℂ) (hz : 0 < z.im) (a : ℕ → ℂ) (b : ℕ → ℝ) (N : ℕ) (ha : ∀ i < N, (a i).im = 0) (s : ℕ) (hs : s < N) :
    (z - a s) * xs z a b N s - (b s : ℂ) * xs z a b N (s + 1) = if s = 0 then 1 else (b (s - 1) : ℂ) * xs z a b N (s - 1) := by
  obtain ⟨c, rfl⟩ : ∃ c, N = s + (c + 1) := ⟨N - s - 1, by omega⟩
  obtain ⟨-, -, h3, -⟩ := cfrac_im z hz a b (c + 1) s fun i _ h2 => ha i h2
  replace h3 := h3 (by omega)
  have hg : (z - a s - (b s : ℂ) ^ 2 * cfrac z a b c (s + 1)) * cfrac z a b (c + 1) s = 1 := by
    rw [cfrac]
    rw [Nat.add_sub_cancel] at h3
    field_simp
  have hx : xs z a b (s + (c + 1)) (s + 1) = (b s : ℂ) * cfrac z a b c (s + 1) * xs z a b (s + (c + 1)) s := by
    rw [xs, show s + (c + 1) - (s + 1) = c by omega]
  rw [hx]
  cases s with
  | zero =>
    rw [if_pos rfl, xs]
    rw [Nat.zero_add] at *
    linear_combination hg
  | succ s =>
    rw [if_neg (by omega), Nat.add_sub_cancel]
    have hx2 : xs z a b (s + 1 + (c + 1)) (s + 1) = (b s : ℂ) * cfrac z a b (c + 1) (s + 1) * xs z a b (s + 1 + (c + 1)) s := by
      rw [xs, show s + 1 + (c + 1) - (s + 1) = c + 1 by omega]
    rw [hx2]
    linear_combination ((b s : ℂ) * xs z a b (s + 1 + (c + 1)) s) * hg

theorem xs_last (z : ℂ) (a : ℕ → ℂ) (b : ℕ → ℝ) (N : ℕ) (hN : 1 ≤ N) : xs z a b N N = 0 := by
  obtain ⟨k, rfl⟩ : ∃ k, N = k + 1 := ⟨N - 1, by omega⟩
  rw [xs, Nat.sub_self]
  simp [cfrac]

theorem resolvent_sum (z : ℂ) (hz : 0 < z.im) (a : ℕ → ℂ) (b : ℕ → ℝ) (N : ℕ) (v : ℕ → CVec n)
    (hr0 : A.mulVec (v 0) = a 0 • v 0 + (b 0 : ℂ) • v 1)
    (hr : ∀ k, k + 1 < N → A.mulVec (v (k + 1)) = (b k : ℂ) • v k + a (k + 1) • v (k + 1) + (b (k + 1) : ℂ) • v (k + 2))
    (ha : ∀ i < N, (a i).im = 0) (K : ℕ) (hK : K < N) :
    (z • (1 : Matrix (Fin n) (Fin n) ℂ) - A).mulVec (∑ s ∈ Finset.range (K + 1), xs z a b N s • v s) =
      v 0 + ((b K : ℂ) * xs z a b N (K + 1)) • v K - ((b K : ℂ) * xs z a b N K) • v (K + 1) := by
  have hsingle : ∀ (c : ℂ) (x : CVec n), (z • (1 : Matrix (Fin n) (Fin n) ℂ) - A).mulVec (c • x) = c • (z • x - A.mulVec x) := by
    intro c x
    rw [Matrix.mulVec_smul, Matrix.sub_mulVec, Matrix.smul_mulVec, Matrix.one_mulVec]
  induction K with
  | zero =>
    have h := xs_eq z hz a b N ha 0 hK
    rw [if_pos rfl] at h
    rw [Finset.sum_range_one, hsingle, hr0]
    funext i
    simp only [Pi.smul_apply, Pi.sub_apply, Pi.add_apply, smul_eq_mul]
    linear_combination (v 0 i) * h
  | succ K ih =>
    have h := xs_eq z hz a b N ha (K + 1) hK
    rw [if_neg (by omega), Nat.add_sub_cancel] at h
    rw [Finset.sum_range_succ, Matrix.mulVec_add, ih (by omega), hsingle, hr K hK]
    funext i
    simp only [Pi.smul_apply, Pi.sub_apply, Pi.add_apply, smul_eq_mul]
    linear_combination (v (K + 1) i) * h

theorem resolvent_unit (hA : A.IsHermitian) (z : ℂ) (hz : 0 < z.im) : IsUnit (z • (1 : Matrix (Fin n) (Fin n) ℂ) - A) := by
  rw [← Matrix.mulVec_injective_iff_isUnit]
  intro x y hxy
  have h0 : (z • (1 : Matrix (Fin n) (Fin n) ℂ) - A).mulVec (x - y) = 0 := by
    rw [Matrix.mulVec_sub]
    exact sub_eq_zero.2 hxy
  generalize hu : x - y = u at h0
  have h1 : A.mulVec u = z • u := by
    rw [Matrix.sub_mulVec, Matrix.smul_mulVec, Matrix.one_mulVec, sub_eq_zero] at h0
    exact h0.symm
  have h2 := innerProd_herm A hA u u
  rw [h1, innerProd_smul, innerProd_smul_left, innerProd_self_eq] at h2
  have h3 : (z - star z) * ((normZ u ^ 2 : ℝ) : ℂ) = 0 := by rw [sub_mul, h2, sub_self]
  have h4 : z - star z ≠ 0 := by
    intro h
    have := congrArg Complex.im h
    simp at this
    linarith
  have h5 : normZ u = 0 := by
    rcases mul_eq_zero.1 h3 with h | h
    · exact absurd h h4
    · have : normZ u ^ 2 = 0 := by exact_mod_cast h
      simpa using this
  have h6 := (normZ_eq_zero u).1 h5
  rw [← hu] at h6
  exact sub_eq_zero.1 h6

theorem green_chain (hA : A.IsHermitian) (h0 : innerProd v0 v0 = 1) (z : ℂ) (hz : 0 < z.im) (N : ℕ) (hN : 1 ≤ N)
    (hb : ∀ i, i + 1 < N → lb A v0 i ≠ 0) :
    ∃ x : CVec n, ∃ c : ℂ, (z • (1 : Matrix (Fin n) (Fin n) ℂ) - A).mulVec x = v0 - (lb A v0 (N - 1) * c : ℂ) • lv A v0 N ∧
      innerProd v0 x = cfrac z (la A v0) (lb A v0) N 0 := by
  obtain ⟨K, rfl⟩ : ∃ K, N = K + 1 := ⟨N - 1, by omega⟩
  have hs := resolvent_sum (A := A) z hz (la A v0) (lb A v0) (K + 1) (lv A v0) (rec_zero A v0) (fun k _ => rec_succ A v0 k)
    (fun i _ => Complex.conj_eq_iff_im.1 (la_real hA i)) K (by omega)
  refine ⟨_, xs z (la A v0) (lb A v0) (K + 1) K, hs.trans ?_, ?_⟩
  · rw [xs_last _ _ _ _ hN, mul_zero, zero_smul, add_zero]
    rfl
  · have ho := chain_orthonormal hA h0 K fun i hi => hb i (by omega)
    have : ∀ M ≤ K, innerProd v0 (∑ s ∈ Finset.range (M + 1), xs z (la A v0) (lb A v0) (K + 1) s • lv A v0 s) =
        cfrac z (la A v0) (lb A v0) (K + 1) 0 := by
      intro M
      induction M with
      | zero =>
        intro _
        rw [Finset.sum_range_one, innerProd_smul]
        have := ho 0 (by omega) 0 (by omega)
        rw [if_pos rfl] at this
        rw [show innerProd v0 (lv A v0 0) = 1 from this, mul_one]
        rfl
      | succ M ih =>
        intro hM
        rw [Finset.sum_range_succ, innerProd_add, ih (by omega), innerProd_smul]
        have := ho 0 (by omega) (M + 1) hM
        rw [if_neg (by omega)] at this
        rw [show innerProd v0 (lv A v0 (M + 1)) = 0 from this, mul_zero, add_zero]
    exact this K le_rfl

/-- The continued fraction is the diagonal element of the resolvent when the recursion terminates. -/
theorem green_exact (hA : A.IsHermitian) (h0 : innerProd v0 v0 = 1) (z : ℂ) (hz : 0 < z.im) (N : ℕ) (hN : 1 ≤ N)
    (hb : ∀ i, i + 1 < N → lb A v0 i ≠ 0) (hl : lb A v0 (N - 1) = 0) :
    cfrac z (la A v0) (lb A v0) N 0 = innerProd v0 ((z • (1 : Matrix (Fin n) (Fin n) ℂ) - A)⁻¹.mulVec v0) := by
  obtain ⟨x, c, h1, h2⟩ := green_chain hA h0 z hz N hN hb
  rw [hl] at h1
  simp only [Complex.ofReal_zero, zero_mul, zero_smul, sub_zero] at h1
  have hu := resolvent_unit (A := A) hA z hz
  rw [← h2, ← h1, Matrix.mulVec_mulVec, Matrix.nonsing_inv_mul _ ((Matrix.isUnit_iff_isUnit_det _).1 hu), Matrix.one_mulVec]

theorem cfrac_congr (z : ℂ) (a a' : ℕ → ℂ) (b b' : ℕ → ℝ) (c : ℕ) :
    ∀ s, (∀ i, s ≤ i → i < s + c → a i = a' i ∧ b i = b' i) → cfrac z a b c s = cfrac z a' b' c s := by
  induction c with
  | zero => intro s _; rfl
  | succ c ih =>
    intro s h
    rw [cfrac, cfrac, (h s le_rfl (by omega)).1, (h s le_rfl (by omega)).2, ih (s + 1) fun i h1 h2 => h i (by omega) (by omega)]

end Verif.Tbpm

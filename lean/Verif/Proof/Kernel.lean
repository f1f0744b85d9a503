import Verif.Spec.Kernel

/-! # Proofs about the sparse kernels and the Chebyshev recurrences -/

namespace Verif.Tbpm
open Matrix

variable {n : ℕ} {B : Type*} [DecidableEq B]

/-! ## Sparse kernels -/

theorem inner_pure (i : Fin n) (f : ℕ → ℂ) (L : List ℕ) (out : CVec n) :
    L.foldl (fun out j => Function.update out i (f j + out i)) out = Function.update out i ((L.map f).sum + out i) := by
  induction L generalizing out with
  | nil => simp
  | cons j L ih =>
    rw [List.foldl_cons, ih]
    simp only [Function.update_self, Function.update_idem, List.map_cons, List.sum_cons]
    congr 1
    ring

/-- Sum over the entries of a row. -/
def rowSum (m : FCsr) (x : CVec n) (i : ℕ) : ℂ := ((m.rowRange i).map fun j => m.values j * rd x (m.indices j)).sum

theorem rowSum_eq (m : FCsr) (x : CVec n) (hm : m.Legal n) (i : Fin n) : rowSum m x i = (m.toMatrix n).mulVec x i := by
  unfold rowSum Matrix.mulVec dotProduct FCsr.toMatrix FCsr.rowRange
  simp only [Matrix.of_apply]
  have h : ∀ j ∈ List.range' (m.indptr i) (m.indptr (i + 1) - m.indptr i), m.indices j < n := by
    intro j hj
    rw [List.mem_range'_1] at hj
    exact hm i i.2 j hj.1 (by omega)
  generalize List.range' (m.indptr i) (m.indptr (i + 1) - m.indptr i) = L at h
  induction L with
  | nil => simp
  | cons j L ih =>
    simp only [List.map_cons, List.sum_cons, add_mul, Finset.sum_add_distrib]
    rw [ih fun k hk => h k (by simp [hk])]
    congr 1
    have hj := h j (by simp)
    rw [Finset.sum_eq_single (⟨m.indices j, hj⟩ : Fin n)]
    · simp [rd, hj]
    · intro b _ hb
      rw [if_neg, zero_mul]
      intro e
      exact hb (Fin.ext e.symm)
    · simp

theorem outer_pure (f : Fin n → ℂ) (b : Fin n → ℂ → ℂ) (ord : List (Fin n)) (hnd : ord.Nodup) (out : CVec n) :
    ord.foldl (fun out i => Function.update out i (f i + b i (out i))) out =
      fun i => if i ∈ ord then f i + b i (out i) else out i := by
  induction ord generalizing out with
  | nil => rfl
  | cons a ord ih =>
    rw [List.nodup_cons] at hnd
    rw [List.foldl_cons, ih hnd.2]
    funext i
    by_cases hia : i = a
    · subst hia
      simp [hnd.1]
    · by_cases hio : i ∈ ord <;> simp [hia, hio]

theorem order_mem {ord : List (Fin n)} (h : IsOrder ord) (i : Fin n) : i ∈ ord := h.mem_iff.2 (List.mem_finRange i)

theorem order_nodup {ord : List (Fin n)} (h : IsOrder ord) : ord.Nodup := h.nodup_iff.2 (List.nodup_finRange n)

theorem rowsPure_eq (ord : List (Fin n)) (ho : IsOrder ord) (a : ℂ) (m : FCsr) (hm : m.Legal n) (x out : CVec n) :
    rowsPure ord a m x out = a • (m.toMatrix n).mulVec x + out := by
  unfold rowsPure
  have h1 : ∀ (out : CVec n) (i : Fin n), (m.rowRange i).foldl (fun out j =>
      Function.update out i (a * m.values j * rd x (m.indices j) + out i)) out =
      Function.update out i (a * rowSum m x i + out i) := by
    intro out i
    rw [inner_pure i (fun j => a * m.values j * rd x (m.indices j))]
    unfold rowSum
    rw [← List.sum_map_mul_left]
    simp only [mul_assoc]
  simp only [h1]
  rw [outer_pure (fun i => a * rowSum m x i) (fun _ z => z) ord (order_nodup ho)]
  funext i
  rw [if_pos (order_mem ho i), rowSum_eq m x hm]
  rfl

theorem amv_eq (ord : List (Fin n)) (ho : IsOrder ord) (a : ℂ) (m : FCsr) (hm : m.Legal n) (x : CVec n) :
    amv ord a m x = a • (m.toMatrix n).mulVec x := by
  rw [amv, rowsPure_eq ord ho a m hm, add_zero]

theorem csrMv_eq (ord : List (Fin n)) (ho : IsOrder ord) (m : FCsr) (hm : m.Legal n) (x : CVec n) :
    csrMv ord m x = (m.toMatrix n).mulVec x := by
  rw [csrMv, rowsPure_eq ord ho 1 m hm, add_zero, one_smul]

theorem inner_mem (a : ℂ) (m : FCsr) (pin pout : B) (hp : pin ≠ pout) (i : Fin n) (L : List ℕ) (mem : B → CVec n) :
    L.foldl (fun mem j => Mem.put mem pout i (a * m.values j * rd (mem pin) (m.indices j) + mem pout i)) mem =
      Function.update mem pout (L.foldl (fun out j => Function.update out i
        (a * m.values j * rd (mem pin) (m.indices j) + out i)) (mem pout)) := by
  induction L generalizing mem with
  | nil => simp
  | cons j L ih =>
    rw [List.foldl_cons, ih]
    simp only [Mem.put, Function.update_self, Function.update_of_ne hp, Function.update_idem, List.foldl_cons]

theorem amxpby_eq (ord : List (Fin n)) (ho : IsOrder ord) (a : ℂ) (m : FCsr) (hm : m.Legal n) (pin : B) (b : ℂ) (pout : B)
    (hp : pin ≠ pout) (mem : B → CVec n) :
    amxpby ord a m pin b pout mem =
      Function.update mem pout (a • (m.toMatrix n).mulVec (mem pin) + b • mem pout) := by
  have h1 : ∀ (ord : List (Fin n)) (mem : B → CVec n), amxpby ord a m pin b pout mem = Function.update mem pout
      (ord.foldl (fun out i => Function.update out i (a * rowSum m (mem pin) i + b * out i)) (mem pout)) := by
    intro ord
    induction ord with
    | nil => intro mem; simp [amxpby]
    | cons i ord ih =>
      intro mem
      have hcons : amxpby (i :: ord) a m pin b pout mem = amxpby ord a m pin b pout ((m.rowRange i).foldl (fun mem j =>
        Mem.put mem pout i (a * m.values j * rd (mem pin) (m.indices j) + mem pout i)) (Mem.put mem pout i (b * mem pout i))) := rfl
      rw [hcons, ih, inner_mem a m pin pout hp i]
      simp only [Mem.put, Function.update_self, Function.update_of_ne hp, Function.update_idem, List.foldl_cons]
      congr 2
      rw [inner_pure i (fun j => a * m.values j * rd (mem pin) (m.indices j))]
      simp only [Function.update_self, Function.update_idem]
      congr 2
      unfold rowSum
      rw [← List.sum_map_mul_left]
      simp only [mul_assoc]
  rw [h1, outer_pure (fun i => a * rowSum m (mem pin) i) (fun _ z => b * z) ord (order_nodup ho)]
  congr 1
  funext i
  rw [if_pos (order_mem ho i), rowSum_eq m _ hm]
  rfl

theorem amxpy_eq (ord : List (Fin n)) (ho : IsOrder ord) (a : ℂ) (m : FCsr) (hm : m.Legal n) (pin pout : B)
    (hp : pin ≠ pout) (mem : B → CVec n) :
    amxpy ord a m pin pout mem = Function.update mem pout (a • (m.toMatrix n).mulVec (mem pin) + mem pout) := by
  have h1 : ∀ (ord : List (Fin n)) (mem : B → CVec n), amxpy ord a m pin pout mem = Function.update mem pout
      (rowsPure ord a m (mem pin) (mem pout)) := by
    intro ord
    induction ord with
    | nil => intro mem; simp [amxpy, rowsPure]
    | cons i ord ih =>
      intro mem
      have hcons : amxpy (i :: ord) a m pin pout mem = amxpy ord a m pin pout ((m.rowRange i).foldl (fun mem j =>
        Mem.put mem pout i (a * m.values j * rd (mem pin) (m.indices j) + mem pout i)) mem) := rfl
      rw [hcons, ih, inner_mem a m pin pout hp i]
      simp only [Function.update_self, Function.update_of_ne hp, Function.update_idem]
      rfl
  rw [h1, rowsPure_eq ord ho a m hm]

/-! ## Chebyshev recurrences -/

theorem chebT_zero (M : Matrix (Fin n) (Fin n) ℂ) : chebT 0 M = 1 := by simp [chebT]

theorem chebT_one (M : Matrix (Fin n) (Fin n) ℂ) : chebT 1 M = M := by simp [chebT]

theorem chebT_succ (k : ℕ) (M : Matrix (Fin n) (Fin n) ℂ) : chebT (k + 2) M = 2 * M * chebT (k + 1) M - chebT k M := by
  have := Polynomial.Chebyshev.T_add_two ℂ (k : ℤ)
  unfold chebT
  push_cast
  rw [this]
  simp only [map_sub, map_mul, Polynomial.aeval_X, map_ofNat]

/-- The vectors of the recurrence of the time step: `(-i)^k T_k(M) ψ` or, backwards, `i^k T_k(M) ψ`. -/
noncomputable def tvec (c : ℂ) (M : Matrix (Fin n) (Fin n) ℂ) (x : CVec n) (k : ℕ) : CVec n := (c ^ k) • (chebT k M).mulVec x

theorem tvec_succ (c : ℂ) (hc : c ^ 2 = -1) (M : Matrix (Fin n) (Fin n) ℂ) (x : CVec n) (k : ℕ) :
    tvec c M x (k + 2) = (2 * c) • M.mulVec (tvec c M x (k + 1)) + tvec c M x k := by
  unfold tvec
  rw [chebT_succ, Matrix.sub_mulVec, Matrix.mulVec_smul, smul_sub, smul_smul]
  have h2 : c ^ (k + 2) = -c ^ k := by rw [pow_add, hc]; ring
  have h3 : 2 * c * c ^ (k + 1) = 2 * c ^ (k + 2) := by ring
  have h4 : (2 : Matrix (Fin n) (Fin n) ℂ) * M * chebT (k + 1) M = (2 : ℂ) • (M * chebT (k + 1) M) := by
    rw [mul_assoc, two_mul, two_smul]
  rw [h3, h2, h4, Matrix.smul_mulVec, ← Matrix.mulVec_mulVec, smul_smul, neg_smul (c ^ k), sub_neg_eq_add, mul_comm (2 : ℂ)]

theorem cheb_loop (sch : ℕ → List (Fin n)) (hs : ∀ k, IsOrder (sch k)) (c : ℂ) (hc : c ^ 2 = -1) (m : FCsr) (hm : m.Legal n)
    (bes : ℕ → ℝ) (x : CVec n) (k : ℕ) (out : CVec n) :
    ∃ mem p0, (List.range' 4 k).foldl (chebBody sch (2 * c) m bes)
        ⟨fun p => if p then tvec c (m.toMatrix n) x 2 else tvec c (m.toMatrix n) x 1, false, true, out⟩ =
      ⟨mem, p0, !p0, out + ∑ i ∈ Finset.range k, ((2 * bes (i + 3) : ℝ) : ℂ) • tvec c (m.toMatrix n) x (i + 3)⟩ ∧
      mem p0 = tvec c (m.toMatrix n) x (k + 1) ∧ mem (!p0) = tvec c (m.toMatrix n) x (k + 2) := by
  induction k with
  | zero => exact ⟨_, false, by simp; rfl, by simp, by simp⟩
  | succ k ih =>
    obtain ⟨mem, p0, h1, h2, h3⟩ := ih
    rw [List.range'_concat, List.foldl_append, h1]
    simp only [List.foldl_cons, List.foldl_nil, chebBody]
    have hne : (!p0) ≠ p0 := by cases p0 <;> simp
    rw [amxpy_eq _ (hs _) _ m hm _ _ hne, h2, h3, ← tvec_succ c hc]
    refine ⟨Function.update mem p0 (tvec c (m.toMatrix n) x (k + 1 + 2)), !p0, ?_, ?_, ?_⟩
    · rw [Bool.not_not]
      congr 1
      rw [Function.update_self, Finset.sum_range_succ, ← add_assoc]
      funext i
      simp only [axpy, Pi.add_apply, Pi.smul_apply, smul_eq_mul]
      rw [show 4 + 1 * k - 1 = k + 3 by omega]
      ring
    · rw [Function.update_of_ne hne, h3]
    · rw [Bool.not_not, Function.update_self]

theorem chebWfTimestep_eq (sch : ℕ → List (Fin n)) (hs : ∀ k, IsOrder (sch k)) (m : FCsr) (hm : m.Legal n) (bes : ℕ → ℝ)
    (size : ℕ) (x : CVec n) (fwd : Bool) (c : ℂ) (hc : c = if fwd then -Complex.I else Complex.I) :
    chebWfTimestep sch m bes size x fwd =
      (bes 0 : ℂ) • x + ∑ k ∈ Finset.Ico 1 (max size 3), ((2 * bes k : ℝ) : ℂ) • tvec c (m.toMatrix n) x k := by
  have hc2 : c ^ 2 = -1 := by rw [hc]; cases fwd <;> simp
  have hd : -(if fwd then Complex.I else -Complex.I) = c := by rw [hc]; cases fwd <;> simp
  have hd2 : -2 * (if fwd then Complex.I else -Complex.I) = 2 * c := by rw [← hd]; ring
  have t1 : amv (sch 1) (-(if fwd then Complex.I else -Complex.I)) m x = tvec c (m.toMatrix n) x 1 := by
    rw [amv_eq _ (hs 1) _ m hm, hd, tvec, chebT_one, pow_one]
  have t2 : (fun i : Fin n => amv (sch 2) (-2 * (if fwd then Complex.I else -Complex.I)) m (tvec c (m.toMatrix n) x 1) i + x i) =
      tvec c (m.toMatrix n) x 2 := by
    rw [amv_eq _ (hs 2) _ m hm, hd2, tvec_succ c hc2]
    have : tvec c (m.toMatrix n) x 0 = x := by simp [tvec, chebT_zero]
    rw [this]
    rfl
  unfold chebWfTimestep
  simp only [t1]
  rw [t2]
  simp only [hd2]
  obtain ⟨mem, p0, h1, -, -⟩ := cheb_loop sch hs c hc2 m hm bes x (size - 3)
    (axpbypcz (bes 0) x (2 * bes 1) (tvec c (m.toMatrix n) x 1) (2 * bes 2) (tvec c (m.toMatrix n) x 2))
  rw [h1]
  simp only
  have hmax : max size 3 = 3 + (size - 3) := by omega
  rw [hmax, ← Finset.sum_Ico_consecutive _ (show 1 ≤ 3 by norm_num) (show 3 ≤ 3 + (size - 3) by omega), ← add_assoc]
  congr 1
  · funext i
    rw [Finset.sum_Ico_succ_top (by norm_num), Finset.sum_Ico_succ_top (by norm_num)]
    simp [axpbypcz]
    ring
  · rw [Finset.sum_Ico_eq_sum_range]
    apply Finset.sum_congr (by congr 1; omega)
    intro i _
    rw [add_comm 3 i]

/-- The vectors of the recurrence of the Fermi operator. -/
noncomputable def fvec (M : Matrix (Fin n) (Fin n) ℂ) (x : CVec n) (k : ℕ) : CVec n := (chebT k M).mulVec x

theorem fvec_succ (M : Matrix (Fin n) (Fin n) ℂ) (x : CVec n) (k : ℕ) :
    fvec M x (k + 2) = (2 : ℂ) • M.mulVec (fvec M x (k + 1)) - fvec M x k := by
  unfold fvec
  have h4 : (2 : Matrix (Fin n) (Fin n) ℂ) * M * chebT (k + 1) M = (2 : ℂ) • (M * chebT (k + 1) M) := by
    rw [mul_assoc, two_mul, two_smul]
  rw [chebT_succ, Matrix.sub_mulVec, h4, Matrix.smul_mulVec, ← Matrix.mulVec_mulVec]

theorem fermi_loop (sch : ℕ → List (Fin n)) (hs : ∀ k, IsOrder (sch k)) (m : FCsr) (hm : m.Legal n)
    (coef : ℕ → ℝ) (x : CVec n) (k : ℕ) (out : CVec n) :
    ∃ mem p0, (List.range' 4 k).foldl (fermiBody sch m coef)
        ⟨fun p => if p then fvec (m.toMatrix n) x 2 else fvec (m.toMatrix n) x 1, false, true, out⟩ =
      ⟨mem, p0, !p0, out + ∑ i ∈ Finset.range k, (coef (i + 3) : ℂ) • fvec (m.toMatrix n) x (i + 3)⟩ ∧
      mem p0 = fvec (m.toMatrix n) x (k + 1) ∧ mem (!p0) = fvec (m.toMatrix n) x (k + 2) := by
  induction k with
  | zero => exact ⟨_, false, by simp; rfl, by simp, by simp⟩
  | succ k ih =>
    obtain ⟨mem, p0, h1, h2, h3⟩ := ih
    rw [List.range'_concat, List.foldl_append, h1]
    simp only [List.foldl_cons, List.foldl_nil, fermiBody]
    have hne : (!p0) ≠ p0 := by cases p0 <;> simp
    have hnew : (2 : ℂ) • (m.toMatrix n).mulVec (fvec (m.toMatrix n) x (k + 2)) + (-1 : ℂ) • fvec (m.toMatrix n) x (k + 1) =
        fvec (m.toMatrix n) x (k + 3) := by
      rw [fvec_succ (m.toMatrix n) x (k + 1), neg_one_smul, sub_eq_add_neg]
    rw [amxpby_eq _ (hs _) _ m hm _ _ _ hne, h2, h3, hnew]
    refine ⟨Function.update mem p0 (fvec (m.toMatrix n) x (k + 1 + 2)), !p0, ?_, ?_, ?_⟩
    · rw [Bool.not_not]
      congr 1
      rw [Function.update_self, Finset.sum_range_succ, ← add_assoc]
      funext i
      simp only [axpy, Pi.add_apply, Pi.smul_apply, smul_eq_mul]
      rw [show 4 + 1 * k - 1 = k + 3 by omega]
      ring
    · rw [Function.update_of_ne hne, h3]
    · rw [Bool.not_not, Function.update_self]

theorem fermiOp_eq (sch : ℕ → List (Fin n)) (hs : ∀ k, IsOrder (sch k)) (m : FCsr) (hm : m.Legal n) (coef : ℕ → ℝ)
    (size : ℕ) (x : CVec n) : fermiOp sch m coef size x =
      ∑ k ∈ Finset.range (max size 3), (coef k : ℂ) • (chebT k (m.toMatrix n)).mulVec x := by
  have t1 : csrMv (sch 1) m x = fvec (m.toMatrix n) x 1 := by
    rw [csrMv_eq _ (hs 1) m hm, fvec, chebT_one]
  have t2 : (fun i => amv (sch 2) 2 m (fvec (m.toMatrix n) x 1) i - x i) = fvec (m.toMatrix n) x 2 := by
    rw [amv_eq _ (hs 2) _ m hm, fvec_succ]
    have : fvec (m.toMatrix n) x 0 = x := by simp [fvec, chebT_zero]
    rw [this]
    rfl
  unfold fermiOp
  simp only [t1, t2]
  obtain ⟨mem, p0, h1, -, -⟩ := fermi_loop sch hs m hm coef x (size - 3)
    (axpbypcz (coef 0) x (coef 1) (fvec (m.toMatrix n) x 1) (coef 2) (fvec (m.toMatrix n) x 2))
  rw [h1]
  simp only
  have hmax : max size 3 = 3 + (size - 3) := by omega
  rw [hmax, Finset.sum_range_add]
  congr 1
  · funext i
    simp only [Finset.sum_range_succ, Finset.sum_range_zero, axpbypcz, fvec, chebT_zero, Matrix.one_mulVec, Pi.add_apply,
      Pi.smul_apply, smul_eq_mul, Pi.zero_apply, zero_add]
  · apply Finset.sum_congr rfl
    intro i _
    rw [add_comm 3 i]
    rfl

end Verif.Tbpm

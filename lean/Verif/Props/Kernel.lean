import Verif.Proof.KernelCheb
import Verif.Props.Csr
import Mathlib.LinearAlgebra.Matrix.Notation
import Mathlib.Tactic.FinCases

/-! # Propagation kernels: C54–C57, C62, C69, C79, C80 -/

namespace Verif.Tbpm
open Matrix

variable {n : ℕ} {B : Type*} [DecidableEq B]

/-! ## Witness: a dimer with hopping 1 -/

/-- CSR arrays of the matrix `((0, 1), (1, 0))`. -/
def dimer : FCsr := ⟨fun k => k, fun k => 1 - k, fun _ => 1⟩

theorem dimer_legal : dimer.Legal 2 := by
  intro i hi j h1 h2
  simp only [dimer] at *
  omega

theorem dimer_matrix : dimer.toMatrix 2 = !![0, 1; 1, 0] := by
  ext a b
  fin_cases a <;> fin_cases b <;> simp [FCsr.toMatrix, dimer]

theorem dimer_hermitian : (dimer.toMatrix 2).IsHermitian := by
  rw [dimer_matrix]
  ext a b
  fin_cases a <;> fin_cases b <;> simp

/-- Schedules that alternate between the two orders of two rows. -/
def flip (k : ℕ) : List (Fin 2) := if k % 2 = 0 then [0, 1] else [1, 0]

theorem flip_order (k : ℕ) : IsOrder (flip k) := by
  unfold flip IsOrder
  split
  · exact List.Perm.refl _
  · exact List.Perm.swap 0 1 []

/-! ## C69 -/

/-- C69: the product of a sparse matrix and a vector, for every order of the rows. -/
theorem C69_product (ord : List (Fin n)) (ho : IsOrder ord) (a : ℂ) (m : FCsr) (hm : m.Legal n) (x : CVec n) :
    csrMv ord m x = (m.toMatrix n).mulVec x ∧ amv ord a m x = a • (m.toMatrix n).mulVec x :=
  ⟨csrMv_eq ord ho m hm x, amv_eq ord ho a m hm x⟩

/-- C69: the kernels which add to a buffer, for every order of the rows; all other buffers are left alone.  The buffers must
differ. -/
theorem C69_update (ord : List (Fin n)) (ho : IsOrder ord) (a b : ℂ) (m : FCsr) (hm : m.Legal n) (pin pout : B)
    (hp : pin ≠ pout) (mem : B → CVec n) :
    amxpy ord a m pin pout mem pout = a • (m.toMatrix n).mulVec (mem pin) + mem pout ∧
    amxpby ord a m pin b pout mem pout = a • (m.toMatrix n).mulVec (mem pin) + b • mem pout ∧
    (∀ p, p ≠ pout → amxpy ord a m pin pout mem p = mem p ∧ amxpby ord a m pin b pout mem p = mem p) := by
  rw [amxpy_eq ord ho a m hm pin pout hp, amxpby_eq ord ho a m hm pin b pout hp]
  refine ⟨by simp, by simp, fun p h => ?_⟩
  simp [h]

/-- C69: with one buffer for input and output the result depends on the order of the rows. -/
theorem C69_aliasing : ∃ mem : Unit → CVec 2,
    amxpy [0, 1] 1 dimer () () mem () ≠ amxpy [1, 0] 1 dimer () () mem () := by
  refine ⟨fun _ => ![1, 0], fun h => ?_⟩
  have := congrFun h 0
  simp [amxpy, FCsr.rowRange, dimer, Mem.put, rd] at this

/-- C69: the arrays of a sample represent its Hamiltonian. -/
theorem C69_sample {c : Csr ℝ ℂ} (hc : c.Valid n) :
    (FCsr.ofSample c).Legal n ∧ ∀ a b : Fin n, (FCsr.ofSample c).toMatrix n a b = c.mat a b :=
  ⟨ofSample_legal hc, ofSample_matrix hc⟩

/-- C69: the Hamiltonian handed to the kernels is Hermitian. -/
theorem C69_sample_hermitian {f : List ℤ → List ℕ} (hf : ArgsortOK f) (junk : CsrEnt ℝ ℂ) (cutoff : ℝ) {eng : List ℝ}
    {hops : List (SCHop ℝ ℂ)} (hh : TermsInRange eng.length hops) {c : Csr ℝ ℂ}
    (hc : c = buildFast Complex.ofReal junk cutoff eng hops ∨ c = buildSafe f Complex.ofReal junk cutoff eng hops) :
    (FCsr.ofSample c).Legal eng.length ∧ ((FCsr.ofSample c).toMatrix eng.length).IsHermitian := by
  have hv : c.Valid eng.length := by
    rcases hc with rfl | rfl
    · exact C25_fast_valid Complex.ofReal junk cutoff hh
    · exact C25_safe_valid hf Complex.ofReal junk cutoff hh
  refine ⟨ofSample_legal hv, ?_⟩
  ext a b
  rw [Matrix.conjTranspose_apply, ofSample_matrix hv, ofSample_matrix hv]
  exact ((C25_hermitian hf (fun x => Complex.conj_ofReal x) junk cutoff hh hc (a := a) (b := b) ⟨by omega, by omega⟩
    ⟨by omega, by omega⟩).1).symm

example : amv (flip 1) 2 dimer ![1, 3] = ![6, 2] := by
  rw [(C69_product (flip 1) (flip_order 1) 2 dimer dimer_legal _).2, dimer_matrix]
  ext i
  fin_cases i <;> simp [mulVec, dotProduct] <;> norm_num

/-! ## C54, C79 -/

/-- C54: a propagation step is the Chebyshev series with the given coefficients, for every schedule.  Missing: series of fewer than
three coefficients, see `C54_short_series`. -/
theorem C54_timestep_partial (sch : ℕ → List (Fin n)) (hs : ∀ k, IsOrder (sch k)) (m : FCsr) (hm : m.Legal n) (bes : ℕ → ℝ)
    (size : ℕ) (h3 : 3 ≤ size) (x : CVec n) :
    chebWfTimestep sch m bes size x true = (bes 0 : ℂ) • x +
      ∑ k ∈ Finset.Ico 1 size, (2 * bes k * (-Complex.I) ^ k) • (chebT k (m.toMatrix n)).mulVec x ∧
    chebWfTimestep sch m bes size x false = (bes 0 : ℂ) • x +
      ∑ k ∈ Finset.Ico 1 size, (2 * bes k * Complex.I ^ k) • (chebT k (m.toMatrix n)).mulVec x := by
  constructor
  · rw [chebWfTimestep_eq sch hs m hm bes size x true (-Complex.I) rfl, max_eq_left h3]
    congr 1
    refine Finset.sum_congr rfl fun k _ => ?_
    rw [tvec, smul_smul]
    push_cast
    rfl
  · rw [chebWfTimestep_eq sch hs m hm bes size x false Complex.I rfl, max_eq_left h3]
    congr 1
    refine Finset.sum_congr rfl fun k _ => ?_
    rw [tvec, smul_smul]
    push_cast
    rfl

/-- C54: with a series of one or two coefficients the step reads coefficients that are not part of the series. -/
theorem C54_short_series (sch : ℕ → List (Fin n)) (hs : ∀ k, IsOrder (sch k)) (m : FCsr) (hm : m.Legal n) (bes : ℕ → ℝ)
    (size : ℕ) (h3 : size < 3) (x : CVec n) :
    chebWfTimestep sch m bes size x true = (bes 0 : ℂ) • x + (2 * bes 1 * -Complex.I) • (m.toMatrix n).mulVec x -
      (2 * bes 2 : ℂ) • (chebT 2 (m.toMatrix n)).mulVec x := by
  rw [chebWfTimestep_eq sch hs m hm bes size x true (-Complex.I) rfl, max_eq_right h3.le,
    Finset.sum_Ico_succ_top (by norm_num), Finset.sum_Ico_succ_top (by norm_num)]
  simp only [Finset.Ico_self, Finset.sum_empty, zero_add, tvec, chebT_one, smul_smul]
  have : (-Complex.I) ^ 2 = -1 := by simp
  rw [this, pow_one]
  push_cast
  rw [mul_neg_one, neg_smul]
  abel

/-- C79: the backward step is the adjoint of the forward step, for every Hermitian Hamiltonian and every pair of schedules. -/
theorem C79_adjoint (sch sch' : ℕ → List (Fin n)) (hs : ∀ k, IsOrder (sch k)) (hs' : ∀ k, IsOrder (sch' k)) (m : FCsr)
    (hm : m.Legal n) (hH : (m.toMatrix n).IsHermitian) (bes : ℕ → ℝ) (size : ℕ) (x y : CVec n) :
    innerProd (chebWfTimestep sch m bes size x false) y = innerProd x (chebWfTimestep sch' m bes size y true) := by
  rw [chebWfTimestep_eq sch hs m hm bes size x false Complex.I rfl,
    chebWfTimestep_eq sch' hs' m hm bes size y true (-Complex.I) rfl, innerProd_add, innerProd_add_left, innerProd_sum,
    innerProd_sum_left, innerProd_smul, innerProd_smul_left]
  have hr : ∀ r : ℝ, star (r : ℂ) = r := fun r => Complex.conj_ofReal r
  rw [hr]
  congr 1
  refine Finset.sum_congr rfl fun k _ => ?_
  rw [innerProd_smul, innerProd_smul_left, hr, ← tvec_adjoint hH]
  simp

/-- C79: an eigenstate of the Hamiltonian is multiplied by the value of the series at its eigenvalue. -/
theorem C79_eigenstate (sch : ℕ → List (Fin n)) (hs : ∀ k, IsOrder (sch k)) (m : FCsr) (hm : m.Legal n) (bes : ℕ → ℝ)
    (size : ℕ) (h3 : 3 ≤ size) (x : CVec n) (lam : ℂ) (hx : (m.toMatrix n).mulVec x = lam • x) :
    chebWfTimestep sch m bes size x true = (bes 0 +
      ∑ k ∈ Finset.Ico 1 size, 2 * bes k * (-Complex.I) ^ k * (Polynomial.Chebyshev.T ℂ k).eval lam) • x := by
  rw [(C54_timestep_partial sch hs m hm bes size h3 x).1, add_smul, Finset.sum_smul]
  congr 1
  refine Finset.sum_congr rfl fun k _ => ?_
  rw [chebT_eigen hx, smul_smul]

/-- C79: the step is linear and commutes with the Hamiltonian. -/
theorem C79_commutes (sch sch' : ℕ → List (Fin n)) (hs : ∀ k, IsOrder (sch k)) (hs' : ∀ k, IsOrder (sch' k)) (m : FCsr)
    (hm : m.Legal n) (bes : ℕ → ℝ) (size : ℕ) (fwd : Bool) (x : CVec n) :
    chebWfTimestep sch m bes size ((m.toMatrix n).mulVec x) fwd = (m.toMatrix n).mulVec (chebWfTimestep sch' m bes size x fwd) := by
  rw [chebWfTimestep_eq sch hs m hm bes size _ fwd _ rfl, chebWfTimestep_eq sch' hs' m hm bes size x fwd _ rfl,
    Matrix.mulVec_add, Matrix.mulVec_smul, Matrix.mulVec_sum]
  congr 1
  refine Finset.sum_congr rfl fun k _ => ?_
  rw [tvec, tvec, Matrix.mulVec_smul, Matrix.mulVec_smul, Matrix.mulVec_mulVec, Matrix.mulVec_mulVec, chebT_commute]

example : (dimer.toMatrix 2).mulVec ![1, 1] = (1 : ℂ) • ![1, 1] := by
  rw [dimer_matrix]
  ext i
  fin_cases i <;> simp [mulVec, dotProduct]

example (bes : ℕ → ℝ) : chebWfTimestep flip dimer bes 4 ![1, 1] true =
    (bes 0 - 2 * Complex.I * bes 1 - 2 * bes 2 + 2 * Complex.I * bes 3) • ![1, 1] := by
  rw [C79_eigenstate flip flip_order dimer dimer_legal bes 4 (by norm_num) ![1, 1] 1
    (by rw [dimer_matrix]; ext i; fin_cases i <;> simp [mulVec, dotProduct])]
  congr 1
  simp only [Polynomial.Chebyshev.T_eval_one, mul_one]
  rw [Finset.sum_Ico_succ_top (by norm_num), Finset.sum_Ico_succ_top (by norm_num), Finset.sum_Ico_succ_top (by norm_num)]
  have h2 : (-Complex.I) ^ 2 = -1 := by simp
  have h3 : (-Complex.I) ^ 3 = Complex.I := by rw [pow_succ, h2]; ring
  simp only [h2, h3, Finset.Ico_self, Finset.sum_empty]
  ring

/-! ## C55 -/

/-- C55: the Fermi operator is the Chebyshev series with the given coefficients (the factor of the zeroth one included), for every
schedule.  Missing: fewer than three coefficients. -/
theorem C55_fermi_partial (sch : ℕ → List (Fin n)) (hs : ∀ k, IsOrder (sch k)) (m : FCsr) (hm : m.Legal n) (coef : ℕ → ℝ)
    (size : ℕ) (h3 : 3 ≤ size) (x : CVec n) : fermiOp sch m coef size x =
      ∑ k ∈ Finset.range size, (coef k : ℂ) • (chebT k (m.toMatrix n)).mulVec x := by
  rw [fermiOp_eq sch hs m hm coef size x, max_eq_left h3]

/-- C55: an eigenstate is multiplied by the value of the series at its eigenvalue, so an expansion of the occupation is applied
state by state. -/
theorem C55_eigenstate (sch : ℕ → List (Fin n)) (hs : ∀ k, IsOrder (sch k)) (m : FCsr) (hm : m.Legal n) (coef : ℕ → ℝ)
    (size : ℕ) (h3 : 3 ≤ size) (x : CVec n) (lam : ℂ) (hx : (m.toMatrix n).mulVec x = lam • x) : fermiOp sch m coef size x =
      (∑ k ∈ Finset.range size, (coef k : ℂ) * (Polynomial.Chebyshev.T ℂ k).eval lam) • x := by
  rw [C55_fermi_partial sch hs m hm coef size h3, Finset.sum_smul]
  refine Finset.sum_congr rfl fun k _ => ?_
  rw [chebT_eigen hx, smul_smul]

/-- C55: shorter series are read beyond their end. -/
theorem C55_short_series (sch : ℕ → List (Fin n)) (hs : ∀ k, IsOrder (sch k)) (m : FCsr) (hm : m.Legal n) (coef : ℕ → ℝ)
    (size : ℕ) (h3 : size < 3) (x : CVec n) : fermiOp sch m coef size x =
      (coef 0 : ℂ) • x + (coef 1 : ℂ) • (m.toMatrix n).mulVec x + (coef 2 : ℂ) • (chebT 2 (m.toMatrix n)).mulVec x := by
  rw [fermiOp_eq sch hs m hm coef size x, max_eq_right h3.le]
  simp [Finset.sum_range_succ, chebT_zero, chebT_one]

example (coef : ℕ → ℝ) : fermiOp flip dimer coef 4 ![1, 1] = ((coef 0 : ℂ) + coef 1 + coef 2 + coef 3) • ![1, 1] := by
  rw [C55_eigenstate flip flip_order dimer dimer_legal coef 4 (by norm_num) ![1, 1] 1
    (by rw [dimer_matrix]; ext i; fin_cases i <;> simp [mulVec, dotProduct])]
  congr 1
  simp [Polynomial.Chebyshev.T_eval_one, Finset.sum_range_succ]

/-! ## C56 -/

/-- C56: up to the first vanishing coefficient, the coefficients are those of an orthonormal chain starting with the given state,
on which `r H` is tridiagonal; the diagonal coefficients are real. -/
theorem C56_chain (sch : ℕ → List (Fin n)) (hs : ∀ k, IsOrder (sch k)) (m : FCsr) (hm : m.Legal n)
    (hH : (m.toMatrix n).IsHermitian) (r : ℝ) (n1 : CVec n) (h1 : innerProd n1 n1 = 1) (depth : ℕ) (hd : 1 ≤ depth)
    (d : ℕ) (hdd : d ≤ depth) (hb : ∀ i < d, (haydock sch m r n1 depth).coefb i ≠ 0) :
    let a := (haydock sch m r n1 depth).coefa
    let b := (haydock sch m r n1 depth).coefb
    let A := (r : ℂ) • m.toMatrix n
    (∀ i < depth, (a i).im = 0 ∧ 0 ≤ b i) ∧
    ∃ v : ℕ → CVec n, v 0 = n1 ∧
      (∀ i ≤ d, ∀ j ≤ d, innerProd (v i) (v j) = if i = j then 1 else 0) ∧
      (∀ i, i ≤ d → i < depth → a i = innerProd (v i) (A.mulVec (v i))) ∧
      A.mulVec (v 0) = a 0 • v 0 + (b 0 : ℂ) • v 1 ∧
      (∀ i, i + 1 ≤ d → i + 1 < depth → A.mulVec (v (i + 1)) = (b i : ℂ) • v i + a (i + 1) • v (i + 1) + (b (i + 1) : ℂ) • v (i + 2)) := by
  intro a b A
  have hA : A.IsHermitian := by
    unfold Matrix.IsHermitian
    rw [Matrix.conjTranspose_smul, hH.eq]
    congr 1
    exact Complex.conj_ofReal r
  have hc := haydock_coef sch hs m hm r n1 depth hd
  have ha : ∀ i < depth, a i = la A n1 i := fun i hi => (hc i hi).1
  have hb' : ∀ i < depth, b i = lb A n1 i := fun i hi => (hc i hi).2
  refine ⟨fun i hi => ⟨?_, ?_⟩, lv A n1, rfl, ?_, ?_, ?_, ?_⟩
  · rw [ha i hi]
    exact Complex.conj_eq_iff_im.1 (la_real hA i)
  · rw [hb' i hi, lb_eq]
    exact normZ_nonneg _
  · exact chain_orthonormal hA h1 d fun i hi => by
      rw [← hb' i (by omega)]
      exact hb i hi
  · intro i _ hi
    rw [ha i hi]
    rfl
  · rw [ha 0 (by omega), hb' 0 (by omega)]
    exact rec_zero A n1
  · intro i _ hi
    rw [ha _ hi, hb' _ hi, hb' i (by omega)]
    exact rec_succ A n1 i

private theorem smul_dimer : ((1 : ℝ) : ℂ) • dimer.toMatrix 2 = !![0, 1; 1, 0] := by
  rw [dimer_matrix, Complex.ofReal_one, one_smul]

private theorem dimer_lv0 : lv !![0, 1; 1, 0] ![1, 0] 0 = (![1, 0] : CVec 2) := rfl

private theorem dimer_la0 : la !![0, 1; 1, 0] (![1, 0] : CVec 2) 0 = 0 := by
  rw [la, dimer_lv0]
  simp [innerProd, mulVec, dotProduct]

private theorem dimer_lw0 : lw !![0, 1; 1, 0] (![1, 0] : CVec 2) 0 = ![0, 1] := by
  rw [lw_zero, dimer_la0, dimer_lv0]
  ext i
  fin_cases i <;> simp [mulVec, dotProduct]

private theorem dimer_lb0 : lb !![0, 1; 1, 0] (![1, 0] : CVec 2) 0 = 1 := by
  rw [lb_eq, dimer_lw0]
  simp [normZ, innerProd]

private theorem dimer_lv1 : lv !![0, 1; 1, 0] (![1, 0] : CVec 2) 1 = ![0, 1] := by
  rw [lv_succ, dimer_lb0, dimer_lw0]
  simp

private theorem dimer_la1 : la !![0, 1; 1, 0] (![1, 0] : CVec 2) 1 = 0 := by
  rw [la, dimer_lv1]
  simp [innerProd, mulVec, dotProduct]

private theorem dimer_lb1 : lb !![0, 1; 1, 0] (![1, 0] : CVec 2) 1 = 0 := by
  rw [lb_eq, normZ_eq_zero, lw_succ, dimer_lv1, dimer_la1, dimer_lb0, dimer_lv0]
  ext i
  fin_cases i <;> simp [mulVec, dotProduct]

/-- The chain of the dimer has two vectors. -/
example : (haydock flip dimer 1 ![1, 0] 2).coefb 0 = 1 ∧ (haydock flip dimer 1 ![1, 0] 2).coefb 1 = 0 ∧
    (haydock flip dimer 1 ![1, 0] 2).coefa 0 = 0 ∧ innerProd (![1, 0] : CVec 2) ![1, 0] = 1 := by
  have h0 := haydock_coef flip flip_order dimer dimer_legal 1 ![1, 0] 2 (by norm_num) 0 (by norm_num)
  have h1 := haydock_coef flip flip_order dimer dimer_legal 1 ![1, 0] 2 (by norm_num) 1 (by norm_num)
  rw [smul_dimer] at h0 h1
  exact ⟨h0.2.trans dimer_lb0, h1.2.trans dimer_lb1, h0.1.trans dimer_la0, by simp [innerProd]⟩

/-! ## C57 -/

/-- C57: for real coefficients and positive broadening the continued fraction has no vanishing denominator and a negative imaginary
part; its modulus is bounded by the inverse of the broadening. -/
theorem C57_green (energy delta : ℝ) (hdelta : 0 < delta) (a : ℕ → ℂ) (b : ℕ → ℝ) (depth : ℕ) (hd : 1 ≤ depth)
    (ha : ∀ i < depth, (a i).im = 0) :
    (greenFunction energy delta a b depth).im < 0 ∧ ‖greenFunction energy delta a b depth‖ ≤ 1 / delta := by
  rw [green_eq]
  have h := cfrac_im ⟨energy, delta⟩ hdelta a b depth 0 fun i _ hi => ha i (by omega)
  exact ⟨h.2.1 hd, h.2.2.2⟩

/-- C57: when the recursion ends at the last level, the continued fraction is the diagonal element of the Green's function. -/
theorem C57_exact (sch : ℕ → List (Fin n)) (hs : ∀ k, IsOrder (sch k)) (m : FCsr) (hm : m.Legal n)
    (hH : (m.toMatrix n).IsHermitian) (r : ℝ) (n1 : CVec n) (h1 : innerProd n1 n1 = 1) (depth : ℕ) (hd : 1 ≤ depth)
    (hb : ∀ i, i + 1 < depth → (haydock sch m r n1 depth).coefb i ≠ 0)
    (hl : (haydock sch m r n1 depth).coefb (depth - 1) = 0) (energy delta : ℝ) (hdelta : 0 < delta) :
    greenFunction energy delta (haydock sch m r n1 depth).coefa (haydock sch m r n1 depth).coefb depth =
      innerProd n1 (((⟨energy, delta⟩ : ℂ) • (1 : Matrix (Fin n) (Fin n) ℂ) - (r : ℂ) • m.toMatrix n)⁻¹.mulVec n1) := by
  have hA : ((r : ℂ) • m.toMatrix n).IsHermitian := by
    unfold Matrix.IsHermitian
    rw [Matrix.conjTranspose_smul, hH.eq]
    congr 1
    exact Complex.conj_ofReal r
  have hc := haydock_coef sch hs m hm r n1 depth hd
  rw [green_eq, cfrac_congr _ _ (la ((r : ℂ) • m.toMatrix n) n1) _ (lb ((r : ℂ) • m.toMatrix n) n1) depth 0
    (fun i _ hi => hc i (by omega))]
  refine green_exact hA h1 _ hdelta depth hd (fun i hi => ?_) ?_
  · rw [← (hc i (by omega)).2]
    exact hb i hi
  · rw [← (hc _ (by omega)).2]
    exact hl

private theorem avg_fst (f : ℕ → ℕ → ℂ) (g : ℕ → ℕ → ℝ) (c : ℂ) (d : ℝ) (L : List ℕ) (ab : (ℕ → ℂ) × (ℕ → ℝ)) (i : ℕ)
    (h : ∀ s ∈ L, (f s i / c).im = 0) (h0 : (ab.1 i).im = 0) :
    ((L.foldl (fun (ab : (ℕ → ℂ) × (ℕ → ℝ)) s => (fun i => ab.1 i + f s i / c, fun i => ab.2 i + g s i / d)) ab).1 i).im = 0 := by
  induction L generalizing ab with
  | nil => exact h0
  | cons s L ih =>
    rw [List.foldl_cons]
    refine ih _ (fun t ht => h t (by simp [ht])) ?_
    simp only [Complex.add_im, h0, h s (by simp), add_zero]

/-- C57: every LDOS value is positive: for every Hermitian Hamiltonian, every set of sites and random states, every schedule and any
number of samples. -/
theorem C57_ldos (sch : ℕ → ℕ → List (Fin n)) (hs : ∀ s k, IsOrder (sch s k)) (m : FCsr) (hm : m.Legal n)
    (hH : (m.toMatrix n).IsHermitian) (r : ℝ) (sites : List (Fin n)) (rnd : ℕ → ℕ → ℂ) (delta eRange : ℝ) (hdelta : 0 < delta)
    (depth nt ns : ℕ) (hd : 1 ≤ depth) (energy ldos : ℤ → ℝ)
    (h : ldosHaydock sch m r sites rnd delta eRange depth nt ns = some (energy, ldos)) (i : ℤ) :
    0 < ldos i ∧ ldos i ≤ 1 / (Real.pi * delta) ∧ energy i = i * eRange / (2 * nt) := by
  unfold ldosHaydock at h
  simp only at h
  split at h
  · exact absurd h (by simp)
  · simp only [Option.some.injEq, Prod.mk.injEq] at h
    obtain ⟨he, rfl⟩ := h
    have hA : ((r : ℂ) • m.toMatrix n).IsHermitian := by
      unfold Matrix.IsHermitian
      rw [Matrix.conjTranspose_smul, hH.eq]
      congr 1
      exact Complex.conj_ofReal r
    have hg := C57_green (0.5 * i * eRange / nt) delta hdelta
      ((List.range ns).foldl (fun (ab : (ℕ → ℂ) × (ℕ → ℝ)) s =>
        (fun i => ab.1 i + (haydock (sch s) m r (siteState sites (rnd s)) depth).coefa i / ns,
          fun i => ab.2 i + (haydock (sch s) m r (siteState sites (rnd s)) depth).coefb i / ns)) (fun _ => 0, fun _ => 0)).1
      ((List.range ns).foldl (fun (ab : (ℕ → ℂ) × (ℕ → ℝ)) s =>
        (fun i => ab.1 i + (haydock (sch s) m r (siteState sites (rnd s)) depth).coefa i / ns,
          fun i => ab.2 i + (haydock (sch s) m r (siteState sites (rnd s)) depth).coefb i / ns)) (fun _ => 0, fun _ => 0)).2
      depth hd (fun j hj => by
        apply avg_fst (fun s => (haydock (sch s) m r (siteState sites (rnd s)) depth).coefa)
          (fun s => (haydock (sch s) m r (siteState sites (rnd s)) depth).coefb)
        · intro s _
          have h1 := (haydock_coef (sch s) (hs s) m hm r (siteState sites (rnd s)) depth hd j hj).1
          have h2 := Complex.conj_eq_iff_im.1 (la_real (v0 := siteState sites (rnd s)) hA j)
          simp only [h1]
          rw [Complex.div_natCast_im, h2, zero_div]
        · rfl)
    refine ⟨?_, ?_, ?_⟩
    · have := Real.pi_pos
      rw [neg_div]
      beta_reduce
      rw [neg_mul, neg_pos]
      exact mul_neg_of_pos_of_neg (by positivity) hg.1
    · have hpi := Real.pi_pos
      have h2 := (Complex.abs_im_le_norm _).trans hg.2
      rw [abs_of_neg hg.1] at h2
      rw [neg_div]
      beta_reduce
      rw [neg_mul, ← mul_neg, ← one_div_mul_one_div]
      exact mul_le_mul_of_nonneg_left h2 (by positivity)
    · rw [← he]
      ring

/-- C57: a depth beyond the end of the chain gives no result (NaN in all values), as for a state which is an eigenstate. -/
theorem C57_breakdown (sch : ℕ → ℕ → List (Fin n)) (hs : ∀ s k, IsOrder (sch s k)) (m : FCsr) (hm : m.Legal n) (r : ℝ)
    (sites : List (Fin n)) (rnd : ℕ → ℕ → ℂ) (delta eRange : ℝ) (depth nt ns : ℕ) (hd : 2 ≤ depth) (s : ℕ) (hs' : s < ns)
    (h1 : innerProd (siteState sites (rnd s)) (siteState sites (rnd s)) = 1) (lam : ℂ)
    (he : ((r : ℂ) • m.toMatrix n).mulVec (siteState sites (rnd s)) = lam • siteState sites (rnd s)) :
    ldosHaydock sch m r sites rnd delta eRange depth nt ns = none := by
  unfold ldosHaydock
  simp only
  rw [if_pos]
  refine ⟨s, hs', 0, by omega, ?_⟩
  have hl : lv ((r : ℂ) • m.toMatrix n) (siteState sites (rnd s)) 0 = siteState sites (rnd s) := rfl
  rw [(haydock_coef (sch s) (hs s) m hm r _ depth (by omega) 0 (by omega)).2, lb_eq, normZ_eq_zero, lw_zero, la, hl, he,
    innerProd_smul, h1, mul_one, sub_self]

private theorem avg_const (f : ℕ → ℂ) (g : ℕ → ℝ) (c : ℂ) (d : ℝ) (F : ℕ → ℕ → ℂ) (G : ℕ → ℕ → ℝ) (i : ℕ) (L : List ℕ)
    (h : ∀ s ∈ L, F s i = f i ∧ G s i = g i) (ab : (ℕ → ℂ) × (ℕ → ℝ)) :
    let r := L.foldl (fun (ab : (ℕ → ℂ) × (ℕ → ℝ)) s => (fun i => ab.1 i + F s i / c, fun i => ab.2 i + G s i / d)) ab
    r.1 i = ab.1 i + L.length * (f i / c) ∧ r.2 i = ab.2 i + L.length * (g i / d) := by
  induction L generalizing ab with
  | nil => simp
  | cons s L ih =>
    rw [List.foldl_cons]
    obtain ⟨h1, h2⟩ := ih (fun t ht => h t (by simp [ht])) (fun i => ab.1 i + F s i / c, fun i => ab.2 i + G s i / d)
    obtain ⟨h3, h4⟩ := h s (by simp)
    refine ⟨h1.trans ?_, h2.trans ?_⟩
    · simp only [h3, List.length_cons]
      push_cast
      ring
    · simp only [h4, List.length_cons]
      push_cast
      ring

/-- C57: for one site and a recursion that ends at the last level, the result is the LDOS, the diagonal element of the Green's
function, whatever the number of samples. -/
theorem C57_single_site (sch : ℕ → ℕ → List (Fin n)) (hs : ∀ s k, IsOrder (sch s k)) (m : FCsr) (hm : m.Legal n)
    (hH : (m.toMatrix n).IsHermitian) (r : ℝ) (site : Fin n) (rnd : ℕ → ℕ → ℂ) (delta eRange : ℝ) (hdelta : 0 < delta)
    (depth nt ns : ℕ) (hd : 1 ≤ depth) (hns : 1 ≤ ns) (hrnd : ∀ s, ‖rnd s 0‖ = 1) (energy ldos : ℤ → ℝ)
    (h : ldosHaydock sch m r [site] rnd delta eRange depth nt ns = some (energy, ldos))
    (hl : (haydock (sch 0) m r (siteState [site] (rnd 0)) depth).coefb (depth - 1) = 0) (i : ℤ) :
    ldos i = -(((⟨energy i, delta⟩ : ℂ) • (1 : Matrix (Fin n) (Fin n) ℂ) - (r : ℂ) • m.toMatrix n)⁻¹ site site).im / Real.pi := by
  have hA : ((r : ℂ) • m.toMatrix n).IsHermitian := by
    unfold Matrix.IsHermitian
    rw [Matrix.conjTranspose_smul, hH.eq]
    congr 1
    exact Complex.conj_ofReal r
  generalize hAd : (r : ℂ) • m.toMatrix n = A at *
  have hst : ∀ s, siteState [site] (rnd s) = rnd s 0 • siteState [site] (fun _ => 1) := by
    intro s
    funext j
    by_cases hj : j = site
    · subst hj
      simp [siteState]
    · simp [siteState, hj]
  generalize he0 : siteState [site] (fun _ => (1 : ℂ)) = e0 at hst
  have he0' : e0 = Pi.single site 1 := by
    rw [← he0]
    funext j
    by_cases hj : j = site
    · subst hj
      simp [siteState]
    · simp [siteState, hj]
  have hcoef : ∀ s j, j < depth → (haydock (sch s) m r (siteState [site] (rnd s)) depth).coefa j = la A e0 j ∧
      (haydock (sch s) m r (siteState [site] (rnd s)) depth).coefb j = lb A e0 j := by
    intro s j hj
    have h1 := haydock_coef (sch s) (hs s) m hm r (siteState [site] (rnd s)) depth hd j hj
    rw [hAd, hst s] at h1
    have h2 := chain_phase A e0 (rnd s 0) (hrnd s) j
    rw [hst s]
    exact ⟨h1.1.trans h2.1, h1.2.trans h2.2⟩
  unfold ldosHaydock at h
  simp only at h
  split at h
  · exact absurd h (by simp)
  · rename_i hnb
    simp only [Option.some.injEq, Prod.mk.injEq] at h
    obtain ⟨he, rfl⟩ := h
    have hnorm : innerProd e0 e0 = 1 := by
      rw [he0']
      simp [innerProd, Pi.single_apply]
    have hex := green_exact hA hnorm ⟨energy i, delta⟩ hdelta depth hd (fun j hj h0 => hnb ⟨0, by omega, j, hj, by
      rw [(hcoef 0 j (by omega)).2, h0]⟩) (by rw [← (hcoef 0 _ (by omega)).2]; exact hl)
    have hdiag : ∀ M : Matrix (Fin n) (Fin n) ℂ, innerProd e0 (M.mulVec e0) = M site site := by
      intro M
      rw [he0']
      simp [innerProd, Pi.single_apply]
    rw [hdiag] at hex
    rw [← hex]
    have hei : energy i = 0.5 * i * eRange / nt := by rw [← he]
    have hns' : (ns : ℂ) ≠ 0 := by exact_mod_cast (by omega : ns ≠ 0)
    have hns'' : (ns : ℝ) ≠ 0 := by exact_mod_cast (by omega : ns ≠ 0)
    beta_reduce
    rw [← hei, green_eq, cfrac_congr _ _ (la A e0) _ (lb A e0) depth 0]
    · ring
    · intro j _ hj
      obtain ⟨h1, h2⟩ := avg_const (la A e0) (lb A e0) (ns : ℂ) (ns : ℝ)
        (fun s => (haydock (sch s) m r (siteState [site] (rnd s)) depth).coefa)
        (fun s => (haydock (sch s) m r (siteState [site] (rnd s)) depth).coefb) j (List.range ns)
        (fun s _ => hcoef s j (by omega)) (fun _ => 0, fun _ => 0)
      rw [h1, h2, List.length_range, mul_div_cancel₀ _ hns', mul_div_cancel₀ _ hns'']
      simp

/-- The LDOS of the first site of the dimer. -/
example : ∃ e l, ldosHaydock (fun _ => flip) dimer 1 [0] (fun _ _ => 1) (1 / 10) 2 2 8 1 = some (e, l) := by
  have hst : siteState [(0 : Fin 2)] (fun _ => (1 : ℂ)) = ![1, 0] := by
    ext i
    fin_cases i <;> simp [siteState]
  unfold ldosHaydock
  simp only
  rw [if_neg]
  · exact ⟨_, _, rfl⟩
  · rintro ⟨s, hs, i, hi, h⟩
    obtain rfl : i = 0 := by omega
    have h0 := haydock_coef flip flip_order dimer dimer_legal 1 ![1, 0] 2 (by norm_num) 0 (by norm_num)
    rw [smul_dimer] at h0
    rw [hst] at h
    rw [h0.2, dimer_lb0] at h
    norm_num at h

/-! ## C62 -/

/-- C62: both branches of the occupation function agree with its definition; the argument of the exponential is never positive for
`beta ≥ 0`. -/
theorem C62_value (beta ef energy : ℝ) :
    (fermiDist beta ef energy).2 = 1 / (1 + Real.exp (beta * (energy - ef))) ∧
    (0 ≤ beta → (fermiDist beta ef energy).1 ≤ 0) := by
  refine ⟨fermiDist_eq beta ef energy, fun hb => ?_⟩
  unfold fermiDist
  split
  · rename_i h
    exact mul_nonpos_of_nonneg_of_nonpos hb (by linarith)
  · rename_i h
    rw [not_le] at h
    exact mul_nonpos_of_nonneg_of_nonpos hb (by linarith)

/-- C62: occupations are strictly between 0 and 1, one half at the chemical potential, antisymmetric about it, and decreasing. -/
theorem C62_properties (beta ef : ℝ) :
    (∀ e, 0 < (fermiDist beta ef e).2 ∧ (fermiDist beta ef e).2 < 1) ∧ (fermiDist beta ef ef).2 = 1 / 2 ∧
    (∀ d, (fermiDist beta ef (ef + d)).2 + (fermiDist beta ef (ef - d)).2 = 1) ∧
    (0 < beta → ∀ e e', e < e' → (fermiDist beta ef e').2 < (fermiDist beta ef e).2) := by
  simp only [fermiDist_eq]
  refine ⟨fun e => ?_, ?_, fun d => ?_, fun hb e e' he => ?_⟩
  · have := Real.exp_pos (beta * (e - ef))
    refine ⟨by positivity, ?_⟩
    rw [div_lt_one (by positivity)]
    linarith
  · rw [sub_self, mul_zero, Real.exp_zero]
    norm_num
  · have h : Real.exp (beta * (ef - d - ef)) = (Real.exp (beta * (ef + d - ef)))⁻¹ := by
      rw [← Real.exp_neg]
      congr 1
      ring
    rw [h]
    have := Real.exp_pos (beta * (ef + d - ef))
    field_simp
    ring
  · have : Real.exp (beta * (e - ef)) < Real.exp (beta * (e' - ef)) :=
      Real.exp_lt_exp.2 (mul_lt_mul_of_pos_left (by linarith) hb)
    have h0 := Real.exp_pos (beta * (e - ef))
    exact one_div_lt_one_div_of_lt (by positivity) (by linarith)

/-! ## C80 -/

/-- C80: random states are normalised, unless all draws vanish. -/
theorem C80_random_state (draw : Fin n → ℝ × ℝ) (h0 : ∀ i, 0 ≤ (draw i).1 ∧ (draw i).1 < 1) (hne : ∃ i, 0 < (draw i).1) :
    innerProd (randomState draw) (randomState draw) = 1 :=
  randomState_norm draw h0 hne

/-- C80: a state spread over distinct sites keeps its norm. -/
theorem C80_site_state (sites : List (Fin n)) (hnd : sites.Nodup) (wf : ℕ → ℂ) :
    innerProd (siteState sites wf) (siteState sites wf) = ∑ k ∈ Finset.range sites.length, star (wf k) * wf k :=
  siteState_spec sites hnd wf

/-- C80: for a repeated site it does not. -/
theorem C80_repeated_site : ∃ wf : ℕ → ℂ, ∑ k ∈ Finset.range 2, star (wf k) * wf k = 1 ∧
    innerProd (siteState [(0 : Fin 1), 0] wf) (siteState [(0 : Fin 1), 0] wf) ≠ 1 := by
  refine ⟨fun k => if k = 0 then 1 else 0, by simp [Finset.sum_range_succ], ?_⟩
  simp [siteState, innerProd, List.range_succ]

example : ∃ draw : Fin 2 → ℝ × ℝ, (∀ i, 0 ≤ (draw i).1 ∧ (draw i).1 < 1) ∧ ∃ i, 0 < (draw i).1 :=
  ⟨fun _ => (1 / 2, 1 / 3), fun _ => by norm_num, 0, by norm_num⟩

end Verif.Tbpm

import Verif.Proof.HaydockLocal
import Verif.Proof.TbpmCorr
import Verif.Proof.Haydock
import Verif.Proof.KernelCheb
import Verif.Spec.Tbpm
import Mathlib.RingTheory.Polynomial.Chebyshev

/-! # The time evolution depends on the surroundings only -/

namespace Verif.Tbpm

open Matrix

variable {n n' : ℕ}

/-- One time step as a polynomial of the Hamiltonian. -/
noncomputable def stepPoly (bes : ℕ → ℝ) (nbes : ℕ) (fwd : Bool) : Polynomial ℂ :=
  Polynomial.C (bes 0 : ℂ) + ∑ k ∈ Finset.Ico 1 nbes,
    Polynomial.C (2 * bes k * (if fwd then -Complex.I else Complex.I) ^ k) * Polynomial.Chebyshev.T ℂ k

theorem U_poly (e : Env n) (fwd : Bool) : e.U fwd = Polynomial.aeval e.H (stepPoly e.bes e.nbes fwd) := by
  unfold Env.U stepPoly chebT
  rw [map_add, map_sum, Polynomial.aeval_C, Algebra.algebraMap_eq_smul_one]
  congr 1
  refine Finset.sum_congr rfl fun k _ => ?_
  rw [map_mul, Polynomial.aeval_C, Algebra.algebraMap_eq_smul_one, smul_mul_assoc, one_mul]

theorem stepPoly_degree (bes : ℕ → ℝ) (nbes : ℕ) (fwd : Bool) : (stepPoly bes nbes fwd).natDegree ≤ nbes - 1 := by
  unfold stepPoly
  refine Polynomial.natDegree_add_le_of_degree_le (by simp) (Polynomial.natDegree_sum_le_of_forall_le _ _ fun k hk => ?_)
  rw [Finset.mem_Ico] at hk
  refine (Polynomial.natDegree_C_mul_le _ _).trans ?_
  rw [Polynomial.Chebyshev.natDegree_T]
  simp
  omega

theorem U_pow_poly (e : Env n) (fwd : Bool) (t : ℕ) : e.U fwd ^ t = Polynomial.aeval e.H (stepPoly e.bes e.nbes fwd ^ t) := by
  rw [map_pow, U_poly]

theorem pow_degree (bes : ℕ → ℝ) (nbes : ℕ) (fwd : Bool) (t : ℕ) : (stepPoly bes nbes fwd ^ t).natDegree ≤ t * (nbes - 1) :=
  Polynomial.natDegree_pow_le.trans (Nat.mul_le_mul_left t (stepPoly_degree bes nbes fwd))

section
variable {A : Matrix (Fin n) (Fin n) ℂ} {A' : Matrix (Fin n') (Fin n') ℂ} {f : Fin n → Fin n'}
    {S : ℕ → Set (Fin n)} {sites : List (Fin n)} {depth : ℕ} (h : SameSurroundings A A' f S sites depth)
    (x : CVec n) (hx : ∀ j, j ∉ S 0 → x j = 0)
include h hx

theorem pow_extend (k : ℕ) (hk : k ≤ depth) :
    (A' ^ k).mulVec (Function.extend f x 0) = Function.extend f ((A ^ k).mulVec x) 0 ∧ ∀ i, i ∉ S k → (A ^ k).mulVec x i = 0 := by
  induction k with
  | zero => simpa using hx
  | succ k ih =>
    obtain ⟨h1, h2⟩ := ih (by omega)
    have := mulVec_extend h k (by omega) _ h2
    rw [pow_succ', pow_succ', ← Matrix.mulVec_mulVec, ← Matrix.mulVec_mulVec, h1]
    exact this

theorem moment_extend (hA : A.IsHermitian) (hA' : A'.IsHermitian) (k : ℕ) (hk : k ≤ 2 * depth) :
    innerProd (Function.extend f x 0) ((A' ^ k).mulVec (Function.extend f x 0)) = innerProd x ((A ^ k).mulVec x) := by
  obtain ⟨a, b, rfl, ha, hb⟩ : ∃ a b, k = a + b ∧ a ≤ depth ∧ b ≤ depth := ⟨k / 2, k - k / 2, by omega, by omega, by omega⟩
  rw [pow_add, pow_add, ← Matrix.mulVec_mulVec, ← Matrix.mulVec_mulVec, innerProd_herm _ (hA.pow a), innerProd_herm _ (hA'.pow a),
    (pow_extend h x hx a ha).1, (pow_extend h x hx b hb).1, innerProd_extend h.inj]

theorem poly_extend (p : Polynomial ℂ) (hp : p.natDegree ≤ depth) :
    (Polynomial.aeval A' p).mulVec (Function.extend f x 0) = Function.extend f ((Polynomial.aeval A p).mulVec x) 0 := by
  rw [Polynomial.aeval_eq_sum_range, Polynomial.aeval_eq_sum_range, Matrix.sum_mulVec, Matrix.sum_mulVec]
  funext i
  rw [Finset.sum_apply]
  have : ∀ k ∈ Finset.range (p.natDegree + 1), (p.coeff k • A' ^ k).mulVec (Function.extend f x 0) i =
      Function.extend f (p.coeff k • (A ^ k).mulVec x) 0 i := by
    intro k hk
    rw [Finset.mem_range] at hk
    rw [Matrix.smul_mulVec, (pow_extend h x hx k (by omega)).1, extend_smul h.inj]
  rw [Finset.sum_congr rfl this]
  by_cases hi : ∃ j, f j = i
  · obtain ⟨j, rfl⟩ := hi
    simp only [h.inj.extend_apply, Finset.sum_apply, Matrix.smul_mulVec]
  · simp [Function.extend_apply' _ _ _ hi]

theorem poly_moment (hA : A.IsHermitian) (hA' : A'.IsHermitian) (p : Polynomial ℂ) (hp : p.natDegree ≤ 2 * depth) :
    innerProd (Function.extend f x 0) ((Polynomial.aeval A' p).mulVec (Function.extend f x 0)) =
      innerProd x ((Polynomial.aeval A p).mulVec x) := by
  rw [Polynomial.aeval_eq_sum_range, Polynomial.aeval_eq_sum_range, Matrix.sum_mulVec, Matrix.sum_mulVec, innerProd_sum, innerProd_sum]
  refine Finset.sum_congr rfl fun k hk => ?_
  rw [Finset.mem_range] at hk
  rw [Matrix.smul_mulVec, Matrix.smul_mulVec, innerProd_smul, innerProd_smul, moment_extend h x hx hA hA' k (by omega)]

end

theorem ldosFold (x : CVec n) (l : List (Fin n)) (w : CVec n) (i : Fin n) :
    l.foldl (fun w i => Function.update w i (x i)) w i = if i ∈ l then x i else w i := by
  induction l generalizing w with
  | nil => simp
  | cons k l ih =>
    rw [List.foldl_cons, ih]
    by_cases h1 : i ∈ l
    · simp [h1]
    · by_cases h2 : i = k
      · subst h2; simp [h1]
      · simp [h1, h2]

theorem ldosState_extend (f : Fin n → Fin n') (hf : Function.Injective f) (sites : List (Fin n)) (x : CVec n) (x' : CVec n')
    (hx : ∀ i ∈ sites, x' (f i) = x i) : ldosState (sites.map f) x' = Function.extend f (ldosState sites x) 0 := by
  have h1 : (sites.map f).foldl (fun w i => Function.update w i (x' i)) (0 : CVec n') =
      Function.extend f (sites.foldl (fun w i => Function.update w i (x i)) (0 : CVec n)) 0 := by
    funext i
    rw [ldosFold]
    by_cases hi : ∃ j, f j = i
    · obtain ⟨j, rfl⟩ := hi
      rw [hf.extend_apply, ldosFold]
      by_cases hj : j ∈ sites
      · rw [if_pos hj, if_pos (List.mem_map_of_mem hj), hx j hj]
      · rw [if_neg hj, if_neg (fun hm => by obtain ⟨k, hk, e⟩ := List.mem_map.1 hm; exact hj (hf e ▸ hk))]
        rfl
    · rw [Function.extend_apply' _ _ _ hi, if_neg (fun hm => by obtain ⟨k, -, e⟩ := List.mem_map.1 hm; exact hi ⟨k, e⟩)]
  unfold ldosState
  simp only
  rw [h1, innerProd_extend hf]
  funext i
  by_cases hi : ∃ j, f j = i
  · obtain ⟨j, rfl⟩ := hi
    simp only [hf.extend_apply]
  · simp [Function.extend_apply' _ _ _ hi]

theorem ldosState_support (sites : List (Fin n)) (x : CVec n) (j : Fin n) (hj : j ∉ sites) : ldosState sites x j = 0 := by
  unfold ldosState
  rw [ldosFold, if_neg hj]
  simp

end Verif.Tbpm

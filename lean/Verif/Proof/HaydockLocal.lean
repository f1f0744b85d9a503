import Verif.Spec.HaydockErr
import Verif.Proof.Haydock

/-! # The recursion sees the surroundings of its first vector -/

namespace Verif.Tbpm

open Matrix

variable {n n' : ℕ}

theorem innerProd_extend {f : Fin n → Fin n'} (hf : Function.Injective f) (x y : CVec n) :
    innerProd (Function.extend f x 0 : CVec n') (Function.extend f y 0) = innerProd x y := by
  symm
  unfold innerProd
  refine Fintype.sum_of_injective f hf _ _ ?_ ?_
  · intro i hi
    rw [Function.extend_apply' _ _ _ (by simpa using hi)]
    simp
  · intro i
    rw [hf.extend_apply, hf.extend_apply]

theorem normZ_extend {f : Fin n → Fin n'} (hf : Function.Injective f) (x : CVec n) :
    normZ (Function.extend f x 0 : CVec n') = normZ x := by
  unfold normZ
  rw [innerProd_extend hf]

theorem extend_smul {f : Fin n → Fin n'} (hf : Function.Injective f) (c : ℂ) (x : CVec n) :
    c • (Function.extend f x 0 : CVec n') = Function.extend f (c • x) 0 := by
  funext i
  by_cases h : ∃ j, f j = i
  · obtain ⟨j, rfl⟩ := h
    simp [hf.extend_apply]
  · simp [Function.extend_apply' _ _ _ h]

theorem extend_sub {f : Fin n → Fin n'} (hf : Function.Injective f) (x y : CVec n) :
    (Function.extend f x 0 : CVec n') - Function.extend f y 0 = Function.extend f (x - y) 0 := by
  funext i
  by_cases h : ∃ j, f j = i
  · obtain ⟨j, rfl⟩ := h
    simp [hf.extend_apply]
  · simp [Function.extend_apply' _ _ _ h]

theorem mulVec_extend {A : Matrix (Fin n) (Fin n) ℂ} {A' : Matrix (Fin n') (Fin n') ℂ} {f : Fin n → Fin n'}
    {S : ℕ → Set (Fin n)} {sites : List (Fin n)} {depth : ℕ} (h : SameSurroundings A A' f S sites depth) (k : ℕ) (hk : k < depth)
    (x : CVec n) (hx : ∀ j, j ∉ S k → x j = 0) :
    A'.mulVec (Function.extend f x 0) = Function.extend f (A.mulVec x) 0 ∧ ∀ i, i ∉ S (k + 1) → A.mulVec x i = 0 := by
  have hsum : ∀ i', A'.mulVec (Function.extend f x 0) i' = ∑ j, A' i' (f j) * x j := by
    intro i'
    unfold mulVec dotProduct
    symm
    refine Fintype.sum_of_injective f h.inj _ _ ?_ ?_
    · intro i hi
      rw [Function.extend_apply' _ _ _ (by simpa using hi)]
      simp
    · intro i
      rw [h.inj.extend_apply]
  refine ⟨?_, ?_⟩
  · funext i'
    rw [hsum]
    by_cases hi : ∃ i, f i = i'
    · obtain ⟨i, rfl⟩ := hi
      rw [h.inj.extend_apply]
      unfold mulVec dotProduct
      refine Finset.sum_congr rfl fun j _ => ?_
      by_cases hj : j ∈ S k
      · rw [h.same k hk j hj]
      · rw [hx j hj, mul_zero, mul_zero]
    · rw [Function.extend_apply' _ _ _ hi]
      refine Finset.sum_eq_zero fun j _ => ?_
      by_cases hj : j ∈ S k
      · rw [h.outside k hk j hj i' (by simpa using hi), zero_mul]
      · rw [hx j hj, mul_zero]
  · intro i hi
    unfold mulVec dotProduct
    refine Finset.sum_eq_zero fun j _ => ?_
    by_cases hj : j ∈ S k
    · by_cases hA : A i j = 0
      · show A i j * x j = 0
        rw [hA, zero_mul]
      · exact absurd (h.near k hk j hj i hA) hi
    · rw [hx j hj, mul_zero]

theorem lanc_extend {A : Matrix (Fin n) (Fin n) ℂ} {A' : Matrix (Fin n') (Fin n') ℂ} {f : Fin n → Fin n'}
    {S : ℕ → Set (Fin n)} {sites : List (Fin n)} {depth : ℕ} (h : SameSurroundings A A' f S sites depth) (v0 : CVec n)
    (h0 : ∀ j, j ∉ S 0 → v0 j = 0) (k : ℕ) (hk : k ≤ depth) :
    lanc A' (Function.extend f v0 0) k =
        (Function.extend f (lanc A v0 k).1 0, (lanc A v0 k).2.1, Function.extend f (lanc A v0 k).2.2 0) ∧
      (∀ j, j ∉ S k → (lanc A v0 k).1 j = 0) ∧ ∀ j, j ∉ S k → (lanc A v0 k).2.2 j = 0 := by
  induction k with
  | zero =>
    refine ⟨?_, fun j _ => rfl, h0⟩
    simp only [lanc]
    congr 1
    funext i
    by_cases hi : ∃ j, f j = i
    · obtain ⟨j, rfl⟩ := hi
      simp [h.inj.extend_apply]
    · simp [Function.extend_apply' _ _ _ hi]
  | succ k ih =>
    obtain ⟨e1, e2, e3⟩ := ih (by omega)
    obtain ⟨m1, m2⟩ := mulVec_extend h k (by omega) _ e3
    have hw : A'.mulVec (Function.extend f (lanc A v0 k).2.2 0) -
        innerProd (Function.extend f (lanc A v0 k).2.2 0 : CVec n') (A'.mulVec (Function.extend f (lanc A v0 k).2.2 0)) •
          (Function.extend f (lanc A v0 k).2.2 0 : CVec n') - ((lanc A v0 k).2.1 : ℂ) • (Function.extend f (lanc A v0 k).1 0 : CVec n') =
        Function.extend f (A.mulVec (lanc A v0 k).2.2 - innerProd (lanc A v0 k).2.2 (A.mulVec (lanc A v0 k).2.2) • (lanc A v0 k).2.2 -
          ((lanc A v0 k).2.1 : ℂ) • (lanc A v0 k).1) 0 := by
      rw [m1, innerProd_extend h.inj, extend_smul h.inj, extend_smul h.inj, extend_sub h.inj, extend_sub h.inj]
    refine ⟨?_, ?_, ?_⟩
    · simp only [lanc, e1]
      rw [hw, normZ_extend h.inj, extend_smul h.inj]
    · intro j hj
      exact e3 j fun hj' => hj (h.mono k hj')
    · intro j hj
      have hj' : j ∉ S k := fun hj' => hj (h.mono k hj')
      simp only [lanc, Pi.smul_apply, Pi.sub_apply, m2 j hj, e2 j hj', e3 j hj', smul_eq_mul, mul_zero, sub_zero]

theorem coef_extend {A : Matrix (Fin n) (Fin n) ℂ} {A' : Matrix (Fin n') (Fin n') ℂ} {f : Fin n → Fin n'}
    {S : ℕ → Set (Fin n)} {sites : List (Fin n)} {depth : ℕ} (h : SameSurroundings A A' f S sites depth) (v0 : CVec n)
    (h0 : ∀ j, j ∉ S 0 → v0 j = 0) (k : ℕ) (hk : k < depth) :
    la A' (Function.extend f v0 0) k = la A v0 k ∧ lb A' (Function.extend f v0 0) k = lb A v0 k := by
  obtain ⟨e1, -, e3⟩ := lanc_extend h v0 h0 k hk.le
  obtain ⟨m1, -⟩ := mulVec_extend h k hk _ e3
  refine ⟨?_, ?_⟩
  · unfold la lv
    rw [e1]
    simp only
    rw [m1, innerProd_extend h.inj]
  · unfold lb
    rw [(lanc_extend h v0 h0 (k + 1) (by omega)).1]

theorem site_fold (f : Fin n → Fin n') (hf : Function.Injective f) (wf : ℕ → ℂ) (L : List (ℕ × Fin n)) (w : CVec n) :
    (L.map fun p => (p.1, f p.2)).foldl (fun (w : CVec n') p => Function.update w p.2 (wf p.1)) (Function.extend f w 0) =
      Function.extend f (L.foldl (fun (w : CVec n) p => Function.update w p.2 (wf p.1)) w) 0 := by
  induction L generalizing w with
  | nil => rfl
  | cons p L ih =>
    rw [List.map_cons, List.foldl_cons, List.foldl_cons, ← ih]
    congr 1
    funext i
    by_cases h : ∃ j, f j = i
    · obtain ⟨j, rfl⟩ := h
      rw [hf.extend_apply]
      by_cases hj : j = p.2
      · subst hj; simp
      · rw [Function.update_of_ne hj, Function.update_of_ne (fun e => hj (hf e)), hf.extend_apply]
    · rw [Function.extend_apply' _ _ _ h, Function.update_of_ne (fun e => h ⟨p.2, e.symm⟩), Function.extend_apply' _ _ _ h]

theorem siteState_extend (f : Fin n → Fin n') (hf : Function.Injective f) (wf : ℕ → ℂ) (sites : List (Fin n)) :
    siteState (sites.map f) wf = Function.extend f (siteState sites wf) 0 := by
  unfold siteState
  have h0 : (0 : CVec n') = Function.extend f (0 : CVec n) 0 := by
    funext i
    by_cases h : ∃ j, f j = i
    · obtain ⟨j, rfl⟩ := h
      simp [hf.extend_apply]
    · simp [Function.extend_apply' _ _ _ h]
  rw [← site_fold f hf, ← h0, List.length_map, List.zip_map_right]
  rfl

theorem siteState_support (wf : ℕ → ℂ) (sites : List (Fin n)) (j : Fin n) (hj : j ∉ sites) : siteState sites wf j = 0 := by
  unfold siteState
  have : ∀ (L : List (ℕ × Fin n)) (w : CVec n), (∀ p ∈ L, p.2 ≠ j) → w j = 0 →
      L.foldl (fun (w : CVec n) p => Function.update w p.2 (wf p.1)) w j = 0 := by
    intro L
    induction L with
    | nil => intro w _ h; exact h
    | cons p L ih =>
      intro w h hw
      rw [List.foldl_cons]
      refine ih _ (fun q hq => h q (by simp [hq])) ?_
      rw [Function.update_of_ne (h p (by simp)).symm, hw]
  refine this _ _ ?_ rfl
  rintro ⟨k, i⟩ hp rfl
  exact hj (List.of_mem_zip hp).2

end Verif.Tbpm

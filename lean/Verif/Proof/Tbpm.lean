import Verif.Spec.Tbpm
import Verif.Proof.KernelCheb
import Verif.Props.ParallelRun

/-! # Proofs about the TBPM drivers -/

namespace Verif.Tbpm

open Matrix
open scoped Classical

variable {n : ℕ}

/-! ## Kernels -/

theorem step_eq {e : Env n} (g : e.Good) (key : List ℕ) (x : CVec n) (fwd : Bool) : e.step key x fwd = (e.U fwd).mulVec x := by
  unfold Env.step Env.U
  rw [chebWfTimestep_eq _ (g.order key) e.ham g.legal e.bes e.nbes x fwd _ rfl, max_eq_left g.three, Matrix.add_mulVec,
    Matrix.smul_mulVec, Matrix.one_mulVec, Matrix.sum_mulVec]
  congr 1
  apply Finset.sum_congr rfl
  intro k _
  unfold tvec Env.H
  rw [Matrix.smul_mulVec, smul_smul]
  push_cast
  rfl

theorem mul_eq {e : Env n} (g : e.Good) (key : List ℕ) {m : FCsr} (hm : m.Legal n) (x : CVec n) :
    e.mul key m x = (m.toMatrix n).mulVec x := csrMv_eq _ (g.order key 0) m hm x

theorem fermi_eq {e : Env n} (g : e.Good) (key : List ℕ) {c : (ℕ → ℝ) × ℕ} (hc : 3 ≤ c.2) (x : CVec n) :
    e.fermi key c x = (e.chebSeries c).mulVec x := by
  unfold Env.fermi Env.chebSeries
  rw [fermiOp_eq _ (g.order key) e.ham g.legal, max_eq_left hc, Matrix.sum_mulVec]
  apply Finset.sum_congr rfl
  intro k _
  rw [Matrix.smul_mulVec]
  rfl

theorem current_legal {m : FCsr} (hm : m.Legal n) (d : ℕ → ℝ) (v : ℝ) : (m.current d v).Legal n := hm

/-! ## Loops with a check at one step -/

/-- A loop which stops before step `chk` if the state then is bad. -/
theorem guarded_loop {S : Type*} (f : S → ℕ → Except TErr S) (g : S → ℕ → S) (bad : S → Prop) (chk : ℤ)
    (hf : ∀ s t, f s t = if (t : ℤ) = chk ∧ bad s then .error .diverged else .ok (g s t)) (a k : ℕ) (s : S) :
    (List.range' a k).foldlM f s =
      if (∃ t : ℕ, (t : ℤ) = chk ∧ a ≤ t ∧ t < a + k ∧ bad ((List.range' a (t - a)).foldl g s)) then .error .diverged
      else .ok ((List.range' a k).foldl g s) := by
  induction k generalizing a s with
  | zero =>
    rw [if_neg]
    · rfl
    · rintro ⟨t, _, h1, h2, _⟩; omega
  | succ k ih =>
    rw [List.range'_succ, List.foldlM_cons, hf]
    by_cases h : (a : ℤ) = chk ∧ bad s
    · rw [if_pos h, if_pos ⟨a, h.1, le_refl _, by omega, by simpa using h.2⟩]
      rfl
    · rw [if_neg h]
      change (List.range' (a + 1) k).foldlM f (g s a) = _
      rw [ih, List.foldl_cons]
      congr 1
      apply propext
      constructor
      · rintro ⟨t, h1, h2, h3, h4⟩
        refine ⟨t, h1, by omega, by omega, ?_⟩
        have : t - a = (t - (a + 1)) + 1 := by omega
        rw [this, List.range'_succ, List.foldl_cons]
        exact h4
      · rintro ⟨t, h1, h2, h3, h4⟩
        have hne : t ≠ a := by
          rintro rfl
          exact h ⟨h1, by simpa using h4⟩
        refine ⟨t, h1, by omega, by omega, ?_⟩
        have : t - a = (t - (a + 1)) + 1 := by omega
        rw [this, List.range'_succ, List.foldl_cons] at h4
        exact h4

theorem chk_bind {S : Type} (chk : ℤ) (thr : ℝ) (t : ℕ) (wf y : CVec n) (s : S) :
    (do chkNorm chk thr t wf (innerProd y y); (.ok s : Except TErr S)) =
      if (t : ℤ) = chk ∧ Drifts thr wf y then .error .diverged else .ok s := by
  unfold chkNorm checkNorm Drifts
  simp only [decide_eq_true_eq]
  split <;> rfl

/-! ## Sample loops and averages -/

theorem sample_loop {K A : Type*} [Field K] [AddCommMonoid A] [Module K A] (bad : ℤ → Prop) (F : ℤ → A)
    (seed : ℤ) (m r : ℕ) (body : A → ℕ → Except TErr A)
    (hb : ∀ acc s, body acc s = if bad (seed * (s + r * m)) then .error .diverged
      else .ok (acc + (m : K)⁻¹ • F (seed * (s + r * m)))) (a k : ℕ) (acc : A) :
    (List.range' a k).foldlM body acc =
      if (∃ i < k, bad (seed * ((a + i : ℕ) + r * m))) then .error .diverged
      else .ok (acc + (m : K)⁻¹ • ∑ i ∈ Finset.range k, F (seed * ((a + i : ℕ) + r * m))) := by
  induction k generalizing a acc with
  | zero => simp; rfl
  | succ k ih =>
    rw [List.range'_succ, List.foldlM_cons, hb]
    by_cases h : bad (seed * (a + r * m))
    · rw [if_pos h, if_pos ⟨0, by omega, by simpa using h⟩]; rfl
    · rw [if_neg h]
      change (List.range' (a + 1) k).foldlM body _ = _
      rw [ih]
      have e1 : (∃ i < k, bad (seed * ((a + 1 + i : ℕ) + r * m))) ↔ ∃ i < k + 1, bad (seed * ((a + i : ℕ) + r * m)) := by
        constructor
        · rintro ⟨i, hi, hb⟩
          exact ⟨i + 1, by omega, by rw [show a + (i + 1) = a + 1 + i by ring]; exact hb⟩
        · rintro ⟨i, hi, hb⟩
          rcases i with _ | i
          · exact absurd (by simpa using hb) h
          · exact ⟨i, by omega, by rw [show a + 1 + i = a + (i + 1) by ring]; exact hb⟩
      have e2 : acc + (m : K)⁻¹ • F (seed * (a + r * m)) + (m : K)⁻¹ • ∑ i ∈ Finset.range k, F (seed * ((a + 1 + i : ℕ) + r * m)) =
          acc + (m : K)⁻¹ • ∑ i ∈ Finset.range (k + 1), F (seed * ((a + i : ℕ) + r * m)) := by
        rw [Finset.sum_range_succ', smul_add, add_assoc]
        congr 1
        rw [add_comm]
        congr 1
        congr 1
        apply Finset.sum_congr rfl
        intro i _
        rw [show a + 1 + i = a + (i + 1) by ring]
      rw [e2]
      simp only [e1]

theorem mapM_guard {B A : Type*} (f : B → Except TErr A) (bad : B → Prop) (v : B → A)
    (hf' : ∀ b, (bad b → f b = .error .diverged) ∧ (¬bad b → f b = .ok (v b))) (L : List B) :
    L.mapM f = if (∃ b ∈ L, bad b) then .error .diverged else .ok (L.map v) := by
  have hf : ∀ b, f b = if bad b then .error .diverged else .ok (v b) := by
    intro r
    by_cases h : bad r
    · rw [if_pos h, (hf' r).1 h]
    · rw [if_neg h, (hf' r).2 h]
  induction L with
  | nil => rw [if_neg (by simp)]; rfl
  | cons b L ih =>
    rw [List.mapM_cons, hf, ih]
    by_cases h : bad b
    · have h2 : ∃ c ∈ b :: L, bad c := ⟨b, by simp, h⟩
      rw [if_pos h, if_pos h2]; rfl
    · by_cases h' : ∃ b ∈ L, bad b
      · rw [if_neg h, if_pos h', if_pos]
        · rfl
        · obtain ⟨c, hc, hb⟩ := h'; exact ⟨c, by simp [hc], hb⟩
      · rw [if_neg h, if_neg h', if_neg]
        · rfl
        · rintro ⟨c, hc, hb⟩
          rcases List.mem_cons.1 hc with rfl | hc
          · exact h hb
          · exact h' ⟨c, hc, hb⟩

theorem onRanks_guard {A : Type*} [Inhabited A] (w : World) (f : ℕ → Except TErr A) (bad : ℕ → Prop) (v : ℕ → A)
    (hf : ∀ r, (bad r → f r = .error .diverged) ∧ (¬bad r → f r = .ok (v r))) :
    ((∃ r < w.size, bad r) → onRanks w f = .error .diverged) ∧
    ((¬∃ r < w.size, bad r) → ∃ c, onRanks w f = .ok c ∧ ∀ r < w.size, c r = v r) := by
  unfold onRanks
  rw [mapM_guard f bad v hf (List.range w.size)]
  simp only [List.mem_range]
  constructor
  · intro h
    rw [if_pos h]; rfl
  · intro h
    rw [if_neg h]
    refine ⟨_, rfl, ?_⟩
    intro r hr
    simp [List.getD, hr]

theorem blocks_mean {K A : Type*} [Field K] [AddCommMonoid A] [Module K A] (P m : ℕ) (f : ℕ → A) :
    (P : K)⁻¹ • ∑ r ∈ Finset.range P, (m : K)⁻¹ • ∑ i ∈ Finset.range m, f (r * m + i) =
      ((P * m : ℕ) : K)⁻¹ • ∑ j ∈ Finset.range (P * m), f j := by
  rw [← Finset.smul_sum, smul_smul, Nat.cast_mul, mul_inv]
  congr 1
  induction P with
  | zero => simp
  | succ P ih => rw [Finset.sum_range_succ, ih, Nat.succ_mul, Finset.sum_range_add]

/-- A driver run on all processes: it stops if a sample is bad, otherwise everybody gets the mean over all samples. -/
theorem driver {K A : Type*} [Field K] [AddCommMonoid A] [Module K A] [Inhabited A] (w : World) (nsamp : ℕ) (seed : ℤ)
    (bad : ℤ → Prop) (F : ℤ → A) (f : ℕ → Except TErr A)
    (hf : ∀ r : ℕ, let m := (distSample w nsamp).2
      ((∃ i < m, bad (seed * ((1 + i : ℕ) + r * m))) → f r = .error .diverged) ∧
      ((¬∃ i < m, bad (seed * ((1 + i : ℕ) + r * m))) →
        f r = .ok ((m : K)⁻¹ • ∑ i ∈ Finset.range m, F (seed * ((1 + i : ℕ) + r * m))))) :
    ((∃ j < (distSample w nsamp).1, bad (seed * (j + 1))) → onRanks w f = .error .diverged) ∧
    ((¬∃ j < (distSample w nsamp).1, bad (seed * (j + 1))) → ∃ c, onRanks w f = .ok c ∧
      ∀ r < w.size, allAverage (K := K) w c r = meanSamples K (distSample w nsamp).1 seed F) := by
  set m := (distSample w nsamp).2 with hm
  have hN : m * w.size = (distSample w nsamp).1 := (Verif.Props.C46_samples w nsamp).1
  rw [← hN]
  obtain ⟨h1, h2⟩ := onRanks_guard w f _ _ hf
  have hiff : (∃ r < w.size, ∃ i < m, bad (seed * ((1 + i : ℕ) + r * m))) ↔ ∃ j < m * w.size, bad (seed * (j + 1)) := by
    constructor
    · rintro ⟨r, hr, i, hi, hb⟩
      refine ⟨r * m + i, ?_, ?_⟩
      · calc r * m + i < r * m + m := by omega
          _ = (r + 1) * m := by ring
          _ ≤ w.size * m := Nat.mul_le_mul_right m hr
          _ = m * w.size := by ring
      · have : (seed * (((r * m + i : ℕ) : ℤ) + 1)) = seed * ((1 + i : ℕ) + r * m) := by push_cast; ring
        rw [this]; exact hb
    · rintro ⟨j, hj, hb⟩
      have hm0 : 0 < m := by
        rcases Nat.eq_zero_or_pos m with h | h
        · rw [h] at hj; omega
        · exact h
      refine ⟨j / m, Nat.div_lt_of_lt_mul hj, j % m, Nat.mod_lt _ hm0, ?_⟩
      have e : j / m * m + j % m = j := by rw [Nat.mul_comm]; exact Nat.div_add_mod j m
      have : (seed * (((1 + j % m : ℕ) : ℤ) + ((j / m : ℕ) : ℤ) * m)) = seed * (j + 1) := by
        have : (j : ℤ) = (j / m : ℕ) * m + (j % m : ℕ) := by exact_mod_cast e.symm
        rw [this]; push_cast; ring
      rw [this]; exact hb
  refine ⟨fun h => h1 (hiff.2 h), fun h => ?_⟩
  obtain ⟨c, hc, hv⟩ := h2 (fun hh => h (hiff.1 hh))
  refine ⟨c, hc, fun r hr => ?_⟩
  have hmean : (w.size : K)⁻¹ • mpiSum w.size c = meanSamples K (m * w.size) seed F := by
    unfold mpiSum meanSamples
    rw [list_sum_range, Nat.mul_comm m, ← blocks_mean w.size m (fun j : ℕ => F (seed * (j + 1)))]
    congr 1
    apply Finset.sum_congr rfl
    intro r hr
    rw [hv r (Finset.mem_range.1 hr)]
    congr 1
    apply Finset.sum_congr rfl
    intro i _
    congr 2
    push_cast; ring
  unfold allAverage
  split
  · exact hmean
  · rename_i h
    have h1 : w.size = 1 := w.serial (by simpa using h)
    have : r = 0 := by omega
    subst this
    rw [← hmean, h1]
    simp [mpiSum]

theorem ite_split {A : Type*} {P : Prop} {inst : Decidable P} (x y : A) {z : A} (h : z = if P then x else y) :
    (P → z = x) ∧ (¬P → z = y) := ⟨fun hp => by rw [h, if_pos hp], fun hp => by rw [h, if_neg hp]⟩

/-- `driver` for a sample loop that starts from zero. -/
theorem driver_samples {K A : Type*} [Field K] [AddCommMonoid A] [Module K A] [Inhabited A] (w : World) (nsamp : ℕ) (seed : ℤ)
    (bad : ℤ → Prop) (F : ℤ → A) (body : ℕ → A → ℕ → Except TErr A)
    (hb : ∀ (r : ℕ) acc (s : ℕ), body r acc s = if bad (seed * (s + r * (distSample w nsamp).2)) then .error .diverged
      else .ok (acc + ((distSample w nsamp).2 : K)⁻¹ • F (seed * (s + r * (distSample w nsamp).2)))) :
    ((∃ j < (distSample w nsamp).1, bad (seed * (j + 1))) →
      onRanks w (fun r => (List.range' 1 (distSample w nsamp).2).foldlM (body r) 0) = .error .diverged) ∧
    ((¬∃ j < (distSample w nsamp).1, bad (seed * (j + 1))) →
      ∃ c, onRanks w (fun r => (List.range' 1 (distSample w nsamp).2).foldlM (body r) 0) = .ok c ∧
      ∀ r < w.size, allAverage (K := K) w c r = meanSamples K (distSample w nsamp).1 seed F) := by
  apply driver
  intro r m
  have h := sample_loop (K := K) bad F seed m r (body r) (hb r) 1 m 0
  rw [zero_add] at h
  exact ite_split _ _ h

end Verif.Tbpm

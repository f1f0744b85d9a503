import Verif.Proof.TbpmCorr

/-! # Quasi-eigenstates, DC conductivity and Kubo-Bastin moments -/

namespace Verif.Tbpm

open Matrix
open scoped Classical

variable {n : ℕ}

/-! ## Quasi-eigenstates -/

theorem range'_one_succ (k : ℕ) : List.range' 1 (k + 1) = List.range' 1 k ++ [k + 1] := by
  rw [List.range'_1_concat, add_comm 1 k]

/-- The filtered state after `k` steps. -/
noncomputable def qeVec (e : Env n) (nt : ℕ) (tstep energy : ℝ) (x : CVec n) (k : ℕ) : CVec n := fun j =>
  x j + ∑ t ∈ Finset.Icc 1 k, (phase energy tstep t * (e.U true ^ t).mulVec x j * hanning nt t +
    star (phase energy tstep t) * (e.U false ^ t).mulVec x j * hanning nt t)

/-- The step of the loop without the check. -/
noncomputable def qeStep (e : Env n) (energies : List ℝ) (tstep : ℝ) (nt : ℕ) (st : (CVec n × CVec n) × (ℕ → CVec n)) (k : ℕ) :
    (CVec n × CVec n) × (ℕ → CVec n) :=
  (((e.U true).mulVec st.1.1, (e.U false).mulVec st.1.2), fun i j => st.2 i j +
    phase (energies.getD i 0) tstep k * (e.U true).mulVec st.1.1 j * hanning nt k +
    star (phase (energies.getD i 0) tstep k) * (e.U false).mulVec st.1.2 j * hanning nt k)

theorem qe_loop (e : Env n) (energies : List ℝ) (tstep : ℝ) (nt : ℕ) (x : CVec n) (k : ℕ) :
    (List.range' 1 k).foldl (qeStep e energies tstep nt) ((x, x), fun _ => x) =
      (((e.U true ^ k).mulVec x, (e.U false ^ k).mulVec x), fun i => qeVec e nt tstep (energies.getD i 0) x k) := by
  induction k with
  | zero =>
    simp only [List.range'_zero, List.foldl_nil, pow_zero, Matrix.one_mulVec]
    congr 1
    funext i j
    simp [qeVec]
  | succ k ih =>
    rw [range'_one_succ, List.foldl_append, ih]
    simp only [List.foldl_cons, List.foldl_nil, qeStep, Matrix.mulVec_mulVec, ← pow_succ']
    congr 1
    funext i j
    unfold qeVec
    rw [Finset.sum_Icc_succ_top (by omega)]
    ring

theorem qe_filter (e : Env n) (nt : ℕ) (tstep energy : ℝ) (x : CVec n) :
    qeVec e nt tstep energy x nt = (e.filter nt tstep energy).mulVec x := by
  funext j
  unfold qeVec Env.filter
  rw [Matrix.add_mulVec, Matrix.one_mulVec, Matrix.sum_mulVec, Pi.add_apply, Finset.sum_apply]
  congr 1
  apply Finset.sum_congr rfl
  intro t _
  rw [Matrix.smul_mulVec, Matrix.add_mulVec, Matrix.smul_mulVec, Matrix.smul_mulVec]
  simp only [Pi.smul_apply, Pi.add_apply, smul_eq_mul, Complex.real_smul]
  have h1 : ((((1 + Real.cos (Real.pi * t / nt)) / 2 : ℝ)) : ℂ) = hanning nt t := by
    unfold hanning; push_cast; ring
  have h2 : star (phase energy tstep t) = Complex.exp (-(Complex.I * energy * t * tstep)) := by
    unfold phase
    rw [Complex.star_def, ← Complex.exp_conj]
    simp
  rw [h1, h2]
  unfold phase
  ring

theorem chk_bind2 {S : Type} (chk : ℤ) (thr : ℝ) (t : ℕ) (wf wf' y : CVec n) (s : S) :
    (do chkNorm chk thr t wf (innerProd y y); chkNorm chk thr t wf' (innerProd y y); (.ok s : Except TErr S)) =
      if (t : ℤ) = chk ∧ (Drifts thr wf y ∨ Drifts thr wf' y) then .error .diverged else .ok s := by
  rw [chk_bind chk thr t wf' y s]
  unfold chkNorm checkNorm Drifts
  simp only [decide_eq_true_eq]
  by_cases h0 : (t : ℤ) = chk
  · by_cases h1 : ‖innerProd wf wf - innerProd y y‖ > thr
    · simp only [h0, h1, true_and, true_or, if_true]; rfl
    · simp only [h0, h1, true_and, false_or, if_true, if_false]; rfl
  · simp only [h0, false_and, if_false]; rfl

theorem qeTime_eq {e : Env n} (g : e.Good) (energies : List ℝ) (tstep : ℝ) (chk : ℤ) (thr : ℝ) (nt r s : ℕ) (x : CVec n)
    (st : (CVec n × CVec n) × (ℕ → CVec n)) (k : ℕ) :
    qeTime e energies tstep chk thr nt r s (innerProd x x) st k =
      if (k : ℤ) = chk ∧ (Drifts thr st.1.1 x ∨ Drifts thr st.1.2 x) then .error .diverged
      else .ok (qeStep e energies tstep nt st k) := by
  unfold qeTime
  simp only [step_eq g]
  rw [chk_bind2]
  rfl

/-- The test of one sample. -/
def qeBad (e : Env n) (chk : ℤ) (thr : ℝ) (nt : ℕ) (x : CVec n) : Prop :=
  ∃ t : ℕ, (t : ℤ) = chk ∧ 1 ≤ t ∧ t ≤ nt ∧
    (Drifts thr ((e.U true ^ (t - 1)).mulVec x) x ∨ Drifts thr ((e.U false ^ (t - 1)).mulVec x) x)

/-- The probabilities of one sample. -/
noncomputable def qeF (e : Env n) (energies : List ℝ) (tstep : ℝ) (nt : ℕ) (x : CVec n) (i : ℕ) (j : Fin n) : ℝ :=
  ‖(e.filter nt tstep (energies.getD i 0)).mulVec x j / (normZ ((e.filter nt tstep (energies.getD i 0)).mulVec x) : ℂ)‖ ^ 2

theorem qeSample_eq {e : Env n} (g : e.Good) (energies : List ℝ) (tstep : ℝ) (rnd : ℤ → CVec n) (seed chk : ℤ) (thr : ℝ)
    (nt ns r : ℕ) (acc : ℕ → Fin n → ℝ) (s : ℕ) :
    qeSample e energies tstep rnd seed chk thr nt ns r acc s =
      if qeBad e chk thr nt (rnd (seed * (s + r * ns))) then .error .diverged
      else .ok (acc + (ns : ℝ)⁻¹ • qeF e energies tstep nt (rnd (seed * (s + r * ns)))) := by
  unfold qeSample
  simp only
  generalize rnd (seed * (s + r * ns)) = x
  rw [guarded_loop (qeTime e energies tstep chk thr nt r s (innerProd x x)) (qeStep e energies tstep nt)
    (fun st => Drifts thr st.1.1 x ∨ Drifts thr st.1.2 x) chk (fun st t => by rw [qeTime_eq g energies tstep chk thr nt r s x st t]; congr)]
  simp only [qe_loop, qe_filter]
  have hc : (∃ t : ℕ, (t : ℤ) = chk ∧ 1 ≤ t ∧ t < 1 + nt ∧ (Drifts thr ((e.U true ^ (t - 1)).mulVec x) x ∨
      Drifts thr ((e.U false ^ (t - 1)).mulVec x) x)) ↔ qeBad e chk thr nt x := by
    unfold qeBad
    constructor <;> rintro ⟨t, h1, h2, h3, h4⟩ <;> exact ⟨t, h1, h2, by omega, h4⟩
  simp only [hc]
  split
  · rfl
  · change Except.ok _ = _
    congr 1
    funext i j
    simp only [Pi.add_apply, Pi.smul_apply, smul_eq_mul, qeF]
    ring

theorem qe_run {e : Env n} (g : e.Good) (w : World) (energies : List ℝ) (tstep : ℝ) (rnd : ℤ → CVec n) (seed chk : ℤ) (thr : ℝ)
    (nt nsamp : ℕ) :
    let bad := ∃ j < (distSample w nsamp).1, qeBad e chk thr nt (rnd (seed * (j + 1)))
    (bad → calcQuasiEigenstates w e energies tstep rnd seed chk thr nt nsamp = .error .diverged) ∧
    (¬bad → ∃ c, calcQuasiEigenstates w e energies tstep rnd seed chk thr nt nsamp = .ok c ∧ ∀ r < w.size,
      c r = meanSamples ℝ (distSample w nsamp).1 seed fun s => qeF e energies tstep nt (rnd s)) := by
  intro bad
  obtain ⟨h1, h2⟩ := driver_samples (K := ℝ) w nsamp seed (fun s => qeBad e chk thr nt (rnd s))
    (fun s => qeF e energies tstep nt (rnd s))
    (fun r => qeSample e energies tstep rnd seed chk thr nt (distSample w nsamp).2 r)
    (fun r acc s => qeSample_eq g energies tstep rnd seed chk thr nt _ r acc s)
  refine ⟨fun hb => ?_, fun hb => ?_⟩
  · unfold calcQuasiEigenstates tbpmEigenstates; rw [h1 hb]; rfl
  · obtain ⟨c, hc, hv⟩ := h2 hb
    refine ⟨_, ?_, hv⟩
    unfold calcQuasiEigenstates tbpmEigenstates; rw [hc]; rfl

/-! ## DC conductivity -/

theorem dc_loop (e : Env n) (energies : List ℝ) (tstep : ℝ) (nt ns : ℕ) (x : CVec n) (c : ℕ → ℂ) (k : ℕ) :
    (List.range' 1 k).foldl (fun (st : ((CVec n × CVec n) × (ℕ → CVec n)) × (ℕ → ℂ)) t =>
      (qeStep e energies tstep nt st.1 t, addAt st.2 t (innerProd x (qeStep e energies tstep nt st.1 t).1.1 / ns)))
      (((x, x), fun _ => x), c) =
      ((((e.U true ^ k).mulVec x, (e.U false ^ k).mulVec x), fun i => qeVec e nt tstep (energies.getD i 0) x k),
        fun t => c t + if 1 ≤ t ∧ t ≤ k then innerProd x ((e.U true ^ t).mulVec x) / ns else 0) := by
  have h1 : ∀ k, ((List.range' 1 k).foldl (fun (st : ((CVec n × CVec n) × (ℕ → CVec n)) × (ℕ → ℂ)) t =>
      (qeStep e energies tstep nt st.1 t, addAt st.2 t (innerProd x (qeStep e energies tstep nt st.1 t).1.1 / ns)))
      (((x, x), fun _ => x), c)).1 = (List.range' 1 k).foldl (qeStep e energies tstep nt) ((x, x), fun _ => x) := by
    intro k
    induction k with
    | zero => rfl
    | succ k ih => rw [range'_one_succ, List.foldl_append, List.foldl_append, ← ih]; rfl
  ext1
  · rw [h1, qe_loop]
  · induction k with
    | zero =>
      funext t
      simp only [List.range'_zero, List.foldl_nil]
      rw [if_neg (by omega), add_zero]
    | succ k ih =>
      rw [range'_one_succ, List.foldl_append]
      simp only [List.foldl_cons, List.foldl_nil]
      rw [ih, h1, qe_loop]
      simp only [qeStep, Matrix.mulVec_mulVec, ← pow_succ']
      funext t
      unfold addAt
      by_cases h : t = k + 1
      · subst h; simp
      · rw [Function.update_of_ne h]
        congr 1
        by_cases h2 : 1 ≤ t ∧ t ≤ k
        · rw [if_pos h2, if_pos (by omega)]
        · rw [if_neg h2, if_neg (by omega)]

/-- The two correlation functions of one sample. -/
noncomputable def dcF (e : Env n) (jx jy : Matrix (Fin n) (Fin n) ℂ) (energies : List ℝ) (tstep : ℝ) (nt : ℕ) (x : CVec n) :
    (ℕ → ℂ) × (ℕ → ℕ → Fin 2 → ℂ) :=
  (fun t => if 1 ≤ t ∧ t ≤ nt then innerProd x ((e.U true ^ t).mulVec x) else 0,
    fun t i c => if 1 ≤ t ∧ t ≤ nt ∧ i < energies.length then
      innerProd ((e.U true ^ (t - 1)).mulVec ((![jx, jy] c).mulVec x))
        ((![jx, jy] c).mulVec ((‖innerProd x ((e.filter nt tstep (energies.getD i 0)).mulVec x)‖ : ℂ)⁻¹ •
          (e.filter nt tstep (energies.getD i 0)).mulVec x)) else 0)

theorem normalised_ratio (x y : CVec n) (h : y ≠ 0) :
    (fun j => (fun j => y j / (normZ y : ℂ)) j / (‖innerProd x fun j => y j / (normZ y : ℂ)‖ : ℂ)) =
      (‖innerProd x y‖ : ℂ)⁻¹ • y := by
  have hn : normZ y ≠ 0 := fun h0 => h ((normZ_eq_zero y).1 h0)
  have hc : (normZ y : ℂ) ≠ 0 := by exact_mod_cast hn
  have e1 : (innerProd x fun j => y j / (normZ y : ℂ)) = innerProd x y / (normZ y : ℂ) := by
    unfold innerProd
    rw [Finset.sum_div]
    apply Finset.sum_congr rfl
    intro i _
    ring
  have e2 : ‖innerProd x y / (normZ y : ℂ)‖ = ‖innerProd x y‖ / normZ y := by
    rw [norm_div, Complex.norm_real, Real.norm_of_nonneg (normZ_nonneg y)]
  funext j
  rw [e1, e2]
  simp only [Pi.smul_apply, smul_eq_mul]
  push_cast
  by_cases h0 : (‖innerProd x y‖ : ℂ) = 0
  · rw [h0]; simp
  · field_simp

theorem dcSample_eq {e : Env n} (g : e.Good) {cx cy : FCsr} (hx : cx.Legal n) (hy : cy.Legal n) (energies : List ℝ) (tstep : ℝ)
    (rnd : ℤ → CVec n) (seed chk : ℤ) (thr : ℝ) (nt : ℕ) (hnt : 1 ≤ nt) (ns r : ℕ) (acc : (ℕ → ℂ) × (ℕ → ℕ → Fin 2 → ℂ)) (s : ℕ) :
    dcSample e cx cy energies tstep rnd seed chk thr nt ns r acc s =
      if qeBad e chk thr nt (rnd (seed * (s + r * ns))) then .error .diverged
      else .ok (acc + (ns : ℂ)⁻¹ • dcF e (cx.toMatrix n) (cy.toMatrix n) energies tstep nt (rnd (seed * (s + r * ns)))) := by
  unfold dcSample
  simp only
  generalize rnd (seed * (s + r * ns)) = x
  rw [guarded_loop (dcTime e energies tstep chk thr nt ns r s x (innerProd x x))
    (fun (st : ((CVec n × CVec n) × (ℕ → CVec n)) × (ℕ → ℂ)) t =>
      (qeStep e energies tstep nt st.1 t, addAt st.2 t (innerProd x (qeStep e energies tstep nt st.1 t).1.1 / ns)))
    (fun st => Drifts thr st.1.1.1 x ∨ Drifts thr st.1.1.2 x) chk
    (fun st t => by
      unfold dcTime
      rw [qeTime_eq g]
      by_cases h : (t : ℤ) = chk ∧ (Drifts thr st.1.1.1 x ∨ Drifts thr st.1.1.2 x)
      · rw [if_pos h, if_pos h]; rfl
      · rw [if_neg h, if_neg h]; rfl)]
  simp only [dc_loop, qe_filter]
  have hc : (∃ t : ℕ, (t : ℤ) = chk ∧ 1 ≤ t ∧ t < 1 + nt ∧ (Drifts thr ((e.U true ^ (t - 1)).mulVec x) x ∨
      Drifts thr ((e.U false ^ (t - 1)).mulVec x) x)) ↔ qeBad e chk thr nt x := by
    unfold qeBad
    constructor <;> rintro ⟨t, h1, h2, h3, h4⟩ <;> exact ⟨t, h1, h2, by omega, h4⟩
  simp only [hc]
  split
  · rfl
  · change Except.ok _ = _
    congr 1
    simp only [mul_eq g _ hx, mul_eq g _ hy]
    set qe : ℕ → CVec n := fun i j => (e.filter nt tstep (energies.getD i 0)).mulVec x j /
      (normZ ((e.filter nt tstep (energies.getD i 0)).mulVec x) : ℂ) with hqe
    set u : CVec n × CVec n → CVec n × CVec n := fun p => ((e.U true).mulVec p.1, (e.U true).mulVec p.2) with hu
    set v : CVec n × CVec n → ℕ → Fin 2 → ℂ := fun p i c => if i < energies.length then
      ![innerProd p.1 ((cx.toMatrix n).mulVec ((‖innerProd x ((e.filter nt tstep (energies.getD i 0)).mulVec x)‖ : ℂ)⁻¹ •
          (e.filter nt tstep (energies.getD i 0)).mulVec x)),
        innerProd p.2 ((cy.toMatrix n).mulVec ((‖innerProd x ((e.filter nt tstep (energies.getD i 0)).mulVec x)‖ : ℂ)⁻¹ •
          (e.filter nt tstep (energies.getD i 0)).mulVec x))] c / ns else 0 with hv
    have hvals : ∀ key jx jy, dcVals e key cx cy energies.length ns x qe jx jy = v (jx, jy) := by
      intro key jx jy
      funext i c
      unfold dcVals
      simp only [mul_eq g _ hx, mul_eq g _ hy, hv]
      have hr : (fun j => qe i j / (‖innerProd x (qe i)‖ : ℂ)) =
          (‖innerProd x ((e.filter nt tstep (energies.getD i 0)).mulVec x)‖ : ℂ)⁻¹ •
          (e.filter nt tstep (energies.getD i 0)).mulVec x := by
        by_cases h0 : (e.filter nt tstep (energies.getD i 0)).mulVec x = 0
        · funext j; simp only [hqe]; rw [h0]; simp
        · exact normalised_ratio x _ h0
      rw [hr]
    have hd : ∀ st t, dcTime2 e cx cy energies.length ns r s x qe st t = (u st.1, addAt st.2 t (v (u st.1))) := by
      intro st t
      unfold dcTime2
      simp only [step_eq g, hvals]
      rfl
    have hd' : dcTime2 e cx cy energies.length ns r s x qe = fun st t => (u st.1, addAt st.2 t (v (u st.1))) := by
      funext st t; exact hd st t
    rw [hd', prop_loop u v, hvals]
    have hit : ∀ k a b, u^[k] (a, b) = ((e.U true ^ k).mulVec a, (e.U true ^ k).mulVec b) := by
      intro k a b
      rw [hu, iterate_pair, iterate_mulVec, iterate_mulVec]
    ext1
    · funext t
      simp only [dcF, Prod.fst_add, Prod.smul_fst, Pi.add_apply, Pi.smul_apply, smul_eq_mul]
      congr 1
      split
      · ring
      · simp
    · funext t i c
      simp only [dcF, Prod.snd_add, Prod.smul_snd, Pi.add_apply, Pi.smul_apply, smul_eq_mul, hit]
      unfold addAt
      by_cases h1 : t = 1
      · subst h1
        simp only [Function.update_self]
        by_cases hi : i < energies.length
        · fin_cases c <;> simp [hv, hnt, hi] <;> ring
        · simp [hv, hi]
      · rw [Function.update_of_ne h1]
        by_cases ht : 1 ≤ t ∧ t ≤ nt
        · rw [if_pos (by omega), show t - 2 + 1 = t - 1 by omega]
          by_cases hi : i < energies.length
          · rw [if_pos ⟨ht.1, ht.2, hi⟩]
            fin_cases c <;> simp [hv, hi] <;> ring
          · rw [if_neg (fun h => hi h.2.2)]; simp [hv, hi]
        · rw [if_neg (by omega), if_neg (fun h => ht ⟨h.1, h.2.1⟩)]; simp

theorem allAverage_fst {A B : Type*} [AddCommMonoid A] [AddCommMonoid B] [Module ℂ A] [Module ℂ B] (w : World) (c : ℕ → A × B)
    (r : ℕ) : allAverage (K := ℂ) w (fun r => (c r).1) r = (allAverage (K := ℂ) w c r).1 := by
  unfold allAverage mpiSum
  split
  · rw [Prod.smul_fst, list_sum_range, list_sum_range, Prod.fst_sum]
  · rfl

theorem allAverage_snd {A B : Type*} [AddCommMonoid A] [AddCommMonoid B] [Module ℂ A] [Module ℂ B] (w : World) (c : ℕ → A × B)
    (r : ℕ) : allAverage (K := ℂ) w (fun r => (c r).2) r = (allAverage (K := ℂ) w c r).2 := by
  unfold allAverage mpiSum
  split
  · rw [Prod.smul_snd, list_sum_range, list_sum_range, Prod.snd_sum]
  · rfl

theorem dc_run {e : Env n} (g : e.Good) (w : World) (rescale enRange lo hi : ℝ) (dx dy : ℕ → ℝ) (tstep : ℝ) (rnd : ℤ → CVec n)
    (seed chk : ℤ) (thr : ℝ) (nt : ℕ) (hnt : 1 ≤ nt) (nsamp : ℕ) :
    let bad := ∃ j < (distSample w nsamp).1, qeBad e chk thr nt (rnd (seed * (j + 1)))
    let ens := (dcIndices (dcEnergies enRange nt) lo hi).map fun k => (dcEnergies enRange nt).getD k 0
    (bad → calcCorrDcCond w e rescale enRange lo hi dx dy tstep rnd seed chk thr nt nsamp = .error .diverged) ∧
    (¬bad → ∃ c, calcCorrDcCond w e rescale enRange lo hi dx dy tstep rnd seed chk thr nt nsamp = .ok c ∧ ∀ r < w.size,
      (c.1 r, c.2 r) = meanSamples ℂ (distSample w nsamp).1 seed fun s => dcF e ((e.ham.current dx rescale).toMatrix n)
        ((e.ham.current dy rescale).toMatrix n) ens tstep nt (rnd s)) := by
  intro bad ens
  obtain ⟨h1, h2⟩ := driver_samples (K := ℂ) w nsamp seed (fun s => qeBad e chk thr nt (rnd s))
    (fun s => dcF e ((e.ham.current dx rescale).toMatrix n) ((e.ham.current dy rescale).toMatrix n) ens tstep nt (rnd s))
    (fun r => dcSample e (e.ham.current dx rescale) (e.ham.current dy rescale) ens tstep rnd seed chk thr nt (distSample w nsamp).2 r)
    (fun r acc s => dcSample_eq g (current_legal g.legal dx rescale) (current_legal g.legal dy rescale) ens tstep rnd seed chk thr nt
      hnt _ r acc s)
  refine ⟨fun hb => ?_, fun hb => ?_⟩
  · unfold calcCorrDcCond tbpmDccond; simp only; rw [h1 hb]; rfl
  · obtain ⟨c, hc, hv⟩ := h2 hb
    refine ⟨(allAverage (K := ℂ) w fun r => (c r).1, allAverage (K := ℂ) w fun r => (c r).2), ?_, fun r hr => ?_⟩
    · unfold calcCorrDcCond tbpmDccond; simp only; rw [hc]; rfl
    · simp only
      rw [allAverage_fst, allAverage_snd, ← hv r hr]

end Verif.Tbpm

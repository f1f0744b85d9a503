import Verif.Proof.DosDensity
import Verif.Props.ParallelRun

/-! # C125: the density of states by diagonalization counts states -/

open MeasureTheory Filter Topology Verif.Props

namespace Verif

theorem stateWeight_nonneg (q : ℕ → (ℕ → ℝ) × (ℕ → ℕ → ℂ)) (orbs : Option (List ℕ)) (k j : ℕ) : 0 ≤ stateWeight q orbs k j := by
  unfold stateWeight
  cases orbs with
  | none => norm_num
  | some os =>
    refine List.sum_nonneg fun x hx => ?_
    obtain ⟨o, -, rfl⟩ := List.mem_map.1 hx
    positivity

/-- **C125 (density).** For every set of k-points there is one density of states `F σ` for every broadening `σ`, such that all runs of
`calc_dos`, on any number of processes, with any range and step of energies, return its values at their energies.  It is
nonnegative; over all energies it integrates to the spin degeneracy times the mean weight of the states; and as the broadening goes
to zero its integral over a window of energies becomes the weighted fraction of the levels in the window. -/
theorem C125_density (D : Diag) (hperm : ∀ ev, (D.argsort ev).Perm (List.range D.nb)) (n : ℕ) (kpts : ℕ → Vec3 ℝ) (conv : ℤ) (q : ℕ → (ℕ → ℝ) × (ℕ → ℕ → ℂ)) (hq : ∀ i < n, eigen D (kpts i) conv = .ok (q i))
    (orbs : Option (List ℕ)) {basis : ℝ → ℝ → ℝ → ℝ} (hb : basis = gaussian ∨ basis = lorentzian) {gs : ℝ} (hgs : 0 ≤ gs) :
    ∃ F : ℝ → ℝ → ℝ,
      (∀ sigma w buf emin emax step f, calcDos D w buf n kpts conv orbs emin emax step sigma basis gs = .ok f →
        ∀ r < w.size, ∀ x (hx : x < (f r).1.length), (f r).2 x = F sigma (f r).1[x]) ∧
      (∀ σ, 0 < σ → (∀ E, 0 ≤ F σ E) ∧ Integrable (F σ) ∧
        ∫ E, F σ E = gs * (∑ k ∈ Finset.range n, ∑ j ∈ Finset.range D.nb, stateWeight q orbs k j) / (n * D.nb)) ∧
      ∀ a b, a < b → (∀ k < n, ∀ j < D.nb, (q k).1 j ≠ a ∧ (q k).1 j ≠ b) →
        Tendsto (fun σ => ∫ E in a..b, F σ E) (𝓝[>] 0) (𝓝 (gs * (∑ k ∈ Finset.range n, ∑ j ∈ Finset.range D.nb,
          if a < (q k).1 j ∧ (q k).1 j < b then stateWeight q orbs k j else 0) / (n * D.nb))) := by
  obtain ⟨φ, hφ, hs⟩ := basis_bump hb
  refine ⟨fun σ E => gs * (∑ k ∈ Finset.range n, ∑ j ∈ Finset.range D.nb, basis E ((q k).1 j) σ * stateWeight q orbs k j) / (n * D.nb),
    ?_, ?_, ?_⟩
  · intro sigma w buf emin emax step f hf r hr x hx
    rw [dos_levels D hperm n kpts conv q hq orbs w buf emin emax step sigma basis gs f hf r hr x, List.getD_eq_getElem?_getD,
      List.getElem?_eq_getElem hx, Option.getD_some]
  · intro σ hσ
    have hi : ∀ k j, Integrable fun E => basis E ((q k).1 j) σ * stateWeight q orbs k j := by
      intro k j
      simp only [hs σ hσ]
      exact (bump_int hφ hσ _).1.mul_const _
    have hi2 : ∀ k ∈ Finset.range n, Integrable fun E => ∑ j ∈ Finset.range D.nb, basis E ((q k).1 j) σ * stateWeight q orbs k j :=
      fun k _ => integrable_finsetSum _ fun j _ => hi k j
    refine ⟨fun E => ?_, ((integrable_finsetSum _ hi2).const_mul _).div_const _, ?_⟩
    · refine div_nonneg (mul_nonneg hgs (Finset.sum_nonneg fun k _ => Finset.sum_nonneg fun j _ =>
        mul_nonneg ?_ (stateWeight_nonneg _ _ _ _))) (by positivity)
      rw [hs σ hσ]
      exact mul_nonneg (by positivity) (hφ.nonneg _)
    · rw [integral_div, integral_const_mul, integral_finsetSum _ hi2]
      congr 2
      refine Finset.sum_congr rfl fun k _ => ?_
      rw [integral_finsetSum _ fun j _ => hi k j]
      refine Finset.sum_congr rfl fun j _ => ?_
      rw [integral_mul_const]
      simp only [hs σ hσ]
      rw [(bump_int hφ hσ _).2, one_mul]
  · intro a b hab hne
    have hlim : Tendsto (fun σ => gs * (∑ k ∈ Finset.range n, ∑ j ∈ Finset.range D.nb,
        (∫ E in a..b, σ⁻¹ * φ (E / σ - (q k).1 j / σ)) * stateWeight q orbs k j) / (n * D.nb)) (𝓝[>] 0)
        (𝓝 (gs * (∑ k ∈ Finset.range n, ∑ j ∈ Finset.range D.nb,
          (if a < (q k).1 j ∧ (q k).1 j < b then 1 else 0) * stateWeight q orbs k j) / (n * D.nb))) := by
      refine ((tendsto_finsetSum _ fun k hk => tendsto_finsetSum _ fun j hj => ?_).const_mul gs).div_const _
      have := hne k (Finset.mem_range.1 hk) j (Finset.mem_range.1 hj)
      exact (bump_count hφ hab this.1 this.2).mul_const _
    simp only [ite_mul, one_mul, zero_mul] at hlim
    refine hlim.congr' ?_
    filter_upwards [self_mem_nhdsWithin] with σ hσ
    have hσ : 0 < σ := hσ
    have hi : ∀ k j, IntervalIntegrable (fun E => basis E ((q k).1 j) σ * stateWeight q orbs k j) volume a b := by
      intro k j
      simp only [hs σ hσ]
      exact ((bump_int hφ hσ _).1.mul_const _).intervalIntegrable
    have hi2 : ∀ k ∈ Finset.range n, IntervalIntegrable (fun E => ∑ j ∈ Finset.range D.nb, basis E ((q k).1 j) σ * stateWeight q orbs k j)
        volume a b := by
      intro k _
      have := IntervalIntegrable.sum (Finset.range D.nb) fun j _ => hi k j
      simpa only [Finset.sum_fn] using this
    rw [intervalIntegral.integral_div, intervalIntegral.integral_const_mul, intervalIntegral.integral_finset_sum hi2]
    congr 2
    refine Finset.sum_congr rfl fun k _ => ?_
    rw [intervalIntegral.integral_finset_sum fun j _ => hi k j]
    refine Finset.sum_congr rfl fun j _ => ?_
    rw [intervalIntegral.integral_mul_const]
    simp only [hs σ hσ]

/-- **C125 (mean weight).** Without orbitals the mean weight is one; for orthonormal states it is the fraction of the orbitals which are
given. -/
theorem C125_weight (nb : ℕ) (hnb : 0 < nb) (n : ℕ) (hn : 0 < n) (q : ℕ → (ℕ → ℝ) × (ℕ → ℕ → ℂ)) :
    (∑ k ∈ Finset.range n, ∑ j ∈ Finset.range nb, stateWeight q none k j) / (n * nb) = 1 ∧
    ((∀ k < n, (Matrix.of fun (o j : Fin nb) => (q k).2 o j) ∈ Matrix.unitaryGroup (Fin nb) ℂ) →
      (∀ os : List ℕ, (∀ o ∈ os, o < nb) →
        (∑ k ∈ Finset.range n, ∑ j ∈ Finset.range nb, stateWeight q (some os) k j) / (n * nb) = os.length / nb) ∧
      ∀ os : List ℕ, os.Perm (List.range nb) → ∀ k < n, ∀ j < nb, stateWeight q (some os) k j = stateWeight q none k j) := by
  have hn' : (n : ℝ) ≠ 0 := by exact_mod_cast hn.ne'
  have hnb' : (nb : ℝ) ≠ 0 := by exact_mod_cast hnb.ne'
  refine ⟨?_, fun hU => ⟨fun os hos => ?_, fun os hos k hk j hj => ?_⟩⟩
  · simp only [stateWeight, Finset.sum_const, Finset.card_range, nsmul_eq_mul, mul_one]
    field_simp
  · have h1 : ∀ k < n, ∑ j ∈ Finset.range nb, stateWeight q (some os) k j = os.length := by
      intro k hk
      have hrow : ∀ o < nb, ∑ j ∈ Finset.range nb, ‖(q k).2 o j‖ ^ 2 = 1 := by
        intro o ho
        have := congrFun (congrFun (Matrix.mem_unitaryGroup_iff.1 (hU k hk)) ⟨o, ho⟩) ⟨o, ho⟩
        rw [Matrix.mul_apply, Matrix.one_apply_eq] at this
        apply Complex.ofReal_injective
        rw [Finset.sum_range]
        push_cast
        rw [← this]
        refine Finset.sum_congr rfl fun j _ => ?_
        rw [Matrix.star_apply, Matrix.of_apply, Complex.star_def, Complex.mul_conj, Complex.normSq_eq_norm_sq]
        push_cast; rfl
      simp only [stateWeight]
      clear hU
      induction os with
      | nil => simp
      | cons o os ih =>
        simp only [List.map_cons, List.sum_cons, Finset.sum_add_distrib, List.length_cons]
        rw [hrow o (hos o (by simp)), ih fun o' h' => hos o' (by simp [h'])]
        push_cast; ring
    rw [Finset.sum_congr rfl fun k hk => h1 k (Finset.mem_range.1 hk), Finset.sum_const, Finset.card_range, nsmul_eq_mul]
    field_simp
  · simp only [stateWeight]
    rw [(hos.map _).sum_eq, list_sum_range, Finset.sum_range]
    have := congrFun (congrFun (Matrix.mem_unitaryGroup_iff'.1 (hU k hk)) ⟨j, hj⟩) ⟨j, hj⟩
    rw [Matrix.mul_apply, Matrix.one_apply_eq] at this
    apply Complex.ofReal_injective
    push_cast
    rw [← this]
    refine Finset.sum_congr rfl fun o _ => ?_
    rw [Matrix.star_apply, Matrix.of_apply, mul_comm, Complex.star_def, Complex.mul_conj, Complex.normSq_eq_norm_sq]
    push_cast; rfl

/-- **C125 (sets of orbitals).** The densities of states of two sets of orbitals add up to that of their union, energy by energy. -/
theorem C125_additive (D : Diag) (hperm : ∀ ev, (D.argsort ev).Perm (List.range D.nb)) (n : ℕ)
    (kpts : ℕ → Vec3 ℝ) (conv : ℤ) (q : ℕ → (ℕ → ℝ) × (ℕ → ℕ → ℂ)) (hq : ∀ i < n, eigen D (kpts i) conv = .ok (q i))
    (os os' os'' : List ℕ) (hu : os''.Perm (os ++ os')) (w w' w'' : World) (buf buf' buf'' : ℕ → Buf) (a b step sigma gs : ℝ)
    (basis : ℝ → ℝ → ℝ → ℝ) (f f' f'' : ℕ → List ℝ × (ℕ → ℝ))
    (hf : calcDos D w buf n kpts conv (some os) (some a) (some b) step sigma basis gs = .ok f)
    (hf' : calcDos D w' buf' n kpts conv (some os') (some a) (some b) step sigma basis gs = .ok f')
    (hf'' : calcDos D w'' buf'' n kpts conv (some os'') (some a) (some b) step sigma basis gs = .ok f'')
    (r r' r'' : ℕ) (hr : r < w.size) (hr' : r' < w'.size) (hr'' : r'' < w''.size) (x : ℕ) :
    (f'' r'').1 = (f r).1 ∧ (f' r').1 = (f r).1 ∧ (f'' r'').2 x = (f r).2 x + (f' r').2 x := by
  have e1 := dos_grid_eq D n kpts conv _ w buf a b step sigma basis gs f hf r hr
  have e2 := dos_grid_eq D n kpts conv _ w' buf' a b step sigma basis gs f' hf' r' hr'
  have e3 := dos_grid_eq D n kpts conv _ w'' buf'' a b step sigma basis gs f'' hf'' r'' hr''
  have g1 : (f'' r'').1 = (f r).1 := by rw [e1] at e3; exact (Except.ok.inj e3).symm
  have g2 : (f' r').1 = (f r).1 := by rw [e1] at e2; exact (Except.ok.inj e2).symm
  refine ⟨g1, g2, ?_⟩
  rw [dos_levels D hperm n kpts conv q hq _ w buf _ _ step sigma basis gs f hf r hr x,
    dos_levels D hperm n kpts conv q hq _ w' buf' _ _ step sigma basis gs f' hf' r' hr' x,
    dos_levels D hperm n kpts conv q hq _ w'' buf'' _ _ step sigma basis gs f'' hf'' r'' hr'' x, g1, g2, ← add_div, ← mul_add,
    ← Finset.sum_add_distrib]
  congr 2
  refine Finset.sum_congr rfl fun k _ => ?_
  rw [← Finset.sum_add_distrib]
  refine Finset.sum_congr rfl fun j _ => ?_
  simp only [stateWeight, (hu.map _).sum_eq, List.map_append, List.sum_append, mul_add]

/-- **C125 (energies).** If the range holds at least one step, the energies are equally spaced from its lower to its upper end; the
spacing is at least the requested step and less than twice that. -/
theorem C125_energies (D : Diag) (n : ℕ) (kpts : ℕ → Vec3 ℝ) (conv : ℤ) (orbs : Option (List ℕ)) (w : World) (buf : ℕ → Buf) (a b step sigma gs : ℝ) (hstep : 0 < step) (hab : a + step ≤ b)
    (basis : ℝ → ℝ → ℝ → ℝ) (f : ℕ → List ℝ × (ℕ → ℝ))
    (hf : calcDos D w buf n kpts conv orbs (some a) (some b) step sigma basis gs = .ok f) (r : ℕ) (hr : r < w.size) :
    ∃ m : ℕ, ∃ d : ℝ, 0 < m ∧ step ≤ d ∧ d < 2 * step ∧ a + m * d = b ∧ (f r).1 = (List.range (m + 1)).map fun i : ℕ => a + i * d := by
  have e := dos_grid_eq D n kpts conv _ w buf a b step sigma basis gs f hf r hr
  unfold dosGrid at e
  simp only at e
  have h1 : 1 ≤ (b - a) / step := by rw [le_div_iff₀ hstep]; linarith
  have h0 : 0 ≤ (b - a) / step := by linarith
  rw [if_pos h0] at e
  have hfl : 1 ≤ ⌊(b - a) / step⌋ := by rw [Int.le_floor]; exact_mod_cast h1
  rw [if_neg (by omega), if_neg (by omega)] at e
  have hm : ((⌊(b - a) / step⌋.toNat : ℕ) : ℝ) = (⌊(b - a) / step⌋ : ℝ) := by
    have : ((⌊(b - a) / step⌋.toNat : ℕ) : ℤ) = ⌊(b - a) / step⌋ := Int.toNat_of_nonneg (by omega)
    exact_mod_cast this
  have hm1 : (1 : ℝ) ≤ (⌊(b - a) / step⌋.toNat : ℕ) := by rw [hm]; exact_mod_cast hfl
  have hlo := Int.floor_le ((b - a) / step)
  have hhi := Int.lt_floor_add_one ((b - a) / step)
  rw [← hm] at hlo hhi
  set m := ⌊(b - a) / step⌋.toNat
  have hm0 : (0 : ℝ) < m := by linarith
  rw [le_div_iff₀ hstep] at hlo
  rw [div_lt_iff₀ hstep] at hhi
  refine ⟨m, (b - a) / m, by exact_mod_cast hm0, ?_, ?_, ?_, ?_⟩
  · rw [le_div_iff₀ hm0]; linarith
  · rw [div_lt_iff₀ hm0]; nlinarith
  · field_simp; ring
  · rw [← Except.ok.inj e, npLinspace]

/-- A case: one band `k_x` at the points 5 and 6.  Every run succeeds; with a narrow Gaussian half of the states are between 4.5 and
5.5. -/
example : ∃ F : ℝ → ℝ → ℝ,
    (∀ sigma w buf emin emax step f, calcDos kxDiag w buf 2 (fun i _ => (i : ℝ) + 5) 1 none emin emax step sigma gaussian 2 = .ok f →
      ∀ r < w.size, ∀ x (hx : x < (f r).1.length), (f r).2 x = F sigma (f r).1[x]) ∧ (∀ σ, 0 < σ → ∫ E, F σ E = 2) ∧
    Tendsto (fun σ => ∫ E in (4.5 : ℝ)..5.5, F σ E) (𝓝[>] 0) (𝓝 1) := by
  have hq : ∀ i < 2, eigen kxDiag (fun _ => ((i : ℕ) : ℝ) + 5) 1 = .ok ((fun i : ℕ => (((fun _ => (i : ℝ) + 5), fun _ _ => 1) : (ℕ → ℝ) × (ℕ → ℕ → ℂ))) i) := by
    intro i _
    unfold eigen kxDiag
    simp
  obtain ⟨F, h1, h2, h3⟩ := C125_density kxDiag (fun _ => List.Perm.refl _) 2 (fun i _ => (i : ℝ) + 5) 1 _ hq none (Or.inl rfl) (gs := 2) (by norm_num)
  refine ⟨F, h1, fun σ hσ => ?_, ?_⟩
  · rw [(h2 σ hσ).2.2]
    simp [stateWeight, kxDiag]
  · have := h3 4.5 5.5 (by norm_num) (by
      intro k hk j _
      have : k = 0 ∨ k = 1 := by omega
      rcases this with rfl | rfl <;> constructor <;> norm_num)
    simp only [kxDiag, stateWeight, Finset.sum_range_succ, Finset.range_zero, Finset.sum_empty] at this
    norm_num at this ⊢
    exact this

/-- A case: the run succeeds on three processes. -/
example : ∃ f, calcDos kxDiag ⟨true, 3, by decide, by decide⟩ (fun _ => (none, none)) 2 (fun i _ => (i : ℝ) + 5) 1 none (some 4) (some 7) 0.5 0.1
    lorentzian 1 = .ok f ∧ (f 2).1.length = 7 := by
  have h := C44_dos kxDiag ⟨true, 3, by decide, by decide⟩ (fun _ => (none, none)) 2 (fun i _ => (i : ℝ) + 5) 1 none (some 4) (some 7) 0.5 0.1
    lorentzian 1 2 (by decide)
  have hs : eigens kxDiag 2 (fun i _ => (i : ℝ) + 5) 1 =
      .ok [(fun _ => 5, fun _ _ => 1), (fun _ => 6, fun _ _ => 1)] := by
    have : ∀ i : ℕ, eigen kxDiag (fun _ => (i : ℝ) + 5) 1 = .ok (fun _ => (i : ℝ) + 5, fun _ _ => 1) := by
      intro i
      unfold eigen kxDiag
      simp
    unfold eigens
    simp only [this]
    show Except.ok _ = _
    norm_num
  unfold dosSpec bandsSpec at h
  rw [hs] at h
  have hg : ∀ b, dosGrid 2 kxDiag.nb b (some 4) (some 7) 0.5 = .ok (npLinspace 4 7 6) := by
    intro b
    unfold dosGrid
    simp only
    have h0 : ((7 : ℝ) - 4) / 0.5 = 6 := by norm_num
    have h1 : ⌊(6 : ℝ)⌋ = 6 := by exact_mod_cast Int.floor_intCast (R := ℝ) 6
    have h2 : (0 : ℝ) ≤ 6 := by norm_num
    simp only [h0, if_pos h2, h1]
    rfl
  simp only [Except.map, hg] at h
  split at h
  · cases h
  · rename_i f hf
    refine ⟨f, hf, ?_⟩
    rw [Except.ok.inj h]
    simp [npLinspace]

end Verif

import Verif.Proof.QuasiFilter
import Verif.Props.DosGap

/-! # C132: quasi-eigenstates are made of the states at their energy -/

namespace Verif.Analysis

open Verif.Tbpm Matrix

variable {n : ℕ} {sch : List ℕ → ℕ → List (Fin n)} {ham : FCsr} {rescale prec : ℝ} {besselMax : ℕ} {e : Env n}

/-- What is left of far states in the filtered state, from the filter and from the errors of the propagation. -/
noncomputable def remainder (nt : ℕ) (prec R eta : ℝ) : ℝ :=
  filterLeak nt R eta + nt * ((1 + prec * (Real.pi + 2)) ^ nt - 1)

theorem scaled_herm (hr : Ready sch ham) (rescale : ℝ) : ((rescale : ℂ) • ham.toMatrix n).IsHermitian := by
  have := hr.herm
  unfold Matrix.IsHermitian at *
  rw [conjTranspose_smul, this]
  simp

theorem Level.unit {H : Matrix (Fin n) (Fin n) ℂ} {u : CVec n} {eps : ℝ} (h : Level H u eps) : innerProd u u = 1 := by
  rw [innerProd_stateNorm, stateNorm_entries, h.norm, Complex.ofReal_one]

theorem mean_bound (N : ℕ) (hN : 1 ≤ N) (seed : ℤ) (f : ℤ → ℝ) (x B : ℝ) (h : ∀ s, |f s - x| ≤ B) :
    |meanSamples ℝ N seed f - x| ≤ B := by
  have hN' : (0 : ℝ) < N := by exact_mod_cast hN
  unfold meanSamples
  have e : (N : ℝ)⁻¹ • ∑ j ∈ Finset.range N, f (seed * (j + 1)) - x = (N : ℝ)⁻¹ * ∑ j ∈ Finset.range N, (f (seed * (j + 1)) - x) := by
    rw [Finset.sum_sub_distrib, Finset.sum_const, Finset.card_range, nsmul_eq_mul, smul_eq_mul]
    field_simp
  rw [e, abs_mul, abs_of_pos (by positivity), inv_mul_le_iff₀ hN']
  refine (Finset.abs_sum_le_sum_abs _ _).trans ((Finset.sum_le_sum fun j _ => h _).trans ?_)
  rw [Finset.sum_const, Finset.card_range, nsmul_eq_mul]

section
variable (hr : Ready sch ham) (h0 : 0 < rescale) (hp : Precise Real.pi prec) (he : solverEnv sch ham rescale 1 prec besselMax = .ok e)
  (nt : ℕ) (hnt : 1 ≤ nt)
include hr h0 hp he hnt

/-- The filter of the program against the exact one. -/
theorem filter_close (en : ℝ) (psi : CVec n) (hpsi : innerProd psi psi = 1) :
    stateNorm ((e.filter nt (getTimeStep rescale) en).mulVec psi -
      (exactFilter (scaled_herm hr rescale) nt (2 * Real.pi / (2 * rescale)) en).mulVec psi) ≤
      nt * ((1 + prec * (Real.pi + 2)) ^ nt - 1) := by
  obtain ⟨-, h⟩ := env_steps hr h0.ne' (by rwa [one_mul]) he
  have hs := stateNorm_one hpsi
  have hp0 : 0 ≤ prec * (Real.pi + 2) := mul_nonneg hp.nonneg (by linarith [Real.pi_pos])
  have hse : stepErr 1 prec = prec * (Real.pi + 2) := by unfold stepErr; rw [one_mul]
  have hpow : ∀ t ≤ nt, (1 + prec * (Real.pi + 2)) ^ t - 1 ≤ (1 + prec * (Real.pi + 2)) ^ nt - 1 := fun t ht =>
    sub_le_sub_right (pow_le_pow_right₀ (by linarith) ht) 1
  have htau : 2 * Real.pi / (2 * rescale) = getTimeStep rescale := by unfold getTimeStep energyRange; rfl
  rw [htau]
  refine filter_error _ nt hnt _ en _ (by linarith [one_le_pow₀ (by linarith : 1 ≤ 1 + prec * (Real.pi + 2)) (n := nt)]) psi ?_ ?_
  · intro t ht
    have := h true t psi
    rw [hs, hse, mul_one, one_mul, if_pos rfl] at this
    exact this.trans (hpow t ht)
  · intro t ht
    have := h false t psi
    rw [hs, hse, mul_one, one_mul, if_neg (by simp)] at this
    exact this.trans (hpow t ht)

end

theorem level_filter {H : Matrix (Fin n) (Fin n) ℂ} (hH : H.IsHermitian) (T : ℕ) (tau en : ℝ) {u : CVec n} {eps : ℝ} (hu : Level H u eps) :
    (exactFilter hH T tau en).mulVec u = (qeKernel T ((en - eps) * tau) : ℂ) • u :=
  Verif.Fft.hermFn_eigen hH _ u eps hu.eigen

section
variable (hr : Ready sch ham) (h0 : 0 < rescale) (hp : Precise Real.pi prec) (he : solverEnv sch ham rescale 1 prec besselMax = .ok e)
  (w : World) (energies : List ℝ) (rnd : ℤ → CVec n) (hn : ∀ s, innerProd (rnd s) (rnd s) = 1) (seed chk : ℤ) (thr : ℝ) (nt : ℕ)
  (hnt : 1 ≤ nt) (nsamp : ℕ) (hns : 1 ≤ nsamp) {c : ℕ → ℕ → Fin n → ℝ}
  (hc : calcQuasiEigenstates w e energies (getTimeStep rescale) rnd seed chk thr nt nsamp = .ok c)
include hr h0 hp he hn hnt hns hc

/-- C132: near a single level (within the energy range divided by eight times the number of time steps, all other levels further than
`eta`) the quasi-eigenstate is the probability density of the eigenvector, up to an error that falls like the inverse square of the
number of time steps, relative to the overlap `a` of the random states with the eigenvector. -/
theorem C132_isolated (i : ℕ) (hi : i < energies.length) (u : CVec n) (eps : ℝ)
    (hu : Level ((rescale : ℂ) • ham.toMatrix n) u eps) (hnear : |energies[i] - eps| ≤ 2 * rescale / (8 * nt)) (eta : ℝ) (heta : 0 < eta)
    (hrest : RestFar ((rescale : ℂ) • ham.toMatrix n) u (2 * rescale) eta energies[i]) (a : ℝ)
    (ha : ∀ s, a ≤ ‖∑ k, star (u k) * rnd s k‖) (hsmall : 2 * remainder nt prec (2 * rescale) eta < a * nt) :
    ∀ r < w.size, ∀ j, |c r i j - ‖u j‖ ^ 2| ≤ 8 * remainder nt prec (2 * rescale) eta / (a * nt) := by
  intro r hr' j
  have hR : 0 < 2 * rescale := by linarith
  have hnt' : (0 : ℝ) < nt := by exact_mod_cast hnt
  have hH := scaled_herm hr rescale
  have hleak : 0 ≤ filterLeak nt (2 * rescale) eta := by unfold filterLeak; positivity
  set rho := remainder nt prec (2 * rescale) eta with hrho
  have g := (env_steps hr h0.ne' (by rwa [one_mul]) he).1
  have key : ∀ s, (e.filter nt (getTimeStep rescale) energies[i]).mulVec (rnd s) ≠ 0 ∧
      |‖(e.filter nt (getTimeStep rescale) energies[i]).mulVec (rnd s) j‖ ^ 2 /
        ∑ k, ‖(e.filter nt (getTimeStep rescale) energies[i]).mulVec (rnd s) k‖ ^ 2 - ‖u j‖ ^ 2| ≤ 8 * rho / (a * nt) := by
    intro s
    have hclose := filter_close hr h0 hp he nt hnt energies[i] (rnd s) (hn s)
    set y := (e.filter nt (getTimeStep rescale) energies[i]).mulVec (rnd s) with hy
    set F := exactFilter (scaled_herm hr rescale) nt (2 * Real.pi / (2 * rescale)) energies[i] with hF
    set b := innerProd u (rnd s) with hb
    set q := qeKernel nt ((energies[i] - eps) * (2 * Real.pi / (2 * rescale))) with hq
    have hq2 : (nt : ℝ) / 2 ≤ q := qe_near_energy nt hnt (2 * rescale) _ hR hnear
    have hup : innerProd u (rnd s - b • u) = 0 := by
      rw [sub_eq_add_neg, ← neg_smul, innerProd_add, innerProd_smul, hu.unit, ← hb]
      ring
    have hrestn : stateNorm (rnd s - b • u) ≤ 1 := by
      have h1 : innerProd (rnd s) (rnd s) = innerProd (rnd s - b • u) (rnd s - b • u) + ((‖b‖ ^ 2 : ℝ) : ℂ) := by
        have e1 : rnd s = (rnd s - b • u) + b • u := by simp
        have hup' : innerProd (rnd s - b • u) u = 0 := by rw [← innerProd_symm, hup, star_zero]
        conv_lhs => rw [e1]
        rw [innerProd_add, innerProd_add_left, innerProd_add_left, innerProd_smul_left, innerProd_smul, innerProd_smul_left,
          innerProd_smul, hup, hup', hu.unit]
        simp only [mul_zero, add_zero, zero_add, mul_one, Complex.star_def, Complex.ofReal_pow]
        rw [Complex.conj_mul']
      rw [hn, innerProd_stateNorm] at h1
      have h2 : (1 : ℝ) = stateNorm (rnd s - b • u) ^ 2 + ‖b‖ ^ 2 := by exact_mod_cast h1
      have h3 : stateNorm (rnd s - b • u) ^ 2 ≤ 1 := by nlinarith [sq_nonneg ‖b‖]
      exact (sq_le_one_iff₀ (norm_nonneg _)).1 h3
    have hFr : stateNorm (F.mulVec (rnd s - b • u)) ≤ filterLeak nt (2 * rescale) eta := by
      refine (herm_bound hH _ (filterLeak nt (2 * rescale) eta) hleak _ ?_).trans (mul_le_of_le_one_right hleak hrestn)
      intro k hk
      obtain ⟨v, hv0, hvu, hv⟩ := rest_far hH u hu.unit eps hu.eigen _ hup k hk
      obtain ⟨h1, h2⟩ := hrest _ v hv0 hvu hv
      rw [Complex.norm_real]
      exact qe_far_energy nt hnt (2 * rescale) eta _ hR heta h1 h2
    set z := F.mulVec (rnd s - b • u) + (y - F.mulVec (rnd s)) with hz
    have hyz : y = ((q : ℂ) * b) • u + z := by
      have h1 : F.mulVec (rnd s - b • u) = F.mulVec (rnd s) - ((q : ℂ) * b) • u := by
        rw [Matrix.mulVec_sub, Matrix.mulVec_smul, hF, level_filter _ _ _ _ hu, smul_smul, mul_comm b]
      rw [hz, h1]
      abel
    have hzn : stateNorm z ≤ rho := (stateNorm_add _ _).trans (add_le_add hFr hclose)
    have hrho0 : 0 ≤ rho := (norm_nonneg _).trans hzn
    have ha0 : 0 < a := by
      by_contra hcon
      have := mul_nonpos_of_nonpos_of_nonneg (not_lt.1 hcon) hnt'.le
      linarith
    have hA : a * nt / 2 ≤ ‖(q : ℂ) * b‖ := by
      rw [norm_mul, Complex.norm_real, Real.norm_of_nonneg (by linarith)]
      calc a * nt / 2 = nt / 2 * a := by ring
        _ ≤ q * ‖b‖ := mul_le_mul hq2 (ha s) ha0.le (by linarith)
    have h := mainly u z (stateNorm_one hu.unit) ((q : ℂ) * b) rho (a * nt / 2) hzn hA (by linarith) j
    rw [← hyz] at h
    refine ⟨h.1, h.2.trans (le_of_eq ?_)⟩
    field_simp
    ring
  rw [C82_quasi_eigenstates g w energies (getTimeStep rescale) rnd seed chk thr nt nsamp hc r hr' i hi (fun s => (key s).1) j]
  exact mean_bound _ (samples_pos w nsamp hns) seed _ _ _ fun s => (key s).2

/-- C132: an orbital in which no state near the energy has an amplitude gets no weight, up to an error that falls like the inverse
fourth power of the number of time steps, if there is a state at the energy with which the random states overlap by at least `a`. -/
theorem C132_empty (i : ℕ) (hi : i < energies.length) (eta : ℝ) (heta : 0 < eta) (j : Fin n)
    (hfar : FarFrom ((rescale : ℂ) • ham.toMatrix n) (fun k => k = j) (2 * rescale) eta energies[i]) (a : ℝ)
    (ha : ∀ s, ∃ u eps, Level ((rescale : ℂ) • ham.toMatrix n) u eps ∧ |energies[i] - eps| ≤ 2 * rescale / (8 * nt) ∧
      a ≤ ‖∑ k, star (u k) * rnd s k‖) (hsmall : 2 * remainder nt prec (2 * rescale) eta < a * nt) :
    ∀ r < w.size, c r i j ≤ (2 * remainder nt prec (2 * rescale) eta / (a * nt - 2 * remainder nt prec (2 * rescale) eta)) ^ 2 := by
  intro r hr'
  have hR : 0 < 2 * rescale := by linarith
  have hnt' : (0 : ℝ) < nt := by exact_mod_cast hnt
  have hH := scaled_herm hr rescale
  have hleak : 0 ≤ filterLeak nt (2 * rescale) eta := by unfold filterLeak; positivity
  set rho := remainder nt prec (2 * rescale) eta with hrho
  have g := (env_steps hr h0.ne' (by rwa [one_mul]) he).1
  have key : ∀ s, (e.filter nt (getTimeStep rescale) energies[i]).mulVec (rnd s) ≠ 0 ∧
      ‖(e.filter nt (getTimeStep rescale) energies[i]).mulVec (rnd s) j‖ ^ 2 /
        ∑ k, ‖(e.filter nt (getTimeStep rescale) energies[i]).mulVec (rnd s) k‖ ^ 2 ≤ (2 * rho / (a * nt - 2 * rho)) ^ 2 := by
    intro s
    obtain ⟨u, eps, hu, hnear, has⟩ := ha s
    have hclose := filter_close hr h0 hp he nt hnt energies[i] (rnd s) (hn s)
    set y := (e.filter nt (getTimeStep rescale) energies[i]).mulVec (rnd s) with hy
    set F := exactFilter (scaled_herm hr rescale) nt (2 * Real.pi / (2 * rescale)) energies[i] with hF
    set q := qeKernel nt ((energies[i] - eps) * (2 * Real.pi / (2 * rescale))) with hq
    have hq2 : (nt : ℝ) / 2 ≤ q := qe_near_energy nt hnt (2 * rescale) _ hR hnear
    have hrs := stateNorm_one (hn s)
    have herr0 : 0 ≤ nt * ((1 + prec * (Real.pi + 2)) ^ nt - 1) := (norm_nonneg _).trans hclose
    have hFadj : ∀ x y : CVec n, innerProd x (F.mulVec y) = innerProd (F.mulVec x) y := by
      refine innerProd_herm F ?_
      unfold Matrix.IsHermitian
      rw [hF]
      unfold exactFilter
      rw [hermFn_star]
      simp
    have hsite : stateNorm (F.mulVec (Pi.single j 1)) ≤ filterLeak nt (2 * rescale) eta := by
      have h1 : stateNorm (Pi.single j 1 : CVec n) = 1 := by
        apply stateNorm_one
        simp [innerProd, Pi.single_apply]
      refine (herm_bound hH _ (filterLeak nt (2 * rescale) eta) hleak _ ?_).trans (by rw [h1, mul_one])
      intro k hk
      obtain ⟨h1, h2⟩ := hfar (hH.eigenvalues k) (hH.eigenvectorBasis k) (hH.mulVec_eigenvectorBasis k) ⟨j, rfl, fun h => hk (by
        simp [innerProd, Pi.single_apply, h])⟩
      rw [Complex.norm_real]
      exact qe_far_energy nt hnt (2 * rescale) eta _ hR heta h1 h2
    have hyj : ‖y j‖ ≤ rho := by
      have e1 : y j = innerProd (F.mulVec (Pi.single j 1)) (rnd s) + (y - F.mulVec (rnd s)) j := by
        rw [← hFadj]
        simp [innerProd, Pi.single_apply]
      rw [e1]
      refine (norm_add_le _ _).trans (add_le_add ?_ ((entry_le _ j).trans hclose))
      refine (innerProd_norm_le _ _).trans ?_
      rw [hrs, mul_one]
      exact hsite
    have hrho0 : 0 ≤ rho := (norm_nonneg _).trans hyj
    have ha0 : 0 < a := by
      by_contra hcon
      have := mul_nonpos_of_nonpos_of_nonneg (not_lt.1 hcon) hnt'.le
      linarith
    have hyn : a * nt / 2 - rho ≤ stateNorm y := by
      have h1 : innerProd u y = (q : ℂ) * innerProd u (rnd s) + innerProd u (y - F.mulVec (rnd s)) := by
        have e1 : y = F.mulVec (rnd s) + (y - F.mulVec (rnd s)) := by simp
        conv_lhs => rw [e1]
        rw [innerProd_add, hFadj, hF, level_filter _ _ _ _ hu, innerProd_smul_left, Complex.star_def, Complex.conj_ofReal]
      have h2 := innerProd_norm_le u y
      have h3 := innerProd_norm_le u (y - F.mulVec (rnd s))
      rw [stateNorm_one hu.unit, one_mul] at h2 h3
      have h4 : nt / 2 * a ≤ ‖(q : ℂ) * innerProd u (rnd s)‖ := by
        rw [norm_mul, Complex.norm_real, Real.norm_of_nonneg (by linarith)]
        exact mul_le_mul hq2 has ha0.le (by linarith)
      have h5 := norm_sub_norm_le ((q : ℂ) * innerProd u (rnd s)) (-innerProd u (y - F.mulVec (rnd s)))
      rw [sub_neg_eq_add, norm_neg, ← h1] at h5
      have h6 : stateNorm (y - F.mulVec (rnd s)) ≤ rho := hclose.trans (by rw [hrho]; unfold remainder; linarith)
      linarith
    have hd : 0 < a * nt - 2 * rho := by linarith
    have hypos : 0 < stateNorm y := by linarith
    refine ⟨fun h => by rw [h] at hypos; simp [stateNorm] at hypos, ?_⟩
    rw [← stateNorm_entries, ← div_pow]
    refine pow_le_pow_left₀ (by positivity) ?_ 2
    rw [div_le_div_iff₀ hypos hd]
    nlinarith
  rw [C82_quasi_eigenstates g w energies (getTimeStep rescale) rnd seed chk thr nt nsamp hc r hr' i hi (fun s => (key s).1) j]
  have hN := samples_pos w nsamp hns
  have hN' : (0 : ℝ) < (distSample w nsamp).1 := by exact_mod_cast hN
  unfold meanSamples
  rw [smul_eq_mul, inv_mul_le_iff₀ hN']
  refine (Finset.sum_le_sum fun l _ => (key _).2).trans ?_
  rw [Finset.sum_const, Finset.card_range, nsmul_eq_mul]

end

/-- C132: if the accumulated error is within a quarter of the threshold, the norm check never stops a calculation of quasi-eigenstates. -/
theorem C132_no_drift (hr : Ready sch ham) (h0 : rescale ≠ 0) (hp : Precise Real.pi prec)
    (he : solverEnv sch ham rescale 1 prec besselMax = .ok e) (w : World) (energies : List ℝ) (rnd : ℤ → CVec n)
    (hn : ∀ s, innerProd (rnd s) (rnd s) = 1) (seed chk : ℤ) (thr : ℝ) (nt nsamp : ℕ)
    (hthr : 4 * ((1 + prec * (Real.pi + 2)) ^ nt - 1) ≤ thr) (hsmall : (1 + prec * (Real.pi + 2)) ^ nt ≤ 2) (hpos : 0 < thr) :
    ∃ c, calcQuasiEigenstates w e energies (getTimeStep rescale) rnd seed chk thr nt nsamp = .ok c := by
  obtain ⟨g, hsteps⟩ := env_steps hr h0 (by rwa [one_mul]) he
  have hp0 : 0 ≤ prec * (Real.pi + 2) := mul_nonneg hp.nonneg (by linarith [Real.pi_pos])
  have hse : stepErr 1 prec = prec * (Real.pi + 2) := by unfold stepErr; rw [one_mul]
  have hH := scaled_herm hr rescale
  rw [hse] at hsteps
  have hone : ∀ t ≤ nt, (1 + prec * (Real.pi + 2)) ^ t - 1 ≤ (1 + prec * (Real.pi + 2)) ^ nt - 1 := fun t ht =>
    sub_le_sub_right (pow_le_pow_right₀ (by linarith) ht) 1
  generalize (1 + prec * (Real.pi + 2)) ^ nt = P at *
  have hnorm : ∀ (fwd : Bool) (t : ℕ) (y : CVec n), t ≤ nt → innerProd y y = 1 → |stateNorm ((e.U fwd ^ t).mulVec y) - 1| ≤ P - 1 := by
    intro fwd t y ht hy
    have h1 := hsteps fwd t y
    set T := (if fwd then (t : ℝ) * (1 * getTimeStep rescale) else -(t * (1 * getTimeStep rescale))) with hT
    have h2 := evolved_norm hH T y
    rw [stateNorm_one hy] at h1 h2
    have h3 := abs_norm_sub_norm_le (WithLp.toLp 2 ((e.U fwd ^ t).mulVec y) : EuclideanSpace ℂ (Fin n))
      (WithLp.toLp 2 (evolved ((rescale : ℂ) • ham.toMatrix n) T y))
    have h4 : |stateNorm ((e.U fwd ^ t).mulVec y) - stateNorm (evolved ((rescale : ℂ) • ham.toMatrix n) T y)| ≤
      stateNorm ((e.U fwd ^ t).mulVec y - evolved ((rescale : ℂ) • ham.toMatrix n) T y) := h3
    rw [h2] at h4
    refine h4.trans (h1.trans ?_)
    rw [mul_one]
    exact hone t ht
  have hno : ¬∃ j < (distSample w nsamp).1, qeBad e chk thr nt (rnd (seed * (j + 1))) := by
    rintro ⟨j, -, t, -, -, ht, hdr⟩
    have hone := stateNorm_one (hn (seed * (j + 1)))
    have hb : ∀ fwd, ¬Drifts thr ((e.U fwd ^ (t - 1)).mulVec (rnd (seed * (j + 1)))) (rnd (seed * (j + 1))) := by
      intro fwd hdf
      unfold Drifts at hdf
      have a := hnorm fwd (t - 1) _ (by omega) (hn (seed * (j + 1)))
      rw [innerProd_stateNorm, innerProd_stateNorm, hone, ← Complex.ofReal_sub, Complex.norm_real, Real.norm_eq_abs] at hdf
      set p := stateNorm ((e.U fwd ^ (t - 1)).mulVec (rnd (seed * (j + 1))))
      rw [abs_le] at a
      have : |p ^ 2 - 1 ^ 2| ≤ 4 * (P - 1) := by
        rw [abs_le]
        constructor <;> nlinarith
      linarith
    rcases hdr with h | h
    · exact hb true h
    · exact hb false h
  obtain ⟨c, hc, -⟩ := (qe_run g w energies (getTimeStep rescale) rnd seed chk thr nt nsamp).2 hno
  exact ⟨c, hc⟩

theorem default_pow : 1 ≤ (1 + 1e-14 * (Real.pi + 2)) ^ 1024 ∧ (1 + 1e-14 * (Real.pi + 2)) ^ 1024 ≤ 1 + 6e-11 := by
  have hpi := Real.pi_pos
  have hpi' := Real.pi_lt_d2
  constructor
  · exact one_le_pow₀ (by linarith)
  · have h1 : 1 + 1e-14 * (Real.pi + 2) ≤ 1 + 5.2e-14 := by linarith
    have h0 : 0 ≤ 1 + 1e-14 * (Real.pi + 2) := by positivity
    exact (pow_le_pow_left₀ h0 h1 1024).trans (pow_le_of 5.2e-14 6e-11 (by norm_num) (by norm_num) 1024 (by norm_num))

theorem default_remainder (R eta S : ℝ) (hS : S = Real.sin (Real.pi * eta / R) ^ 2) (hS0 : 0 < S) (hs1 : S ≤ 1) :
    remainder 1024 1e-14 R eta ≤ 0.0049 / S := by
  unfold remainder filterLeak
  obtain ⟨h0, h1⟩ := default_pow
  rw [← hS, le_div_iff₀ hS0, add_mul]
  generalize (1 + 1e-14 * (Real.pi + 2)) ^ 1024 = P at h0 h1 ⊢
  have hpi' := Real.pi_lt_d2
  have e1 : Real.pi ^ 2 / (2 * ((1024 : ℕ) : ℝ) * S) * S = Real.pi ^ 2 / 2048 := by
    push_cast
    field_simp
    norm_num
  have hpow : P - 1 ≤ 6e-11 := by linarith
  have e2 : ((1024 : ℕ) : ℝ) * (P - 1) * S ≤ 1024 * 6e-11 * 1 := by
    push_cast
    exact mul_le_mul (mul_le_mul_of_nonneg_left hpow (by norm_num)) hs1 hS0.le (by norm_num)
  rw [e1]
  have e3 : Real.pi ^ 2 ≤ 9.9225 := by nlinarith [Real.pi_pos]
  linarith

/-- C132: with the default settings (1024 time steps, precision 1e-14, threshold 1e-9) the calculation of quasi-eigenstates always runs
to its end, and near a single level, with all others further than `eta`, the probabilities of all orbitals are those of the eigenvector
up to `4e-5 / (a sin² (π eta / range))`. -/
theorem C132_default (hr : Ready sch ham) (h0 : 0 < rescale) (hb : 42 ≤ besselMax) (w : World) (energies : List ℝ) (rnd : ℤ → CVec n)
    (hn : ∀ s, innerProd (rnd s) (rnd s) = 1) (seed chk : ℤ) (nsamp : ℕ) (hns : 1 ≤ nsamp) :
    ∃ e c, solverEnv sch ham rescale 1 1e-14 besselMax = .ok e ∧
      calcQuasiEigenstates w e energies (getTimeStep rescale) rnd seed chk 1e-9 1024 nsamp = .ok c ∧
      ∀ i (hi : i < energies.length) (u : CVec n) (eps : ℝ), Level ((rescale : ℂ) • ham.toMatrix n) u eps →
        |energies[i] - eps| ≤ 2 * rescale / 8192 → ∀ eta, 0 < eta → eta < 2 * rescale →
        RestFar ((rescale : ℂ) • ham.toMatrix n) u (2 * rescale) eta energies[i] →
        ∀ a, (∀ s, a ≤ ‖∑ k, star (u k) * rnd s k‖) → 1e-5 < a * Real.sin (Real.pi * eta / (2 * rescale)) ^ 2 →
        ∀ r < w.size, ∀ j, |c r i j - ‖u j‖ ^ 2| ≤ 4e-5 / (a * Real.sin (Real.pi * eta / (2 * rescale)) ^ 2) := by
  obtain ⟨hp, e, he⟩ := C107_default (rescale := rescale) (scale := 1) sch ham h0.ne' (by norm_num) le_rfl hb
  rw [one_mul] at hp
  have gen : ∀ P : ℝ, P ≤ 1 + 6e-11 → 4 * (P - 1) ≤ 1e-9 ∧ P ≤ 2 := fun P hP => ⟨by linarith, by linarith⟩
  obtain ⟨c, hc⟩ := C132_no_drift hr h0.ne' hp he w energies rnd hn seed chk 1e-9 1024 nsamp (gen _ default_pow.2).1 (gen _ default_pow.2).2 (by norm_num)
  refine ⟨e, c, he, hc, fun i hi u eps hu hnear eta heta hle hrest a ha hbig r hr' j => ?_⟩
  have hs : 0 < Real.sin (Real.pi * eta / (2 * rescale)) := by
    apply Real.sin_pos_of_pos_of_lt_pi (by positivity)
    rw [div_lt_iff₀ (by positivity)]
    nlinarith [Real.pi_pos]
  have hs1 := Real.sin_sq_le_one (Real.pi * eta / (2 * rescale))
  set S := Real.sin (Real.pi * eta / (2 * rescale)) ^ 2 with hS
  have hS0 : 0 < S := by positivity
  have ha0 : 0 < a := by
    by_contra hcon
    have := mul_nonpos_of_nonpos_of_nonneg (not_lt.1 hcon) hS0.le
    linarith
  have hrem : remainder 1024 1e-14 (2 * rescale) eta ≤ 0.0049 / S := default_remainder _ _ S hS hS0 hs1
  have hlt : 2 * remainder 1024 1e-14 (2 * rescale) eta < a * (1024 : ℕ) := by
    refine lt_of_le_of_lt (mul_le_mul_of_nonneg_left hrem (by norm_num)) ?_
    rw [← mul_div_assoc, div_lt_iff₀ hS0]
    push_cast
    linarith
  refine (C132_isolated hr h0 hp he w energies rnd hn seed chk 1e-9 1024 (by norm_num) nsamp hns hc i hi u eps hu
    (hnear.trans (le_of_eq (by norm_num))) eta heta hrest a ha hlt r hr' j).trans ?_
  rw [div_le_div_iff₀ (by positivity) (by positivity)]
  rw [le_div_iff₀ hS0] at hrem
  push_cast
  have := mul_le_mul_of_nonneg_left hrem ha0.le
  nlinarith

/-- A dimer whose spectrum fills half of the energy range. -/
noncomputable def looseDimer : FCsr := ⟨fun k => k, fun k => 1 - k, fun _ => 1 / 2⟩

theorem looseDimer_matrix : looseDimer.toMatrix 2 = !![0, 1 / 2; 1 / 2, 0] := by
  ext a b
  fin_cases a <;> fin_cases b <;> simp [FCsr.toMatrix, looseDimer]

theorem looseDimer_ready : Ready (fun _ k => flip k) looseDimer where
  order := fun _ k => flip_order k
  legal := by
    intro i hi j h1 h2
    simp only [looseDimer] at *
    omega
  herm := by
    rw [looseDimer_matrix]
    ext a b
    fin_cases a <;> fin_cases b <;> simp
  spectrum := by
    intro lam v hv h
    rw [looseDimer_matrix] at h
    have a := congrFun h 0
    have b := congrFun h 1
    simp [Matrix.mulVec, dotProduct, Fin.sum_univ_two] at a b
    have h2 : ∀ i, (lam ^ 2 - 1 / 4) * v i = 0 := by
      intro i
      fin_cases i
      · simp only [Fin.zero_eta]; linear_combination -(lam * a) - b / 2
      · simp only [Fin.mk_one]; linear_combination -(lam * b) - a / 2
    have h3 : lam ^ 2 = 1 / 4 := by
      by_contra hne
      apply hv
      funext i
      exact (mul_eq_zero.1 (h2 i)).resolve_left (sub_ne_zero.2 hne)
    have h4 : ‖lam‖ ^ 2 = 1 / 4 := by rw [← norm_pow, h3]; norm_num
    nlinarith [norm_nonneg lam]

/-- The lower level of the dimer. -/
noncomputable def dimerLow : CVec 2 := ![((Real.sqrt 2 / 2 : ℝ) : ℂ), -((Real.sqrt 2 / 2 : ℝ) : ℂ)]

theorem half_sq : (Real.sqrt 2 / 2) ^ 2 = 1 / 2 := by rw [div_pow, Real.sq_sqrt (by norm_num)]; norm_num

theorem dimerLow_level : Level (((5 : ℝ) : ℂ) • looseDimer.toMatrix 2) dimerLow (-2.5) where
  norm := by
    rw [Fin.sum_univ_two]
    simp only [dimerLow, Matrix.cons_val_zero, Matrix.cons_val_one, norm_neg, Complex.norm_real, Real.norm_eq_abs, sq_abs, half_sq]
    norm_num
  eigen := by
    rw [looseDimer_matrix]
    ext k
    fin_cases k
    · simp [dimerLow, Matrix.mulVec, dotProduct, Fin.sum_univ_two]; ring
    · simp [dimerLow, Matrix.mulVec, dotProduct, Fin.sum_univ_two]; ring

/-- The other level is 5 above, half of the energy range. -/
theorem dimerLow_rest : RestFar (((5 : ℝ) : ℂ) • looseDimer.toMatrix 2) dimerLow (2 * 5) 5 (-2.5) := by
  intro lam v hv hort h
  rw [looseDimer_matrix] at h
  have a := congrFun h 0
  have b := congrFun h 1
  simp [Matrix.mulVec, dotProduct, Fin.sum_univ_two] at a b
  simp only [Fin.sum_univ_two, dimerLow, Matrix.cons_val_zero, Matrix.cons_val_one, Complex.star_def, map_neg, Complex.conj_ofReal] at hort
  push_cast at hort
  have hs : ((Real.sqrt 2 : ℝ) : ℂ) ≠ 0 := by
    have : Real.sqrt 2 ≠ 0 := by positivity
    exact_mod_cast this
  have heq : v 0 = v 1 := by
    have : ((Real.sqrt 2 : ℝ) : ℂ) * (v 0 - v 1) = 0 := by linear_combination 2 * hort
    exact sub_eq_zero.1 ((mul_eq_zero.1 this).resolve_left hs)
  have hv1 : v 1 ≠ 0 := by
    intro h1
    apply hv
    ext k
    fin_cases k
    · simp [heq, h1]
    · simp [h1]
  have hl : (lam : ℂ) = 2.5 := by
    have : ((lam : ℂ) - 2.5) * v 1 = 0 := by rw [heq] at a; linear_combination -a
    exact sub_eq_zero.1 ((mul_eq_zero.1 this).resolve_right hv1)
  have hl' : lam = 2.5 := by
    have : (lam : ℂ) = ((2.5 : ℝ) : ℂ) := by rw [hl]; push_cast; rfl
    exact_mod_cast this
  rw [hl']
  norm_num

/-- The quasi-eigenstate of the dimer at its lower level, from one state on the first orbital, with the default settings: each orbital
gets one half up to 6e-5. -/
example : ∃ e c, solverEnv (fun _ k => flip k) looseDimer 5 1 1e-14 250 = .ok e ∧
    calcQuasiEigenstates World.one e [0, -2.5] (getTimeStep 5) oneSite 1337 128 1e-9 1024 1 = .ok c ∧ ∀ j, |c 0 1 j - 1 / 2| ≤ 6e-5 := by
  obtain ⟨e, c, he, hc, h⟩ := C132_default (besselMax := 250) looseDimer_ready (by norm_num : (0 : ℝ) < 5) (by norm_num) World.one
    [0, -2.5] oneSite oneSite_norm 1337 128 1 le_rfl
  refine ⟨e, c, he, hc, fun j => ?_⟩
  have hsin : Real.sin (Real.pi * 5 / (2 * 5)) = 1 := by
    rw [show Real.pi * 5 / (2 * 5) = Real.pi / 2 by ring, Real.sin_pi_div_two]
  have hroot : (1.4 : ℝ) ≤ Real.sqrt 2 := Real.le_sqrt_of_sq_le (by norm_num)
  have h1 := h 1 (by simp) dimerLow (-2.5) dimerLow_level (by norm_num) 5 (by norm_num) (by norm_num) dimerLow_rest 0.7 (fun s => by
    simp only [Fin.sum_univ_two, dimerLow, oneSite, Matrix.cons_val_zero, Matrix.cons_val_one, mul_one, mul_zero, add_zero, norm_star,
      Complex.norm_real, Real.norm_eq_abs]
    rw [abs_of_nonneg (by positivity)]
    linarith) (by rw [hsin]; norm_num) 0 World.one.pos j
  rw [hsin] at h1
  have hj : ‖dimerLow j‖ ^ 2 = 1 / 2 := by
    fin_cases j <;> simp only [dimerLow, Fin.zero_eta, Fin.mk_one, Matrix.cons_val_zero, Matrix.cons_val_one, norm_neg, Complex.norm_real,
      Real.norm_eq_abs, sq_abs, half_sq]
  rw [hj] at h1
  refine h1.trans (by norm_num)

end Verif.Analysis

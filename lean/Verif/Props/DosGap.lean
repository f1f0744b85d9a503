import Verif.Proof.DosGap
import Verif.Props.Analysis
import Verif.Props.Evolution
import Verif.Props.ParallelRun

/-! # C130: no states are seen where there are none (DOS and LDOS from the time evolution) -/

namespace Verif.Analysis

open Verif.Tbpm Matrix

variable {n : ℕ} {sch : List ℕ → ℕ → List (Fin n)} {ham : FCsr} {rescale prec : ℝ} {besselMax : ℕ} {e : Env n}

/-- The context of the analysis of a run with `nt` time steps and the scaling factor `rescale`. -/
structure Matches (c : Ctx) (nt : ℕ) (rescale : ℝ) : Prop where
  steps : c.tnr = nt
  range : c.energyRange = energyRange rescale

theorem samples_pos (w : World) (nsamp : ℕ) (h : 1 ≤ nsamp) : 1 ≤ (distSample w nsamp).1 := by
  unfold distSample
  split_ifs
  · exact h.trans (Verif.Props.raiseSample_spec w.size nsamp w.pos).2.1
  · exact h

/-- What is common to the DOS and the LDOS. -/
theorem gap_core (hr : Ready sch ham) (h0 : 0 < rescale) (w : World) (m : ℕ) (N : ℕ) (hN : 1 ≤ N) (seed : ℤ) (psi : ℤ → CVec n)
    (hpsi : ∀ s, innerProd (psi s) (psi s) = 1) (sites : Fin n → Prop) (hsup : ∀ s i, ¬sites i → psi s i = 0) (ctx : Ctx)
    (hctx : Matches ctx (m + 1) rescale) (del : ℝ) (c junk : ℕ → ℕ → ℂ) (hc0 : c 0 0 = 1)
    (hc : ∀ t ≤ m + 1, ‖c 0 t - meanSamples ℂ N seed fun s => innerProd (psi s)
      (evolved ((rescale : ℂ) • ham.toMatrix n) (t * (Real.pi / rescale)) (psi s))‖ ≤ del)
    {E : List ℝ} {d : ℕ → ℕ → ℝ} (hd : calcDos w ctx windowHanning c junk = .ok (E, d)) (eta : ℝ) (he : 0 < eta) :
    ∀ r < w.size, ∀ j < 2 * (m + 1),
      FarFrom ((rescale : ℂ) • ham.toMatrix n) sites (energyRange rescale) eta (E.getD j 0) →
      d r j ≤ (if ctx.spin then 2 else 1) * ((leakage (m + 1) (energyRange rescale) eta + 2 * (m + 1 : ℕ) * del) / energyRange rescale) := by
  intro r hr' j hj hfar
  have hR : 0 < energyRange rescale := by unfold energyRange; linarith
  have hT : 0 < ctx.tnr := by rw [hctx.steps]; omega
  obtain ⟨E', d', h1, -, h2, h3⟩ := C61_transform w ctx hT (by rw [hctx.range]; exact hR.ne') windowHanning c junk
  rw [hd, Except.ok.injEq, Prod.mk.injEq] at h1
  obtain ⟨rfl, rfl⟩ := h1
  rw [hctx.steps, hctx.range] at h2 h3
  rw [h3 r hr' j hj]
  have hH : ((rescale : ℂ) • ham.toMatrix n).IsHermitian := by
    have := hr.herm
    unfold Matrix.IsHermitian at *
    rw [conjTranspose_smul, this]
    simp
  have hs1 := far_spectrum hH m (energyRange rescale) eta (E.getD j 0) hR he sites hfar N seed psi hsup hpsi
  have htau : Real.pi / rescale = 2 * Real.pi / energyRange rescale := by
    unfold energyRange
    rw [mul_div_mul_left _ _ two_ne_zero]
  have hs2 := spectrum_close (m + 1) (2 * Real.pi / energyRange rescale) (E.getD j 0) del (c 0)
    (fun k => meanSamples ℂ N seed fun s => stateCorr ((rescale : ℂ) • ham.toMatrix n) (2 * Real.pi / energyRange rescale) (psi s) k)
    (fun t ht => by
      have := hc t ht
      rw [htau] at this
      exact this)
  have htot := spectrum_total windowHanning (m + 1) (by omega) (energyRange rescale) hR (c 0)
  rw [hc0, norm_one, mul_one, Finset.sum_congr rfl fun l hl => by rw [← h2 l (Finset.mem_range.1 hl)]] at htot
  have hT' : (0 : ℝ) < (m + 1 : ℕ) := by positivity
  have hsf : (0 : ℝ) ≤ ctx.spinFactor := by unfold Ctx.spinFactor; split_ifs <;> norm_num
  have hsf' : ctx.spinFactor = if ctx.spin then 2 else 1 := rfl
  rw [← hsf']
  refine mul_le_mul_of_nonneg_left ?_ hsf
  have hden : energyRange rescale ≤ (∑ l ∈ Finset.range (2 * (m + 1)), spectrum windowHanning (m + 1)
      (2 * Real.pi / energyRange rescale) (c 0) (E.getD l 0)) * (energyRange rescale / (2 * (m + 1 : ℕ))) := by
    calc energyRange rescale = 2 * (m + 1 : ℕ) * (energyRange rescale / (2 * (m + 1 : ℕ))) := by field_simp
      _ ≤ _ := mul_le_mul_of_nonneg_right htot (by positivity)
  exact div_le_div₀ ((norm_nonneg _).trans (hs2.trans (add_le_add_left hs1 _))) (hs2.trans (add_le_add_left hs1 _)) hR hden

theorem mean_one (N : ℕ) (hN : 1 ≤ N) (seed : ℤ) : (meanSamples ℂ N seed fun _ => (1 : ℂ)) = 1 := by
  unfold meanSamples
  have : (N : ℂ) ≠ 0 := by exact_mod_cast (by omega : N ≠ 0)
  simp [this]

theorem evolved_zero (H : Matrix (Fin n) (Fin n) ℂ) (y : CVec n) : evolved H 0 y = y := by
  unfold evolved
  simp

/-- What is seen per unit of energy where there is nothing, after `nt` time steps with the precision `prec`. -/
noncomputable def background (nt : ℕ) (prec R eta : ℝ) : ℝ :=
  (leakage nt R eta + 2 * nt * ((1 + prec * (Real.pi + 2)) ^ nt - 1)) / R

theorem start_one (c0 x : ℂ) (hx : x = 1) (h : ‖c0 - x‖ ≤ 0) : c0 = 1 := by
  rw [← hx]
  exact sub_eq_zero.1 (norm_le_zero_iff.1 h)

variable (hr : Ready sch ham) (h0 : 0 < rescale) (hp : Precise Real.pi prec) (he : solverEnv sch ham rescale 1 prec besselMax = .ok e)
  (w : World) (seed chk : ℤ) (thr : ℝ) (nt : ℕ) (hnt : 1 ≤ nt) (nsamp : ℕ) (hns : 1 ≤ nsamp) (ctx : Ctx) (hctx : Matches ctx nt rescale)
  (junk : ℕ → ℕ → ℂ) {c : ℕ → ℕ → ℂ} {E : List ℝ} {d : ℕ → ℕ → ℝ}

include hr h0 hp he hnt hns hctx

/-- C130: whatever the sample, the random states, their number, the number of processes and the schedules of the threads, the DOS from
the correlation function at an energy further than `eta` from all energies of the sample is at most `background`, which falls like the
inverse of the number of time steps. -/
theorem C130_dos (rnd : ℤ → CVec n) (hn : ∀ s, innerProd (rnd s) (rnd s) = 1)
    (hc : calcCorrDos w e rnd seed chk thr nt nsamp = .ok c) (hd : calcDos w ctx windowHanning c junk = .ok (E, d)) (eta : ℝ)
    (heta : 0 < eta) : ∀ r < w.size, ∀ j < 2 * nt,
      FarFrom ((rescale : ℂ) • ham.toMatrix n) (fun _ => True) (2 * rescale) eta (E.getD j 0) →
      d r j ≤ (if ctx.spin then 2 else 1) * background nt prec (2 * rescale) eta := by
  obtain ⟨m, rfl⟩ : ∃ m, nt = m + 1 := ⟨nt - 1, by omega⟩
  have herr := C107_dos hr h0.ne' (by rwa [one_mul]) he w rnd hn seed chk thr (m + 1) hnt nsamp hc 0 w.pos
  simp only [one_mul] at herr
  have hN := samples_pos w nsamp hns
  have hp0 : 0 ≤ prec * (Real.pi + 2) := mul_nonneg hp.nonneg (by linarith [Real.pi_pos])
  refine gap_core hr h0 w m _ hN seed rnd hn (fun _ => True) (fun s i h => absurd trivial h) ctx hctx
    ((1 + prec * (Real.pi + 2)) ^ (m + 1) - 1) c junk ?_ (fun t ht => ?_) hd eta heta
  · refine start_one _ _ ?_ ((herr 0 (by omega)).trans (by simp))
    simp only [Nat.cast_zero, zero_mul, evolved_zero, hn]
    exact mean_one _ hN seed
  · exact (herr t ht).trans (sub_le_sub_right (pow_le_pow_right₀ (by linarith) ht) 1)

/-- C130: likewise for the LDOS, where only states with an amplitude on the chosen sites count. -/
theorem C130_ldos (sites : List (Fin n)) (rnd : ℤ → CVec n) (hn : ∀ s, ∃ i ∈ sites, rnd s i ≠ 0)
    (hc : calcCorrLdos w e sites rnd seed chk thr nt nsamp = .ok c) (hd : calcDos w ctx windowHanning c junk = .ok (E, d)) (eta : ℝ)
    (heta : 0 < eta) : ∀ r < w.size, ∀ j < 2 * nt,
      FarFrom ((rescale : ℂ) • ham.toMatrix n) (· ∈ sites) (2 * rescale) eta (E.getD j 0) →
      d r j ≤ (if ctx.spin then 2 else 1) * background nt prec (2 * rescale) eta := by
  obtain ⟨m, rfl⟩ : ∃ m, nt = m + 1 := ⟨nt - 1, by omega⟩
  have herr := C107_ldos hr h0.ne' (by rwa [one_mul]) he w sites rnd hn seed chk thr (m + 1) nsamp hc 0 w.pos
  simp only [one_mul] at herr
  have hN := samples_pos w nsamp hns
  have hp0 : 0 ≤ prec * (Real.pi + 2) := mul_nonneg hp.nonneg (by linarith [Real.pi_pos])
  have hst := fun s => C81_ldos_state sites (rnd s) (hn s)
  refine gap_core hr h0 w m _ hN seed (fun s => ldosState sites (rnd s)) (fun s => (hst s).2.2) (· ∈ sites)
    (fun s i h => (hst s).1 i h) ctx hctx ((1 + prec * (Real.pi + 2)) ^ (m + 1) - 1) c junk ?_ (fun t ht => ?_) hd eta heta
  · refine start_one _ _ ?_ ((herr 0 (by omega)).trans (by simp))
    simp only [Nat.cast_zero, zero_mul, evolved_zero, (hst _).2.2]
    exact mean_one _ hN seed
  · exact (herr t ht).trans (sub_le_sub_right (pow_le_pow_right₀ (by linarith) ht) 1)

omit hr h0 hp he hnt hns hctx in
theorem near_of_far (ctx : Ctx) (junk : ℕ → ℕ → ℂ) (hT : 1 ≤ nt) (hR : 0 < rescale) (hctx : Matches ctx nt rescale) (hc0 : c 0 0 = 1)
    (hd : calcDos w ctx windowHanning c junk = .ok (E, d)) (B : ℝ) (hB : 0 ≤ B) (P : ℝ → Prop) [DecidablePred P]
    (hfar : ∀ r < w.size, ∀ j < 2 * nt, P (E.getD j 0) → d r j ≤ (if ctx.spin then 2 else 1) * B) :
    ∀ r < w.size, (if ctx.spin then 2 else 1) * (1 - B * (2 * rescale)) ≤
      (∑ j ∈ (Finset.range (2 * nt)).filter (fun j => ¬P (E.getD j 0)), d r j) * (2 * rescale / (2 * nt)) := by
  intro r hr'
  have hr2 : 0 < energyRange rescale := by unfold energyRange; linarith
  obtain ⟨E', d', h1, h2⟩ := C61_integral w ctx (by rw [hctx.steps]; omega) (by rw [hctx.range]; exact hr2) windowHanning c junk
    (by rw [hc0]; exact one_ne_zero)
  rw [hd, Except.ok.injEq, Prod.mk.injEq] at h1
  obtain ⟨rfl, rfl⟩ := h1
  have h3 := (h2 r hr').2
  rw [hctx.steps, hctx.range] at h3
  have hsplit := Finset.sum_filter_add_sum_filter_not (Finset.range (2 * nt)) (fun j => P (E.getD j 0)) (fun j => d r j)
  rw [← hsplit] at h3
  set sf : ℝ := if ctx.spin then 2 else 1 with hsf
  have hsf0 : 0 ≤ sf := by rw [hsf]; split_ifs <;> norm_num
  have hle : ∑ j ∈ (Finset.range (2 * nt)).filter (fun j => P (E.getD j 0)), d r j ≤ 2 * nt * (sf * B) := by
    refine (Finset.sum_le_sum fun j hj => ?_).trans (b := ∑ j ∈ (Finset.range (2 * nt)).filter (fun j => P (E.getD j 0)), sf * B) ?_
    · rw [Finset.mem_filter, Finset.mem_range] at hj
      exact hfar r hr' j hj.1 hj.2
    · rw [Finset.sum_const, nsmul_eq_mul]
      refine mul_le_mul_of_nonneg_right ?_ (by positivity)
      have := Finset.card_filter_le (Finset.range (2 * nt)) (fun j => P (E.getD j 0))
      rw [Finset.card_range] at this
      exact_mod_cast this
  have hnt' : (0 : ℝ) < nt := by exact_mod_cast hT
  have hstep : (0 : ℝ) < 2 * rescale / (2 * nt) := by positivity
  unfold energyRange at h3
  have h4 := mul_le_mul_of_nonneg_right hle hstep.le
  have h5 : 2 * (nt : ℝ) * (sf * B) * (2 * rescale / (2 * nt)) = sf * B * (2 * rescale) := by field_simp
  rw [h5] at h4
  rw [add_mul] at h3
  linarith

open Classical in
/-- C130: all states but the fraction `2 rescale * background` are seen within `eta` of the energies of the sample. -/
theorem C130_near (rnd : ℤ → CVec n) (hn : ∀ s, innerProd (rnd s) (rnd s) = 1)
    (hc : calcCorrDos w e rnd seed chk thr nt nsamp = .ok c) (hd : calcDos w ctx windowHanning c junk = .ok (E, d)) (eta : ℝ)
    (heta : 0 < eta) : ∀ r < w.size,
      (if ctx.spin then 2 else 1) * (1 - background nt prec (2 * rescale) eta * (2 * rescale)) ≤
      (∑ j ∈ (Finset.range (2 * nt)).filter (fun j =>
        ¬FarFrom ((rescale : ℂ) • ham.toMatrix n) (fun _ => True) (2 * rescale) eta (E.getD j 0)), d r j) * (2 * rescale / (2 * nt)) := by
  have herr := C107_dos hr h0.ne' (by rwa [one_mul]) he w rnd hn seed chk thr nt hnt nsamp hc 0 w.pos 0 (by omega)
  have hN := samples_pos w nsamp hns
  have hp0 : 0 ≤ prec * (Real.pi + 2) := mul_nonneg hp.nonneg (by linarith [Real.pi_pos])
  have hone : 1 ≤ (1 + prec * (Real.pi + 2)) ^ nt := one_le_pow₀ (by linarith)
  refine near_of_far w nt ctx junk hnt h0 hctx ?_ hd (background nt prec (2 * rescale) eta) ?_
    (FarFrom ((rescale : ℂ) • ham.toMatrix n) (fun _ => True) (2 * rescale) eta)
    (C130_dos hr h0 hp he w seed chk thr nt hnt nsamp hns ctx hctx junk rnd hn hc hd eta heta)
  · refine start_one _ _ ?_ (herr.trans (by simp))
    simp only [Nat.cast_zero, zero_mul, evolved_zero, hn]
    exact mean_one _ hN seed
  · unfold background leakage
    have : 0 ≤ (1 + prec * (Real.pi + 2)) ^ nt - 1 := by linarith
    positivity

omit hr h0 hp he hnt hns hctx in
/-- C130: with the default settings (1024 time steps, precision 1e-14) the calculation of the DOS always runs to its end, and at an
energy further than `eta` from all energies of the sample at most `0.0074 / sin² (π eta / range) / range` is seen (the height of a
single level is about `1024 / range`). -/
theorem C130_default (hr : Ready sch ham) (h0 : 0 < rescale) (hb : 42 ≤ besselMax) (w : World) (rnd : ℤ → CVec n)
    (hn : ∀ s, innerProd (rnd s) (rnd s) = 1) (seed chk : ℤ) (nsamp : ℕ) (hns : 1 ≤ nsamp) (ctx : Ctx)
    (hctx : Matches ctx 1024 rescale) (junk : ℕ → ℕ → ℂ) (eta : ℝ) (heta : 0 < eta) (hle : eta < 2 * rescale) :
    ∃ e c E d, solverEnv sch ham rescale 1 1e-14 besselMax = .ok e ∧ calcCorrDos w e rnd seed chk 1e-9 1024 nsamp = .ok c ∧
      calcDos w ctx windowHanning c junk = .ok (E, d) ∧ ∀ r < w.size, ∀ j < 2048,
        FarFrom ((rescale : ℂ) • ham.toMatrix n) (fun _ => True) (2 * rescale) eta (E.getD j 0) →
        d r j ≤ (if ctx.spin then 2 else 1) * (0.0074 / Real.sin (Real.pi * eta / (2 * rescale)) ^ 2 / (2 * rescale)) := by
  obtain ⟨hp, e', he'⟩ := C107_default (rescale := rescale) (scale := 1) sch ham h0.ne' (by norm_num) le_rfl hb
  obtain ⟨e, c, he, hc, herr⟩ := C107_default_dos hr h0.ne' hb w rnd hn seed chk nsamp
  obtain ⟨E, d, hd, -⟩ := C61_transform w ctx (by rw [hctx.steps]; norm_num)
    (by rw [hctx.range]; unfold energyRange; positivity) windowHanning c junk
  refine ⟨e, c, E, d, he, hc, hd, fun r hr' j hj hfar => ?_⟩
  have h1 := C107_dos hr h0.ne' hp he w rnd hn seed chk 1e-9 1024 (by norm_num) nsamp hc 0 w.pos 0 (by norm_num)
  have hN := samples_pos w nsamp hns
  have hc0 : c 0 0 = 1 := by
    refine start_one _ _ ?_ (h1.trans (by simp))
    simp only [Nat.cast_zero, zero_mul, evolved_zero, hn]
    exact mean_one _ hN seed
  refine (gap_core hr h0 w 1023 _ hN seed rnd hn (fun _ => True) (fun s i h => absurd trivial h) ctx hctx 6e-11 c junk hc0
    (fun t ht => herr 0 w.pos t ht) hd eta heta r hr' j hj hfar).trans ?_
  have hs : 0 < Real.sin (Real.pi * eta / (2 * rescale)) := by
    apply Real.sin_pos_of_pos_of_lt_pi (by positivity)
    rw [div_lt_iff₀ (by positivity)]
    nlinarith [Real.pi_pos]
  have hs1 := Real.sin_sq_le_one (Real.pi * eta / (2 * rescale))
  have hs2 : 0 < Real.sin (Real.pi * eta / (2 * rescale)) ^ 2 := by positivity
  refine mul_le_mul_of_nonneg_left ?_ (by split_ifs <;> norm_num)
  unfold leakage energyRange
  refine div_le_div_of_nonneg_right ?_ (by positivity)
  rw [le_div_iff₀ hs2, add_mul]
  have e1 : 3 * Real.pi ^ 2 / (4 * ((1023 + 1 : ℕ) : ℝ) * Real.sin (Real.pi * eta / (2 * rescale)) ^ 2) *
      Real.sin (Real.pi * eta / (2 * rescale)) ^ 2 = 3 * Real.pi ^ 2 / 4096 := by
    push_cast
    field_simp
    norm_num
  rw [e1]
  have hpi := Real.pi_lt_d2
  have hpi0 := Real.pi_pos
  have e2 : Real.pi ^ 2 ≤ 9.9225 := by nlinarith
  have e3 : 2 * ((1023 + 1 : ℕ) : ℝ) * 6e-11 * Real.sin (Real.pi * eta / (2 * rescale)) ^ 2 ≤ 1.3e-7 := by
    push_cast
    nlinarith
  linarith

omit hr h0 hp he hnt hns hctx in
/-- The energies of the dimer are `±rescale`; the middle of the range is as far from them as possible. -/
theorem dimer_far : FarFrom (((2.5 : ℝ) : ℂ) • dimer.toMatrix 2) (fun _ => True) (2 * 2.5) 2.5 0 := by
  intro lam v h hv
  rw [dimer_matrix] at h
  have a := congrFun h 0
  have b := congrFun h 1
  simp [Matrix.mulVec, dotProduct, Fin.sum_univ_two] at a b
  obtain ⟨i, -, hi⟩ := hv
  have h2 : ((lam : ℂ) ^ 2 - 2.5 ^ 2) * v i = 0 := by
    fin_cases i
    · simp only [Fin.zero_eta]; linear_combination -(lam * a) - 2.5 * b
    · simp only [Fin.mk_one]; linear_combination -(lam * b) - 2.5 * a
  have h3 : (lam : ℂ) ^ 2 = 2.5 ^ 2 := sub_eq_zero.1 ((mul_eq_zero.1 h2).resolve_right hi)
  have h4 : lam ^ 2 = 2.5 ^ 2 := by
    have : ((lam ^ 2 : ℝ) : ℂ) = ((2.5 ^ 2 : ℝ) : ℂ) := by
      push_cast
      exact h3
    exact_mod_cast this
  have h5 : |lam| = 2.5 := by
    have := (sq_eq_sq_iff_abs_eq_abs lam 2.5).1 h4
    rwa [abs_of_nonneg (by norm_num : (0 : ℝ) ≤ 2.5)] at this
  rw [zero_sub, abs_neg, h5]
  norm_num

/-- The dimer with the default settings: at the energy 0 (index 1024), in the middle of its gap, less than 0.0015 states per unit of
energy are seen. -/
example (c1 : Ctx) (h1 : Matches c1 1024 2.5) (hs : c1.spin = false) (junk : ℕ → ℕ → ℂ) :
    ∃ e c E d, solverEnv (fun _ k => flip k) dimer 2.5 1 1e-14 250 = .ok e ∧
      calcCorrDos World.one e oneSite 1337 128 1e-9 1024 1 = .ok c ∧ calcDos World.one c1 windowHanning c junk = .ok (E, d) ∧
      d 0 1024 ≤ 0.0015 := by
  obtain ⟨e, c, E, d, he, hc, hd, h⟩ := C130_default (besselMax := 250) dimer_ready (by norm_num : (0 : ℝ) < 2.5) (by norm_num)
    World.one oneSite oneSite_norm 1337 128 1 le_rfl c1 h1 junk 2.5 (by norm_num) (by norm_num)
  refine ⟨e, c, E, d, he, hc, hd, ?_⟩
  obtain ⟨E', d', hd', -, hE, -⟩ := C61_transform World.one c1 (by rw [h1.steps]; norm_num)
    (by rw [h1.range]; unfold energyRange; norm_num) windowHanning c junk
  rw [hd, Except.ok.injEq, Prod.mk.injEq] at hd'
  obtain ⟨rfl, rfl⟩ := hd'
  have h0 : E.getD 1024 0 = 0 := by
    rw [hE 1024 (by rw [h1.steps]; norm_num), h1.steps]
    simp
  refine (h 0 World.one.pos 1024 (by norm_num) (by rw [h0]; exact dimer_far)).trans ?_
  rw [hs, show Real.pi * 2.5 / (2 * 2.5) = Real.pi / 2 by ring, Real.sin_pi_div_two]
  norm_num

end Verif.Analysis

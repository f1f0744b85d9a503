import Verif.Proof.Evolution
import Verif.Props.Tbpm
import Mathlib.Analysis.Real.Pi.Bounds
import Mathlib.Analysis.Complex.ExponentialBounds
import Mathlib.Tactic.NormNum.NatFactorial

/-! # C107: accuracy of the time evolution -/

namespace Verif.Tbpm

open Matrix

variable {n : ℕ} {sch : List ℕ → ℕ → List (Fin n)} {ham : FCsr} {rescale scale prec : ℝ} {besselMax : ℕ} {e : Env n}

/-- The error of a step relative to the norm of the state. -/
noncomputable def stepErr (scale prec : ℝ) : ℝ := prec * (scale * Real.pi + 2)

theorem stateNorm_nonneg (x : CVec n) : 0 ≤ stateNorm x := norm_nonneg _

theorem stepErr_nonneg (hp : Precise (scale * Real.pi) prec) : 0 ≤ stepErr scale prec :=
  mul_nonneg hp.nonneg (by linarith [hp.step])

theorem env_steps (hr : Ready sch ham) (h0 : rescale ≠ 0) (hp : Precise (scale * Real.pi) prec)
    (he : solverEnv sch ham rescale scale prec besselMax = .ok e) :
    e.Good ∧ ∀ (fwd : Bool) (t : ℕ) (y : CVec n), stateNorm ((e.U fwd ^ t).mulVec y -
        evolved ((rescale : ℂ) • ham.toMatrix n) (if fwd then t * (scale * getTimeStep rescale) else -(t * (scale * getTimeStep rescale))) y) ≤
      ((1 + stepErr scale prec) ^ t - 1) * stateNorm y := by
  obtain ⟨hs, hH⟩ := solverEnv_spec hr he
  have hp' : Precise (scale * getTimeStep rescale * rescale) prec := by rwa [time_scaled h0]
  refine ⟨solver_good hs hp', fun fwd t y => ?_⟩
  have h := vec_error hs hp' fwd t y
  rw [hH, time_scaled h0] at h
  exact h

/-- C107: a step forwards (backwards) is the evolution with the Hamiltonian of the sample over the time step (its negative), up to an
error of `prec (scale π + 2)` times the norm of the state, where `prec` is `Bessel_precision`.  This holds for every sample, every
state and every schedule of the parallel loops. -/
theorem C107_step (hr : Ready sch ham) (h0 : rescale ≠ 0) (hp : Precise (scale * Real.pi) prec)
    (he : solverEnv sch ham rescale scale prec besselMax = .ok e) (key : List ℕ) (y : CVec n) :
    let H := (rescale : ℂ) • ham.toMatrix n
    let dt := scale * (Real.pi / rescale)
    stateNorm (e.step key y true - evolved H dt y) ≤ prec * (scale * Real.pi + 2) * stateNorm y ∧
    stateNorm (e.step key y false - evolved H (-dt) y) ≤ prec * (scale * Real.pi + 2) * stateNorm y := by
  obtain ⟨g, h⟩ := env_steps hr h0 hp he
  have hdt : scale * (Real.pi / rescale) = scale * getTimeStep rescale := by unfold getTimeStep energyRange; field_simp
  have h1 := h true 1 y
  have h2 := h false 1 y
  simp only [pow_one, Nat.cast_one, one_mul, add_sub_cancel_left, if_true, Bool.false_eq_true, if_false] at h1 h2
  intro H dt
  rw [step_eq g, step_eq g, show dt = _ from hdt]
  exact ⟨h1, h2⟩

/-- C107: a step changes the norm of a state by at most the same factor, in contrast to the exact evolution which keeps it. -/
theorem C107_norm (hr : Ready sch ham) (h0 : rescale ≠ 0) (hp : Precise (scale * Real.pi) prec)
    (he : solverEnv sch ham rescale scale prec besselMax = .ok e) (key : List ℕ) (y : CVec n) (fwd : Bool) :
    |stateNorm (e.step key y fwd) - stateNorm y| ≤ prec * (scale * Real.pi + 2) * stateNorm y ∧
    ∀ t, stateNorm (evolved ((rescale : ℂ) • ham.toMatrix n) t y) = stateNorm y := by
  have hH : ((rescale : ℂ) • ham.toMatrix n).IsHermitian := by
    have := hr.herm
    unfold Matrix.IsHermitian at *
    rw [conjTranspose_smul, this]
    simp
  have hn := fun t => evolved_norm hH t y
  refine ⟨?_, hn⟩
  obtain ⟨h1, h2⟩ := C107_step hr h0 hp he key y
  have tri : ∀ a b : CVec n, |stateNorm a - stateNorm b| ≤ stateNorm (a - b) := fun a b =>
    abs_norm_sub_norm_le (WithLp.toLp 2 a : EuclideanSpace ℂ (Fin n)) (WithLp.toLp 2 b)
  cases fwd with
  | true => exact le_trans (by rw [← hn]; exact tri _ _) h1
  | false => exact le_trans (by rw [← hn]; exact tri _ _) h2

/-- C107: the wave functions returned by `calc_psi_t` are the normalised initial state evolved over the requested numbers of time
steps, up to the accumulated error. -/
theorem C107_psi_t (hr : Ready sch ham) (h0 : rescale ≠ 0) (hp : Precise (scale * Real.pi) prec)
    (he : solverEnv sch ham rescale scale prec besselMax = .ok e) (w : World) (hw : w.size = 1) (psi0 : CVec n) (hpsi : psi0 ≠ 0)
    (sortSet : List ℤ → List ℤ) (hsort : ∀ l, (sortSet l).SortedLT ∧ ∀ t, t ∈ sortSet l ↔ t ∈ l) (timeLog : List ℤ)
    (hne : timeLog ≠ []) (nt : ℕ) (chk : ℤ) (thr : ℝ) (init : ℕ → CVec n) {rows : List (CVec n)}
    (hrun : calcPsiT w e psi0 sortSet timeLog nt chk thr init = .ok rows) (l : List ℤ) (hl : l.SortedLT)
    (hlm : ∀ t, t ∈ l ↔ t ∈ timeLog) :
    rows.length = l.length ∧ ∀ k (h1 : k < rows.length) (h2 : k < l.length),
      stateNorm (rows[k] - evolved ((rescale : ℂ) • ham.toMatrix n) ((l[k].toNat : ℝ) * (scale * (Real.pi / rescale)))
        (((stateNorm psi0 : ℂ)⁻¹) • psi0)) ≤ (1 + prec * (scale * Real.pi + 2)) ^ l[k].toNat - 1 := by
  obtain ⟨g, h⟩ := env_steps hr h0 hp he
  have hdt : scale * (Real.pi / rescale) = scale * getTimeStep rescale := by unfold getTimeStep energyRange; field_simp
  have hrows := C58_snapshots g w hw psi0 hpsi sortSet hsort timeLog hne nt chk thr init hrun l hl hlm
  subst hrows
  refine ⟨by simp, fun k h1 h2 => ?_⟩
  rw [List.getElem_map, hdt]
  have hn : normZ psi0 = stateNorm psi0 := by
    unfold normZ
    rw [innerProd_stateNorm, Complex.ofReal_re, Real.sqrt_sq (stateNorm_nonneg _)]
  have hv : (fun i => psi0 i / (normZ psi0 : ℂ)) = ((stateNorm psi0 : ℂ)⁻¹) • psi0 := by
    funext i
    rw [hn, Pi.smul_apply, smul_eq_mul, div_eq_inv_mul]
  have hpos : stateNorm psi0 ≠ 0 := by
    unfold stateNorm
    rw [norm_ne_zero_iff]
    intro hz
    apply hpsi
    funext i
    exact congrFun (congrArg (WithLp.ofLp) hz) i
  have h1' : stateNorm (((stateNorm psi0 : ℂ)⁻¹) • psi0) = 1 := by
    have : stateNorm (((stateNorm psi0 : ℂ)⁻¹) • psi0) = ‖((stateNorm psi0 : ℂ)⁻¹)‖ * stateNorm psi0 :=
      norm_smul ((stateNorm psi0 : ℂ)⁻¹) (WithLp.toLp 2 psi0 : EuclideanSpace ℂ (Fin n))
    rw [this, norm_inv, Complex.norm_real, Real.norm_eq_abs, abs_of_nonneg (stateNorm_nonneg psi0), inv_mul_cancel₀ hpos]
  rw [← hv] at h1' ⊢
  have := h true l[k].toNat (fun i => psi0 i / (normZ psi0 : ℂ))
  simp only [if_true, h1', mul_one] at this
  exact this

theorem mean_error (N : ℕ) (seed : ℤ) (f g : ℤ → ℂ) (d : ℝ) (hd : 0 ≤ d) (h : ∀ s, ‖f s - g s‖ ≤ d) :
    ‖meanSamples ℂ N seed f - meanSamples ℂ N seed g‖ ≤ d := by
  unfold meanSamples
  rw [← smul_sub, ← Finset.sum_sub_distrib, norm_smul, norm_inv, Complex.norm_natCast]
  have h1 : ‖∑ j ∈ Finset.range N, (f (seed * (j + 1)) - g (seed * (j + 1)))‖ ≤ N * d := by
    refine (norm_sum_le _ _).trans ?_
    refine (Finset.sum_le_card_nsmul _ _ d fun j _ => h _).trans ?_
    rw [Finset.card_range, nsmul_eq_mul]
  rcases Nat.eq_zero_or_pos N with rfl | hN
  · simpa using hd
  · have : (0 : ℝ) < N := by exact_mod_cast hN
    calc (N : ℝ)⁻¹ * _ ≤ (N : ℝ)⁻¹ * (N * d) := mul_le_mul_of_nonneg_left h1 (by positivity)
      _ = d := by field_simp

theorem corr_error (hr : Ready sch ham) (h0 : rescale ≠ 0) (hp : Precise (scale * Real.pi) prec)
    (he : solverEnv sch ham rescale scale prec besselMax = .ok e) (N : ℕ) (seed : ℤ) (x : ℤ → CVec n)
    (hn : ∀ s, innerProd (x s) (x s) = 1) (t : ℕ) :
    ‖(meanSamples ℂ N seed fun s => innerProd (x s) ((e.U true ^ t).mulVec (x s))) -
      meanSamples ℂ N seed fun s => innerProd (x s)
        (evolved ((rescale : ℂ) • ham.toMatrix n) (t * (scale * (Real.pi / rescale))) (x s))‖ ≤
      (1 + prec * (scale * Real.pi + 2)) ^ t - 1 := by
  obtain ⟨g, h⟩ := env_steps hr h0 hp he
  have hdt : scale * (Real.pi / rescale) = scale * getTimeStep rescale := by unfold getTimeStep energyRange; field_simp
  have hd := stepErr_nonneg hp
  have hb : 0 ≤ (1 + stepErr scale prec) ^ t - 1 := by linarith [one_le_pow₀ (n := t) (by linarith : 1 ≤ 1 + stepErr scale prec)]
  refine mean_error N seed _ _ _ hb fun s => ?_
  have h1 := h true t (x s)
  simp only [if_true, stateNorm_one (hn s), mul_one] at h1
  have hsub : ∀ a b c : CVec n, innerProd a b - innerProd a c = innerProd a (b - c) := by
    intro a b c
    unfold innerProd
    rw [← Finset.sum_sub_distrib]
    refine Finset.sum_congr rfl fun i _ => ?_
    rw [Pi.sub_apply, mul_sub]
  rw [hsub, hdt]
  refine (innerProd_norm_le _ _).trans ?_
  rw [stateNorm_one (hn s), one_mul]
  exact h1

/-- C107: the correlation functions of the DOS are the means of the exact `⟨ψ| exp(-i H t) |ψ⟩` over the samples, up to the accumulated
error, on all processes. -/
theorem C107_dos (hr : Ready sch ham) (h0 : rescale ≠ 0) (hp : Precise (scale * Real.pi) prec)
    (he : solverEnv sch ham rescale scale prec besselMax = .ok e) (w : World) (rnd : ℤ → CVec n)
    (hn : ∀ s, innerProd (rnd s) (rnd s) = 1) (seed chk : ℤ) (thr : ℝ) (nt : ℕ) (hnt : 1 ≤ nt) (nsamp : ℕ) {c : ℕ → ℕ → ℂ}
    (hc : calcCorrDos w e rnd seed chk thr nt nsamp = .ok c) :
    ∀ r < w.size, ∀ t ≤ nt, ‖c r t - meanSamples ℂ (distSample w nsamp).1 seed fun s => innerProd (rnd s)
        (evolved ((rescale : ℂ) • ham.toMatrix n) (t * (scale * (Real.pi / rescale))) (rnd s))‖ ≤
      (1 + prec * (scale * Real.pi + 2)) ^ t - 1 := by
  intro r hr' t ht
  rw [C81_dos (env_steps hr h0 hp he).1 w rnd seed chk thr nt hnt nsamp hc r hr' t ht]
  exact corr_error hr h0 hp he _ seed rnd hn t

/-- C107: likewise for the LDOS. -/
theorem C107_ldos (hr : Ready sch ham) (h0 : rescale ≠ 0) (hp : Precise (scale * Real.pi) prec)
    (he : solverEnv sch ham rescale scale prec besselMax = .ok e) (w : World) (sites : List (Fin n)) (rnd : ℤ → CVec n)
    (hn : ∀ s, ∃ i ∈ sites, rnd s i ≠ 0) (seed chk : ℤ) (thr : ℝ) (nt : ℕ) (nsamp : ℕ) {c : ℕ → ℕ → ℂ}
    (hc : calcCorrLdos w e sites rnd seed chk thr nt nsamp = .ok c) :
    ∀ r < w.size, ∀ t ≤ nt, ‖c r t - meanSamples ℂ (distSample w nsamp).1 seed fun s => innerProd (ldosState sites (rnd s))
        (evolved ((rescale : ℂ) • ham.toMatrix n) (t * (scale * (Real.pi / rescale))) (ldosState sites (rnd s)))‖ ≤
      (1 + prec * (scale * Real.pi + 2)) ^ t - 1 := by
  intro r hr' t ht
  rw [C81_ldos (env_steps hr h0 hp he).1 w sites rnd seed chk thr nt nsamp hc r hr' t ht]
  exact corr_error hr h0 hp he _ seed (fun s => ldosState sites (rnd s)) (fun s => (C81_ldos_state sites (rnd s) (hn s)).2.2) t

theorem norm_error (hr : Ready sch ham) (h0 : rescale ≠ 0) (hp : Precise (scale * Real.pi) prec)
    (he : solverEnv sch ham rescale scale prec besselMax = .ok e) (y : CVec n) (hy : innerProd y y = 1) (t : ℕ) :
    |stateNorm ((e.U true ^ t).mulVec y) - 1| ≤ (1 + stepErr scale prec) ^ t - 1 := by
  obtain ⟨g, h⟩ := env_steps hr h0 hp he
  have h1 := h true t y
  have hH : ((rescale : ℂ) • ham.toMatrix n).IsHermitian := by
    have := hr.herm
    unfold Matrix.IsHermitian at *
    rw [conjTranspose_smul, this]
    simp
  have hn := fun t => evolved_norm hH t y
  rw [stateNorm_one hy] at h1 hn
  simp only [if_true, mul_one] at h1
  have h2 := hn (t * (scale * getTimeStep rescale))
  refine le_trans ?_ h1
  conv_lhs => rw [← h2]
  exact (abs_norm_sub_norm_le (WithLp.toLp 2 ((e.U true ^ t).mulVec y) : EuclideanSpace ℂ (Fin n)) (WithLp.toLp 2 _))

/-- C107: if the accumulated error is within a quarter of the threshold, the norm check never stops a calculation of the DOS. -/
theorem C107_no_drift (hr : Ready sch ham) (h0 : rescale ≠ 0) (hp : Precise (scale * Real.pi) prec)
    (he : solverEnv sch ham rescale scale prec besselMax = .ok e) (w : World) (rnd : ℤ → CVec n)
    (hn : ∀ s, innerProd (rnd s) (rnd s) = 1) (seed chk : ℤ) (thr : ℝ) (nt : ℕ) (hnt : 1 ≤ nt) (nsamp : ℕ)
    (hthr : 4 * ((1 + prec * (scale * Real.pi + 2)) ^ nt - 1) ≤ thr) (hsmall : (1 + prec * (scale * Real.pi + 2)) ^ nt ≤ 2) :
    ∃ c, calcCorrDos w e rnd seed chk thr nt nsamp = .ok c := by
  obtain ⟨g, -⟩ := env_steps hr h0 hp he
  have hd := stepErr_nonneg hp
  obtain ⟨-, h2⟩ := dos_run g w rnd seed chk thr nt hnt nsamp
  have hno : ¬∃ j < (distSample w nsamp).1, ∃ t : ℕ, (t : ℤ) = chk ∧ 2 ≤ t ∧ t ≤ nt ∧
        Drifts thr ((e.U true ^ (t - 1)).mulVec (rnd (seed * (j + 1)))) ((e.U true).mulVec (rnd (seed * (j + 1)))) := by
    rintro ⟨j, -, t, -, ht2, htn, hdr⟩
    unfold Drifts at hdr
    have hb : ∀ k ≤ nt, |stateNorm ((e.U true ^ k).mulVec (rnd (seed * (j + 1)))) - 1| ≤ (1 + stepErr scale prec) ^ nt - 1 := by
      intro k hk
      refine (norm_error hr h0 hp he _ (hn _) k).trans ?_
      linarith [pow_le_pow_right₀ (by linarith : 1 ≤ 1 + stepErr scale prec) hk]
    have a := hb (t - 1) (by omega)
    have b := hb 1 hnt
    rw [pow_one] at b
    rw [innerProd_stateNorm, innerProd_stateNorm, ← Complex.ofReal_sub, Complex.norm_real, Real.norm_eq_abs] at hdr
    set p := stateNorm ((e.U true ^ (t - 1)).mulVec (rnd (seed * (j + 1))))
    set q := stateNorm ((e.U true).mulVec (rnd (seed * (j + 1))))
    have hthr' : 4 * ((1 + stepErr scale prec) ^ nt - 1) ≤ thr := hthr
    have hsmall' : (1 + stepErr scale prec) ^ nt ≤ 2 := hsmall
    set η := (1 + stepErr scale prec) ^ nt - 1
    rw [abs_le] at a b
    have : |p ^ 2 - q ^ 2| ≤ 4 * η := by
      rw [abs_le]
      constructor <;> nlinarith
    linarith
  obtain ⟨c, hc, -⟩ := h2 hno
  exact ⟨c, hc⟩

/-- C107: with the default precision (1e-14) and the default number of Bessel functions (250; 42 are enough) the series is found for
every scale between 1/2 and 1, i.e. in all calculations with the default time step, and the precision is good enough. -/
theorem C107_default (sch : List ℕ → ℕ → List (Fin n)) (ham : FCsr) (h0 : rescale ≠ 0) (h1 : 1 / 2 ≤ scale) (h2 : scale ≤ 1)
    (hb : 42 ≤ besselMax) :
    Precise (scale * Real.pi) 1e-14 ∧ ∃ e, solverEnv sch ham rescale scale 1e-14 besselMax = .ok e := by
  have hpi := Real.pi_gt_three
  have hpi' := Real.pi_lt_d2
  have hx1 : 1 ≤ scale * Real.pi := by nlinarith
  have hx2 : scale * Real.pi ≤ 3.15 := by nlinarith
  refine ⟨⟨hx1, by norm_num, by norm_num, ?_⟩, ?_⟩
  · have hc : ⌈scale * Real.pi⌉₊ ≤ 4 := Nat.ceil_le.2 (by norm_num; linarith)
    have hc' : ((⌈scale * Real.pi⌉₊ : ℕ) : ℝ) ≤ 4 := by exact_mod_cast hc
    have h3 : (3 : ℝ) ^ ⌈scale * Real.pi⌉₊ ≤ 3 ^ 4 := pow_le_pow_right₀ (by norm_num) hc
    have h4 : (3 : ℝ) ^ ⌈scale * Real.pi⌉₊ * (3 * ⌈scale * Real.pi⌉₊ + 2) ≤ 3 ^ 4 * 14 :=
      mul_le_mul h3 (by linarith) (by positivity) (by positivity)
    have : (1e-14 : ℝ) * (3 ^ ⌈scale * Real.pi⌉₊ * (3 * ⌈scale * Real.pi⌉₊ + 2)) ≤ 1e-14 * (3 ^ 4 * 14) :=
      mul_le_mul_of_nonneg_left h4 (by norm_num)
    rw [mul_assoc]
    refine lt_of_le_of_lt this ?_
    norm_num
  · have hsmall : ∀ m, m = 40 ∨ m = 41 → |besselJ m (scale * Real.pi)| ≤ 1e-14 := by
      intro m hm
      refine (besselJ_bound m _).trans ?_
      set y := scale * Real.pi / 2 with hy
      have hy0 : 0 ≤ y := by rw [hy]; linarith
      have hy1 : y ≤ 1.6 := by rw [hy]; linarith
      rw [abs_of_nonneg hy0]
      have e1 : Real.exp (y ^ 2) ≤ 27 := by
        have : y ^ 2 ≤ 3 := by nlinarith
        refine (Real.exp_le_exp.2 this).trans ?_
        have h3 : Real.exp 3 = Real.exp 1 ^ 3 := by rw [← Real.exp_nat_mul]; norm_num
        rw [h3]
        have := Real.exp_one_lt_d9
        have h4 : Real.exp 1 ≤ 3 := by linarith
        calc Real.exp 1 ^ 3 ≤ 3 ^ 3 := pow_le_pow_left₀ (Real.exp_pos _).le h4 3
          _ = 27 := by norm_num
      have e2 : y ^ m / m.factorial ≤ 1.6 ^ m / m.factorial :=
        div_le_div_of_nonneg_right (pow_le_pow_left₀ hy0 hy1 m) (by positivity)
      calc y ^ m / m.factorial * Real.exp (y ^ 2) ≤ 1.6 ^ m / m.factorial * 27 :=
            mul_le_mul e2 e1 (Real.exp_pos _).le (by positivity)
        _ ≤ 1e-14 := by rcases hm with rfl | rfl <;> norm_num [Nat.factorial]
    cases hs : besselSeries (fun i => besselJ i (scale * getTimeStep rescale * rescale)) 1e-14 besselMax with
    | ok l =>
      exact ⟨⟨sch, ham, fun k => l.getD k 0, l.length⟩, by unfold solverEnv; dsimp only; rw [hs]; rfl⟩
    | error x =>
      exfalso
      have hx : x = .value := by
        unfold besselSeries at hs
        dsimp only at hs
        split at hs
        · cases hs
        · cases hs; rfl
      subst hx
      rw [C59_error] at hs
      rw [time_scaled h0] at hs
      rcases hs 40 (by omega) with h | h
      · exact absurd (hsmall 40 (Or.inl rfl)) (not_le.2 h)
      · exact absurd (hsmall 41 (Or.inr rfl)) (not_le.2 h)

theorem pow_le_of (a b : ℝ) (ha : 0 ≤ a) (ha1 : a ≤ 1) (k : ℕ) (h : 1 ≤ (1 + b) * (1 - k * a)) (hk : k * a < 1 := by norm_num) :
    (1 + a) ^ k ≤ 1 + b := by
  have e1 : 1 + (k : ℝ) * (-a) ≤ (1 + -a) ^ k := one_add_mul_le_pow (by linarith) k
  have e2 : (1 + a) ^ k * (1 + -a) ^ k ≤ 1 := by
    rw [← mul_pow]
    exact pow_le_one₀ (by nlinarith) (by nlinarith)
  have e3 : 0 ≤ (1 + a) ^ k := by positivity
  have e5 : (1 + a) ^ k * (1 - k * a) ≤ 1 := (mul_le_mul_of_nonneg_left (by linarith) e3).trans e2
  by_contra hcon
  push Not at hcon
  have e6 : (1 + b) * (1 - k * a) < (1 + a) ^ k * (1 - k * a) := mul_lt_mul_of_pos_right hcon (by linarith)
  linarith

/-- C107: a calculation of the DOS with the default precision, number of time steps (1024) and threshold (1e-9) always runs to its
end, and its correlation function is within 6e-11 of the exact one. -/
theorem C107_default_dos (hr : Ready sch ham) (h0 : rescale ≠ 0) (hb : 42 ≤ besselMax) (w : World) (rnd : ℤ → CVec n)
    (hn : ∀ s, innerProd (rnd s) (rnd s) = 1) (seed chk : ℤ) (nsamp : ℕ) :
    ∃ e c, solverEnv sch ham rescale 1 1e-14 besselMax = .ok e ∧ calcCorrDos w e rnd seed chk 1e-9 1024 nsamp = .ok c ∧
      ∀ r < w.size, ∀ t ≤ 1024, ‖c r t - meanSamples ℂ (distSample w nsamp).1 seed fun s => innerProd (rnd s)
        (evolved ((rescale : ℂ) • ham.toMatrix n) (t * (Real.pi / rescale)) (rnd s))‖ ≤ 6e-11 := by
  obtain ⟨hp, e, he⟩ := C107_default (rescale := rescale) (scale := 1) sch ham h0 (by norm_num) le_rfl hb
  have hpi' := Real.pi_lt_d2
  have hd := stepErr_nonneg hp
  have hd' : stepErr 1 1e-14 ≤ 5.2e-14 := by unfold stepErr; norm_num; linarith
  have hpow : (1 + stepErr 1 1e-14) ^ 1024 - 1 ≤ 6e-11 := by
    have : (1 + stepErr 1 1e-14) ^ 1024 ≤ (1 + 5.2e-14) ^ 1024 := pow_le_pow_left₀ (by linarith) (by linarith) _
    have h2 : (1 + 5.2e-14 : ℝ) ^ 1024 ≤ 1 + 6e-11 := pow_le_of 5.2e-14 6e-11 (by norm_num) (by norm_num) 1024 (by norm_num)
    exact sub_le_iff_le_add'.2 (this.trans h2)
  have gen : ∀ P : ℝ, P - 1 ≤ 6e-11 → 4 * (P - 1) ≤ 1e-9 ∧ P ≤ 2 := fun P hP => ⟨by linarith, by linarith⟩
  obtain ⟨c, hc⟩ := C107_no_drift hr h0 hp he w rnd hn seed chk 1e-9 1024 (by norm_num) nsamp
    (gen _ hpow).1 (gen _ hpow).2
  refine ⟨e, c, he, hc, fun r hr' t ht => ?_⟩
  have h := C107_dos hr h0 hp he w rnd hn seed chk 1e-9 1024 (by norm_num) nsamp hc r hr' t ht
  rw [one_mul] at h
  refine h.trans (le_trans ?_ hpow)
  have : (1 + stepErr 1 1e-14) ^ t ≤ (1 + stepErr 1 1e-14) ^ 1024 := pow_le_pow_right₀ (by linarith) ht
  exact sub_le_sub_right this 1

/-- The dimer is ready for a propagation. -/
theorem dimer_ready : Ready (fun _ k => flip k) dimer where
  order := fun _ k => flip_order k
  legal := dimer_legal
  herm := dimer_hermitian
  spectrum := by
    intro lam v hv h
    rw [dimer_matrix] at h
    have a := congrFun h 0
    have b := congrFun h 1
    simp [Matrix.mulVec, dotProduct, Fin.sum_univ_two] at a b
    have h2 : ∀ i, (lam ^ 2 - 1) * v i = 0 := by
      intro i
      fin_cases i
      · simp only [Fin.zero_eta]; linear_combination -(lam * a) - b
      · simp only [Fin.mk_one]; linear_combination -(lam * b) - a
    have h3 : lam ^ 2 = 1 := by
      by_contra hne
      apply hv
      funext i
      exact (mul_eq_zero.1 (h2 i)).resolve_left (sub_ne_zero.2 hne)
    have h4 : ‖lam‖ ^ 2 = 1 := by rw [← norm_pow, h3, norm_one]
    nlinarith [norm_nonneg lam]

/-- The dimer with `rescale = 2.5`, run on one process with the default configuration. -/
example : ∃ e c, solverEnv (fun _ k => flip k) dimer 2.5 1 1e-14 250 = .ok e ∧
    calcCorrDos World.one e oneSite 1337 128 1e-9 1024 1 = .ok c ∧
      ∀ r < World.one.size, ∀ t ≤ 1024, ‖c r t - meanSamples ℂ (distSample World.one 1).1 1337 fun s => innerProd (oneSite s)
        (evolved (((2.5 : ℝ) : ℂ) • dimer.toMatrix 2) (t * (Real.pi / 2.5)) (oneSite s))‖ ≤ 6e-11 :=
  C107_default_dos dimer_ready (by norm_num) (by norm_num) World.one oneSite oneSite_norm 1337 128 1

end Verif.Tbpm

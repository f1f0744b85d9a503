import Verif.Props.FermiOp

/-! # C109: accuracy of the correlation functions of response functions -/

namespace Verif.Fft

open Verif.Tbpm Matrix

variable {n : ℕ} {sch : List ℕ → ℕ → List (Fin n)} {ham : FCsr} {rescale scale prec : ℝ} {besselMax : ℕ} {e : Env n}

/-- The error of the Fermi operator relative to the norm of the state: of the expansion with `2^p` coefficients, and of the
coefficients dropped. -/
noncomputable def fermiErr (p : ℕ) (beta : ℝ) (c : (ℕ → ℝ) × ℕ) : ℝ :=
  beta / 4 * Real.sin (2 * Real.pi / 2 ^ (p + 1)) + ∑ k ∈ Finset.Ico c.2 (2 ^ p), |c.1 k|

theorem stateNorm_triangle (a b : CVec n) : stateNorm a ≤ stateNorm b + stateNorm (a - b) := by
  have := norm_add_le (WithLp.toLp 2 b : EuclideanSpace ℂ (Fin n)) (WithLp.toLp 2 (a - b))
  rwa [← WithLp.toLp_add, add_sub_cancel] at this

theorem stateNorm_add_le (a b : CVec n) : stateNorm (a + b) ≤ stateNorm a + stateNorm b := by
  have := norm_add_le (WithLp.toLp 2 a : EuclideanSpace ℂ (Fin n)) (WithLp.toLp 2 b)
  rwa [← WithLp.toLp_add] at this

open scoped Matrix.Norms.L2Operator in
theorem fermi_contraction {H : Matrix (Fin n) (Fin n) ℂ} (hH : H.IsHermitian) (beta mu : ℝ) (oneMinus : Bool) (y : CVec n) :
    stateNorm ((fermiMatrix beta mu oneMinus H).mulVec y) ≤ stateNorm y := by
  refine (stateNorm_mulVec _ _).trans ?_
  have : ‖fermiMatrix beta mu oneMinus H‖ ≤ 1 := by
    rw [fermiMatrix_fn hH]
    refine hermFn_norm hH _ 1 zero_le_one fun i => ?_
    rw [Complex.norm_real, Real.norm_eq_abs, abs_of_nonneg (occupation_mem _ _ _ _).1]
    exact (occupation_mem _ _ _ _).2
  calc _ ≤ 1 * stateNorm y := mul_le_mul_of_nonneg_right this (stateNorm_nonneg y)
    _ = stateNorm y := one_mul _

theorem evolved_sub (H : Matrix (Fin n) (Fin n) ℂ) (t : ℝ) (a b : CVec n) : evolved H t a - evolved H t b = evolved H t (a - b) := by
  unfold evolved
  rw [Matrix.mulVec_sub]

theorem rescaled_herm (hr : Ready sch ham) (r : ℝ) : ((r : ℂ) • ham.toMatrix n).IsHermitian := by
  have := hr.herm
  unfold Matrix.IsHermitian at *
  rw [conjTranspose_smul, this]
  simp

open scoped Matrix.Norms.L2Operator in
theorem cheb_fermi_error (hr : Ready sch ham) (he : solverEnv sch ham rescale scale prec besselMax = .ok e) (fsch : ℕ → List ℕ)
    (hfsch : ∀ k, (fsch k).Perm (List.range k)) (p : ℕ) (hp : 2 ≤ p) (beta mu : ℝ) (hb : 0 ≤ beta) (oneMinus : Bool) (eps : ℝ)
    (junk : ℕ → ℝ) {c : (ℕ → ℝ) × ℕ} (h : fermiChebCoef fsch (p + 2) (2 ^ (p + 1)) beta mu oneMinus eps junk = some c) (y : CVec n) :
    stateNorm ((e.chebSeries c).mulVec y - (fermiMatrix beta mu oneMinus (ham.toMatrix n)).mulVec y) ≤ fermiErr p beta c * stateNorm y ∧
      0 ≤ fermiErr p beta c := by
  obtain ⟨c, m⟩ := c
  obtain ⟨hs, hH⟩ := solverEnv_spec hr he
  have h1 := chebSeries_error (e := e) hs.herm hs.spectrum fsch hfsch p hp beta mu hb oneMinus eps junk h m (kept_le hfsch h)
  rw [hH] at h1
  refine ⟨?_, (norm_nonneg _).trans h1⟩
  rw [← Matrix.sub_mulVec]
  exact (stateNorm_mulVec _ _).trans (mul_le_mul_of_nonneg_right h1 (stateNorm_nonneg y))

/-- Time evolution of an occupied state. -/
theorem occupied_error (hr : Ready sch ham) (h0 : rescale ≠ 0) (hp : Precise (scale * Real.pi) prec)
    (he : solverEnv sch ham rescale scale prec besselMax = .ok e) (fsch : ℕ → List ℕ)
    (hfsch : ∀ k, (fsch k).Perm (List.range k)) (p : ℕ) (hp2 : 2 ≤ p) (beta mu : ℝ) (hb : 0 ≤ beta) (oneMinus : Bool) (eps : ℝ)
    (junk : ℕ → ℝ) {c : (ℕ → ℝ) × ℕ} (h : fermiChebCoef fsch (p + 2) (2 ^ (p + 1)) beta mu oneMinus eps junk = some c) (t : ℕ)
    (y : CVec n) :
    let exact := evolved ((rescale : ℂ) • ham.toMatrix n) (t * (scale * (Real.pi / rescale)))
      ((fermiMatrix beta mu oneMinus (ham.toMatrix n)).mulVec y)
    stateNorm ((e.U true ^ t).mulVec ((e.chebSeries c).mulVec y) - exact) ≤
        ((1 + stepErr scale prec) ^ t * (1 + fermiErr p beta c) - 1) * stateNorm y ∧ stateNorm exact ≤ stateNorm y := by
  intro exact
  obtain ⟨-, hU⟩ := env_steps hr h0 hp he
  have hdt : scale * (Real.pi / rescale) = scale * getTimeStep rescale := by unfold getTimeStep energyRange; field_simp
  obtain ⟨hf, hf0⟩ := cheb_fermi_error hr he fsch hfsch p hp2 beta mu hb oneMinus eps junk h y
  set F := (e.chebSeries c).mulVec y with hF
  set G := (fermiMatrix beta mu oneMinus (ham.toMatrix n)).mulVec y with hG
  have hG1 : stateNorm G ≤ stateNorm y := fermi_contraction hr.herm beta mu oneMinus y
  have hF1 : stateNorm F ≤ (1 + fermiErr p beta c) * stateNorm y := by
    have := stateNorm_triangle F G
    linarith
  have hev : ∀ t v, stateNorm (evolved ((rescale : ℂ) • ham.toMatrix n) t v) = stateNorm v := fun t v =>
    evolved_norm (rescaled_herm hr rescale) t v
  refine ⟨?_, by rw [hev]; exact hG1⟩
  have hd := stepErr_nonneg hp
  have hpow : 0 ≤ (1 + stepErr scale prec) ^ t - 1 := by linarith [one_le_pow₀ (n := t) (by linarith : 1 ≤ 1 + stepErr scale prec)]
  have h1 := hU true t F
  simp only [if_true] at h1
  rw [← hdt] at h1
  have h2 : stateNorm (evolved ((rescale : ℂ) • ham.toMatrix n) (t * (scale * (Real.pi / rescale))) F - exact) ≤
      fermiErr p beta c * stateNorm y := by
    rw [evolved_sub, hev]
    exact hf
  have h3 : ((1 + stepErr scale prec) ^ t - 1) * stateNorm F ≤
      ((1 + stepErr scale prec) ^ t - 1) * ((1 + fermiErr p beta c) * stateNorm y) := mul_le_mul_of_nonneg_left hF1 hpow
  have h4 := stateNorm_add_le ((e.U true ^ t).mulVec F - evolved ((rescale : ℂ) • ham.toMatrix n) (t * (scale * (Real.pi / rescale))) F)
    (evolved ((rescale : ℂ) • ham.toMatrix n) (t * (scale * (Real.pi / rescale))) F - exact)
  rw [sub_add_sub_cancel] at h4
  calc _ ≤ _ := h4
    _ ≤ ((1 + stepErr scale prec) ^ t - 1) * ((1 + fermiErr p beta c) * stateNorm y) + fermiErr p beta c * stateNorm y := by linarith
    _ = _ := by ring

theorem innerProd_error (a a0 b b0 : CVec n) {α β A B : ℝ} (h1 : stateNorm (a - a0) ≤ α * A) (h2 : stateNorm (b - b0) ≤ β * B)
    (h3 : stateNorm a0 ≤ A) (h4 : stateNorm b0 ≤ B) :
    ‖innerProd a b - innerProd a0 b0‖ ≤ ((1 + α) * (1 + β) - 1) * (A * B) := by
  have hA : 0 ≤ A := (stateNorm_nonneg _).trans h3
  have hB : 0 ≤ B := (stateNorm_nonneg _).trans h4
  have hα : 0 ≤ α * A := (stateNorm_nonneg _).trans h1
  have hβ : 0 ≤ β * B := (stateNorm_nonneg _).trans h2
  have e1 : innerProd a b - innerProd a0 b0 = innerProd (a - a0) b + innerProd a0 (b - b0) := by
    unfold innerProd
    rw [← Finset.sum_sub_distrib, ← Finset.sum_add_distrib]
    refine Finset.sum_congr rfl fun i _ => ?_
    simp only [Pi.sub_apply, star_sub]
    ring
  have hb : stateNorm b ≤ (1 + β) * B := by have := stateNorm_triangle b b0; linarith
  rw [e1]
  refine (norm_add_le _ _).trans ?_
  have e2 : ‖innerProd (a - a0) b‖ ≤ (α * A) * ((1 + β) * B) :=
    (innerProd_norm_le _ _).trans (mul_le_mul h1 hb (stateNorm_nonneg _) hα)
  have e3 : ‖innerProd a0 (b - b0)‖ ≤ A * (β * B) := (innerProd_norm_le _ _).trans (mul_le_mul h3 h2 (stateNorm_nonneg _) hA)
  calc _ ≤ (α * A) * ((1 + β) * B) + A * (β * B) := add_le_add e2 e3
    _ = _ := by ring

theorem solverEnv_ham (he : solverEnv sch ham rescale scale prec besselMax = .ok e) : e.ham = ham := by
  unfold solverEnv at he
  cases hl : besselSeries (fun i => besselJ i (scale * getTimeStep rescale * rescale)) prec besselMax with
  | error x => simp only [hl] at he; cases he
  | ok l => simp only [hl] at he; cases he; rfl

/-- C109: the correlation functions of the optical conductivity are the means over the samples of the exact
`⟨exp(-iHs) f ψ | J_a exp(-iHs) (1-f) J_b ψ⟩`, `s` being the time before step `t`, up to an error which combines those of `t-1` steps
and of the two Fermi operators and is proportional to the norms of the current operators. -/
theorem C109_ac (hr : Ready sch ham) (h0 : rescale ≠ 0) (hp : Precise (scale * Real.pi) prec)
    (he : solverEnv sch ham rescale scale prec besselMax = .ok e) (fsch : ℕ → List ℕ)
    (hfsch : ∀ k, (fsch k).Perm (List.range k)) (p : ℕ) (hp2 : 2 ≤ p) (beta mu : ℝ) (hb : 0 ≤ beta) (eps : ℝ)
    (junk : ℕ → ℝ) {cF cO : (ℕ → ℝ) × ℕ} (hcF : fermiChebCoef fsch (p + 2) (2 ^ (p + 1)) beta mu false eps junk = some cF)
    (hcO : fermiChebCoef fsch (p + 2) (2 ^ (p + 1)) beta mu true eps junk = some cO) (hF : 3 ≤ cF.2) (hO : 3 ≤ cO.2)
    (w : World) (dx dy : ℕ → ℝ) (rnd : ℤ → CVec n) (hn : ∀ s, innerProd (rnd s) (rnd s) = 1) (seed chk : ℤ) (thr : ℝ) (nt nsamp : ℕ)
    {c : ℕ → ℕ → Fin 4 → ℂ} (hc : calcCorrAcCond w e rescale dx dy cF cO rnd seed chk thr nt nsamp = .ok c) (j : ℝ) :
    let J : Bool → Matrix (Fin n) (Fin n) ℂ := fun y => (ham.current (if y then dy else dx) rescale).toMatrix n
    let f : Bool → CVec n → CVec n := fun o => (fermiMatrix beta mu o (ham.toMatrix n)).mulVec
    let U : ℕ → CVec n → CVec n := fun t => evolved ((rescale : ℂ) • ham.toMatrix n) (t * (scale * (Real.pi / rescale)))
    (∀ a x, stateNorm ((J a).mulVec x) ≤ j * stateNorm x) →
    ∀ r < w.size, ∀ a b : Bool, ∀ k : Fin 4, (k : ℕ) = a.toNat + 2 * b.toNat → ∀ t, 2 ≤ t → t ≤ nt →
      ‖c r t k - meanSamples ℂ (distSample w nsamp).1 seed fun s =>
        innerProd (U (t - 1) (f false (rnd s))) ((J a).mulVec (U (t - 1) (f true ((J b).mulVec (rnd s)))))‖ ≤
      ((1 + stepErr scale prec) ^ (t - 1) * (1 + fermiErr p beta cF) * ((1 + stepErr scale prec) ^ (t - 1) * (1 + fermiErr p beta cO)) - 1) *
        j ^ 2 := by
  intro J f U hJ r hrr a b k hk t ht1 ht2
  have g := (env_steps hr h0 hp he).1
  have hham : e.ham = ham := solverEnv_ham he
  obtain ⟨hv, -⟩ := C83_ac g w rescale dx dy hF hO rnd seed chk thr nt nsamp hc r hrr a b k hk
  rw [hv t ht1 ht2, hham]
  have hj : 0 ≤ j := by
    have := hJ true (rnd 0)
    rw [stateNorm_one (hn 0), mul_one] at this
    exact (stateNorm_nonneg _).trans this
  have key : ∀ s, ‖innerProd ((e.U true ^ (t - 1)).mulVec ((e.chebSeries cF).mulVec (rnd s)))
      ((J a).mulVec ((e.U true ^ (t - 1)).mulVec ((e.chebSeries cO).mulVec ((J b).mulVec (rnd s))))) -
      innerProd (U (t - 1) (f false (rnd s))) ((J a).mulVec (U (t - 1) (f true ((J b).mulVec (rnd s)))))‖ ≤
      ((1 + stepErr scale prec) ^ (t - 1) * (1 + fermiErr p beta cF) * ((1 + stepErr scale prec) ^ (t - 1) * (1 + fermiErr p beta cO)) - 1) *
        j ^ 2 := by
    intro s
    obtain ⟨h1, h2⟩ := occupied_error hr h0 hp he fsch hfsch p hp2 beta mu hb false eps junk hcF (t - 1) (rnd s)
    obtain ⟨h3, h4⟩ := occupied_error hr h0 hp he fsch hfsch p hp2 beta mu hb true eps junk hcO (t - 1) ((J b).mulVec (rnd s))
    have h5 : stateNorm ((J b).mulVec (rnd s)) ≤ j := by
      have := hJ b (rnd s)
      rwa [stateNorm_one (hn s), mul_one] at this
    rw [stateNorm_one (hn s)] at h1 h2
    have hα : 0 ≤ (1 + stepErr scale prec) ^ (t - 1) * (1 + fermiErr p beta cO) - 1 := by
      have a1 := one_le_pow₀ (n := t - 1) (by linarith [stepErr_nonneg hp] : 1 ≤ 1 + stepErr scale prec)
      have a2 := (cheb_fermi_error hr he fsch hfsch p hp2 beta mu hb true eps junk hcO (rnd s)).2
      nlinarith
    have h6 : stateNorm ((J a).mulVec ((e.U true ^ (t - 1)).mulVec ((e.chebSeries cO).mulVec ((J b).mulVec (rnd s)))) -
        (J a).mulVec (U (t - 1) (f true ((J b).mulVec (rnd s))))) ≤
        ((1 + stepErr scale prec) ^ (t - 1) * (1 + fermiErr p beta cO) - 1) * j ^ 2 := by
      rw [← Matrix.mulVec_sub]
      refine (hJ a _).trans ?_
      have := h3.trans (mul_le_mul_of_nonneg_left h5 hα)
      calc _ ≤ j * (((1 + stepErr scale prec) ^ (t - 1) * (1 + fermiErr p beta cO) - 1) * j) := mul_le_mul_of_nonneg_left this hj
        _ = _ := by ring
    have h7 : stateNorm ((J a).mulVec (U (t - 1) (f true ((J b).mulVec (rnd s))))) ≤ j ^ 2 := by
      refine (hJ a _).trans ?_
      rw [pow_two]
      exact mul_le_mul_of_nonneg_left (h4.trans h5) hj
    have := innerProd_error _ _ _ _ h1 h6 h2 h7
    rw [add_sub_cancel, add_sub_cancel, one_mul] at this
    exact this
  exact mean_error _ _ _ _ _ ((norm_nonneg _).trans (key 0)) key

theorem mean_error_real (N : ℕ) (seed : ℤ) (f g : ℤ → ℝ) (d : ℝ) (hd : 0 ≤ d) (h : ∀ s, |f s - g s| ≤ d) :
    |meanSamples ℝ N seed f - meanSamples ℝ N seed g| ≤ d := by
  unfold meanSamples
  rw [← smul_sub, ← Finset.sum_sub_distrib, smul_eq_mul, abs_mul, abs_inv, Nat.abs_cast]
  have h1 : |∑ j ∈ Finset.range N, (f (seed * (j + 1)) - g (seed * (j + 1)))| ≤ N * d := by
    refine (Finset.abs_sum_le_sum_abs _ _).trans ?_
    refine (Finset.sum_le_card_nsmul _ _ d fun j _ => h _).trans ?_
    rw [Finset.card_range, nsmul_eq_mul]
  rcases Nat.eq_zero_or_pos N with rfl | hN
  · simpa using hd
  · have : (0 : ℝ) < N := by exact_mod_cast hN
    calc (N : ℝ)⁻¹ * _ ≤ (N : ℝ)⁻¹ * (N * d) := mul_le_mul_of_nonneg_left h1 (by positivity)
      _ = d := by field_simp

/-- Multiplication by phases keeps the norm. -/
theorem stateNorm_phase (ρ y : CVec n) (h : ∀ i, ‖ρ i‖ = 1) : stateNorm (ρ * y) = stateNorm y := by
  unfold stateNorm
  rw [EuclideanSpace.norm_eq, EuclideanSpace.norm_eq]
  congr 1
  refine Finset.sum_congr rfl fun i _ => ?_
  simp [h i]

/-- C109: the correlation functions of the dynamical polarization are the means over the samples of the imaginary parts of the exact
`⟨exp(-iHs) f ψ | ρ(q) exp(-iHs) (1-f) ρ(-q) ψ⟩`, up to an error which combines those of `t-1` steps and of the two Fermi operators. -/
theorem C109_dyn_pol (hr : Ready sch ham) (h0 : rescale ≠ 0) (hp : Precise (scale * Real.pi) prec)
    (he : solverEnv sch ham rescale scale prec besselMax = .ok e) (fsch : ℕ → List ℕ)
    (hfsch : ∀ k, (fsch k).Perm (List.range k)) (p : ℕ) (hp2 : 2 ≤ p) (beta mu : ℝ) (hb : 0 ≤ beta) (eps : ℝ)
    (junk : ℕ → ℝ) {cF cO : (ℕ → ℝ) × ℕ} (hcF : fermiChebCoef fsch (p + 2) (2 ^ (p + 1)) beta mu false eps junk = some cF)
    (hcO : fermiChebCoef fsch (p + 2) (2 ^ (p + 1)) beta mu true eps junk = some cO) (hF : 3 ≤ cF.2) (hO : 3 ≤ cO.2)
    (w : World) (sx sy sz : Fin n → ℝ) (q : List (Fin 3 → ℝ)) (rnd : ℤ → CVec n) (hn : ∀ s, innerProd (rnd s) (rnd s) = 1)
    (seed chk : ℤ) (thr : ℝ) (nt : ℕ) (hnt : 1 ≤ nt) (nsamp : ℕ)
    {c : ℕ → ℕ → ℕ → ℝ} (hc : calcCorrDynPol w e sx sy sz q cF cO rnd seed chk thr nt nsamp = .ok c) :
    let ρ : (Fin 3 → ℝ) → CVec n := fun q i => Complex.exp (Complex.I * (q 0 * sx i + q 1 * sy i + q 2 * sz i : ℝ))
    let f : Bool → CVec n → CVec n := fun o => (fermiMatrix beta mu o (ham.toMatrix n)).mulVec
    let U : ℕ → CVec n → CVec n := fun t => evolved ((rescale : ℂ) • ham.toMatrix n) (t * (scale * (Real.pi / rescale)))
    ∀ r < w.size, ∀ iq (h : iq < q.length), ∀ t, 1 ≤ t → t ≤ nt →
      |c r iq t - meanSamples ℝ (distSample w nsamp).1 seed fun s =>
        (innerProd (U (t - 1) (f false (rnd s))) (ρ q[iq] * U (t - 1) (f true (ρ (-q[iq]) * rnd s)))).im| ≤
      (1 + stepErr scale prec) ^ (t - 1) * (1 + fermiErr p beta cF) * ((1 + stepErr scale prec) ^ (t - 1) * (1 + fermiErr p beta cO)) - 1 := by
  intro ρ f U r hrr iq hiq t ht1 ht2
  have g := (env_steps hr h0 hp he).1
  rw [C83_dyn_pol g w sx sy sz q hF hO rnd seed chk thr nt hnt nsamp hc r hrr iq hiq t ht1 ht2]
  have hρ : ∀ q i, ‖ρ q i‖ = 1 := by
    intro q i
    simp only [ρ]
    rw [mul_comm, Complex.norm_exp_ofReal_mul_I]
  have key : ∀ s, |(innerProd ((e.U true ^ (t - 1)).mulVec ((e.chebSeries cF).mulVec (rnd s)))
        (ρ q[iq] * (e.U true ^ (t - 1)).mulVec ((e.chebSeries cO).mulVec (ρ (-q[iq]) * rnd s)))).im -
      (innerProd (U (t - 1) (f false (rnd s))) (ρ q[iq] * U (t - 1) (f true (ρ (-q[iq]) * rnd s)))).im| ≤
      (1 + stepErr scale prec) ^ (t - 1) * (1 + fermiErr p beta cF) * ((1 + stepErr scale prec) ^ (t - 1) * (1 + fermiErr p beta cO)) - 1 := by
    intro s
    obtain ⟨h1, h2⟩ := occupied_error hr h0 hp he fsch hfsch p hp2 beta mu hb false eps junk hcF (t - 1) (rnd s)
    obtain ⟨h3, h4⟩ := occupied_error hr h0 hp he fsch hfsch p hp2 beta mu hb true eps junk hcO (t - 1) (ρ (-q[iq]) * rnd s)
    rw [stateNorm_phase _ _ (hρ _), stateNorm_one (hn s)] at h3 h4
    rw [stateNorm_one (hn s)] at h1 h2
    rw [← Complex.sub_im]
    refine (Complex.abs_im_le_norm _).trans ?_
    have := innerProd_error _ _ (ρ q[iq] * (e.U true ^ (t - 1)).mulVec ((e.chebSeries cO).mulVec (ρ (-q[iq]) * rnd s)))
      (ρ q[iq] * U (t - 1) (f true (ρ (-q[iq]) * rnd s))) h1
      (by rw [← mul_sub, stateNorm_phase _ _ (hρ _)]; exact h3) h2 (by rw [stateNorm_phase _ _ (hρ _)]; exact h4)
    rw [add_sub_cancel, add_sub_cancel, mul_one, mul_one] at this
    exact this
  exact mean_error_real _ _ _ _ _ ((abs_nonneg _).trans (key 0)) key

theorem occupied_no_drift (hr : Ready sch ham) (h0 : rescale ≠ 0) (hp : Precise (scale * Real.pi) prec)
    (he : solverEnv sch ham rescale scale prec besselMax = .ok e) (fsch : ℕ → List ℕ)
    (hfsch : ∀ k, (fsch k).Perm (List.range k)) (p : ℕ) (hp2 : 2 ≤ p) (beta mu : ℝ) (hb : 0 ≤ beta) (oneMinus : Bool) (eps : ℝ)
    (junk : ℕ → ℝ) {c : (ℕ → ℝ) × ℕ} (h : fermiChebCoef fsch (p + 2) (2 ^ (p + 1)) beta mu oneMinus eps junk = some c) (nt : ℕ)
    (y : CVec n) (hy : innerProd y y = 1) (thr : ℝ)
    (hthr : (((1 + stepErr scale prec) ^ nt) ^ 2 - 1) * (1 + fermiErr p beta c) ^ 2 ≤ thr) (k : ℕ) (hk : k ≤ nt) :
    ¬Drifts thr ((e.U true ^ k).mulVec ((e.chebSeries c).mulVec y)) ((e.chebSeries c).mulVec y) := by
  obtain ⟨-, hU⟩ := env_steps hr h0 hp he
  obtain ⟨hf, hf0⟩ := cheb_fermi_error hr he fsch hfsch p hp2 beta mu hb oneMinus eps junk h y
  have hG1 : stateNorm ((fermiMatrix beta mu oneMinus (ham.toMatrix n)).mulVec y) ≤ 1 :=
    (fermi_contraction hr.herm beta mu oneMinus y).trans (stateNorm_one hy).le
  rw [stateNorm_one hy, mul_one] at hf
  set F := (e.chebSeries c).mulVec y
  have hF1 : stateNorm F ≤ 1 + fermiErr p beta c := by
    have := stateNorm_triangle F ((fermiMatrix beta mu oneMinus (ham.toMatrix n)).mulVec y)
    linarith
  have h1 := hU true k F
  simp only [if_true] at h1
  have hev := evolved_norm (rescaled_herm hr rescale) (k * (scale * getTimeStep rescale)) F
  have h2 : |stateNorm ((e.U true ^ k).mulVec F) - stateNorm F| ≤ ((1 + stepErr scale prec) ^ k - 1) * stateNorm F := by
    refine le_trans ?_ h1
    conv_lhs => rw [← hev]
    exact (abs_norm_sub_norm_le (WithLp.toLp 2 ((e.U true ^ k).mulVec F) : EuclideanSpace ℂ (Fin n)) (WithLp.toLp 2 _))
  unfold Drifts
  rw [not_lt, innerProd_stateNorm, innerProd_stateNorm, ← Complex.ofReal_sub, Complex.norm_real, Real.norm_eq_abs]
  refine le_trans ?_ hthr
  have hd := stepErr_nonneg hp
  have hpow : (1 + stepErr scale prec) ^ k ≤ (1 + stepErr scale prec) ^ nt := pow_le_pow_right₀ (by linarith) hk
  have hone : 1 ≤ (1 + stepErr scale prec) ^ k := one_le_pow₀ (by linarith)
  generalize (1 + stepErr scale prec) ^ k = P at *
  generalize (1 + stepErr scale prec) ^ nt = Q at *
  have hF0 := stateNorm_nonneg F
  have hU0 := stateNorm_nonneg ((e.U true ^ k).mulVec F)
  generalize stateNorm ((e.U true ^ k).mulVec F) = a at *
  generalize stateNorm F = b at *
  generalize fermiErr p beta c = m at *
  have e1 : a ^ 2 - b ^ 2 = (a - b) * (a + b) := by ring
  rw [abs_le] at h2
  have e2 : a + b ≤ (P + 1) * b := by linarith
  rw [e1, abs_mul, abs_of_nonneg (by linarith : 0 ≤ a + b)]
  have e3 : |a - b| ≤ (P - 1) * b := abs_le.2 h2
  have e4 : |a - b| * (a + b) ≤ ((P - 1) * b) * ((P + 1) * b) := mul_le_mul e3 e2 (by linarith) (by nlinarith)
  have e5 : ((P - 1) * b) * ((P + 1) * b) = (P ^ 2 - 1) * b ^ 2 := by ring
  have e6 : P ^ 2 ≤ Q ^ 2 := by nlinarith
  have e7 : b ^ 2 ≤ (1 + m) ^ 2 := by nlinarith
  calc _ ≤ (P ^ 2 - 1) * b ^ 2 := e5 ▸ e4
    _ ≤ (Q ^ 2 - 1) * (1 + m) ^ 2 := mul_le_mul (by linarith) e7 (by positivity) (by nlinarith)

/-- C109: if the accumulated error is within the threshold, the norm check stops neither calculation. -/
theorem C109_no_drift (hr : Ready sch ham) (h0 : rescale ≠ 0) (hp : Precise (scale * Real.pi) prec)
    (he : solverEnv sch ham rescale scale prec besselMax = .ok e) (fsch : ℕ → List ℕ)
    (hfsch : ∀ k, (fsch k).Perm (List.range k)) (p : ℕ) (hp2 : 2 ≤ p) (beta mu : ℝ) (hb : 0 ≤ beta) (eps : ℝ)
    (junk : ℕ → ℝ) {cF cO : (ℕ → ℝ) × ℕ} (hcF : fermiChebCoef fsch (p + 2) (2 ^ (p + 1)) beta mu false eps junk = some cF)
    (hF : 3 ≤ cF.2) (hO : 3 ≤ cO.2) (w : World) (dx dy : ℕ → ℝ) (sx sy sz : Fin n → ℝ) (q : List (Fin 3 → ℝ)) (rnd : ℤ → CVec n)
    (hn : ∀ s, innerProd (rnd s) (rnd s) = 1) (seed chk : ℤ) (thr : ℝ) (nt : ℕ) (hnt : 1 ≤ nt) (nsamp : ℕ)
    (hthr : (((1 + stepErr scale prec) ^ nt) ^ 2 - 1) * (1 + fermiErr p beta cF) ^ 2 ≤ thr) :
    (∃ c, calcCorrAcCond w e rescale dx dy cF cO rnd seed chk thr nt nsamp = .ok c) ∧
      ∃ c, calcCorrDynPol w e sx sy sz q cF cO rnd seed chk thr nt nsamp = .ok c := by
  have g := (env_steps hr h0 hp he).1
  have key := fun s k (hk : k ≤ nt) =>
    occupied_no_drift hr h0 hp he fsch hfsch p hp2 beta mu hb false eps junk hcF nt (rnd s) (hn s) thr hthr k hk
  refine ⟨?_, ?_⟩
  · obtain ⟨c, hc, -⟩ := (Tbpm.ac_run g w rescale dx dy hF hO rnd seed chk thr nt nsamp).2
      (by rintro ⟨j, -, t, -, -, ht, hd⟩; exact key _ _ (by omega) hd)
    exact ⟨c, hc⟩
  · obtain ⟨c, hc, -⟩ := (dyn_run g w sx sy sz q hF hO rnd seed chk thr nt hnt nsamp).2
      (by rintro ⟨-, j, -, t, -, -, ht, hd⟩; exact key _ _ (by omega) hd)
    exact ⟨c, hc⟩

/-- The dimer at `beta = 2` with 8 points for the Fermi function and all coefficients kept, one process, ten steps, the norm checked at
step 5: both calculations run and have the accuracy stated. -/
example (junk : ℕ → ℝ) : ∃ e cF cO c d, solverEnv (fun _ k => flip k) dimer 2.5 (1 / 2) 1e-14 250 = .ok e ∧
    fermiChebCoef List.range 4 (2 ^ 3) 2 0.1 false 0 junk = some cF ∧ fermiChebCoef List.range 4 (2 ^ 3) 2 0.1 true 0 junk = some cO ∧
    calcCorrAcCond World.one e 2.5 (fun i => i) (fun _ => 1) cF cO oneSite 1337 5 1 10 1 = .ok c ∧
    calcCorrDynPol World.one e (fun i => i) 0 0 [fun _ => 1] cF cO oneSite 1337 5 1 10 1 = .ok d ∧
    ∀ t, 1 ≤ t → t ≤ 10 → |d 0 0 t - meanSamples ℝ (distSample World.one 1).1 1337 fun s =>
        (innerProd (evolved (((2.5 : ℝ) : ℂ) • dimer.toMatrix 2) ((t - 1 : ℕ) * (1 / 2 * (Real.pi / 2.5)))
            ((fermiMatrix 2 0.1 false (dimer.toMatrix 2)).mulVec (oneSite s)))
          ((fun i : Fin 2 => Complex.exp (Complex.I * (1 * (i : ℕ) + 1 * 0 + 1 * 0 : ℝ))) *
            evolved (((2.5 : ℝ) : ℂ) • dimer.toMatrix 2) ((t - 1 : ℕ) * (1 / 2 * (Real.pi / 2.5)))
              ((fermiMatrix 2 0.1 true (dimer.toMatrix 2)).mulVec
                ((fun i : Fin 2 => Complex.exp (Complex.I * ((-1) * (i : ℕ) + (-1) * 0 + (-1) * 0 : ℝ))) * oneSite s)))).im| ≤
      (1 + stepErr (1 / 2) 1e-14) ^ (t - 1) * (1 + fermiErr 2 2 cF) * ((1 + stepErr (1 / 2) 1e-14) ^ (t - 1) * (1 + fermiErr 2 2 cO)) - 1 := by
  obtain ⟨hp, e, he⟩ := C107_default (rescale := 2.5) (scale := 1 / 2) (fun _ k => flip k) dimer (by norm_num) (by norm_num)
    (by norm_num) (by norm_num : 42 ≤ 250)
  have hl : ∀ k, (List.range k).Perm (List.range k) := fun _ => List.Perm.refl _
  have all : ∀ b, ∃ c m, fermiChebCoef List.range 4 (2 ^ 3) 2 0.1 b 0 junk = some (c, m) ∧ m = 4 := by
    intro b
    obtain ⟨c, -, m, h, -, -, hm, -, h2⟩ := C91_truncation List.range hl 2 2 0.1 b 0 junk junk
    refine ⟨c, m, h, ?_⟩
    by_contra hne
    exact absurd (h2 (by omega)).1 (not_lt.2 (abs_nonneg _))
  obtain ⟨cF, mF, hcF, hmF⟩ := all false
  obtain ⟨cO, mO, hcO, hmO⟩ := all true
  subst hmF hmO
  have herr : fermiErr 2 2 (cF, 4) ≤ 1 / 2 := by
    unfold fermiErr
    simp only [show (2 : ℕ) ^ 2 = 4 from rfl, Finset.Ico_self, Finset.sum_empty, add_zero]
    linarith [Real.sin_le_one (2 * Real.pi / 2 ^ (2 + 1))]
  have herr0 := (cheb_fermi_error dimer_ready he List.range hl 2 le_rfl 2 0.1 (by norm_num) false 0 junk hcF (oneSite 0)).2
  have hstep : (1 + stepErr (1 / 2) 1e-14) ^ 10 ≤ 1 + 1e-3 := by
    have hd := stepErr_nonneg hp
    have hd' : stepErr (1 / 2) 1e-14 ≤ 5.2e-14 := by unfold stepErr; linarith [Real.pi_lt_d2]
    refine (pow_le_pow_left₀ (by linarith) (by linarith : 1 + stepErr (1 / 2) 1e-14 ≤ 1 + 5.2e-14) 10).trans ?_
    norm_num
  have hone := one_le_pow₀ (n := 10) (by linarith [stepErr_nonneg hp] : 1 ≤ 1 + stepErr (1 / 2) 1e-14)
  obtain ⟨⟨c, hc⟩, d, hd⟩ := C109_no_drift dimer_ready (by norm_num) hp he List.range hl 2 le_rfl 2 0.1 (by norm_num) 0 junk hcF
    (by norm_num : 3 ≤ (cF, 4).2) (by norm_num : 3 ≤ (cO, 4).2) World.one (fun i => i) (fun _ => 1) (fun i => i) 0 0 [fun _ => 1] oneSite
    oneSite_norm 1337 5 1 10 (by norm_num) 1 (by
      generalize (1 + stepErr (1 / 2) 1e-14) ^ 10 = P at *
      generalize fermiErr 2 2 (cF, 4) = m at *
      nlinarith [mul_le_mul (by nlinarith : P ^ 2 - 1 ≤ 0.01) (by nlinarith : (1 + m) ^ 2 ≤ 3) (by positivity) (by norm_num)])
  refine ⟨e, (cF, 4), (cO, 4), c, d, he, hcF, hcO, hc, hd, fun t h1 h2 => ?_⟩
  have := C109_dyn_pol dimer_ready (by norm_num) hp he List.range hl 2 le_rfl 2 0.1 (by norm_num) 0 junk hcF hcO (by norm_num)
    (by norm_num) World.one (fun i => i) 0 0 [fun _ => 1] oneSite oneSite_norm 1337 5 1 10 (by norm_num) 1 hd 0 Nat.one_pos 0
    (by norm_num) t h1 h2
  exact this

end Verif.Fft

import Verif.Proof.TbpmCur
import Verif.Props.Kernel
import Verif.Props.ParallelRun

/-! # TBPM drivers: C58–C60, C64, C81–C85 -/

namespace Verif.Tbpm

open Matrix
open scoped Classical

variable {n : ℕ}

/-! ## Witness: the dimer -/

/-- The dimer with a given Bessel series. -/
noncomputable def dimerEnv (bes : ℕ → ℝ) : Env 2 := ⟨fun _ k => flip k, dimer, bes, 3⟩

theorem dimerEnv_good (bes : ℕ → ℝ) : (dimerEnv bes).Good := ⟨fun _ k => flip_order k, dimer_legal, le_refl _⟩

/-- Series with `U = a`. -/
noncomputable def scalarSeries (a : ℝ) : ℕ → ℝ := fun k => if k = 0 then a else 0

theorem dimerEnv_scalar (a : ℝ) (fwd : Bool) : (dimerEnv (scalarSeries a)).U fwd = (a : ℂ) • 1 := by
  unfold Env.U
  rw [Finset.sum_eq_zero, add_zero]
  · rfl
  · intro k hk
    have : k ≠ 0 := by have := (Finset.mem_Ico.1 hk).1; omega
    simp [dimerEnv, scalarSeries, this]

/-- One normalised sample. -/
def oneSite : ℤ → CVec 2 := fun _ => ![1, 0]

theorem oneSite_norm (s : ℤ) : innerProd (oneSite s) (oneSite s) = 1 := by simp [innerProd, oneSite]

/-! ## C81: correlation functions of the DOS and the LDOS -/

/-- C81: on every process the correlation function of the DOS is the mean of `⟨ψ| U^t |ψ⟩` over the samples, unless the norm check
stops the program. -/
theorem C81_dos {e : Env n} (g : e.Good) (w : World) (rnd : ℤ → CVec n) (seed chk : ℤ) (thr : ℝ) (nt : ℕ) (hnt : 1 ≤ nt) (nsamp : ℕ)
    {c : ℕ → ℕ → ℂ} (hc : calcCorrDos w e rnd seed chk thr nt nsamp = .ok c) :
    ∀ r < w.size, ∀ t ≤ nt, c r t =
      meanSamples ℂ (distSample w nsamp).1 seed fun s => innerProd (rnd s) ((e.U true ^ t).mulVec (rnd s)) := by
  obtain ⟨h1, h2⟩ := dos_run g w rnd seed chk thr nt hnt nsamp
  intro r hr t ht
  by_cases hb : ∃ j < (distSample w nsamp).1, ∃ t : ℕ, (t : ℤ) = chk ∧ 2 ≤ t ∧ t ≤ nt ∧
        Drifts thr ((e.U true ^ (t - 1)).mulVec (rnd (seed * (j + 1)))) ((e.U true).mulVec (rnd (seed * (j + 1))))
  · rw [h1 hb] at hc; cases hc
  · obtain ⟨c', hc', hv⟩ := h2 hb
    rw [hc'] at hc
    cases hc
    rw [hv r hr, mean_apply]
    unfold dosF
    simp only [if_pos ht]

/-- C81: likewise for the LDOS, with states confined to the chosen sites. -/
theorem C81_ldos {e : Env n} (g : e.Good) (w : World) (sites : List (Fin n)) (rnd : ℤ → CVec n) (seed chk : ℤ) (thr : ℝ) (nt : ℕ)
    (nsamp : ℕ) {c : ℕ → ℕ → ℂ} (hc : calcCorrLdos w e sites rnd seed chk thr nt nsamp = .ok c) :
    ∀ r < w.size, ∀ t ≤ nt, c r t = meanSamples ℂ (distSample w nsamp).1 seed fun s =>
      innerProd (ldosState sites (rnd s)) ((e.U true ^ t).mulVec (ldosState sites (rnd s))) := by
  obtain ⟨h1, h2⟩ := ldos_run g w sites rnd seed chk thr nt nsamp
  intro r hr t ht
  by_cases hb : ∃ j < (distSample w nsamp).1, ∃ t : ℕ, (t : ℤ) = chk ∧ 1 ≤ t ∧ t ≤ nt ∧
        Drifts thr ((e.U true ^ (t - 1)).mulVec (ldosState sites (rnd (seed * (j + 1))))) (ldosState sites (rnd (seed * (j + 1))))
  · rw [h1 hb] at hc; cases hc
  · obtain ⟨c', hc', hv⟩ := h2 hb
    rw [hc'] at hc
    cases hc
    rw [hv r hr, mean_apply]
    unfold dosF
    simp only [if_pos ht]

/-- C81: the state of the LDOS vanishes outside the sites, is proportional to the random state on them, and is normalised. -/
theorem C81_ldos_state (sites : List (Fin n)) (x : CVec n) (hx : ∃ i ∈ sites, x i ≠ 0) :
    (∀ i, i ∉ sites → ldosState sites x i = 0) ∧
    (∃ a : ℝ, 0 < a ∧ ∀ i ∈ sites, ldosState sites x i = a * x i) ∧
    innerProd (ldosState sites x) (ldosState sites x) = 1 := by
  have hloop : ∀ (l : List (Fin n)) (w : CVec n) i, l.foldl (fun w i => Function.update w i (x i)) w i = if i ∈ l then x i else w i := by
    intro l
    induction l with
    | nil => intro w i; simp
    | cons k l ih =>
      intro w i
      rw [List.foldl_cons, ih]
      by_cases h1 : i ∈ l
      · simp [h1]
      · by_cases h2 : i = k
        · subst h2; simp [h1]
        · simp [h1, h2]
  set y : CVec n := fun i => if i ∈ sites then x i else 0 with hy
  have he : ldosState sites x = fun i => y i / (normZ y : ℂ) := by
    funext i
    unfold ldosState
    have : (sites.foldl (fun w i => Function.update w i (x i)) (0 : CVec n)) = y := by funext i; rw [hloop]; rfl
    simp only [this]
    rfl
  have hy0 : normZ y ≠ 0 := by
    intro h
    obtain ⟨i, hi, hxi⟩ := hx
    have := congrFun ((normZ_eq_zero y).1 h) i
    simp only [hy, if_pos hi] at this
    exact hxi this
  have hyc : (normZ y : ℂ) ≠ 0 := by exact_mod_cast hy0
  refine ⟨fun i hi => ?_, ⟨(normZ y)⁻¹, by have := lt_of_le_of_ne (normZ_nonneg y) (Ne.symm hy0); positivity, fun i hi => ?_⟩, ?_⟩
  · rw [he]; simp [hy, hi]
  · rw [he]; simp only [hy, if_pos hi]; push_cast; ring
  · have h1 : ldosState sites x = ((normZ y)⁻¹ : ℂ) • y := by rw [he]; funext i; simp [div_eq_inv_mul]
    rw [h1, innerProd_smul, innerProd_smul_left, innerProd_self_eq]
    have : star ((normZ y : ℂ)⁻¹) = (normZ y : ℂ)⁻¹ := by rw [Complex.star_def, map_inv₀, Complex.conj_ofReal]
    rw [this]
    push_cast
    field_simp

/-- C81: the result does not depend on the number of processes, provided it divides the number of samples, nor on the schedules. -/
theorem C81_parallel {e e' : Env n} (g : e.Good) (g' : e'.Good) (hsame : e.ham = e'.ham ∧ e.bes = e'.bes ∧ e.nbes = e'.nbes)
    (w w' : World) (rnd : ℤ → CVec n) (seed chk : ℤ) (thr : ℝ) (nt : ℕ) (hnt : 1 ≤ nt) (nsamp : ℕ)
    (hd : (distSample w nsamp).1 = (distSample w' nsamp).1) :
    (calcCorrDos w e rnd seed chk thr nt nsamp = .error .diverged ∧ calcCorrDos w' e' rnd seed chk thr nt nsamp = .error .diverged) ∨
    ∃ c c', calcCorrDos w e rnd seed chk thr nt nsamp = .ok c ∧ calcCorrDos w' e' rnd seed chk thr nt nsamp = .ok c' ∧
      ∀ r < w.size, ∀ r' < w'.size, c r = c' r' := by
  have hU : e.U = e'.U := by
    obtain ⟨h1, h2, h3⟩ := hsame
    funext f
    unfold Env.U Env.H
    rw [h1, h2, h3]
  obtain ⟨h1, h2⟩ := dos_run g w rnd seed chk thr nt hnt nsamp
  obtain ⟨h1', h2'⟩ := dos_run g' w' rnd seed chk thr nt hnt nsamp
  rw [← hU, ← hd] at h1' h2'
  by_cases hb : ∃ j < (distSample w nsamp).1, ∃ t : ℕ, (t : ℤ) = chk ∧ 2 ≤ t ∧ t ≤ nt ∧
        Drifts thr ((e.U true ^ (t - 1)).mulVec (rnd (seed * (j + 1)))) ((e.U true).mulVec (rnd (seed * (j + 1))))
  · exact Or.inl ⟨h1 hb, h1' hb⟩
  · obtain ⟨c, hc, hv⟩ := h2 hb
    obtain ⟨c', hc', hv'⟩ := h2' hb
    refine Or.inr ⟨c, c', hc, hc', fun r hr r' hr' => ?_⟩
    rw [hv r hr, hv' r' hr']
    unfold dosF
    rw [hU]

/-- C81: at time zero the correlation function of normalised states is one. -/
theorem C81_start {e : Env n} (g : e.Good) (w : World) (rnd : ℤ → CVec n) (hn : ∀ s, innerProd (rnd s) (rnd s) = 1) (seed chk : ℤ)
    (thr : ℝ) (nt : ℕ) (hnt : 1 ≤ nt) (nsamp : ℕ) (hs : 1 ≤ nsamp) {c : ℕ → ℕ → ℂ}
    (hc : calcCorrDos w e rnd seed chk thr nt nsamp = .ok c) : ∀ r < w.size, c r 0 = 1 := by
  intro r hr
  rw [C81_dos g w rnd seed chk thr nt hnt nsamp hc r hr 0 (by omega)]
  simp only [pow_zero, Matrix.one_mulVec, hn]
  exact mean_const _ (by have := (Verif.Props.C46_samples w nsamp).2.1; omega) seed 1

/-! ## C60: the norm check -/

/-- C60: when the program stops in the calculations of the DOS and the LDOS.  The norm of a sample is tested once, before the step
with the number `wfn_check_steps`.  Missing: the tests after every further `wfn_check_steps` steps which the documentation promises,
see `C60_not_periodic`. -/
theorem C60_check_partial {e : Env n} (g : e.Good) (w : World) (sites : List (Fin n)) (rnd : ℤ → CVec n) (seed chk : ℤ) (thr : ℝ)
    (nt : ℕ) (hnt : 1 ≤ nt) (nsamp : ℕ) :
    (calcCorrDos w e rnd seed chk thr nt nsamp = .error .diverged ↔
      ∃ j < (distSample w nsamp).1, ∃ t : ℕ, (t : ℤ) = chk ∧ 2 ≤ t ∧ t ≤ nt ∧
        Drifts thr ((e.U true ^ (t - 1)).mulVec (rnd (seed * (j + 1)))) ((e.U true).mulVec (rnd (seed * (j + 1))))) ∧
    (calcCorrLdos w e sites rnd seed chk thr nt nsamp = .error .diverged ↔
      ∃ j < (distSample w nsamp).1, ∃ t : ℕ, (t : ℤ) = chk ∧ 1 ≤ t ∧ t ≤ nt ∧
        Drifts thr ((e.U true ^ (t - 1)).mulVec (ldosState sites (rnd (seed * (j + 1)))))
          (ldosState sites (rnd (seed * (j + 1))))) := by
  obtain ⟨h1, h2⟩ := dos_run g w rnd seed chk thr nt hnt nsamp
  obtain ⟨h3, h4⟩ := ldos_run g w sites rnd seed chk thr nt nsamp
  refine ⟨⟨fun h => ?_, h1⟩, ⟨fun h => ?_, h3⟩⟩
  · by_contra hb
    obtain ⟨c, hc, -⟩ := h2 hb
    rw [hc] at h; cases h
  · by_contra hb
    obtain ⟨c, hc, -⟩ := h4 hb
    rw [hc] at h; cases h

theorem not_drifts_self {thr : ℝ} (ht : 0 ≤ thr) (x : CVec n) : ¬Drifts thr x x := by
  unfold Drifts
  simp [ht]

/-- C60: with `wfn_check_steps` equal to 2 (DOS) or 1 (LDOS), or above the number of steps, or not positive, nothing is ever
detected, whatever the propagation does: the state is compared with itself or not at all. -/
theorem C60_never {e : Env n} (g : e.Good) (w : World) (sites : List (Fin n)) (rnd : ℤ → CVec n) (seed chk : ℤ) {thr : ℝ}
    (ht : 0 ≤ thr) (nt : ℕ) (hnt : 1 ≤ nt) (nsamp : ℕ) :
    (chk ≤ 2 ∨ (nt : ℤ) < chk → ∃ c, calcCorrDos w e rnd seed chk thr nt nsamp = .ok c) ∧
    (chk ≤ 1 ∨ (nt : ℤ) < chk → ∃ c, calcCorrLdos w e sites rnd seed chk thr nt nsamp = .ok c) := by
  obtain ⟨-, h2⟩ := dos_run g w rnd seed chk thr nt hnt nsamp
  obtain ⟨-, h4⟩ := ldos_run g w sites rnd seed chk thr nt nsamp
  constructor
  · intro h
    obtain ⟨c, hc, -⟩ := h2 (by
      rintro ⟨j, -, t, h1, h2, h3, h4⟩
      have : t = 2 := by omega
      subst this
      rw [show 2 - 1 = 1 by rfl, pow_one] at h4
      exact not_drifts_self ht _ h4)
    exact ⟨c, hc⟩
  · intro h
    obtain ⟨c, hc, -⟩ := h4 (by
      rintro ⟨j, -, t, h1, h2, h3, h4⟩
      have : t = 1 := by omega
      subst this
      rw [show 1 - 1 = 0 by rfl, pow_zero, Matrix.one_mulVec] at h4
      exact not_drifts_self ht _ h4)
    exact ⟨c, hc⟩

/-- C60: the check is not periodic: with `wfn_check_steps = 2` the norm of the state may grow without the program noticing; here the
squared norm is multiplied by four in every step, and at step 4, a multiple of 2, it has drifted by 60 since the first step, far above
the threshold. -/
theorem C60_not_periodic : ∃ c, calcCorrDos World.one (dimerEnv (scalarSeries 2)) oneSite 1 2 0.001 10 1 = .ok c ∧
    Drifts 59 (((dimerEnv (scalarSeries 2)).U true ^ 3).mulVec (oneSite 1)) (((dimerEnv (scalarSeries 2)).U true).mulVec (oneSite 1)) := by
  obtain ⟨c, hc⟩ := (C60_never (dimerEnv_good (scalarSeries 2)) World.one [] oneSite 1 2 (thr := 0.001) (by norm_num) 10 (by norm_num)
    1).1 (Or.inl (le_refl _))
  refine ⟨c, hc, ?_⟩
  rw [dimerEnv_scalar]
  unfold Drifts
  rw [smul_pow, one_pow, Matrix.smul_mulVec, Matrix.one_mulVec, Matrix.smul_mulVec, Matrix.one_mulVec]
  simp only [innerProd_smul, innerProd_smul_left, oneSite_norm]
  norm_num

/-- The check does stop a run: at step 3 the state of the same dimer is found to have drifted. -/
example : calcCorrDos World.one (dimerEnv (scalarSeries 2)) oneSite 1 3 0.001 10 1 = .error .diverged := by
  refine ((C60_check_partial (dimerEnv_good (scalarSeries 2)) World.one [] oneSite 1 3 0.001 10 (by norm_num) 1).1).2
    ⟨0, by decide, 3, rfl, by norm_num, by norm_num, ?_⟩
  rw [dimerEnv_scalar]
  unfold Drifts
  rw [smul_pow, one_pow, Matrix.smul_mulVec, Matrix.one_mulVec, Matrix.smul_mulVec, Matrix.one_mulVec]
  simp only [innerProd_smul, innerProd_smul_left, oneSite_norm]
  norm_num

/-- A run which succeeds, for C81: with `U = 1` the correlation function is one at all times. -/
example : ∃ c, calcCorrDos World.one (dimerEnv (scalarSeries 1)) oneSite 1 3 0.001 10 1 = .ok c ∧ c 0 0 = 1 ∧ c 0 7 = 1 := by
  obtain ⟨h1, h2⟩ := dos_run (dimerEnv_good (scalarSeries 1)) World.one oneSite 1 3 0.001 10 (by norm_num) 1
  obtain ⟨c, hc, -⟩ := h2 (by
    rintro ⟨j, -, t, -, -, -, h⟩
    rw [dimerEnv_scalar] at h
    simp only [Complex.ofReal_one, one_smul, one_pow, Matrix.one_mulVec] at h
    exact not_drifts_self (by norm_num) _ h)
  refine ⟨c, hc, C81_start (dimerEnv_good _) _ _ oneSite_norm _ _ _ _ (by norm_num) _ (by norm_num) hc 0 (by decide), ?_⟩
  rw [C81_dos (dimerEnv_good _) _ _ _ _ _ _ (by norm_num) _ hc 0 (by decide) 7 (by norm_num), dimerEnv_scalar]
  simp only [Complex.ofReal_one, one_smul, one_pow, Matrix.one_mulVec, oneSite_norm]
  exact mean_const _ (by decide) _ _

/-! ## C83: correlation functions of the response functions -/

/-- C83: the correlation functions of the optical conductivity (components xx, xy, yx, yy) are the means of
`⟨U^(t-1) f ψ | J_a U^(t-1) (1-f) J_b ψ⟩`, with the given Chebyshev series for the Fermi operators `f` and `1-f`.  The entry for
`t = 1` is never set. -/
theorem C83_ac {e : Env n} (g : e.Good) (w : World) (rescale : ℝ) (dx dy : ℕ → ℝ) {cF cOmF : (ℕ → ℝ) × ℕ} (hF : 3 ≤ cF.2)
    (hO : 3 ≤ cOmF.2) (rnd : ℤ → CVec n) (seed chk : ℤ) (thr : ℝ) (nt nsamp : ℕ) {c : ℕ → ℕ → Fin 4 → ℂ}
    (hc : calcCorrAcCond w e rescale dx dy cF cOmF rnd seed chk thr nt nsamp = .ok c) :
    let J : Bool → Matrix (Fin n) (Fin n) ℂ := fun y => (e.ham.current (if y then dy else dx) rescale).toMatrix n
    ∀ r < w.size, ∀ a b : Bool, ∀ k : Fin 4, (k : ℕ) = a.toNat + 2 * b.toNat →
      (∀ t, 2 ≤ t → t ≤ nt → c r t k = meanSamples ℂ (distSample w nsamp).1 seed fun s =>
        innerProd ((e.U true ^ (t - 1)).mulVec ((e.chebSeries cF).mulVec (rnd s)))
          ((J a).mulVec ((e.U true ^ (t - 1)).mulVec ((e.chebSeries cOmF).mulVec ((J b).mulVec (rnd s)))))) ∧
      c r 1 k = 0 := by
  obtain ⟨h1, h2⟩ := ac_run g w rescale dx dy hF hO rnd seed chk thr nt nsamp
  intro J r hr a b k hk
  by_cases hb : ∃ j < (distSample w nsamp).1, ∃ t : ℕ, (t : ℤ) = chk ∧ 2 ≤ t ∧ t ≤ nt ∧
        Drifts thr ((e.U true ^ (t - 2)).mulVec ((e.chebSeries cF).mulVec (rnd (seed * (j + 1)))))
          ((e.chebSeries cF).mulVec (rnd (seed * (j + 1))))
  · rw [h1 hb] at hc; cases hc
  · obtain ⟨c', hc', hv⟩ := h2 hb
    rw [hc'] at hc
    cases hc
    refine ⟨fun t h2 h3 => ?_, ?_⟩
    · rw [hv r hr, mean_apply, mean_apply]
      unfold acF
      simp only [if_pos (And.intro h2 h3)]
      congr 1
      funext s
      have ha : (![(e.ham.current dx rescale).toMatrix n, (e.ham.current dy rescale).toMatrix n,
          (e.ham.current dx rescale).toMatrix n, (e.ham.current dy rescale).toMatrix n] : Fin 4 → _) k = J a := by
        fin_cases k <;> cases a <;> cases b <;> simp at hk <;> rfl
      have hb : (![(e.ham.current dx rescale).toMatrix n, (e.ham.current dx rescale).toMatrix n,
          (e.ham.current dy rescale).toMatrix n, (e.ham.current dy rescale).toMatrix n] : Fin 4 → _) k = J b := by
        fin_cases k <;> cases a <;> cases b <;> simp at hk <;> rfl
      rw [ha, hb]
    · rw [hv r hr, mean_apply, mean_apply]
      unfold acF meanSamples
      simp

/-- C83: the correlation functions of the dynamical polarization are the means of
`Im ⟨U^(t-1) f ψ | ρ_q U^(t-1) (1-f) ρ_-q ψ⟩`, for every wave vector, where `ρ_q` multiplies by `exp(i q·r)`. -/
theorem C83_dyn_pol {e : Env n} (g : e.Good) (w : World) (sx sy sz : Fin n → ℝ) (q : List (Fin 3 → ℝ)) {cF cOmF : (ℕ → ℝ) × ℕ}
    (hF : 3 ≤ cF.2) (hO : 3 ≤ cOmF.2) (rnd : ℤ → CVec n) (seed chk : ℤ) (thr : ℝ) (nt : ℕ) (hnt : 1 ≤ nt) (nsamp : ℕ)
    {c : ℕ → ℕ → ℕ → ℝ} (hc : calcCorrDynPol w e sx sy sz q cF cOmF rnd seed chk thr nt nsamp = .ok c) :
    let ρ : (Fin 3 → ℝ) → CVec n := fun q i => Complex.exp (Complex.I * (q 0 * sx i + q 1 * sy i + q 2 * sz i : ℝ))
    ∀ r < w.size, ∀ iq (h : iq < q.length), ∀ t, 1 ≤ t → t ≤ nt → c r iq t = meanSamples ℝ (distSample w nsamp).1 seed fun s =>
      (innerProd ((e.U true ^ (t - 1)).mulVec ((e.chebSeries cF).mulVec (rnd s)))
        (ρ q[iq] * (e.U true ^ (t - 1)).mulVec ((e.chebSeries cOmF).mulVec (ρ (-q[iq]) * rnd s)))).im := by
  obtain ⟨h1, h2⟩ := dyn_run g w sx sy sz q hF hO rnd seed chk thr nt hnt nsamp
  intro ρ r hr iq hiq t ht1 ht2
  by_cases hb : q ≠ [] ∧ ∃ j < (distSample w nsamp).1, ∃ t : ℕ, (t : ℤ) = chk ∧ 2 ≤ t ∧ t ≤ nt ∧
        Drifts thr ((e.U true ^ (t - 2)).mulVec ((e.chebSeries cF).mulVec (rnd (seed * (j + 1)))))
          ((e.chebSeries cF).mulVec (rnd (seed * (j + 1))))
  · rw [h1 hb] at hc; cases hc
  · obtain ⟨c', hc', hv⟩ := h2 hb
    rw [hc'] at hc
    cases hc
    have hq : q.getD iq 0 = q[iq] := by simp [hiq]
    have hexp : ∀ x : ℝ, Complex.exp (Complex.I * x) = ⟨Real.cos x, Real.sin x⟩ := by
      intro x
      rw [mul_comm, Complex.exp_mul_I]
      apply Complex.ext <;> simp [Complex.cos_ofReal_re, Complex.sin_ofReal_re]
    have e1 : (densityCoef sx sy sz q[iq]).1 = ρ q[iq] := by
      funext i
      simp only [densityCoef, ρ]
      rw [hexp]
    have e2 : (densityCoef sx sy sz q[iq]).2 = ρ (-q[iq]) := by
      funext i
      simp only [densityCoef, ρ]
      rw [hexp]
      have : ((-q[iq]) 0 * sx i + (-q[iq]) 1 * sy i + (-q[iq]) 2 * sz i) = -(q[iq] 0 * sx i + q[iq] 1 * sy i + q[iq] 2 * sz i) := by
        simp only [Pi.neg_apply]; ring
      rw [this, Real.cos_neg, Real.sin_neg]
    rw [hv r hr iq hiq, mean_apply, hq, e1, e2]
    unfold dynF
    simp only [if_pos (And.intro ht1 ht2)]

/-- Runs exist: nothing drifts if `U = 1`. -/
example : ∃ c, calcCorrAcCond World.one (dimerEnv (scalarSeries 1)) 1 (fun _ => 1) (fun _ => 2) (fun _ => 1, 3) (fun _ => 2, 4) oneSite 1
    3 0.001 10 1 = .ok c := by
  obtain ⟨-, h2⟩ := ac_run (dimerEnv_good (scalarSeries 1)) World.one 1 (fun _ => 1) (fun _ => 2) (cF := (fun _ => 1, 3))
    (cOmF := (fun _ => 2, 4)) (by norm_num) (by norm_num) oneSite 1 3 0.001 10 1
  obtain ⟨c, hc, -⟩ := h2 (by
    rintro ⟨j, -, t, -, -, -, h⟩
    rw [dimerEnv_scalar] at h
    simp only [Complex.ofReal_one, one_smul, one_pow, Matrix.one_mulVec] at h
    exact not_drifts_self (by norm_num) _ h)
  exact ⟨c, hc⟩

/-! ## C84: the current operator -/

/-- C84: the current operator built from the Hamiltonian and the displacements of a sample, by either builder, with or without sorted
columns, is `i s (V - V†)`, where `V` holds hopping times displacement of the hopping terms of the sample, and thus Hermitian. -/
theorem C84_current {f f' : List ℤ → List ℕ} (hf : ArgsortOK f) (hf' : ArgsortOK f') (junk : CsrEnt ℝ ℂ) (cutoff : ℝ) {eng : List ℝ}
    {hops : List (SCHop ℝ ℂ)} (hh : TermsInRange eng.length hops) {c c' : Csr ℝ ℂ}
    (hc : c = buildFast Complex.ofReal junk cutoff eng hops ∨ c = buildSafe f Complex.ofReal junk cutoff eng hops)
    (hs : c' = c ∨ c' = sortCol f' eng.length c) (rescale : ℝ) (y : Bool) :
    let dr : ℕ → ℝ := fun k => if y then (c'.ent k).dy else (c'.ent k).dx
    let J := ((FCsr.ofSample c').current dr rescale).toMatrix eng.length
    let V : Matrix (Fin eng.length) (Fin eng.length) ℂ := Matrix.of fun a b =>
      ((hops.filter fun h => h.i = (a : ℤ) ∧ h.j = (b : ℤ)).map fun h => h.v * (h.dr (if y then 1 else 0) : ℂ)).sum
    J = (rescale * Complex.I) • (V - V.conjTranspose) ∧ J.IsHermitian := by
  intro dr J V
  have hv : c.Valid eng.length := by
    rcases hc with rfl | rfl
    · exact C25_fast_valid Complex.ofReal junk cutoff hh
    · exact C25_safe_valid hf Complex.ofReal junk cutoff hh
  have hv' : c'.Valid eng.length := by
    rcases hs with rfl | rfl
    · exact hv
    · exact (C26_sort_col hf' hv).2.1
  have hJ : J = (rescale * Complex.I) • (V - V.conjTranspose) := by
    ext a b
    have ha : (0 : ℤ) ≤ (a : ℕ) ∧ ((a : ℕ) : ℤ) < eng.length := ⟨by omega, by omega⟩
    have hperm : (c'.row (a : ℕ)).Perm ((buildFast Complex.ofReal junk cutoff eng hops).row (a : ℕ)) := by
      have h0 : (c.row (a : ℕ)).Perm ((buildFast Complex.ofReal junk cutoff eng hops).row (a : ℕ)) := by
        rcases hc with rfl | rfl
        · exact List.Perm.refl _
        · exact (C25_fast_safe_agree hf Complex.ofReal junk cutoff hh _ ha).symm
      rcases hs with rfl | rfl
      · exact h0
      · exact ((C26_sort_col hf' hv).2.2 a a.2).1.trans h0
    rw [C25_fast_layout Complex.ofReal junk cutoff hh _ ha] at hperm
    set d : Fin 2 := if y then 1 else 0 with hd
    have hsel : ∀ e : CsrEnt ℝ ℂ, (if y then e.dy else e.dx) = ![e.dx, e.dy] d := by intro e; rw [hd]; cases y <;> rfl
    have h1 := current_entries (fun e => if y then e.dy else e.dx) rescale hv' a b
    have h2 := current_layout d rescale cutoff hperm (b : ℕ)
    have h3 : J a b = _ := h1
    rw [h3]
    simp only [hsel]
    rw [h2]
    simp only [Matrix.smul_apply, Matrix.sub_apply, Matrix.conjTranspose_apply, V, Matrix.of_apply, smul_eq_mul]
    have hdr : ∀ h : SCHop ℝ ℂ, h.dr (d.castLE (by omega)) = h.dr (if y then 1 else 0) := by
      intro h; rw [hd]; cases y <;> rfl
    simp only [hdr]
    congr 2
    rw [Complex.star_def, map_list_sum, List.map_map]
    congr 1
    apply List.map_congr_left
    intro h _
    simp [mul_comm]
  refine ⟨hJ, ?_⟩
  rw [hJ]
  unfold Matrix.IsHermitian
  rw [Matrix.conjTranspose_smul, Matrix.conjTranspose_sub, Matrix.conjTranspose_conjTranspose]
  have : star ((rescale : ℂ) * Complex.I) = -(rescale * Complex.I) := by simp
  rw [this, neg_smul, ← smul_neg, neg_sub]

/-- C84: if the displacements are differences of positions (a sample without periodic images), the current operator is
`i s [H, x]`. -/
theorem C84_commutator {f : List ℤ → List ℕ} (hf : ArgsortOK f) (junk : CsrEnt ℝ ℂ) (cutoff : ℝ) {eng : List ℝ}
    {hops : List (SCHop ℝ ℂ)} (hh : TermsInRange eng.length hops) {c : Csr ℝ ℂ}
    (hc : c = buildFast Complex.ofReal junk cutoff eng hops ∨ c = buildSafe f Complex.ofReal junk cutoff eng hops)
    (rescale : ℝ) (pos : ℕ → ℝ) (hpos : ∀ h ∈ hops, h.dr 0 = pos h.j.toNat - pos h.i.toNat) :
    let H := (FCsr.ofSample c).toMatrix eng.length
    let X : Matrix (Fin eng.length) (Fin eng.length) ℂ := Matrix.diagonal fun a => (pos a : ℂ)
    ((FCsr.ofSample c).current (fun k => (c.ent k).dx) rescale).toMatrix eng.length =
      (rescale * Complex.I) • (H * X - X * H) := by
  intro H X
  have hv : c.Valid eng.length := by
    rcases hc with rfl | rfl
    · exact C25_fast_valid Complex.ofReal junk cutoff hh
    · exact C25_safe_valid hf Complex.ofReal junk cutoff hh
  ext a b
  have ha : (0 : ℤ) ≤ (a : ℕ) ∧ ((a : ℕ) : ℤ) < eng.length := ⟨by omega, by omega⟩
  have hperm : (c.row (a : ℕ)).Perm ((buildFast Complex.ofReal junk cutoff eng hops).row (a : ℕ)) := by
    rcases hc with rfl | rfl
    · exact List.Perm.refl _
    · exact (C25_fast_safe_agree hf Complex.ofReal junk cutoff hh _ ha).symm
  have hrow : ∀ e ∈ (c.row (a : ℕ)).filter (fun e => e.col = ((b : ℕ) : ℤ)), e.dx = pos b - pos a := by
    intro e he
    obtain ⟨he1, he2⟩ := List.mem_filter.1 he
    have he3 : e.col = (b : ℕ) := by simpa using he2
    have he4 := hperm.mem_iff.1 he1
    rw [C25_fast_layout Complex.ofReal junk cutoff hh _ ha, List.mem_append] at he4
    rcases he4 with h1 | h1
    · split at h1
      · rw [List.mem_singleton] at h1
        subst h1
        have : (a : ℕ) = b := by simp only at he3; omega
        rw [this]; simp
      · simp at h1
    · obtain ⟨h, hm, h2⟩ := List.mem_flatMap.1 h1
      have hp := hpos h hm
      rw [List.mem_append] at h2
      rcases h2 with h2 | h2
      · split at h2
        · next hi =>
          rw [List.mem_singleton] at h2
          subst h2
          simp only at he3 ⊢
          rw [hp, he3, hi]
          simp
        · simp at h2
      · split at h2
        · next hj =>
          rw [List.mem_singleton] at h2
          subst h2
          simp only at he3 ⊢
          rw [hp, he3, hj]
          simp
        · simp at h2
  have h1 := current_entries (fun e => e.dx) rescale hv a b
  have h2 : H a b = _ := ofSample_matrix hv a b
  rw [h1, Matrix.smul_apply, Matrix.sub_apply, Matrix.mul_diagonal, Matrix.diagonal_mul, h2]
  unfold Csr.mat
  generalize (c.row (a : ℕ)).filter (fun e => e.col = ((b : ℕ) : ℤ)) = l at hrow ⊢
  induction l with
  | nil => simp
  | cons e l ih =>
    rw [List.map_cons, List.sum_cons, ih fun e he => hrow e (List.mem_cons_of_mem _ he), List.map_cons, List.sum_cons,
      hrow e List.mem_cons_self, smul_eq_mul, smul_eq_mul]
    push_cast
    ring

/-- Two sites with one hopping term of displacement (2, 5). -/
example (junk : CsrEnt ℝ ℂ) : (((FCsr.ofSample (buildFast Complex.ofReal junk 0 [1, 2] [⟨0, 1, 3, ![2, 5, 0]⟩])).current
    (fun k => ((buildFast Complex.ofReal junk 0 [1, 2] [⟨0, 1, 3, ![2, 5, 0]⟩] : Csr ℝ ℂ).ent k).dx) 1).toMatrix 2).IsHermitian := by
  obtain ⟨f, hf⟩ := argsort_exists
  exact (C84_current hf hf junk 0 (eng := [1, 2]) (by intro h hm; simp at hm; subst hm; decide) (Or.inl rfl) (Or.inl rfl) 1 false).2

/-! ## C64: Kubo-Bastin moments -/

/-- C64: on every process the moments are the means of `g_i g_j ⟨T_i(H) J_x ψ | J_a T_j(H) ψ⟩` over the samples, with `J_a` the current
in the chosen direction and `g` the Jackson factors (half the first). -/
theorem C64_moments {e : Env n} (g : e.Good) (w : World) (rescale : ℝ) (dx dy : ℕ → ℝ) (itype : ℤ) (ht : itype = 1 ∨ itype = 2)
    (rnd : ℤ → CVec n) (seed : ℤ) (nsamp nk : ℕ) (hk : 2 ≤ nk) :
    let J : (ℕ → ℝ) → Matrix (Fin n) (Fin n) ℂ := fun d => (e.ham.current d rescale).toMatrix n
    let gk : ℕ → ℝ := fun k => if k = 0 then 1 / 2 else
      ((nk - k) * Real.cos (Real.pi * k / nk) + Real.cot (Real.pi / nk) * Real.sin (Real.pi * k / nk)) / nk
    ∃ c, calcHallMu w e rescale dx dy itype rnd seed nsamp nk = .ok c ∧ ∀ r < w.size, ∀ i < nk, ∀ j < nk,
      c r i j = meanSamples ℂ (distSample w nsamp).1 seed fun s => gk i * gk j *
        innerProd ((chebT i e.H).mulVec ((J dx).mulVec (rnd s)))
          ((J (if itype = 1 then dx else dy)).mulVec ((chebT j e.H).mulVec (rnd s))) := by
  intro J gk
  obtain ⟨c, hc, hv⟩ := kb_run g w rescale dx dy itype ht rnd seed nsamp nk hk
  refine ⟨c, hc, fun r hr i hi j hj => ?_⟩
  rw [hv r hr, mean_apply, mean_apply]
  have hg : ∀ k, jacksonKernel nk k = gk k := by
    intro k
    simp only [jacksonKernel, gk]
    by_cases h0 : k = 0
    · rw [if_pos h0, if_pos h0]; norm_num
    · rw [if_neg h0, if_neg h0, Real.cot_eq_cos_div_sin, show Real.pi / nk * k = Real.pi * k / nk by ring]
  unfold kbF
  simp only [if_pos (And.intro hi hj), hg]
  rfl

/-- C64: for a Hermitian Hamiltonian and current these are the matrix elements `⟨ψ| J_x T_i(H) J_a T_j(H) |ψ⟩`. -/
theorem C64_operator {A B H : Matrix (Fin n) (Fin n) ℂ} (hA : A.IsHermitian) (hH : H.IsHermitian) (i j : ℕ) (x : CVec n) :
    innerProd ((chebT i H).mulVec (A.mulVec x)) (B.mulVec ((chebT j H).mulVec x)) =
      innerProd x ((A * chebT i H * B * chebT j H).mulVec x) := by
  rw [← Matrix.mulVec_mulVec, ← Matrix.mulVec_mulVec, ← Matrix.mulVec_mulVec, innerProd_herm A hA,
    innerProd_herm _ (chebT_hermitian hH i)]

example : ∃ c, calcHallMu World.one (dimerEnv (scalarSeries 1)) 1 (fun _ => 1) (fun _ => 2) 2 oneSite 7 3 2 = .ok c ∧ c 0 0 0 = 1 / 2 := by
  obtain ⟨c, hc, hv⟩ := C64_moments (dimerEnv_good (scalarSeries 1)) World.one 1 (fun _ => 1) (fun _ => 2) 2 (Or.inr rfl) oneSite 7 3 2
    (le_refl _)
  refine ⟨c, hc, ?_⟩
  rw [hv 0 (by decide) 0 (by norm_num) 0 (by norm_num)]
  have hJ : ∀ a : ℝ, ((dimerEnv (scalarSeries 1)).ham.current (fun _ => a) 1).toMatrix 2 =
      !![0, Complex.I * a; Complex.I * a, 0] := by
    intro a
    ext i j
    fin_cases i <;> fin_cases j <;> simp [FCsr.toMatrix, FCsr.current, dimerEnv, dimer, currentCoef]
  simp only [hJ, chebT_zero, Matrix.one_mulVec]
  have : ∀ s, innerProd (!![0, Complex.I * (1 : ℝ); Complex.I * (1 : ℝ), 0].mulVec (oneSite s))
      (!![0, Complex.I * (2 : ℝ); Complex.I * (2 : ℝ), 0].mulVec (oneSite s)) = 2 := by
    intro s
    simp [innerProd, oneSite, mulVec, dotProduct, ← mul_assoc]
  rw [if_neg (show ¬(2 : ℤ) = 1 by decide), hJ]
  simp only [this, if_true]
  rw [mean_const _ (by decide)]
  norm_num

/-- C64: any other direction is refused. -/
theorem C64_direction (w : World) (e : Env n) (rescale : ℝ) (dx dy : ℕ → ℝ) (itype : ℤ) (h : itype ≠ 1 ∧ itype ≠ 2)
    (rnd : ℤ → CVec n) (seed : ℤ) (nsamp nk : ℕ) (hs : 1 ≤ nsamp) :
    calcHallMu w e rescale dx dy itype rnd seed nsamp nk = .error .direction := by
  obtain ⟨h1, h2, -⟩ := Verif.Props.C46_samples w nsamp
  have hns : (distSample w nsamp).2 ≠ 0 := by
    intro h0
    rw [h0, zero_mul] at h1
    omega
  have hw := w.pos
  unfold calcHallMu onRanks
  have hf : (fun r => tbpmKbdc e rescale dx dy itype rnd seed (distSample w nsamp).2 r nk) = fun _ => .error .direction := by
    funext r
    unfold tbpmKbdc
    rw [if_neg hns, if_neg h.1, if_neg h.2]
  rw [hf]
  obtain ⟨k, hk⟩ : ∃ k, w.size = k + 1 := ⟨w.size - 1, by omega⟩
  rw [hk, List.range_succ_eq_map, List.mapM_cons]
  rfl

/-! ## C82: quasi-eigenstates -/

/-- C82: on every process, entry `j` of the quasi-eigenstate at the `i`-th energy is the mean of the probability of orbital `j` in the
normalised filtered state.  Filtered states must not vanish: the code divides by their norm. -/
theorem C82_quasi_eigenstates {e : Env n} (g : e.Good) (w : World) (energies : List ℝ) (tstep : ℝ) (rnd : ℤ → CVec n) (seed chk : ℤ)
    (thr : ℝ) (nt nsamp : ℕ) {c : ℕ → ℕ → Fin n → ℝ} (hc : calcQuasiEigenstates w e energies tstep rnd seed chk thr nt nsamp = .ok c) :
    ∀ r < w.size, ∀ i (h : i < energies.length), (∀ s, (e.filter nt tstep energies[i]).mulVec (rnd s) ≠ 0) → ∀ j, c r i j = meanSamples ℝ (distSample w nsamp).1 seed fun s =>
      ‖(e.filter nt tstep energies[i]).mulVec (rnd s) j‖ ^ 2 / ∑ k, ‖(e.filter nt tstep energies[i]).mulVec (rnd s) k‖ ^ 2 := by
  obtain ⟨h1, h2⟩ := qe_run g w energies tstep rnd seed chk thr nt nsamp
  intro r hr i hi _ j
  by_cases hb : ∃ j < (distSample w nsamp).1, qeBad e chk thr nt (rnd (seed * (j + 1)))
  · rw [h1 hb] at hc; cases hc
  · obtain ⟨c', hc', hv⟩ := h2 hb
    rw [hc'] at hc
    cases hc
    rw [hv r hr, mean_apply, mean_apply]
    have hq : energies.getD i 0 = energies[i] := by simp [hi]
    unfold qeF
    rw [hq]
    congr 1
    funext s
    generalize (e.filter nt tstep energies[i]).mulVec (rnd s) = y
    rw [norm_div, div_pow, Complex.norm_real, Real.norm_of_nonneg (normZ_nonneg y), normZ,
      Real.sq_sqrt (by rw [innerProd_self, Complex.ofReal_re]; exact Finset.sum_nonneg fun i _ => by positivity), innerProd_self,
      Complex.ofReal_re]

/-- C82: the probabilities are non-negative and add up to one. -/
theorem C82_normalised {e : Env n} (g : e.Good) (w : World) (energies : List ℝ) (tstep : ℝ) (rnd : ℤ → CVec n) (seed chk : ℤ)
    (thr : ℝ) (nt nsamp : ℕ) (hs : 1 ≤ nsamp) {c : ℕ → ℕ → Fin n → ℝ}
    (hc : calcQuasiEigenstates w e energies tstep rnd seed chk thr nt nsamp = .ok c) (r : ℕ) (hr : r < w.size) (i : ℕ)
    (hi : i < energies.length) (hne : ∀ s, (e.filter nt tstep energies[i]).mulVec (rnd s) ≠ 0) :
    (∀ j, 0 ≤ c r i j) ∧ ∑ j, c r i j = 1 := by
  have h := C82_quasi_eigenstates g w energies tstep rnd seed chk thr nt nsamp hc r hr i hi hne
  simp only [h]
  refine ⟨fun j => mean_nonneg _ _ fun s => div_nonneg (by positivity) (Finset.sum_nonneg fun k _ => by positivity), ?_⟩
  rw [mean_sum]
  have : (fun s => ∑ j, ‖(e.filter nt tstep energies[i]).mulVec (rnd s) j‖ ^ 2 /
      ∑ k, ‖(e.filter nt tstep energies[i]).mulVec (rnd s) k‖ ^ 2) = fun _ => (1 : ℝ) := by
    funext s
    rw [← Finset.sum_div, div_self]
    intro h0
    apply hne s
    rw [← normZ_eq_zero, normZ, innerProd_self, Complex.ofReal_re, h0, Real.sqrt_zero]
  rw [this]
  exact mean_const _ (by have := (Verif.Props.C46_samples w nsamp).2.1; omega) seed 1

theorem scalar_filter (tstep energy : ℝ) : (dimerEnv (scalarSeries 1)).filter 1 tstep energy = 1 := by
  unfold Env.filter
  simp

theorem scalar_quiet (chk : ℤ) (x : CVec 2) : ¬qeBad (dimerEnv (scalarSeries 1)) chk 0.001 1 x := by
  rintro ⟨t, -, -, -, h⟩
  simp only [dimerEnv_scalar, Complex.ofReal_one, one_smul, one_pow, Matrix.one_mulVec, or_self] at h
  exact not_drifts_self (by norm_num) _ h

theorem oneSite_ne (s : ℤ) : oneSite s ≠ 0 := fun h => by
  have := oneSite_norm s
  rw [h] at this
  simp [innerProd] at this

example : ∃ c, calcQuasiEigenstates World.one (dimerEnv (scalarSeries 1)) [0, 2] 1 oneSite 1 1 0.001 1 3 = .ok c ∧
    c 0 1 0 + c 0 1 1 = 1 := by
  obtain ⟨c, hc, -⟩ := (qe_run (dimerEnv_good (scalarSeries 1)) World.one [0, 2] 1 oneSite 1 1 0.001 1 3).2 (by
    rintro ⟨j, -, h⟩; exact scalar_quiet _ _ h)
  refine ⟨c, hc, ?_⟩
  have := (C82_normalised (dimerEnv_good (scalarSeries 1)) World.one [0, 2] 1 oneSite 1 1 0.001 1 3 (by norm_num) hc 0 (by decide) 1
    (by decide) (fun s => by rw [scalar_filter, Matrix.one_mulVec]; exact oneSite_ne s)).2
  rwa [Fin.sum_univ_two] at this

/-! ## C85: DC conductivity -/

/-- C85: the two correlation functions of the DC conductivity, on every process: the means of `⟨ψ| U^t |ψ⟩`, and of
`⟨U^(t-1) J_a ψ | J_a F ψ⟩ / |⟨ψ|F ψ⟩|` with the filter `F` for the energies `E_k = k ΔE/(2 n_t) - ΔE/2` inside the limits.
The overlaps must not vanish: the code divides by them. -/
theorem C85_dc {e : Env n} (g : e.Good) (w : World) (rescale enRange lo hi : ℝ) (dx dy : ℕ → ℝ) (tstep : ℝ) (rnd : ℤ → CVec n)
    (seed chk : ℤ) (thr : ℝ) (nt : ℕ) (hnt : 1 ≤ nt) (nsamp : ℕ) {c : (ℕ → ℕ → ℂ) × (ℕ → ℕ → ℕ → Fin 2 → ℂ)}
    (hc : calcCorrDcCond w e rescale enRange lo hi dx dy tstep rnd seed chk thr nt nsamp = .ok c) :
    let ens := ((List.range (2 * nt)).map fun k : ℕ => k * enRange / (2 * nt) - enRange / 2).filter fun E => decide (lo ≤ E ∧ E ≤ hi)
    let J : Fin 2 → Matrix (Fin n) (Fin n) ℂ := fun a => (e.ham.current (![dx, dy] a) rescale).toMatrix n
    ∀ r < w.size, ∀ t, 1 ≤ t → t ≤ nt →
      (c.1 r t = meanSamples ℂ (distSample w nsamp).1 seed fun s => innerProd (rnd s) ((e.U true ^ t).mulVec (rnd s))) ∧
      ∀ i (h : i < ens.length), (∀ s, innerProd (rnd s) ((e.filter nt tstep ens[i]).mulVec (rnd s)) ≠ 0) → ∀ a : Fin 2, c.2 r t i a = meanSamples ℂ (distSample w nsamp).1 seed fun s =>
        innerProd ((e.U true ^ (t - 1)).mulVec ((J a).mulVec (rnd s))) ((J a).mulVec ((e.filter nt tstep ens[i]).mulVec (rnd s))) /
          ‖innerProd (rnd s) ((e.filter nt tstep ens[i]).mulVec (rnd s))‖ := by
  obtain ⟨h1, h2⟩ := dc_run g w rescale enRange lo hi dx dy tstep rnd seed chk thr nt hnt nsamp
  intro ens J r hr t ht1 ht2
  by_cases hb : ∃ j < (distSample w nsamp).1, qeBad e chk thr nt (rnd (seed * (j + 1)))
  · rw [h1 hb] at hc; cases hc
  · obtain ⟨c', hc', hv⟩ := h2 hb
    rw [hc'] at hc
    cases hc
    have hp := hv r hr
    rw [dc_selected] at hp
    have hp1 := congrArg Prod.fst hp
    have hp2 := congrArg Prod.snd hp
    rw [mean_fst] at hp1
    rw [mean_snd] at hp2
    simp only at hp1 hp2
    refine ⟨?_, fun i hi _ a => ?_⟩
    · rw [hp1, mean_apply]
      unfold dcF
      simp only [if_pos (And.intro ht1 ht2)]
    · rw [hp2, mean_apply, mean_apply, mean_apply]
      unfold dcF
      have hq : ens.getD i 0 = ens[i] := by simp [hi]
      congr 1
      funext s
      have hJ : (![(e.ham.current dx rescale).toMatrix n, (e.ham.current dy rescale).toMatrix n] : Fin 2 → _) a = J a := by
        fin_cases a <;> rfl
      change (if 1 ≤ t ∧ t ≤ nt ∧ i < ens.length then innerProd
          ((e.U true ^ (t - 1)).mulVec ((![(e.ham.current dx rescale).toMatrix n, (e.ham.current dy rescale).toMatrix n] a).mulVec (rnd s)))
          ((![(e.ham.current dx rescale).toMatrix n, (e.ham.current dy rescale).toMatrix n] a).mulVec
            ((‖innerProd (rnd s) ((e.filter nt tstep (ens.getD i 0)).mulVec (rnd s))‖ : ℂ)⁻¹ •
              (e.filter nt tstep (ens.getD i 0)).mulVec (rnd s))) else 0) = _
      rw [if_pos ⟨ht1, ht2, hi⟩, hJ, hq, Matrix.mulVec_smul, innerProd_smul]
      exact (div_eq_inv_mul _ _).symm

example : ∃ c, calcCorrDcCond World.one (dimerEnv (scalarSeries 1)) 1 4 (-3) 3 (fun _ => 1) (fun _ => 0) 1 oneSite 1 1 0.001 1 3 = .ok c ∧
    c.2 0 1 1 0 = 1 := by
  obtain ⟨c, hc, -⟩ := (dc_run (dimerEnv_good (scalarSeries 1)) World.one 1 4 (-3) 3 (fun _ => 1) (fun _ => 0) 1 oneSite 1 1 0.001 1
    (by norm_num) 3).2 (by rintro ⟨j, -, h⟩; exact scalar_quiet _ _ h)
  refine ⟨c, hc, ?_⟩
  have hl : (((List.range (2 * 1)).map fun k : ℕ => (k : ℝ) * 4 / (2 * (1 : ℕ)) - 4 / 2).filter
      fun E => decide (-3 ≤ E ∧ E ≤ 3)).length = 2 := by
    simp [List.range_succ]
    norm_num
  have h := ((C85_dc (dimerEnv_good (scalarSeries 1)) World.one 1 4 (-3) 3 (fun _ => 1) (fun _ => 0) 1 oneSite 1 1 0.001 1
    (by norm_num) 3 hc 0 (by decide) 1 (by norm_num) (by norm_num)).2 1 (by rw [hl]; norm_num)
    (fun s => by rw [scalar_filter, Matrix.one_mulVec, oneSite_norm]; norm_num) 0)
  rw [h]
  simp only [scalar_filter, Matrix.one_mulVec, oneSite_norm]
  have hJ : ((dimerEnv (scalarSeries 1)).ham.current (![fun _ => 1, fun _ => 0] (0 : Fin 2)) 1).toMatrix 2 =
      !![0, Complex.I; Complex.I, 0] := by
    ext a b
    fin_cases a <;> fin_cases b <;> simp [FCsr.toMatrix, FCsr.current, dimerEnv, dimer, currentCoef]
  simp only [hJ]
  have : ∀ s, innerProd (!![0, Complex.I; Complex.I, 0].mulVec (oneSite s)) (!![0, Complex.I; Complex.I, 0].mulVec (oneSite s)) = 1 := by
    intro s
    simp [innerProd, oneSite, mulVec, dotProduct]
  simp only [Nat.sub_self, pow_zero, Matrix.one_mulVec, this]
  norm_num
  exact mean_const _ (by decide) _ _

/-! ## C58: wave functions at given times -/

/-- C58: `calc_psi_t` returns the states `U^t ψ` for the requested times, one row for each distinct time in ascending order, with `ψ` the
normalised initial state. -/
theorem C58_snapshots {e : Env n} (g : e.Good) (w : World) (hw : w.size = 1) (psi0 : CVec n) (_h0 : psi0 ≠ 0) (sortSet : List ℤ → List ℤ)
    (hsort : ∀ l, (sortSet l).SortedLT ∧ ∀ t, t ∈ sortSet l ↔ t ∈ l) (timeLog : List ℤ) (hne : timeLog ≠ []) (nt : ℕ) (chk : ℤ)
    (thr : ℝ) (init : ℕ → CVec n) {rows : List (CVec n)} (hr : calcPsiT w e psi0 sortSet timeLog nt chk thr init = .ok rows)
    (l : List ℤ) (hl : l.SortedLT) (hlm : ∀ t, t ∈ l ↔ t ∈ timeLog) :
    rows = l.map fun t => (e.U true ^ t.toNat).mulVec fun i => psi0 i / (normZ psi0 : ℂ) := by
  have hls : sortSet timeLog = l := by
    refine List.SortedLT.eq_of_mem_iff (hsort timeLog).1 hl fun t => ?_
    rw [(hsort timeLog).2, hlm]
  unfold calcPsiT at hr
  rw [if_neg (by simp [hw])] at hr
  simp only [hls] at hr
  by_cases hrange : ∃ t ∈ l, ¬(0 ≤ t ∧ t < (nt : ℤ) + 1)
  · rw [if_pos hrange] at hr; cases hr
  · rw [if_neg hrange] at hr
    have h0 : ∀ t ∈ l, 0 ≤ t ∧ t < (nt : ℤ) + 1 := fun t ht => by
      by_contra h; exact hrange ⟨t, ht, h⟩
    have hlne : l ≠ [] := by
      rintro rfl
      apply hne
      rw [List.eq_nil_iff_forall_not_mem]
      intro t ht
      simpa using (hlm t).2 ht
    obtain ⟨h1, h2⟩ := psi_run g (fun i => psi0 i / (normZ psi0 : ℂ)) l hl hlne nt h0 chk thr init
    by_cases hb : ∃ t : ℕ, (t : ℤ) = chk ∧ 1 ≤ t ∧ t ≤ nt ∧
        Drifts thr ((e.U true ^ (t - 1)).mulVec fun i => psi0 i / (normZ psi0 : ℂ)) fun i => psi0 i / (normZ psi0 : ℂ)
    · rw [h1 hb] at hr; cases hr
    · obtain ⟨out, ho, hv⟩ := h2 hb
      rw [ho] at hr
      cases hr
      exact hv

/-- C58: more than one process, or a time outside the range, is refused. -/
theorem C58_refused (w : World) (e : Env n) (psi0 : CVec n) (sortSet : List ℤ → List ℤ)
    (hsort : ∀ l, (sortSet l).SortedLT ∧ ∀ t, t ∈ sortSet l ↔ t ∈ l) (timeLog : List ℤ) (nt : ℕ) (chk : ℤ)
    (thr : ℝ) (init : ℕ → CVec n) :
    (w.size ≠ 1 → calcPsiT w e psi0 sortSet timeLog nt chk thr init = .error .runtime) ∧
    (w.size = 1 → (∃ t ∈ timeLog, t < 0 ∨ (nt : ℤ) < t) → calcPsiT w e psi0 sortSet timeLog nt chk thr init = .error .value) := by
  constructor
  · intro h
    unfold calcPsiT
    rw [if_pos h]
  · rintro h ⟨t, ht, ho⟩
    unfold calcPsiT
    rw [if_neg (by simp [h])]
    simp only
    rw [if_pos ⟨t, ((hsort timeLog).2 t).2 ht, by omega⟩]

/-- C58: legal arguments are accepted, unless the norm of the state changes before the step of the check. -/
theorem C58_accepted {e : Env n} (g : e.Good) (w : World) (hw : w.size = 1) (psi0 : CVec n) (_h0 : psi0 ≠ 0) (sortSet : List ℤ → List ℤ)
    (hsort : ∀ l, (sortSet l).SortedLT ∧ ∀ t, t ∈ sortSet l ↔ t ∈ l) (timeLog : List ℤ) (hne : timeLog ≠ []) (nt : ℕ)
    (h0 : ∀ t ∈ timeLog, 0 ≤ t ∧ t ≤ nt) (chk : ℤ) (thr : ℝ) (init : ℕ → CVec n) :
    let psi : CVec n := fun i => psi0 i / (normZ psi0 : ℂ)
    (∃ rows, calcPsiT w e psi0 sortSet timeLog nt chk thr init = .ok rows) ↔
      ¬∃ t : ℕ, (t : ℤ) = chk ∧ 1 ≤ t ∧ t ≤ nt ∧ Drifts thr ((e.U true ^ (t - 1)).mulVec psi) psi := by
  intro psi
  obtain ⟨hs1, hs2⟩ := hsort timeLog
  have hlne : sortSet timeLog ≠ [] := by
    intro h
    apply hne
    rw [List.eq_nil_iff_forall_not_mem]
    intro t ht
    have := (hs2 t).2 ht
    rw [h] at this
    simp at this
  have h1 : ∀ t ∈ sortSet timeLog, 0 ≤ t ∧ t < (nt : ℤ) + 1 := fun t ht => by have := h0 t ((hs2 t).1 ht); omega
  obtain ⟨hb, hg⟩ := psi_run g psi (sortSet timeLog) hs1 hlne nt h1 chk thr init
  have hun : calcPsiT w e psi0 sortSet timeLog nt chk thr init =
      (tbpmPsiT e psi (sortSet timeLog) nt chk thr init).bind fun out => .ok ((List.range (sortSet timeLog).length).map out) := by
    unfold calcPsiT
    rw [if_neg (by simp [hw])]
    simp only
    rw [if_neg (by rintro ⟨t, ht, h⟩; exact h (h1 t ht))]
    rfl
  rw [hun]
  constructor
  · rintro ⟨rows, hr⟩ hbad
    rw [hb hbad] at hr
    cases hr
  · intro h
    obtain ⟨out, ho, -⟩ := hg h
    exact ⟨_, by rw [ho]; rfl⟩

/-- Times given twice and out of order: the rows are those of the times 1 and 3. -/
example (sortSet : List ℤ → List ℤ) (hsort : ∀ l, (sortSet l).SortedLT ∧ ∀ t, t ∈ sortSet l ↔ t ∈ l) (init : ℕ → CVec 2) :
    calcPsiT World.one (dimerEnv (scalarSeries 2)) ![1, 0] sortSet [3, 1, 3] 5 0 0.001 init = .ok [![2, 0], ![8, 0]] := by
  obtain ⟨rows, hr⟩ := (C58_accepted (dimerEnv_good (scalarSeries 2)) World.one rfl ![1, 0] (by simp) sortSet hsort [3, 1, 3] (by simp) 5
    (by intro t ht; simp at ht; omega) 0 0.001 init).2 (by rintro ⟨t, h1, h2, -⟩; omega)
  rw [hr, C58_snapshots (dimerEnv_good (scalarSeries 2)) World.one rfl ![1, 0] (by simp) sortSet hsort [3, 1, 3] (by simp) 5 0 0.001 init hr
    [1, 3] (by decide) (by intro t; simp; omega)]
  have hn : normZ (![1, 0] : CVec 2) = 1 := by simp [normZ, innerProd]
  rw [hn, dimerEnv_scalar]
  simp only [List.map_cons, List.map_nil, smul_pow, one_pow, Matrix.smul_mulVec, Matrix.one_mulVec]
  congr 2
  · ext i; fin_cases i <;> simp
  · congr 1
    ext i; fin_cases i <;> simp; norm_num

/-! ## C59: the Bessel series -/

/-- C59: the series is the list of Bessel functions up to the first order at which two consecutive ones are within the precision. -/
theorem C59_series (jv : ℕ → ℝ) (prec : ℝ) (besselMax : ℕ) (l : List ℝ) :
    besselSeries jv prec besselMax = .ok l ↔
      ∃ m < besselMax, |jv m| ≤ prec ∧ |jv (m + 1)| ≤ prec ∧ (∀ i < m, prec < |jv i| ∨ prec < |jv (i + 1)|) ∧
        l = (List.range m).map jv := by
  obtain ⟨h1, h2⟩ := bessel_series jv prec besselMax
  constructor
  · intro h
    by_cases hex : ∃ m < besselMax, |jv m| ≤ prec ∧ |jv (m + 1)| ≤ prec
    · obtain ⟨hm1, hm2, hm3⟩ := Nat.find_spec hex
      have hmin : ∀ i < Nat.find hex, ¬(|jv i| ≤ prec ∧ |jv (i + 1)| ≤ prec) :=
        fun i hi hh => Nat.find_min hex hi ⟨by omega, hh⟩
      have := h1 _ hm1 hmin ⟨hm2, hm3⟩
      rw [this] at h
      cases h
      refine ⟨_, hm1, hm2, hm3, fun i hi => ?_, rfl⟩
      by_contra hh
      push Not at hh
      exact hmin i hi hh
    · rw [h2 fun i hi hh => hex ⟨i, hi, hh⟩] at h
      cases h
  · rintro ⟨m, hm, a, b, hall, rfl⟩
    refine h1 m hm (fun i hi hh => ?_) ⟨a, b⟩
    rcases hall i hi with h | h
    · exact absurd hh.1 (not_le.2 h)
    · exact absurd hh.2 (not_le.2 h)

/-- C59: an error is raised exactly if there is no such order below the maximum. -/
theorem C59_error (jv : ℕ → ℝ) (prec : ℝ) (besselMax : ℕ) :
    besselSeries jv prec besselMax = .error .value ↔ ∀ m < besselMax, prec < |jv m| ∨ prec < |jv (m + 1)| := by
  obtain ⟨h1, h2⟩ := bessel_series jv prec besselMax
  constructor
  · intro h m hm
    by_contra hh
    push Not at hh
    have hex : ∃ m < besselMax, |jv m| ≤ prec ∧ |jv (m + 1)| ≤ prec := ⟨m, hm, hh⟩
    obtain ⟨hm1, hm2, hm3⟩ := Nat.find_spec hex
    rw [h1 _ hm1 (fun i hi hh => Nat.find_min hex hi ⟨by omega, hh⟩) ⟨hm2, hm3⟩] at h
    cases h
  · intro h
    refine h2 fun i hi hh => ?_
    rcases h i hi with h | h
    · exact absurd hh.1 (not_le.2 h)
    · exact absurd hh.2 (not_le.2 h)

/-- A sequence with one small value in the middle: the series goes on past it. -/
example : besselSeries (fun k => if k = 1 ∨ 3 ≤ k then 0 else 1) (1 / 10) 10 = .ok [1, 0, 1] := by
  rw [C59_series]
  refine ⟨3, by norm_num, by norm_num, by norm_num, fun i hi => ?_, ?_⟩
  · rcases (by omega : i = 0 ∨ i = 1 ∨ i = 2) with rfl | rfl | rfl <;> norm_num
  · simp [List.range_succ]

end Verif.Tbpm

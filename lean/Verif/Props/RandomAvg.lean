import Verif.Proof.RandomForm
import Verif.Props.Tbpm
import Mathlib.Probability.Independence.InfinitePi

open MeasureTheory ProbabilityTheory

/-! # C124: averages over random states estimate traces

The random numbers are idealised (Spec/RandomAvg.lean): independent, uniform in `[0, 1)`, and drawn independently after different
seeds.  What the seeding does is C119. -/

namespace Verif.Tbpm

variable {n : ℕ}

/-- C124: the mean of `⟨ψ|A|ψ⟩` over the random states `ψ` is the trace of `A` per orbital. -/
theorem C124_mean (A : Matrix (Fin n) (Fin n) ℂ) :
    ∫ d, innerProd (randomState d) (A.mulVec (randomState d)) ∂drawLaw n = A.trace / n := form_mean A

/-- C124: its variance. -/
theorem C124_variance (hn : 0 < n) (A : Matrix (Fin n) (Fin n) ℂ) :
    ∫ d, ‖innerProd (randomState d) (A.mulVec (randomState d)) - A.trace / n‖ ^ 2 ∂drawLaw n =
      (n * ∑ i, ∑ j, ‖A i j‖ ^ 2 - ‖A.trace‖ ^ 2) / (n ^ 2 * (n + 1)) := form_var hn A

/-- C124: for a unitary operator, such as exact propagation in time, the variance is at most `1/(n + 1)`: adding orbitals makes
one sample as good as many. -/
theorem C124_self_averaging (hn : 0 < n) {A : Matrix (Fin n) (Fin n) ℂ} (hA : A ∈ Matrix.unitaryGroup (Fin n) ℂ) :
    ∫ d, ‖innerProd (randomState d) (A.mulVec (randomState d)) - A.trace / n‖ ^ 2 ∂drawLaw n ≤ 1 / (n + 1) := by
  rw [C124_variance hn A]
  have h1 : ∑ i, ∑ j, ‖A i j‖ ^ 2 = (n : ℝ) := by
    apply Complex.ofReal_injective
    push_cast
    have : ∀ i, ∑ j, ((‖A i j‖ : ℂ)) ^ 2 = 1 := by
      intro i
      have := congrFun (congrFun (Matrix.mem_unitaryGroup_iff.1 hA) i) i
      rw [Matrix.mul_apply, Matrix.one_apply_eq] at this
      rw [← this]
      refine Finset.sum_congr rfl fun j _ => ?_
      rw [Matrix.star_apply, ← norm_sq_star]
      push_cast; rfl
    simp [this]
  rw [h1]
  have hn' : (0 : ℝ) < n := by exact_mod_cast hn
  rw [div_le_div_iff₀ (by positivity) (by positivity)]
  nlinarith [sq_nonneg ‖A.trace‖]

section
variable {Ω : Type*} [MeasurableSpace Ω] {P : Measure Ω} [IsProbabilityMeasure P] {D : ℤ → Ω → Fin n → ℝ × ℝ}

/-- C124: the correlation function of the DOS, computed from `N` samples on any number of processes, is an unbiased estimate of
`Tr U^t / n`, and its mean square error falls as `1/N`. -/
theorem C124_dos (hn : 0 < n) (hD : IdealDraws P D) {e : Env n} (g : e.Good) (w : World) {seed : ℤ} (hs : seed ≠ 0) (chk : ℤ)
    (thr : ℝ) (nt : ℕ) (hnt : 1 ≤ nt) (nsamp : ℕ) (h1 : 1 ≤ nsamp) {c : Ω → ℕ → ℕ → ℂ}
    (hc : ∀ ω, calcCorrDos w e (fun s => randomState (D s ω)) seed chk thr nt nsamp = .ok (c ω)) :
    ∃ N, nsamp ≤ N ∧ ∀ r < w.size, ∀ t ≤ nt,
      ∫ ω, c ω r t ∂P = (e.U true ^ t).trace / n ∧
      ∫ ω, ‖c ω r t - (e.U true ^ t).trace / n‖ ^ 2 ∂P =
        (n * ∑ i, ∑ j, ‖(e.U true ^ t) i j‖ ^ 2 - ‖(e.U true ^ t).trace‖ ^ 2) / (n ^ 2 * (n + 1)) / N := by
  have hN := (Verif.Props.C46_samples w nsamp).2.1
  refine ⟨(distSample w nsamp).1, hN, fun r hr t ht => ?_⟩
  simp only [fun ω => C81_dos g w _ seed chk thr nt hnt nsamp (hc ω) r hr t ht]
  exact ⟨samples_mean hD _ seed (by omega), samples_var hn hD _ hs (by omega)⟩

/-- C124: likewise for the correlation functions of the optical conductivity. -/
theorem C124_ac (hn : 0 < n) (hD : IdealDraws P D) {e : Env n} (g : e.Good) (w : World) (rescale : ℝ) (dx dy : ℕ → ℝ)
    {cF cOmF : (ℕ → ℝ) × ℕ} (hF : 3 ≤ cF.2) (hO : 3 ≤ cOmF.2) {seed : ℤ} (hs : seed ≠ 0) (chk : ℤ) (thr : ℝ) (nt : ℕ) (nsamp : ℕ)
    (h1 : 1 ≤ nsamp) {c : Ω → ℕ → ℕ → Fin 4 → ℂ}
    (hc : ∀ ω, calcCorrAcCond w e rescale dx dy cF cOmF (fun s => randomState (D s ω)) seed chk thr nt nsamp = .ok (c ω)) :
    let J : Bool → Matrix (Fin n) (Fin n) ℂ := fun y => (e.ham.current (if y then dy else dx) rescale).toMatrix n
    let A : ℕ → Bool → Bool → Matrix (Fin n) (Fin n) ℂ := fun t a b =>
      (e.U true ^ (t - 1) * e.chebSeries cF).conjTranspose * (J a * (e.U true ^ (t - 1) * (e.chebSeries cOmF * J b)))
    ∃ N, nsamp ≤ N ∧ ∀ r < w.size, ∀ a b : Bool, ∀ k : Fin 4, (k : ℕ) = a.toNat + 2 * b.toNat → ∀ t, 2 ≤ t → t ≤ nt →
      ∫ ω, c ω r t k ∂P = (A t a b).trace / n ∧
      ∫ ω, ‖c ω r t k - (A t a b).trace / n‖ ^ 2 ∂P =
        (n * ∑ i, ∑ j, ‖A t a b i j‖ ^ 2 - ‖(A t a b).trace‖ ^ 2) / (n ^ 2 * (n + 1)) / N := by
  intro J A
  have hN := (Verif.Props.C46_samples w nsamp).2.1
  refine ⟨(distSample w nsamp).1, hN, fun r hr a b k hk t h2 h3 => ?_⟩
  have hform : ∀ ω, c ω r t k = meanSamples ℂ (distSample w nsamp).1 seed
      fun s => innerProd (randomState (D s ω)) ((A t a b).mulVec (randomState (D s ω))) := by
    intro ω
    rw [(C83_ac g w rescale dx dy hF hO _ seed chk thr nt nsamp (hc ω) r hr a b k hk).1 t h2 h3]
    congr 1
    funext s
    simp only [Matrix.mulVec_mulVec, A]
    rw [inner_adjoint]
  simp only [hform]
  exact ⟨samples_mean hD _ seed (by omega), samples_var hn hD _ hs (by omega)⟩

/-- C124: likewise for the Kubo-Bastin moments. -/
theorem C124_hall (hn : 0 < n) (hD : IdealDraws P D) {e : Env n} (g : e.Good) (w : World) (rescale : ℝ) (dx dy : ℕ → ℝ) (itype : ℤ)
    (ht : itype = 1 ∨ itype = 2) {seed : ℤ} (hs : seed ≠ 0) (nsamp nk : ℕ) (h1 : 1 ≤ nsamp) (hk : 2 ≤ nk) :
    let J : (ℕ → ℝ) → Matrix (Fin n) (Fin n) ℂ := fun d => (e.ham.current d rescale).toMatrix n
    let gk : ℕ → ℝ := fun k => if k = 0 then 1 / 2 else
      ((nk - k) * Real.cos (Real.pi * k / nk) + Real.cot (Real.pi / nk) * Real.sin (Real.pi * k / nk)) / nk
    let A : ℕ → ℕ → Matrix (Fin n) (Fin n) ℂ := fun i j => ((gk i * gk j : ℝ) : ℂ) •
      ((chebT i e.H * J dx).conjTranspose * (J (if itype = 1 then dx else dy) * chebT j e.H))
    ∃ N, nsamp ≤ N ∧ ∃ c : Ω → ℕ → ℕ → ℕ → ℂ,
      (∀ ω, calcHallMu w e rescale dx dy itype (fun s => randomState (D s ω)) seed nsamp nk = .ok (c ω)) ∧
      ∀ r < w.size, ∀ i < nk, ∀ j < nk, ∫ ω, c ω r i j ∂P = (A i j).trace / n ∧
        ∫ ω, ‖c ω r i j - (A i j).trace / n‖ ^ 2 ∂P =
          (n * ∑ a, ∑ b, ‖A i j a b‖ ^ 2 - ‖(A i j).trace‖ ^ 2) / (n ^ 2 * (n + 1)) / N := by
  intro J gk A
  have hN := (Verif.Props.C46_samples w nsamp).2.1
  have hC := fun ω => C64_moments g w rescale dx dy itype ht (fun s => randomState (D s ω)) seed nsamp nk hk
  choose c hc hv using hC
  refine ⟨(distSample w nsamp).1, hN, c, hc, fun r hr i hi j hj => ?_⟩
  have hform : ∀ ω, c ω r i j = meanSamples ℂ (distSample w nsamp).1 seed
      fun s => innerProd (randomState (D s ω)) ((A i j).mulVec (randomState (D s ω))) := by
    intro ω
    rw [hv ω r hr i hi j hj]
    congr 1
    funext s
    simp only [Matrix.mulVec_mulVec, A, Matrix.smul_mulVec, innerProd_smul]
    rw [inner_adjoint]
    push_cast
    rfl
  simp only [hform]
  exact ⟨samples_mean hD _ seed (by omega), samples_var hn hD _ hs (by omega)⟩

end

/-- Ideal draws exist. -/
theorem ideal_exists (n : ℕ) : IdealDraws (Measure.infinitePi fun _ : ℤ => drawLaw n) (fun s (ω : ℤ → Fin n → ℝ × ℝ) => ω s) where
  meas s := measurable_pi_apply s
  law s := Measure.infinitePi_map_eval (fun _ : ℤ => drawLaw n) s
  indep _ _ hst := (iIndepFun_infinitePi (P := fun _ : ℤ => drawLaw n) (X := fun _ x => x) (fun _ => measurable_id)).indepFun hst

/-- A case: the operator `diag(1, -1)` has trace zero and variance `1/3` for two orbitals. -/
example : ∫ d, ‖innerProd (randomState d) ((!![1, 0; 0, -1] : Matrix (Fin 2) (Fin 2) ℂ).mulVec (randomState d))‖ ^ 2 ∂drawLaw 2 = 1 / 3 := by
  have h := C124_variance (n := 2) (by norm_num) !![1, 0; 0, -1]
  simp only [Matrix.trace_fin_two, Fin.sum_univ_two] at h
  norm_num at h
  rw [← h]
  norm_num

/-- A case: with the norm check switched off the program delivers a correlation function for every outcome of the draws. -/
example : ∃ c : (ℤ → Fin 2 → ℝ × ℝ) → ℕ → ℕ → ℂ,
    (∀ ω, calcCorrDos World.one (dimerEnv (scalarSeries 2)) (fun s => randomState (ω s)) 1337 0 0.001 10 4 = .ok (c ω)) ∧
    ∫ ω, c ω 0 3 ∂Measure.infinitePi (fun _ : ℤ => drawLaw 2) = 8 := by
  have hx : ∀ ω : ℤ → Fin 2 → ℝ × ℝ, ∃ c, calcCorrDos World.one (dimerEnv (scalarSeries 2)) (fun s => randomState (ω s)) 1337 0 0.001 10 4 = .ok c := by
    intro ω
    obtain ⟨-, h2⟩ := dos_run (dimerEnv_good (scalarSeries 2)) World.one (fun s => randomState (ω s)) 1337 0 0.001 10 (by norm_num) 4
    obtain ⟨c, hc, -⟩ := h2 (by rintro ⟨j, -, t, h, h', -⟩; omega)
    exact ⟨c, hc⟩
  choose c hc using hx
  refine ⟨c, hc, ?_⟩
  obtain ⟨N, -, h⟩ := C124_dos (by norm_num) (ideal_exists 2) (dimerEnv_good (scalarSeries 2)) World.one (seed := 1337) (by norm_num) 0 0.001 10
    (by norm_num) 4 (by norm_num) hc
  rw [(h 0 (by decide) 3 (by norm_num)).1, dimerEnv_scalar]
  simp [smul_pow, Matrix.trace_smul]
  norm_num

end Verif.Tbpm

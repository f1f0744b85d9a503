import Verif.Proof.Analysis

/-! # Analysis of correlation functions: C61, C65, C86–C90 -/

namespace Verif.Analysis
open Verif.Tbpm

/-! ## Witness -/

/-- A two-dimensional sample with two time steps. -/
noncomputable def tiny : Ctx where
  tnr := 2
  spin := true
  beta := 1
  energyRange := 4
  nrOrbitals := 3
  area := 2
  volume := 5
  extended := 1
  rescale := 2
  dimension := 2
  qPoints := [![1, 0, 0], ![0, 0, 0]]
  coulomb := 1
  backEpsilon := 1
  limits := (-1, 1)

/-! ## C61: density of states -/

/-- C61: for every length `n` of the run, every window and every number of processes, the `2 n` energies are
`(j - n) * en_range / (2 n)` and the DOS on every process at each of them is the modulus of the windowed Fourier transform of the
correlation function on the master, at the time step `2 pi / en_range` of the solver, divided by its integral over the window
and multiplied by 2 if spin is corrected for.  The contents of uninitialised memory and the data on other processes do not
matter. -/
theorem C61_transform (w : World) (c : Ctx) (hn : 0 < c.tnr) (hR : c.energyRange ≠ 0) (window : ℕ → ℕ → ℝ)
    (corr junk : ℕ → ℕ → ℂ) :
    ∃ E d, calcDos w c window corr junk = .ok (E, d) ∧ E.length = 2 * c.tnr ∧
      (∀ j < 2 * c.tnr, E.getD j 0 = ((j : ℝ) - c.tnr) * (c.energyRange / (2 * c.tnr))) ∧
      ∀ r < w.size, ∀ j < 2 * c.tnr, d r j = c.spinFactor *
        (spectrum window c.tnr (2 * Real.pi / c.energyRange) (corr 0) (E.getD j 0) /
          ((∑ l ∈ Finset.range (2 * c.tnr), spectrum window c.tnr (2 * Real.pi / c.energyRange) (corr 0) (E.getD l 0)) *
            (c.energyRange / (2 * c.tnr)))) := by
  have hE : ∀ j < 2 * c.tnr, (dosEnergies c).getD j 0 = ((j : ℝ) - c.tnr) * (c.energyRange / (2 * c.tnr)) := by
    intro j hj
    unfold dosEnergies
    rw [getD_map_range _ _ _ _ (by omega)]
    have : (c.tnr : ℝ) ≠ 0 := by exact_mod_cast hn.ne'
    field_simp
    ring
  refine ⟨_, _, by unfold calcDos; rw [if_neg hn.ne'], by simp [dosEnergies, mul_comm], hE, ?_⟩
  intro r hr j hj
  rw [bcast_master w _ r hr]
  have hsum : ∑ l ∈ Finset.range (2 * c.tnr), dosFill c.tnr (ifft (2 * c.tnr) (corrNegTime c.tnr window (corr 0) (junk 0))) l =
      (1 / (2 * c.tnr : ℝ)) * ∑ l ∈ Finset.range (2 * c.tnr), spectrum window c.tnr (2 * Real.pi / c.energyRange) (corr 0)
        ((dosEnergies c).getD l 0) := by
    rw [Finset.mul_sum]
    refine Finset.sum_congr rfl fun l hl => ?_
    rw [spectrum_eq c.tnr hn window (corr 0) (junk 0) c.energyRange hR l (Finset.mem_range.1 hl), hE l (Finset.mem_range.1 hl)]
  have hn' : (c.tnr : ℝ) ≠ 0 := by exact_mod_cast hn.ne'
  have hv : ∀ a s : ℝ, (1 / (2 * c.tnr : ℝ)) * a / ((1 / (2 * c.tnr : ℝ)) * s * (0.5 * c.energyRange / c.tnr)) =
      a / (s * (c.energyRange / (2 * c.tnr))) := by
    intro a s
    rw [mul_assoc, mul_div_mul_left _ _ (by positivity)]
    congr 2
    norm_num
    ring
  unfold dosMaster Ctx.spinFactor
  simp only
  rw [hsum]
  split
  · beta_reduce
    rw [spectrum_eq c.tnr hn window (corr 0) (junk 0) c.energyRange hR j hj, ← hE j hj, hv]
  · beta_reduce
    rw [spectrum_eq c.tnr hn window (corr 0) (junk 0) c.energyRange hR j hj, ← hE j hj, hv, one_mul]

/-- C61: the DOS is not negative and its integral over the energy window is 1, or 2 with spin, whenever the correlation function
does not vanish at `t = 0` (for random states it is 1 there). -/
theorem C61_integral (w : World) (c : Ctx) (hn : 0 < c.tnr) (hR : 0 < c.energyRange) (window : ℕ → ℕ → ℝ)
    (corr junk : ℕ → ℕ → ℂ) (h0 : corr 0 0 ≠ 0) :
    ∃ E d, calcDos w c window corr junk = .ok (E, d) ∧ ∀ r < w.size,
      (∀ j < 2 * c.tnr, 0 ≤ d r j) ∧
      (∑ j ∈ Finset.range (2 * c.tnr), d r j) * (c.energyRange / (2 * c.tnr)) = if c.spin then 2 else 1 := by
  obtain ⟨E, d, h, -, hE, hd⟩ := C61_transform w c hn hR.ne' window corr junk
  refine ⟨E, d, h, fun r hr => ?_⟩
  have hn' : (0 : ℝ) < c.tnr := by exact_mod_cast hn
  have hpos : 0 < ∑ l ∈ Finset.range (2 * c.tnr),
      spectrum window c.tnr (2 * Real.pi / c.energyRange) (corr 0) (E.getD l 0) := by
    have := dos_total c.tnr hn window (corr 0) (junk 0) h0
    rw [Finset.sum_congr rfl fun l hl => by
      rw [spectrum_eq c.tnr hn window (corr 0) (junk 0) c.energyRange hR.ne' l (Finset.mem_range.1 hl),
        ← hE l (Finset.mem_range.1 hl)], ← Finset.mul_sum] at this
    exact pos_of_mul_pos_right this (by positivity)
  have hs : 0 < c.spinFactor := by unfold Ctx.spinFactor; split <;> norm_num
  constructor
  · intro j hj
    rw [hd r hr j hj]
    have : 0 ≤ spectrum window c.tnr (2 * Real.pi / c.energyRange) (corr 0) (E.getD j 0) := norm_nonneg _
    positivity
  · rw [Finset.sum_congr rfl fun j hj => hd r hr j (Finset.mem_range.1 hj), ← Finset.mul_sum, ← Finset.sum_div]
    have : c.spinFactor = if c.spin then 2 else 1 := rfl
    rw [← this]
    field_simp

/-- C61: a run is refused exactly if it has no time step. -/
theorem C61_refused (w : World) (c : Ctx) (window : ℕ → ℕ → ℝ) (corr junk : ℕ → ℕ → ℂ) :
    calcDos w c window corr junk = .error .zeroDivision ↔ c.tnr = 0 := by
  unfold calcDos
  split <;> simp_all

/-- Concrete case of C61: two time steps, the correlation function `exp(-i t)` and arbitrary memory. -/
example (junk : ℕ → ℕ → ℂ) : ∃ E d,
    calcDos World.one tiny windowHanning (fun _ t => Complex.exp (-Complex.I * t)) junk = .ok (E, d) ∧
      (∑ j ∈ Finset.range 4, d 0 j) * (4 / 4) = 2 := by
  obtain ⟨E, d, h, h'⟩ := C61_integral World.one tiny (by simp [tiny]) (by norm_num [tiny]) windowHanning
    (fun _ t => Complex.exp (-Complex.I * t)) junk (Complex.exp_ne_zero _)
  refine ⟨E, d, h, ?_⟩
  have := (h' 0 (by simp [World.one])).2
  norm_num [tiny] at this ⊢
  exact this

/-! ## C65, C86: optical conductivity -/

/-- C65: the optical conductivity on every process is the same for any two correlation functions which agree on the master
at the times `0 < k < n`; the value at `t = 0`, which the solver leaves at 0, does not matter. -/
theorem C65_initial (w : World) (c : Ctx) (hil : ℕ → (ℕ → ℝ) → ℕ → ℝ) (window : ℕ → ℕ → ℝ) (a b : ℕ → Fin 4 → ℕ → ℂ)
    (h : ∀ j k, k ≠ 0 → k < c.tnr → a 0 j k = b 0 j k) (r : ℕ) (hr : r < w.size) :
    (calcAcCond w c hil window a).2 r = (calcAcCond w c hil window b).2 r := by
  unfold calcAcCond
  simp only [bcast_master w _ r hr]
  funext j i
  unfold acMaster
  simp only [acReal_congr c window (a 0 j) (b 0 j) (h j)]

/-- C65 is about the initial value only: a later one does matter. -/
example : ∃ a b : ℕ → Fin 4 → ℕ → ℂ, (∀ j k, k ≠ 1 → a 0 j k = b 0 j k) ∧
    (calcAcCond World.one tiny (fun _ _ _ => 0) windowExp a).2 0 0 1 ≠
      (calcAcCond World.one tiny (fun _ _ _ => 0) windowExp b).2 0 0 1 := by
  refine ⟨fun _ _ _ => 0, fun _ _ k => if k = 1 then Complex.I else 0, fun j k hk => by simp [hk], ?_⟩
  have h0 : acReal tiny windowExp (fun _ => 0) 1 = 0 := by
    rw [acReal_eq _ _ _ 1 (by norm_num) (by simp [tiny]) (by norm_num [tiny])]; simp
  have h1 : acReal tiny windowExp (fun k => if k = 1 then Complex.I else 0) 1 ≠ 0 := by
    rw [acReal_eq _ _ _ 1 (by norm_num) (by simp [tiny]) (by norm_num [tiny])]
    have he : Real.exp (-2) < 1 := by rw [Real.exp_lt_one_iff]; norm_num
    have hs : (2 : ℝ) * (Real.pi / 4) = Real.pi / 2 := by ring
    simp [tiny, Ctx.cell, Finset.sum_range_succ, windowExp, Real.pi_ne_zero, hs, sub_eq_zero, he.ne]
  unfold calcAcCond
  simp only [bcast_master World.one _ 0 (by simp [World.one])]
  unfold acMaster
  simp only [h0, show tiny.spin = true from rfl, if_true]
  intro h
  apply h1
  simpa using h.symm

/-- C86: the optical conductivity on every process.  At the frequency `omega_i = i en_range / n` its real part is
`N / (A * extended) * (exp(-beta omega) - 1) / omega * Σ_k τ 2 w(k+1) sin(omega k τ) Im C(k)` with the time step `τ = pi / en_range`
of the solver, and 0 for `omega = 0`; its imaginary part is the Hilbert transform of the real part continued as an even function.
Both are doubled if spin is corrected for. -/
theorem C86_optical (w : World) (c : Ctx) (hR : c.energyRange ≠ 0) (hil : ℕ → (ℕ → ℝ) → ℕ → ℝ) (window : ℕ → ℕ → ℝ)
    (corr : ℕ → Fin 4 → ℕ → ℂ) :
    ∃ sigma : Fin 4 → ℕ → ℝ,
      (∀ j, sigma j 0 = 0) ∧
      (∀ j i, i ≠ 0 → i < c.tnr → ∀ omega tau, omega = i * c.energyRange / c.tnr → tau = Real.pi / c.energyRange →
        sigma j i = c.nrOrbitals / ((if c.dimension = 2 then c.area else c.volume) * c.extended) *
          ((Real.exp (-c.beta * omega) - 1) / omega) *
          ∑ k ∈ Finset.range c.tnr, tau * (2 * window (k + 1) c.tnr * Real.sin (omega * (k * tau)) * (corr 0 j k).im)) ∧
      (calcAcCond w c hil window corr).1 = (List.range c.tnr).map (fun i : ℕ => i * c.energyRange / c.tnr) ∧
      ∀ r < w.size, ∀ j, ∀ i < c.tnr, (calcAcCond w c hil window corr).2 r j i = c.spinFactor *
        (sigma j i + Complex.I * hil (2 * c.tnr)
          (fun m => if m = 0 ∨ 2 * c.tnr ≤ m then 0 else sigma j ((m : ℤ) - c.tnr).natAbs) (c.tnr + i)) := by
  refine ⟨fun j i => acReal c window (corr 0 j) i, fun j => acReal_zero c window _, ?_, rfl, ?_⟩
  · rintro j i h0 hi omega tau rfl rfl
    exact acReal_eq c window (corr 0 j) i h0 hi hR
  · intro r hr j i hi
    unfold calcAcCond
    simp only [bcast_master w _ r hr]
    have hsig : acSigma c.tnr (acReal c window (corr 0 j)) =
        fun m => if m = 0 ∨ 2 * c.tnr ≤ m then 0 else acReal c window (corr 0 j) ((m : ℤ) - c.tnr).natAbs := by
      funext m
      unfold acSigma
      rw [sigma_loop c.tnr _ _ le_rfl]
      by_cases h1 : c.tnr ≤ m ∧ m < c.tnr + c.tnr
      · rw [if_pos h1, if_neg (by omega)]; congr 1; omega
      · rw [if_neg h1]
        by_cases h2 : m < c.tnr ∧ c.tnr < m + c.tnr
        · rw [if_pos h2, if_neg (by omega)]; congr 1; omega
        · rw [if_neg h2, if_pos (by omega)]
    unfold acMaster Ctx.spinFactor
    simp only [hsig]
    split <;> push_cast <;> ring

/-- Concrete case of C86: at the frequency 2 the sum has one term, `sin(pi/2)`. -/
example (w : World) (hil : ℕ → (ℕ → ℝ) → ℕ → ℝ) : ((calcAcCond w tiny hil windowExp (fun _ _ _ => Complex.I)).2 0 0 1).re =
    2 * (3 / 2 * ((Real.exp (-2) - 1) / 2) * (Real.pi / 4 * (2 * Real.exp (-2)))) := by
  obtain ⟨sigma, -, h1, -, h2⟩ := C86_optical w tiny (by norm_num [tiny]) hil windowExp (fun _ _ _ => Complex.I)
  rw [h2 0 w.pos 0 1 (by simp [tiny]), h1 0 1 (by norm_num) (by simp [tiny]) 2 (Real.pi / 4) (by norm_num [tiny]) (by simp [tiny])]
  have hs : (2 : ℝ) * (Real.pi / 4) = Real.pi / 2 := by ring
  simp [tiny, Ctx.spinFactor, Finset.sum_range_succ, windowExp, hs, ← Complex.ofReal_mul, -Complex.ofReal_mul, Complex.mul_re,
    -Complex.ofReal_exp]

/-! ## C87: polarization and dielectric function -/

/-- C87: the dynamical polarization on every process is `2 N / (A * extended) Σ_k τ w(k+1) C(q, k) exp(i omega k τ)`, doubled
for spin, with the time step `τ = pi / en_range` of the solver. -/
theorem C87_polarization (w : World) (c : Ctx) (window : ℕ → ℕ → ℝ) (corr : ℕ → ℕ → ℕ → ℝ) (r iq i : ℕ) (hr : r < w.size)
    (hq : iq < c.qPoints.length) (hi : i < c.tnr) (omega tau : ℝ) (ho : omega = i * c.energyRange / c.tnr)
    (ht : tau = Real.pi / c.energyRange) :
    (calcDynPol w c window corr).2.2 r iq i = c.spinFactor *
      ((2 * c.nrOrbitals / ((if c.dimension = 2 then c.area else c.volume) * c.extended) : ℝ) *
      ∑ k ∈ Finset.range c.tnr, tau * (window (k + 1) c.tnr * corr 0 iq k * Complex.exp (Complex.I * omega * (k * tau)))) := by
  unfold calcDynPol
  simp only [bcast_master w _ r hr]
  unfold dpMaster Ctx.spinFactor
  simp only [if_pos (And.intro hq hi), omegas_getD c i hi, ← ho, ← ht, foldl_sum, zero_add, ← Finset.mul_sum]
  have hs : ∀ k ∈ Finset.range c.tnr, (window (k + 1) c.tnr * corr 0 iq k *
      (Real.cos (k * tau * omega) + Complex.I * Real.sin (k * tau * omega)) : ℂ) =
      window (k + 1) c.tnr * corr 0 iq k * Complex.exp (Complex.I * omega * (k * tau)) := by
    intro k _
    rw [show Complex.I * omega * (k * tau) = ((k * tau * omega : ℝ) : ℂ) * Complex.I by push_cast; ring, Complex.exp_mul_I,
      Complex.ofReal_cos, Complex.ofReal_sin]
    ring
  rw [Finset.sum_congr rfl hs]
  unfold Ctx.cell
  split <;> push_cast <;> ring

/-- C87: the dielectric function on every process is `1 - V(q) Π(q, omega)` with the Coulomb interaction `2 pi e² / (ε0 ε q)` in two
dimensions and `4 pi e² / (ε0 ε q²)` in three; for `q = 0` it is 1. -/
theorem C87_epsilon (w : World) (c : Ctx) (eps0 : ℝ) (dp : ℕ → ℕ → ℕ → ℂ) (r iq i : ℕ) (hr : r < w.size)
    (hq : iq < c.qPoints.length) :
    (c.qPoints[iq] = 0 → calcEpsilon w c eps0 dp r iq i = 1) ∧
    (c.qPoints[iq] ≠ 0 → ∀ q, q = Real.sqrt (c.qPoints[iq] 0 ^ 2 + c.qPoints[iq] 1 ^ 2 + c.qPoints[iq] 2 ^ 2) →
      calcEpsilon w c eps0 dp r iq i = 1 - ((c.coulomb / (eps0 * c.backEpsilon) *
        (if c.dimension = 2 then 2 * Real.pi / q else 4 * Real.pi / q ^ 2) : ℝ) : ℂ) * dp 0 iq i) := by
  have h : calcEpsilon w c eps0 dp r iq i = 1 - getVq c eps0 c.qPoints[iq] * dp 0 iq i := by
    unfold calcEpsilon
    rw [bcast_master w _ r hr]
    have := upd_hi (fun i => fun k => (1 : ℂ) - getVq c eps0 (c.qPoints.getD i 0) * dp 0 i k) 0 c.qPoints.length
      (fun _ _ => (0 : ℂ)) iq
    simp only [add_zero] at this
    rw [this, if_pos (by omega), Nat.sub_zero, List.getD_eq_getElem _ _ hq]
  rw [h]
  unfold getVq
  simp only [Fin.sum_univ_three]
  constructor
  · intro h0
    simp [h0]
  · rintro hne q rfl
    have hn : Real.sqrt (c.qPoints[iq] 0 ^ 2 + c.qPoints[iq] 1 ^ 2 + c.qPoints[iq] 2 ^ 2) ≠ 0 := by
      rw [Ne, Real.sqrt_eq_zero (by positivity)]
      intro hz
      apply hne
      funext a
      have h0 := sq_nonneg (c.qPoints[iq] 0)
      have h1 := sq_nonneg (c.qPoints[iq] 1)
      have h2 := sq_nonneg (c.qPoints[iq] 2)
      have e0 : c.qPoints[iq] 0 = 0 := (pow_eq_zero_iff two_ne_zero).1 (by linarith)
      have e1 : c.qPoints[iq] 1 = 0 := (pow_eq_zero_iff two_ne_zero).1 (by linarith)
      have e2 : c.qPoints[iq] 2 = 0 := (pow_eq_zero_iff two_ne_zero).1 (by linarith)
      fin_cases a
      · exact e0
      · exact e1
      · exact e2
    rw [if_neg hn]
    split <;> (congr 3; ring)

/-- C87: the dielectric function at `q = 0` from the conductivity is `1 + 4 pi i sigma / (ε ε0 omega)`; it is refused exactly if
the dimension is not 3. -/
theorem C87_q0 (c : Ctx) (eps0 : ℝ) (om : ℕ → ℝ) (ac : Fin 4 → ℕ → ℂ) :
    (c.dimension ≠ 3 → calcEpsilonQ0 c eps0 om ac = .error .value) ∧
    (c.dimension = 3 → ∃ e, calcEpsilonQ0 c eps0 om ac = .ok e ∧
      ∀ j i, e j i = 1 + (4 * Real.pi / (c.backEpsilon * eps0 * om i) : ℝ) * (Complex.I * ac j i)) := by
  unfold calcEpsilonQ0
  constructor
  · intro h; rw [if_pos h]
  · intro h
    rw [if_neg (by simpa using h)]
    refine ⟨_, rfl, fun j i => ?_⟩
    push_cast
    by_cases h0 : (om i : ℂ) = 0
    · simp [h0]
    · field_simp

/-- Concrete case of C87: two q-points, the second one zero. -/
example (w : World) : calcEpsilon w tiny 1 (fun _ _ _ => 1) 0 0 0 = 1 - 2 * Real.pi ∧
    calcEpsilon w tiny 1 (fun _ _ _ => 1) 0 1 0 = 1 := by
  constructor
  · have hq : tiny.qPoints[0]'(by simp [tiny]) = ![1, 0, 0] := rfl
    have := (C87_epsilon w tiny 1 (fun _ _ _ => 1) 0 0 0 w.pos (by simp [tiny])).2
      (by rw [hq]; intro h; simpa using congrFun h 0) 1 (by rw [hq]; simp)
    rw [this]; simp [tiny]
  · exact (C87_epsilon w tiny 1 (fun _ _ _ => 1) 0 1 0 w.pos (by simp [tiny])).1 (by simp [tiny])

/-! ## C88: DC conductivity and diffusion -/

/-- The windowed correlation at the energy `en`: `w(k+1) Re(exp(-i en k τ) C(k))`. -/
noncomputable def dcSignal (window : ℕ → ℕ → ℝ) (n : ℕ) (tau en : ℝ) (corr : ℕ → ℂ) (k : ℕ) : ℝ :=
  window (k + 1) n * (Complex.exp (-(Complex.I * en * (k * tau))) * corr k).re

theorem dcTerm_eq (c : Ctx) (window : ℕ → ℕ → ℝ) (en : ℝ) (corr : ℕ → ℂ) (k : ℕ) :
    dcTerm c window en corr k = dcSignal window c.tnr (2 * Real.pi / c.energyRange) en corr k := by
  unfold dcTerm dcSignal
  simp only
  rw [show -(Complex.I * en * (k * ((2 * Real.pi / c.energyRange : ℝ) : ℂ))) =
    ((-(k * (2 * Real.pi / c.energyRange) * en) : ℝ) : ℂ) * Complex.I by push_cast; ring, Complex.exp_mul_I,
    ← Complex.ofReal_cos, ← Complex.ofReal_sin, Real.cos_neg, Real.sin_neg]
  congr 3
  push_cast
  ring

/-- C88: the energies of the DC conductivity are those of the DOS within the limits, in increasing order, and its value at the
`j`-th of them is, on every process, `N / A * D(E_j) Σ_k τ w(k+1) Re(exp(-i E_j k τ) C(k))`, where `D` is what `calc_dos` returns
for the correlation function of the DOS with 1 inserted at `t = 0`. -/
theorem C88_dc (w : World) (c : Ctx) (hn : 0 < c.tnr) (windowDos windowDc : ℕ → ℕ → ℝ) (corrDos junk : ℕ → ℕ → ℂ)
    (corrDc : ℕ → Fin 2 → ℕ → ℕ → ℂ) :
    ∃ E D, calcDos w c windowDos (fun r k => if k = 0 then 1 else corrDos r (k - 1)) junk = .ok (E, D) ∧
      ∃ idx : List ℕ, idx.Pairwise (· < ·) ∧
        (∀ i, i ∈ idx ↔ i < E.length ∧ c.limits.1 ≤ E.getD i 0 ∧ E.getD i 0 ≤ c.limits.2) ∧
        ∃ d, calcDcCond w c windowDos windowDc corrDos junk corrDc = .ok (idx.map fun i => E.getD i 0, d) ∧
          ∀ r < w.size, ∀ a, ∀ j < idx.length, ∀ tau, tau = 2 * Real.pi / c.energyRange →
            d r a j = c.spinFactor * (c.nrOrbitals / (if c.dimension = 2 then c.area else c.volume) * D 0 (idx.getD j 0) *
              ∑ k ∈ Finset.range c.tnr, tau * dcSignal windowDc c.tnr tau (E.getD (idx.getD j 0) 0) (corrDc 0 a j) k) := by
  have hdos : ∀ corr, ∃ D, calcDos w c windowDos corr junk = .ok (dosEnergies c, D) := by
    intro corr
    unfold calcDos
    rw [if_neg hn.ne']
    exact ⟨_, rfl⟩
  obtain ⟨D, hD⟩ := hdos (fun r k => if k = 0 then 1 else corrDos r (k - 1))
  refine ⟨dosEnergies c, D, hD, qeIndices c, ?_, ?_, ?_⟩
  · exact List.Pairwise.filter _ (List.pairwise_lt_range)
  · intro i
    simp [qeIndices]
  · refine ⟨_, by unfold calcDcCond; dsimp only; rw [hD]; rfl, ?_⟩
    rintro r hr a j hj tau rfl
    rw [bcast_master w _ r hr]
    unfold dcMaster Ctx.spinFactor
    simp only [if_pos hj, foldl_sum, zero_add, dcTerm_eq, ← Finset.mul_sum]
    unfold Ctx.cell
    split <;> ring

/-- C88: the diffusion coefficient on every process is the trapezoidal integral of the same signal: 0 at the first time, and each
further time step adds `τ` times the mean of the two ends. -/
theorem C88_diffusion (w : World) (c : Ctx) (hn : 0 < c.tnr) (window : ℕ → ℕ → ℝ) (corr : ℕ → Fin 2 → ℕ → ℕ → ℂ) :
    ∃ d, calcDiffCoeff w c window corr =
        .ok ((List.range c.tnr).map (fun k : ℕ => k * (2 * Real.pi / c.energyRange)), d) ∧
      ∀ r < w.size, ∀ a, ∀ j < (qeIndices c).length,
        d r a j 0 = 0 ∧ ∀ k, k + 1 < c.tnr → ∀ tau en, tau = 2 * Real.pi / c.energyRange →
          en = (dosEnergies c).getD ((qeIndices c).getD j 0) 0 →
          d r a j (k + 1) - d r a j k = tau *
            ((dcSignal window c.tnr tau en (corr 0 a j) k + dcSignal window c.tnr tau en (corr 0 a j) (k + 1)) / 2) := by
  refine ⟨_, by unfold calcDiffCoeff; rw [if_neg hn.ne']; rfl, ?_⟩
  intro r hr a j hj
  rw [bcast_master w _ r hr]
  unfold diffMaster
  have htemp : ∀ en k, k < c.tnr → (List.range c.tnr).foldl (fun t k => Function.update t k (dcTerm c window en (corr 0 a j) k))
      (fun _ => (0 : ℝ)) k = dcTerm c window en (corr 0 a j) k := by
    intro en k hk
    have := upd_hi (dcTerm c window en (corr 0 a j)) 0 c.tnr (fun _ => (0 : ℝ)) k
    simp only [add_zero] at this
    rw [this, if_pos (by omega), Nat.sub_zero]
  constructor
  · rw [if_pos ⟨hj, hn⟩]
    simp [trapz]
  · rintro k hk tau en rfl rfl
    rw [if_pos ⟨hj, hk⟩, if_pos ⟨hj, by omega⟩]
    simp only [trapz, Nat.add_sub_cancel]
    rw [Finset.sum_range_succ, add_sub_cancel_left, htemp _ _ hk, htemp _ _ (by omega), dcTerm_eq, dcTerm_eq]
    unfold diffTime
    push_cast
    ring

/-- Concrete case of C88: of the energies -2, -1, 0, 1 those in [-1, 1] are selected. -/
example : qeIndices tiny = [1, 2, 3] := by
  have hl : (dosEnergies tiny).length = 4 := by simp [dosEnergies, tiny]
  have he : ∀ i < 4, (dosEnergies tiny).getD i 0 = (i : ℝ) - 2 := by
    intro i hi
    unfold dosEnergies
    rw [getD_map_range _ _ _ _ (by simpa [tiny] using hi)]
    norm_num [tiny]
    ring
  unfold qeIndices
  rw [hl, show List.range 4 = [0, 1, 2, 3] from rfl]
  simp only [List.filter_cons, List.filter_nil, he 0 (by norm_num), he 1 (by norm_num), he 2 (by norm_num), he 3 (by norm_num)]
  norm_num [tiny]

/-! ## C89: Hall conductivity -/

/-- C89: for every order in which the threads add their terms, the Hall conductivity on every process at the `i`-th chemical
potential is `16 N / (pi ΔE² A)` (times `2 pi` in units of `e²/h`) times the sum over the angles `x = k pi / M`, `0 < k < M`, of
`pi/M f(E(x)) / sin³ x * Σ_{mn} Re(Γ_mn(x) μ_mn)` with `E(x) = rescale cos x`, the Fermi function `f` and `Γ` as in `kuboBastin`. -/
theorem C89_hall (w : World) (c : Ctx) (mus : List ℝ) (ne nk : ℕ) (unit : HallUnit) (hu : unit ≠ .other) (reds red : ℕ → List ℕ)
    (hs : ∀ k, (reds k).Perm (List.range nk)) (ht : ∀ i, (red i).Perm (List.range' 1 (ne - 1))) (mu : ℕ → ℕ → ℕ → ℂ) :
    ∃ d, calcHallCond w c mus ne nk unit reds red mu = .ok (mus, d) ∧ ∀ r < w.size, ∀ i (hi : i < mus.length),
      d r i = c.spinFactor * (if unit = .h then 2 * Real.pi else 1) *
        (16 * c.nrOrbitals / (Real.pi * c.energyRange ^ 2 * (if c.dimension = 2 then c.area else c.volume))) *
        ∑ k ∈ Finset.Ico 1 ne, Real.pi / ne * (1 / (1 + Real.exp (c.beta * (c.rescale * Real.cos (k * (Real.pi / ne)) - mus[i])))) /
            Real.sin (k * (Real.pi / ne)) ^ 3 *
          ∑ n ∈ Finset.range nk, ∑ m ∈ Finset.range nk,
            (kuboBastin (k * (Real.pi / ne)) m n * mu 0 m n).re := by
  refine ⟨_, by unfold calcHallCond; rw [if_neg hu], ?_⟩
  intro r hr i hi
  rw [bcast_master w _ r hr]
  have hfold : ∀ {l l' : List ℕ} (f : ℕ → ℝ) (a : ℝ), l.Perm l' → l.foldl (fun s i => s + f i) a = a + (l'.map f).sum := by
    intro l l' f a hp
    rw [← (hp.map f).sum_eq]
    clear hp
    induction l generalizing a with
    | nil => simp
    | cons b l ih => rw [List.foldl_cons, ih, List.map_cons, List.sum_cons, add_assoc]
  have hf : ∀ x, (fermiDist c.beta (mus.getD i 0) (Real.cos x * c.rescale)).2 =
      1 / (1 + Real.exp (c.beta * (c.rescale * Real.cos x - mus[i]))) := by
    intro x
    rw [List.getD_eq_getElem _ _ hi]
    unfold fermiDist
    split
    · simp only
      rw [show c.beta * (mus[i] - Real.cos x * c.rescale) = -(c.beta * (c.rescale * Real.cos x - mus[i])) by ring, Real.exp_neg]
      have := Real.exp_pos (c.beta * (c.rescale * Real.cos x - mus[i]))
      field_simp
      ring
    · simp only
      rw [mul_comm (Real.cos x)]
  have hg : ∀ (x : ℝ) (m n : ℕ), gammaMn x m n = kuboBastin x m n := by
    intro x m n
    unfold kuboBastin
    unfold gammaMn
    rw [show (⟨Real.cos x, -(n * Real.sin x)⟩ : ℂ) = Real.cos x - Complex.I * n * Real.sin x by
        apply Complex.ext <;> simp [← Complex.ofReal_cos, ← Complex.ofReal_sin, -Complex.ofReal_cos, -Complex.ofReal_sin, Complex.mul_re, Complex.mul_im],
      show (⟨Real.cos x, m * Real.sin x⟩ : ℂ) = Real.cos x + Complex.I * m * Real.sin x by
        apply Complex.ext <;> simp [← Complex.ofReal_cos, ← Complex.ofReal_sin, -Complex.ofReal_cos, -Complex.ofReal_sin, Complex.mul_re, Complex.mul_im]]
    rw [show -Complex.I * (m : ℂ) * x = -(Complex.I * m * (x : ℝ)) by ring]
    ring
  have hsum : ∀ k, (reds k).foldl (fun s j => (List.range nk).foldl (fun s i => s + (gammaMn (k * (Real.pi / ne)) i j * mu 0 i j).re) s) 0 =
      ∑ n ∈ Finset.range nk, ∑ m ∈ Finset.range nk, (gammaMn (k * (Real.pi / ne)) m n * mu 0 m n).re := by
    intro k
    simp only [foldl_sum]
    rw [hfold (fun j => ∑ i ∈ Finset.range nk, (gammaMn (k * (Real.pi / ne)) i j * mu 0 i j).re) 0 (hs k), zero_add]
    rfl
  have hcond : condFromTrace (mu 0) nk mus c.rescale c.beta ne reds red i = ∑ k ∈ Finset.Ico 1 ne,
      Real.pi / ne * (1 / (1 + Real.exp (c.beta * (c.rescale * Real.cos (k * (Real.pi / ne)) - mus[i])))) /
            Real.sin (k * (Real.pi / ne)) ^ 3 *
          ∑ n ∈ Finset.range nk, ∑ m ∈ Finset.range nk, (gammaMn (k * (Real.pi / ne)) m n * mu 0 m n).re := by
    unfold condFromTrace
    simp only [hf, hsum]
    have := hfold (fun k : ℕ => (∑ n ∈ Finset.range nk, ∑ m ∈ Finset.range nk, (gammaMn (k * (Real.pi / ne)) m n * mu 0 m n).re) *
      (1 / (1 + Real.exp (c.beta * (c.rescale * Real.cos (k * (Real.pi / ne)) - mus[i])))) * (Real.pi / ne) /
        Real.sin (k * (Real.pi / ne)) ^ 3) 0 (ht i)
    rw [this, zero_add, Finset.sum_Ico_eq_sum_range]
    have hls : ∀ (g : ℕ → ℝ) (N : ℕ), ((List.range N).map g).sum = ∑ i ∈ Finset.range N, g i := fun _ _ => rfl
    rw [List.range'_eq_map_range, List.map_map, hls]
    refine Finset.sum_congr rfl fun k _ => ?_
    simp only [Function.comp]
    ring
  simp only [hg] at hcond
  unfold Ctx.spinFactor
  rw [← hcond]
  unfold Ctx.cell
  by_cases h1 : c.spin = true <;> by_cases h2 : unit = .h <;> simp only [h1, h2, if_true, if_false, Bool.false_eq_true] <;> ring

/-- The kernel is Hermitian: exchanging the indices conjugates it. -/
theorem kuboBastin_conj (x : ℝ) (m n : ℕ) : kuboBastin x n m = star (kuboBastin x m n) := by
  unfold kuboBastin
  simp only [Complex.star_def, map_add, map_mul, map_sub, Complex.conj_ofReal, Complex.conj_I, map_natCast, ← Complex.exp_conj, map_neg]
  ring_nf

/-- C89: if the moments are Hermitian (`μ_nm` is the conjugate of `μ_mn`), the sum of `Γ_mn μ_mn` is real, so taking the real
part of each term drops nothing. -/
theorem C89_real (x : ℝ) (nk : ℕ) (mu : ℕ → ℕ → ℂ) (h : ∀ m n, mu n m = star (mu m n)) :
    ((∑ n ∈ Finset.range nk, ∑ m ∈ Finset.range nk, (gammaMn x m n * mu m n).re : ℝ) : ℂ) =
      ∑ n ∈ Finset.range nk, ∑ m ∈ Finset.range nk, kuboBastin x m n * mu m n := by
  have hg : ∀ m n : ℕ, gammaMn x m n = kuboBastin x m n := by
    intro m n
    unfold gammaMn kuboBastin
    rw [show (⟨Real.cos x, -(n * Real.sin x)⟩ : ℂ) = Real.cos x - Complex.I * n * Real.sin x by
        apply Complex.ext <;> simp [← Complex.ofReal_cos, ← Complex.ofReal_sin, -Complex.ofReal_cos, -Complex.ofReal_sin, Complex.mul_re, Complex.mul_im],
      show (⟨Real.cos x, m * Real.sin x⟩ : ℂ) = Real.cos x + Complex.I * m * Real.sin x by
        apply Complex.ext <;> simp [← Complex.ofReal_cos, ← Complex.ofReal_sin, -Complex.ofReal_cos, -Complex.ofReal_sin, Complex.mul_re, Complex.mul_im]]
    rw [show -Complex.I * (m : ℂ) * x = -(Complex.I * m * (x : ℝ)) by ring]
    ring
  have hz : (∑ n ∈ Finset.range nk, ∑ m ∈ Finset.range nk, kuboBastin x m n * mu m n).im = 0 := by
    apply Complex.conj_eq_iff_im.1
    simp only [map_sum, map_mul]
    rw [Finset.sum_comm]
    refine Finset.sum_congr rfl fun m _ => Finset.sum_congr rfl fun n _ => ?_
    rw [kuboBastin_conj x m n, h m n]
    simp [Complex.star_def]
  apply Complex.ext
  · simp [hg, Complex.re_sum]
  · rw [hz]; simp

/-- Concrete case of C89: one angle, `x = pi/2`, and 2 by 2 moments equal to 1, with the threads in reverse order. -/
example (w : World) : ∃ d, calcHallCond w tiny [0] 2 2 .h (fun _ => [1, 0]) (fun _ => [1]) (fun _ _ _ => 1) = .ok ([0], d) ∧
    ∀ r < w.size, d r 0 = 2 * (2 * Real.pi) * (16 * 3 / (Real.pi * 16 * 2)) * (Real.pi / 2 * (1 / 2) * 2) := by
  obtain ⟨d, h, hd⟩ := C89_hall w tiny [0] 2 2 .h (by simp) (fun _ => [1, 0]) (fun _ => [1])
    (fun _ => (List.Perm.swap 0 1 [])) (fun _ => List.Perm.refl _) (fun _ _ _ => 1)
  refine ⟨d, h, fun r hr => ?_⟩
  rw [hd r hr 0 (by simp)]
  have e1 : Complex.exp (Complex.I * (Real.pi / 2)) = Complex.I := by rw [mul_comm]; exact Complex.exp_pi_div_two_mul_I
  have e2 : Complex.exp (-(Complex.I * (Real.pi / 2))) = -Complex.I := by rw [Complex.exp_neg, e1, Complex.inv_I]
  simp [Finset.sum_Ico_eq_sum_range, Finset.sum_range_succ, kuboBastin, tiny, Ctx.spinFactor, e1, e2]
  norm_num

/-! ## C90: spin -/

/-- C90: correcting for spin doubles the density of states. -/
theorem C90_dos_partial (w : World) (c : Ctx) (window : ℕ → ℕ → ℝ) (corr junk : ℕ → ℕ → ℂ) (E : List ℝ) (d : ℕ → ℕ → ℝ)
    (h : calcDos w { c with spin := false } window corr junk = .ok (E, d)) :
    calcDos w { c with spin := true } window corr junk = .ok (E, fun r j => 2 * d r j) := by
  unfold calcDos at *
  dsimp only at *
  split at h
  · simp at h
  next h0 =>
    rw [if_neg h0]
    rw [Except.ok.injEq, Prod.mk.injEq] at h ⊢
    refine ⟨h.1, ?_⟩
    rw [← h.2]
    funext r j
    unfold bcast dosMaster
    by_cases h1 : w.mpi = true <;> by_cases h2 : r = 0 <;> simp [h1, h2]

/-- C90: correcting for spin doubles the optical conductivity, whatever the Hilbert transform (the real part is transformed before
it is doubled). -/
theorem C90_ac_partial (w : World) (c : Ctx) (hil : ℕ → (ℕ → ℝ) → ℕ → ℝ) (window : ℕ → ℕ → ℝ) (corr : ℕ → Fin 4 → ℕ → ℂ) (r : ℕ) (j : Fin 4)
    (i : ℕ) :
    (calcAcCond w { c with spin := true } hil window corr).2 r j i =
      2 * (calcAcCond w { c with spin := false } hil window corr).2 r j i := by
  have h : ∀ s : Bool, acReal { c with spin := s } window = acReal c window := fun s => rfl
  unfold calcAcCond bcast acMaster
  by_cases h1 : w.mpi = true <;> by_cases h2 : r = 0 <;> simp [h1, h2, h]

/-- C90: correcting for spin doubles the polarization. -/
theorem C90_dyn_pol_partial (w : World) (c : Ctx) (window : ℕ → ℕ → ℝ) (corr : ℕ → ℕ → ℕ → ℝ) (r iq i : ℕ) :
    (calcDynPol w { c with spin := true } window corr).2.2 r iq i =
      2 * (calcDynPol w { c with spin := false } window corr).2.2 r iq i := by
  have h : ∀ s : Bool, omegas { c with spin := s } = omegas c := fun s => rfl
  have h' : ∀ s : Bool, Ctx.cell { c with spin := s } = c.cell := fun s => rfl
  unfold calcDynPol bcast dpMaster
  by_cases h1 : w.mpi = true <;> by_cases h2 : r = 0 <;> by_cases h3 : iq < c.qPoints.length ∧ i < c.tnr <;> simp [h1, h2, h3, h, h']

/-- C90: correcting for spin doubles the Hall conductivity. -/
theorem C90_hall_partial (w : World) (c : Ctx) (mus : List ℝ) (ne nk : ℕ) (unit : HallUnit) (reds red : ℕ → List ℕ) (mu : ℕ → ℕ → ℕ → ℂ)
    (E : List ℝ) (d : ℕ → ℕ → ℝ) (h : calcHallCond w { c with spin := false } mus ne nk unit reds red mu = .ok (E, d)) :
    calcHallCond w { c with spin := true } mus ne nk unit reds red mu = .ok (E, fun r j => 2 * d r j) := by
  have h' : ∀ s : Bool, Ctx.cell { c with spin := s } = c.cell := fun s => rfl
  unfold calcHallCond at *
  dsimp only at *
  split at h
  · simp at h
  next h0 =>
    rw [if_neg h0]
    rw [Except.ok.injEq, Prod.mk.injEq] at h ⊢
    refine ⟨h.1, ?_⟩
    rw [← h.2]
    funext r j
    unfold bcast
    by_cases h1 : w.mpi = true <;> by_cases h2 : r = 0 <;> simp [h1, h2, h', mul_comm]

/-- C90 fails for the DC conductivity: it is multiplied by 4, because the density of states in it has been doubled already. -/
theorem C90_dc_not_doubled (w : World) (c : Ctx) (windowDos windowDc : ℕ → ℕ → ℝ) (corrDos junk : ℕ → ℕ → ℂ)
    (corrDc : ℕ → Fin 2 → ℕ → ℕ → ℂ) (E : List ℝ) (d : ℕ → Fin 2 → ℕ → ℝ)
    (h : calcDcCond w { c with spin := false } windowDos windowDc corrDos junk corrDc = .ok (E, d)) :
    calcDcCond w { c with spin := true } windowDos windowDc corrDos junk corrDc = .ok (E, fun r a j => 4 * d r a j) := by
  unfold calcDcCond at *
  dsimp only at *
  cases hd : calcDos w { c with spin := false } windowDos (fun r k => if k = 0 then 1 else corrDos r (k - 1)) junk with
  | error e => rw [hd] at h; simp [bind, Except.bind] at h
  | ok p =>
    obtain ⟨E', D⟩ := p
    rw [C90_dos_partial w c windowDos _ junk E' D hd]
    rw [hd] at h
    simp only [bind, Except.bind, Except.ok.injEq, Prod.mk.injEq] at h ⊢
    refine ⟨h.1, ?_⟩
    rw [← h.2]
    have h3 : ∀ s : Bool, qeIndices { c with spin := s } = qeIndices c := fun s => rfl
    have h4 : ∀ s : Bool, dosEnergies { c with spin := s } = dosEnergies c := fun s => rfl
    have h5 : ∀ s : Bool, Ctx.cell { c with spin := s } = c.cell := fun s => rfl
    have h6 : ∀ s : Bool, dcTerm { c with spin := s } = dcTerm c := fun s => rfl
    funext r a j
    unfold bcast dcMaster
    by_cases h1 : w.mpi = true <;> by_cases h2 : r = 0 <;> by_cases h7 : j < (qeIndices c).length <;>
      simp [h1, h2, h3, h4, h5, h6, h7] <;> ring

/-- Concrete case of C90: the value multiplied by 4 is not 0.  With one time step, the energies are -2 and 0, and for correlation
functions equal to 1 the DC conductivity at the energy 0 is not 0. -/
example : ∃ E d, calcDcCond World.one { tiny with tnr := 1, limits := (-3, 3), spin := false } windowHanning windowExp (fun _ _ => 1)
    (fun _ _ => 0) (fun _ _ _ _ => 1) = .ok (E, d) ∧ d 0 0 1 ≠ 0 := by
  set c : Ctx := { tiny with tnr := 1, limits := (-3, 3), spin := false } with hc
  obtain ⟨E', D', h1, h2, h3, h4⟩ := C61_transform World.one c (by simp [hc]) (by norm_num [hc, tiny]) windowHanning
    (fun r k => if k = 0 then 1 else 1) (fun _ _ => 0)
  obtain ⟨E, D, hD, idx, hidx, hmem, d, hd, hval⟩ := C88_dc World.one c (by simp [hc]) windowHanning windowExp (fun _ _ => 1)
    (fun _ _ => 0) (fun _ _ _ _ => 1)
  refine ⟨_, _, hd, ?_⟩
  rw [hD] at h1
  obtain ⟨rfl, rfl⟩ : E = E' ∧ D = D' := by simpa using h1
  have hE0 : E.getD 0 0 = -2 := by rw [h3 0 (by simp [hc])]; norm_num [hc, tiny]
  have hE1 : E.getD 1 0 = 0 := by rw [h3 1 (by simp [hc])]; norm_num [hc, tiny]
  have hidx' : idx = [0, 1] := by
    refine List.Pairwise.eq_of_mem_iff hidx (by simp) fun i => ?_
    rw [hmem, h2]
    constructor
    · rintro ⟨h, -⟩; simp [hc] at h; simp; omega
    · intro h
      simp at h
      rcases h with rfl | rfl
      · rw [hE0]; norm_num [hc]
      · rw [hE1]; norm_num [hc]
  have hI : Finset.Ioc (-((1 : ℕ) : ℤ)) (1 : ℕ) = {0, 1} := by decide
  have hs1 : spectrum windowHanning 1 (2 * Real.pi / 4) (fun k => if k = 0 then 1 else 1) 0 = 2 := by
    unfold spectrum
    rw [hI]
    norm_num [dosWeight, atTime, windowHanning]
  have hs0 : spectrum windowHanning 1 (2 * Real.pi / 4) (fun k => if k = 0 then 1 else 1) (-2) = 0 := by
    unfold spectrum
    rw [hI]
    have : Complex.exp (Complex.I * ((-2 : ℝ) : ℂ) * (1 : ℤ) * ((2 * Real.pi / 4 : ℝ) : ℂ)) = -1 := by
      rw [show Complex.I * ((-2 : ℝ) : ℂ) * (1 : ℤ) * ((2 * Real.pi / 4 : ℝ) : ℂ) = -(Real.pi * Complex.I) by push_cast; ring,
        Complex.exp_neg, Complex.exp_pi_mul_I]
      norm_num
    rw [Finset.sum_pair (by norm_num), this]
    norm_num [dosWeight, atTime, windowHanning]
  have hD1 : D 0 1 ≠ 0 := by
    rw [h4 0 (by simp [World.one]) 1 (by simp [hc])]
    have : ∑ l ∈ Finset.range (2 * c.tnr), spectrum windowHanning c.tnr (2 * Real.pi / c.energyRange)
        ((fun r k => if k = 0 then 1 else 1 : ℕ → ℕ → ℂ) 0) (E.getD l 0) = 2 := by
      show ∑ l ∈ Finset.range 2, spectrum windowHanning 1 (2 * Real.pi / 4) (fun k => if k = 0 then 1 else 1) (E.getD l 0) = 2
      rw [Finset.sum_range_succ, Finset.sum_range_one, hE0, hE1, hs0, hs1]; norm_num
    rw [this, hE1]
    show c.spinFactor * (spectrum windowHanning 1 (2 * Real.pi / 4) (fun k => if k = 0 then 1 else 1) 0 / _) ≠ 0
    rw [hs1]
    norm_num [hc, tiny, Ctx.spinFactor]
  rw [hval 0 (by simp [World.one]) 0 1 (by simp [hidx']) (2 * Real.pi / 4) (by simp [hc, tiny]), hidx']
  simp [hD1, hc, tiny, Ctx.spinFactor, dcSignal, hE1, windowExp, Real.pi_ne_zero]

end Verif.Analysis

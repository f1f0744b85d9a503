import Verif.Proof.TimeLocal
import Verif.Props.Evolution
import Verif.Props.HaydockErr
import Verif.Props.Analysis

/-! # C133: the LDOS from the time evolution depends on the surroundings of the sites only -/

namespace Verif.Tbpm

open Matrix

variable {n n' : ℕ}

/-- The outcomes of two runs agree on all processes: both were stopped by the norm check or both returned the same numbers. -/
def SameOutcome (w : World) (x x' : Except TErr (ℕ → ℕ → ℂ)) : Prop :=
  (x = .error .diverged ∧ x' = .error .diverged) ∨ ∃ c c', x = .ok c ∧ x' = .ok c' ∧ ∀ r < w.size, c' r = c r

/-- C133: two samples, of any sizes, which agree within `depth` hoppings of the sites have the same correlation function of the LDOS, if
twice the depth is at least the number of time steps times the degree of the Chebyshev series of a step; whatever the schedules of the
loops.  The random numbers have to agree at the sites only.  (For the norm check to agree as well, the depth has to reach as far as the
state does at the time of the check.) -/
theorem C133_ldos {e : Env n} {e' : Env n'} (g : e.Good) (g' : e'.Good) (hH : e.H.IsHermitian) (hH' : e'.H.IsHermitian)
    (hbes : e'.bes = e.bes) (hnb : e'.nbes = e.nbes) {f : Fin n → Fin n'} {S : ℕ → Set (Fin n)} {sites : List (Fin n)} {depth : ℕ}
    (h : SameSurroundings e.H e'.H f S sites depth) (w : World) (rnd : ℤ → CVec n) (rnd' : ℤ → CVec n')
    (hrnd : ∀ s, ∀ i ∈ sites, rnd' s (f i) = rnd s i) (seed chk : ℤ) (thr : ℝ) (nt nsamp : ℕ)
    (hd : nt * (e.nbes - 1) ≤ 2 * depth) (hchk : ∀ t : ℕ, (t : ℤ) = chk → 1 ≤ t → t ≤ nt → (t - 1) * (e.nbes - 1) ≤ depth) :
    SameOutcome w (calcCorrLdos w e sites rnd seed chk thr nt nsamp) (calcCorrLdos w e' (sites.map f) rnd' seed chk thr nt nsamp) := by
  obtain ⟨h1, h2⟩ := ldos_run g w sites rnd seed chk thr nt nsamp
  obtain ⟨h1', h2'⟩ := ldos_run g' w (sites.map f) rnd' seed chk thr nt nsamp
  have hx : ∀ s, ldosState (sites.map f) (rnd' s) = Function.extend f (ldosState sites (rnd s)) 0 := fun s =>
    ldosState_extend f h.inj sites (rnd s) (rnd' s) (hrnd s)
  have hsup : ∀ s j, j ∉ S 0 → ldosState sites (rnd s) j = 0 := fun s j hj => ldosState_support sites (rnd s) j fun hm => hj (h.start j hm)
  have hdr : ∀ s (t : ℕ), (t : ℤ) = chk → 1 ≤ t → t ≤ nt →
      (Drifts thr ((e'.U true ^ (t - 1)).mulVec (ldosState (sites.map f) (rnd' s))) (ldosState (sites.map f) (rnd' s)) ↔
        Drifts thr ((e.U true ^ (t - 1)).mulVec (ldosState sites (rnd s))) (ldosState sites (rnd s))) := by
    intro s t ht ht1 htn
    unfold Drifts
    rw [hx, U_pow_poly, U_pow_poly, hbes, hnb, poly_extend h _ (hsup s) _ ((pow_degree _ _ _ _).trans (hchk t ht ht1 htn)),
      innerProd_extend h.inj, innerProd_extend h.inj]
  have hval : ∀ s, dosF e' nt (ldosState (sites.map f) (rnd' s)) = dosF e nt (ldosState sites (rnd s)) := by
    intro s
    funext t
    unfold dosF
    split_ifs with ht
    · rw [hx, U_pow_poly, U_pow_poly, hbes, hnb]
      exact poly_moment h _ (hsup s) hH hH' _ ((pow_degree _ _ _ _).trans ((Nat.mul_le_mul_right _ ht).trans hd))
    · rfl
  by_cases hb : ∃ j < (distSample w nsamp).1, ∃ t : ℕ, (t : ℤ) = chk ∧ 1 ≤ t ∧ t ≤ nt ∧
      Drifts thr ((e.U true ^ (t - 1)).mulVec (ldosState sites (rnd (seed * (j + 1))))) (ldosState sites (rnd (seed * (j + 1))))
  · left
    refine ⟨h1 hb, h1' ?_⟩
    obtain ⟨j, hj, t, ht, ht1, htn, hbad⟩ := hb
    exact ⟨j, hj, t, ht, ht1, htn, (hdr _ t ht ht1 htn).2 hbad⟩
  · right
    obtain ⟨c, hc, hv⟩ := h2 hb
    obtain ⟨c', hc', hv'⟩ := h2' (by
      rintro ⟨j, hj, t, ht, ht1, htn, hbad⟩
      exact hb ⟨j, hj, t, ht, ht1, htn, (hdr _ t ht ht1 htn).1 hbad⟩)
    refine ⟨c, c', hc, hc', fun r hr => ?_⟩
    rw [hv r hr, hv' r hr]
    simp only [hval]

/-- C133: hence the LDOS from the correlation functions is the same. -/
theorem C133_analysis (w : World) {x x' : Except TErr (ℕ → ℕ → ℂ)} (h : SameOutcome w x x') {c c' : ℕ → ℕ → ℂ} (hc : x = .ok c)
    (hc' : x' = .ok c') (ctx : Verif.Analysis.Ctx) (window : ℕ → ℕ → ℝ) (junk : ℕ → ℕ → ℂ) :
    Verif.Analysis.calcDos w ctx window c' junk = Verif.Analysis.calcDos w ctx window c junk := by
  rcases h with ⟨h1, -⟩ | ⟨d, d', h1, h2, h3⟩
  · rw [h1] at hc; cases hc
  · rw [h1] at hc; rw [h2] at hc'
    obtain rfl := Except.ok.inj hc
    obtain rfl := Except.ok.inj hc'
    unfold Verif.Analysis.calcDos
    have : (fun r => if r = 0 then Verif.Analysis.dosMaster ctx window (d' r) (junk r) else 0) =
        fun r => if r = 0 then Verif.Analysis.dosMaster ctx window (d r) (junk r) else 0 := by
      funext r
      split_ifs with hr
      · subst hr; rw [h3 0 w.pos]
      · rfl
    rw [this]

/-- C133: with the default precision the series of a time step has at most 22 terms. -/
theorem C133_terms {sch : List ℕ → ℕ → List (Fin n)} {ham : FCsr} {rescale : ℝ} (h0 : rescale ≠ 0) {besselMax : ℕ} {e : Env n}
    (he : solverEnv sch ham rescale 1 1e-14 besselMax = .ok e) : e.nbes ≤ 22 := by
  have hpi := Real.pi_pos
  have hpi' := Real.pi_lt_d2
  have hsmall : ∀ m, m = 22 ∨ m = 23 → |besselJ m Real.pi| ≤ 1e-14 := by
    intro m hm
    refine (besselJ_bound m _).trans ?_
    set y := Real.pi / 2 with hy
    have hy0 : 0 ≤ y := by rw [hy]; linarith
    have hy1 : y ≤ 1.6 := by rw [hy]; linarith
    rw [abs_of_nonneg hy0]
    have e1 : Real.exp (y ^ 2) ≤ 27 := by
      have : y ^ 2 ≤ 3 := by nlinarith
      refine (Real.exp_le_exp.2 this).trans ?_
      have h3 : Real.exp 3 = Real.exp 1 ^ 3 := by rw [← Real.exp_nat_mul]; norm_num
      rw [h3]
      have := Real.exp_one_lt_d9
      have h4 : Real.exp 1 ≤ 3 := by linarith
      calc Real.exp 1 ^ 3 ≤ 3 ^ 3 := pow_le_pow_left₀ (Real.exp_pos _).le h4 3
        _ = 27 := by norm_num
    have e2 : y ^ m / m.factorial ≤ 1.6 ^ m / m.factorial :=
      div_le_div_of_nonneg_right (pow_le_pow_left₀ hy0 hy1 m) (by positivity)
    calc y ^ m / m.factorial * Real.exp (y ^ 2) ≤ 1.6 ^ m / m.factorial * 27 :=
          mul_le_mul e2 e1 (Real.exp_pos _).le (by positivity)
      _ ≤ 1e-14 := by rcases hm with rfl | rfl <;> norm_num [Nat.factorial]
  unfold solverEnv at he
  dsimp only at he
  rw [time_scaled h0, one_mul] at he
  obtain ⟨b1, b2⟩ := bessel_series (fun i => besselJ i Real.pi) 1e-14 besselMax
  by_cases hex : ∃ i, i < besselMax ∧ |besselJ i Real.pi| ≤ 1e-14 ∧ |besselJ (i + 1) Real.pi| ≤ 1e-14
  · classical
    have hm := Nat.find_spec hex
    have hmin := fun i => Nat.find_min hex (m := i)
    set m := Nat.find hex with hmdef
    rw [b1 m hm.1 (fun i hi hh => hmin i hi ⟨hi.trans hm.1, hh⟩) hm.2] at he
    cases he
    simp only [List.length_map, List.length_range]
    by_contra hcon
    push Not at hcon
    exact hmin 22 hcon ⟨hcon.trans hm.1, hsmall 22 (Or.inl rfl), hsmall 23 (Or.inr rfl)⟩
  · rw [b2 fun i hi hh => hex ⟨i, hi, hh⟩] at he
    cases he

/-- C133: with the default settings (1024 time steps, precision 1e-14, check at step 128) 10752 hoppings around the sites are enough. -/
theorem C133_default {sch : List ℕ → ℕ → List (Fin n)} {ham : FCsr} {sch' : List ℕ → ℕ → List (Fin n')} {ham' : FCsr}
    (hr : Ready sch ham) (hr' : Ready sch' ham') {rescale : ℝ} (h0 : rescale ≠ 0) {besselMax : ℕ} (hb : 42 ≤ besselMax)
    {f : Fin n → Fin n'} {S : ℕ → Set (Fin n)} {sites : List (Fin n)}
    (h : SameSurroundings (ham.toMatrix n) (ham'.toMatrix n') f S sites 10752) (w : World) (rnd : ℤ → CVec n) (rnd' : ℤ → CVec n')
    (hrnd : ∀ s, ∀ i ∈ sites, rnd' s (f i) = rnd s i) (seed : ℤ) (thr : ℝ) (nsamp : ℕ) :
    ∃ e e', solverEnv sch ham rescale 1 1e-14 besselMax = .ok e ∧ solverEnv sch' ham' rescale 1 1e-14 besselMax = .ok e' ∧
      SameOutcome w (calcCorrLdos w e sites rnd seed 128 thr 1024 nsamp) (calcCorrLdos w e' (sites.map f) rnd' seed 128 thr 1024 nsamp) := by
  obtain ⟨hp, e, he⟩ := C107_default (rescale := rescale) (scale := 1) sch ham h0 (by norm_num) le_rfl hb
  obtain ⟨-, e', he'⟩ := C107_default (rescale := rescale) (scale := 1) sch' ham' h0 (by norm_num) le_rfl hb
  have g := (env_steps hr h0 hp he).1
  have g' := (env_steps hr' h0 hp he').1
  have ht := C133_terms h0 he
  have hH := (solverEnv_spec hr he).2
  have hH' := (solverEnv_spec hr' he').2
  have hsame : e'.bes = e.bes ∧ e'.nbes = e.nbes := by
    unfold solverEnv at he he'
    cases hs : besselSeries (fun i => besselJ i (1 * getTimeStep rescale * rescale)) 1e-14 besselMax with
    | error x => simp only [hs] at he; cases he
    | ok l =>
      simp only [hs] at he he'
      cases he; cases he'
      exact ⟨rfl, rfl⟩
  refine ⟨e, e', he, he', C133_ldos g g' (by rw [hH]; exact hr.herm) (by rw [hH']; exact hr'.herm) hsame.1 hsame.2
    (by rw [hH, hH']; exact h) w rnd rnd' hrnd seed 128 thr 1024 nsamp (by omega) (fun t ht' _ _ => ?_)⟩
  have : t = 128 := by exact_mod_cast ht'
  subst this
  omega

/-- Two time steps on chains of three and four orbitals with series of three terms: the end at distance two of the shorter chain is not
noticed at the first orbital. -/
example (bes : ℕ → ℝ) (w : World) (rnd : ℤ → CVec 3) (rnd' : ℤ → CVec 4) (h : ∀ s, rnd' s 0 = rnd s 0) (seed : ℤ) (thr : ℝ) (nsamp : ℕ) :
    SameOutcome w (calcCorrLdos w ⟨fun _ _ => List.finRange 3, pathCsr 3, bes, 3⟩ [0] rnd seed 2 thr 2 nsamp)
      (calcCorrLdos w ⟨fun _ _ => List.finRange 4, pathCsr 4, bes, 3⟩ [0] rnd' seed 2 thr 2 nsamp) :=
  C133_ldos (e := ⟨fun _ _ => List.finRange 3, pathCsr 3, bes, 3⟩) (e' := ⟨fun _ _ => List.finRange 4, pathCsr 4, bes, 3⟩)
    ⟨fun _ _ => List.Perm.refl _, pathCsr_legal 3 (by norm_num), le_rfl⟩ ⟨fun _ _ => List.Perm.refl _, pathCsr_legal 4 (by norm_num), le_rfl⟩
    (by unfold Env.H; rw [path3]; ext a b; fin_cases a <;> fin_cases b <;> simp)
    (by unfold Env.H; rw [path4]; ext a b; fin_cases a <;> fin_cases b <;> simp) rfl rfl path_same w rnd rnd'
    (by intro s i hi; rw [List.mem_singleton] at hi; subst hi; exact h s) seed 2 thr 2 nsamp (by norm_num)
    (fun t ht _ _ => by have : t = 2 := by exact_mod_cast ht
                        subst this; norm_num)

end Verif.Tbpm

import Verif.Proof.BipartiteDiag
import Verif.Props.Arpack
import Verif.Props.TimeLocal
import Verif.Props.RandomAvg
import Verif.Props.Graphene
import Verif.Props.Overlap

/-! # C134: electron-hole symmetry -/

namespace Verif.Tbpm

open Matrix

variable {n : ℕ} {c : Fin n → Bool}

/-! ## Time evolution -/

/-- The outcomes of two runs agree up to complex conjugation: both were stopped by the norm check or returned conjugate numbers. -/
def ConjOutcome (w : World) (x x' : Except TErr (ℕ → ℕ → ℂ)) : Prop :=
  (x = .error .diverged ∧ x' = .error .diverged) ∨ ∃ d d', x = .ok d ∧ x' = .ok d' ∧ ∀ r < w.size, ∀ t, d' r t = star (d r t)

theorem dosF_flip {e : Env n} (h : Bipartite e.H c) (hH : e.H.IsHermitian) (nt : ℕ) (x : CVec n) (t : ℕ) :
    dosF e nt (flipState c x) t = star (dosF e nt x t) := by
  unfold dosF
  split_ifs
  · exact corr_flip h hH x t
  · simp

theorem mean_star (N : ℕ) (seed : ℤ) (f g : ℤ → ℕ → ℂ) (h : ∀ s t, f s t = star (g s t)) (t : ℕ) :
    meanSamples ℂ N seed f t = star (meanSamples ℂ N seed g t) := by
  unfold meanSamples
  simp only [Pi.smul_apply, Finset.sum_apply, smul_eq_mul, star_mul', star_sum, h, star_inv₀, star_natCast]

/-- C134: if the hoppings of a sample join sites of different kinds only and there are no on-site energies, reversing the sign of the
random states at the sites of one kind conjugates the correlation function of the DOS. -/
theorem C134_corr_dos {e : Env n} (g : e.Good) (hH : e.H.IsHermitian) (h : Bipartite e.H c) (w : World) (rnd : ℤ → CVec n)
    (seed chk : ℤ) (thr : ℝ) (nt : ℕ) (hnt : 1 ≤ nt) (nsamp : ℕ) :
    ConjOutcome w (calcCorrDos w e rnd seed chk thr nt nsamp) (calcCorrDos w e (fun s => flipState c (rnd s)) seed chk thr nt nsamp) := by
  obtain ⟨h1, h2⟩ := dos_run g w rnd seed chk thr nt hnt nsamp
  obtain ⟨h1', h2'⟩ := dos_run g w (fun s => flipState c (rnd s)) seed chk thr nt hnt nsamp
  have hdr : ∀ (x : CVec n) (t : ℕ), Drifts thr ((e.U true ^ (t - 1)).mulVec (flipState c x)) ((e.U true).mulVec (flipState c x)) ↔
      Drifts thr ((e.U true ^ (t - 1)).mulVec x) ((e.U true).mulVec x) := by
    intro x t
    have h1 := norm_flip h hH x 1
    rw [pow_one] at h1
    unfold Drifts
    rw [norm_flip h hH, h1]
  simp only [hdr] at h1' h2'
  by_cases hb : ∃ j < (distSample w nsamp).1, ∃ t : ℕ, (t : ℤ) = chk ∧ 2 ≤ t ∧ t ≤ nt ∧
      Drifts thr ((e.U true ^ (t - 1)).mulVec (rnd (seed * (j + 1)))) ((e.U true).mulVec (rnd (seed * (j + 1))))
  · exact Or.inl ⟨h1 hb, h1' hb⟩
  · right
    obtain ⟨d, hd, hv⟩ := h2 hb
    obtain ⟨d', hd', hv'⟩ := h2' hb
    refine ⟨d, d', hd, hd', fun r hr t => ?_⟩
    rw [hv r hr, hv' r hr]
    exact mean_star _ _ _ _ (fun s t => dosF_flip h hH nt _ t) t

/-- C134: likewise for the LDOS. -/
theorem C134_corr_ldos {e : Env n} (g : e.Good) (hH : e.H.IsHermitian) (h : Bipartite e.H c) (w : World) (sites : List (Fin n))
    (rnd : ℤ → CVec n) (seed chk : ℤ) (thr : ℝ) (nt : ℕ) (nsamp : ℕ) :
    ConjOutcome w (calcCorrLdos w e sites rnd seed chk thr nt nsamp)
      (calcCorrLdos w e sites (fun s => flipState c (rnd s)) seed chk thr nt nsamp) := by
  obtain ⟨h1, h2⟩ := ldos_run g w sites rnd seed chk thr nt nsamp
  obtain ⟨h1', h2'⟩ := ldos_run g w sites (fun s => flipState c (rnd s)) seed chk thr nt nsamp
  have hdr : ∀ (x : CVec n) (t : ℕ), Drifts thr ((e.U true ^ (t - 1)).mulVec (flipState c x)) (flipState c x) ↔
      Drifts thr ((e.U true ^ (t - 1)).mulVec x) x := by
    intro x t
    unfold Drifts
    rw [norm_flip h hH, flip_inner]
  simp only [flip_ldos, hdr] at h1' h2'
  by_cases hb : ∃ j < (distSample w nsamp).1, ∃ t : ℕ, (t : ℤ) = chk ∧ 1 ≤ t ∧ t ≤ nt ∧
      Drifts thr ((e.U true ^ (t - 1)).mulVec (ldosState sites (rnd (seed * (j + 1))))) (ldosState sites (rnd (seed * (j + 1))))
  · exact Or.inl ⟨h1 hb, h1' hb⟩
  · right
    obtain ⟨d, hd, hv⟩ := h2 hb
    obtain ⟨d', hd', hv'⟩ := h2' hb
    refine ⟨d, d', hd, hd', fun r hr t => ?_⟩
    rw [hv r hr, hv' r hr]
    exact mean_star _ _ _ _ (fun s t => dosF_flip h hH nt _ t) t

theorem ldosState_congr (sites : List (Fin n)) (x y : CVec n) (h : ∀ i ∈ sites, x i = y i) : ldosState sites x = ldosState sites y := by
  have h1 : sites.foldl (fun w i => Function.update w i (x i)) (0 : CVec n) = sites.foldl (fun w i => Function.update w i (y i)) 0 := by
    funext i
    rw [ldosFold, ldosFold]
    split_ifs with hi
    · exact h i hi
    · rfl
  unfold ldosState
  simp only [h1]

/-- C134: the correlation function of the LDOS at sites of one kind is real. -/
theorem C134_ldos_real {e : Env n} (g : e.Good) (hH : e.H.IsHermitian) (h : Bipartite e.H c) (w : World) (sites : List (Fin n)) (b : Bool)
    (hb : ∀ i ∈ sites, c i = b) (rnd : ℤ → CVec n) (seed chk : ℤ) (thr : ℝ) (nt : ℕ) (nsamp : ℕ) {d : ℕ → ℕ → ℂ}
    (hd : calcCorrLdos w e sites rnd seed chk thr nt nsamp = .ok d) : ∀ r < w.size, ∀ t, star (d r t) = d r t := by
  have h' : Bipartite e.H (fun i => Bool.xor (c i) b) := fun i j hij => h i j (by
    simpa using hij)
  have hc := C134_corr_ldos g hH h' w sites rnd seed chk thr nt nsamp
  have hs : calcCorrLdos w e sites (fun s => flipState (fun i => Bool.xor (c i) b) (rnd s)) seed chk thr nt nsamp = .ok d := by
    obtain ⟨h1, h2⟩ := ldos_run g w sites rnd seed chk thr nt nsamp
    have : ∀ s, ldosState sites (flipState (fun i => Bool.xor (c i) b) (rnd s)) = ldosState sites (rnd s) := by
      intro s
      refine ldosState_congr _ _ _ fun i hi => ?_
      rw [flip_apply]
      simp [sgn, hb i hi]
    rw [← hd]
    unfold calcCorrLdos tbpmLdos
    congr 3
    funext r
    congr 1
    funext acc s
    simp only [ldosSample, this]
  rw [hd, hs] at hc
  rcases hc with ⟨h1, -⟩ | ⟨d1, d2, h1, h2, h3⟩
  · cases h1
  · obtain rfl := Except.ok.inj h1
    obtain rfl := Except.ok.inj h2
    exact fun r hr t => (h3 r hr t).symm

/-- C134: conjugate correlation functions have mirrored spectra: the DOS (or LDOS) of the one at an energy is that of the other at the
opposite energy. -/
theorem C134_mirror (w : World) (ctx : Verif.Analysis.Ctx) (hn : 0 < ctx.tnr) (hR : ctx.energyRange ≠ 0) (window : ℕ → ℕ → ℝ)
    (corr corr' junk junk' : ℕ → ℕ → ℂ) (hc : ∀ t, corr' 0 t = star (corr 0 t)) :
    ∃ E d d', Verif.Analysis.calcDos w ctx window corr junk = .ok (E, d) ∧ Verif.Analysis.calcDos w ctx window corr' junk' = .ok (E, d') ∧
      ∀ r < w.size, d' r 0 = d r 0 ∧
        ∀ j, 1 ≤ j → j < 2 * ctx.tnr → E.getD (2 * ctx.tnr - j) 0 = -E.getD j 0 ∧ d' r (2 * ctx.tnr - j) = d r j := by
  obtain ⟨E, d, h1, hl, hE, hd⟩ := Verif.Analysis.C61_transform w ctx hn hR window corr junk
  obtain ⟨E', d', h1', hl', hE', hd'⟩ := Verif.Analysis.C61_transform w ctx hn hR window corr' junk'
  have hEE : E' = E := by
    refine List.ext_getElem (by rw [hl, hl']) fun j hj hj' => ?_
    have a := hE j (by omega)
    have b := hE' j (by omega)
    rw [List.getD_eq_getElem?_getD, List.getElem?_eq_getElem hj'] at a
    rw [List.getD_eq_getElem?_getD, List.getElem?_eq_getElem hj] at b
    simp only [Option.getD_some] at a b
    rw [a, b]
  subst hEE
  have hn' : (ctx.tnr : ℝ) ≠ 0 := by exact_mod_cast hn.ne'
  have hspec : ∀ x : ℝ, Verif.Analysis.spectrum window ctx.tnr (2 * Real.pi / ctx.energyRange) (corr' 0) (-x) =
      Verif.Analysis.spectrum window ctx.tnr (2 * Real.pi / ctx.energyRange) (corr 0) x := by
    intro x
    unfold Verif.Analysis.spectrum
    rw [← norm_star, star_sum]
    congr 1
    refine Finset.sum_congr rfl fun t _ => ?_
    have e1 : star (Verif.Analysis.atTime (corr' 0) t) = Verif.Analysis.atTime (corr 0) t := by
      unfold Verif.Analysis.atTime
      split_ifs <;> simp [hc]
    have e2 : star (Complex.exp (Complex.I * ((-x : ℝ) : ℂ) * t * ((2 * Real.pi / ctx.energyRange : ℝ) : ℂ))) =
        Complex.exp (Complex.I * x * t * ((2 * Real.pi / ctx.energyRange : ℝ) : ℂ)) := by
      change (starRingEnd ℂ) _ = _
      rw [← Complex.exp_conj]
      congr 1
      simp only [map_mul, Complex.conj_I, Complex.conj_ofReal, map_intCast]
      push_cast
      ring
    have e3 : star ((Verif.Analysis.dosWeight window ctx.tnr t : ℝ) : ℂ) = Verif.Analysis.dosWeight window ctx.tnr t := Complex.conj_ofReal _
    rw [star_mul', star_mul', e1, e2, e3]
  have hmir : ∀ j, 1 ≤ j → j < 2 * ctx.tnr → E'.getD (2 * ctx.tnr - j) 0 = -E'.getD j 0 := by
    intro j hj1 hj
    rw [hE _ hj, hE _ (by omega), Nat.cast_sub (by omega)]
    push_cast
    ring
  have hzero : Verif.Analysis.spectrum window ctx.tnr (2 * Real.pi / ctx.energyRange) (corr' 0) (E'.getD 0 0) =
      Verif.Analysis.spectrum window ctx.tnr (2 * Real.pi / ctx.energyRange) (corr 0) (E'.getD 0 0) := by
    rw [← hspec]
    unfold Verif.Analysis.spectrum
    congr 1
    refine Finset.sum_congr rfl fun t _ => ?_
    congr 1
    rw [Complex.exp_eq_exp_iff_exists_int]
    refine ⟨-t, ?_⟩
    rw [hE 0 (by omega)]
    have hn'' : (ctx.tnr : ℂ) ≠ 0 := by exact_mod_cast hn.ne'
    have hR' : (ctx.energyRange : ℂ) ≠ 0 := by exact_mod_cast hR
    push_cast
    field_simp
    ring
  have hall : ∀ j, j < 2 * ctx.tnr → Verif.Analysis.spectrum window ctx.tnr (2 * Real.pi / ctx.energyRange) (corr' 0) (E'.getD j 0) =
      Verif.Analysis.spectrum window ctx.tnr (2 * Real.pi / ctx.energyRange) (corr 0) (E'.getD (if j = 0 then 0 else 2 * ctx.tnr - j) 0) := by
    intro j hj
    split_ifs with h0
    · subst h0; exact hzero
    · rw [← hspec, hmir j (by omega) hj, neg_neg]
  have htot : ∑ l ∈ Finset.range (2 * ctx.tnr), Verif.Analysis.spectrum window ctx.tnr (2 * Real.pi / ctx.energyRange) (corr' 0) (E'.getD l 0) =
      ∑ l ∈ Finset.range (2 * ctx.tnr), Verif.Analysis.spectrum window ctx.tnr (2 * Real.pi / ctx.energyRange) (corr 0) (E'.getD l 0) := by
    refine Finset.sum_bij' (fun j _ => if j = 0 then 0 else 2 * ctx.tnr - j) (fun j _ => if j = 0 then 0 else 2 * ctx.tnr - j) ?_ ?_ ?_ ?_ ?_
    · intro j hj; rw [Finset.mem_range] at *; split_ifs <;> omega
    · intro j hj; rw [Finset.mem_range] at *; split_ifs <;> omega
    · intro j hj; rw [Finset.mem_range] at hj; split_ifs <;> omega
    · intro j hj; rw [Finset.mem_range] at hj; split_ifs <;> omega
    · intro j hj; exact hall j (Finset.mem_range.1 hj)
  refine ⟨E', d, d', h1, h1', fun r hr => ⟨?_, fun j hj1 hj => ⟨hmir j hj1 hj, ?_⟩⟩⟩
  · rw [hd r hr 0 (by omega), hd' r hr 0 (by omega), htot, hzero]
  · rw [hd r hr j hj, hd' r hr _ (by omega), htot, hall _ (by omega), if_neg (by omega), show 2 * ctx.tnr - (2 * ctx.tnr - j) = j by omega]

/-- C134: hence the LDOS from the time evolution at sites of one kind is symmetric: equal at opposite energies. -/
theorem C134_ldos {e : Env n} (g : e.Good) (hH : e.H.IsHermitian) (h : Bipartite e.H c) (w : World) (sites : List (Fin n)) (b : Bool)
    (hb : ∀ i ∈ sites, c i = b) (rnd : ℤ → CVec n) (seed chk : ℤ) (thr : ℝ) (nt : ℕ) (nsamp : ℕ) {d : ℕ → ℕ → ℂ}
    (hd : calcCorrLdos w e sites rnd seed chk thr nt nsamp = .ok d) (ctx : Verif.Analysis.Ctx) (hn : 0 < ctx.tnr)
    (hR : ctx.energyRange ≠ 0) (window : ℕ → ℕ → ℝ) (junk : ℕ → ℕ → ℂ) :
    ∃ E f, Verif.Analysis.calcDos w ctx window d junk = .ok (E, f) ∧ ∀ r < w.size, ∀ j, 1 ≤ j → j < 2 * ctx.tnr →
      E.getD (2 * ctx.tnr - j) 0 = -E.getD j 0 ∧ f r (2 * ctx.tnr - j) = f r j := by
  have hreal := C134_ldos_real g hH h w sites b hb rnd seed chk thr nt nsamp hd
  obtain ⟨E, f, f', h1, h2, h3⟩ := C134_mirror w ctx hn hR window d d junk junk fun t => (hreal 0 w.pos t).symm
  rw [h1] at h2
  obtain ⟨-, rfl⟩ := Prod.mk.inj (Except.ok.inj h2)
  exact ⟨E, f, h1, fun r hr j hj1 hj => (h3 r hr).2 j hj1 hj⟩

/-- C134: the mean over the random states of the correlation function of the DOS is real. -/
theorem C134_mean {Ω : Type*} [MeasurableSpace Ω] {P : MeasureTheory.Measure Ω} [MeasureTheory.IsProbabilityMeasure P] {D : ℤ → Ω → Fin n → ℝ × ℝ} (hn : 0 < n) (hD : IdealDraws P D)
    {e : Env n} (g : e.Good) (hH : e.H.IsHermitian) (h : Bipartite e.H c) (w : World) {seed : ℤ} (hs : seed ≠ 0) (chk : ℤ)
    (thr : ℝ) (nt : ℕ) (hnt : 1 ≤ nt) (nsamp : ℕ) (h1 : 1 ≤ nsamp) {d : Ω → ℕ → ℕ → ℂ}
    (hc : ∀ ω, calcCorrDos w e (fun s => randomState (D s ω)) seed chk thr nt nsamp = .ok (d ω)) :
    ∀ r < w.size, ∀ t ≤ nt, star (∫ ω, d ω r t ∂P) = ∫ ω, d ω r t ∂P := by
  obtain ⟨N, -, hN⟩ := C124_dos hn hD g w hs chk thr nt hnt nsamp h1 hc
  intro r hr t ht
  rw [(hN r hr t ht).1]
  have htr : star (e.U true ^ t).trace = (e.U true ^ t).trace := by
    rw [← Matrix.trace_conjTranspose, Matrix.conjTranspose_pow, U_adjoint hH]
    have := U_pow_flip h true t
    have e1 : e.U (!true) ^ t = Matrix.diagonal (sgn c) * (e.U true ^ t * Matrix.diagonal (sgn c)) := by
      rw [this, ← Matrix.mul_assoc, sgn_sq, Matrix.one_mul]
    rw [e1, Matrix.trace_mul_comm, Matrix.mul_assoc, sgn_sq, Matrix.mul_one]
  rw [star_div₀, htr, star_natCast]

/-! ## Recursion -/

theorem avg_sums (F : ℕ → ℕ → ℂ) (G : ℕ → ℕ → ℝ) (ns : ℕ) (N : ℂ) (M : ℝ) :
    (List.range ns).foldl (fun (ab : (ℕ → ℂ) × (ℕ → ℝ)) s => (fun i => ab.1 i + F s i / N, fun i => ab.2 i + G s i / M))
      (fun _ => 0, fun _ => 0) = (fun i => ∑ s ∈ Finset.range ns, F s i / N, fun i => ∑ s ∈ Finset.range ns, G s i / M) := by
  induction ns with
  | zero => simp
  | succ k ih =>
    rw [List.range_succ, List.foldl_append, ih]
    simp only [List.foldl_cons, List.foldl_nil]
    refine Prod.ext ?_ ?_ <;> (funext i; simp only [Finset.sum_range_succ])

theorem siteState_flip (c : Fin n → Bool) (sites : List (Fin n)) (x x' : ℕ → ℂ)
    (h : ∀ i (hi : i < sites.length), x' i = if c sites[i] then -x i else x i) : siteState sites x' = flipState c (siteState sites x) := by
  unfold siteState
  rw [← flip_site]
  have h0 : flipState c (0 : CVec n) = 0 := by funext i; simp [flip_apply]
  rw [h0]
  refine List.foldl_ext _ _ _ fun w p hp => ?_
  obtain ⟨i, hi, hpi⟩ := List.getElem_of_mem hp
  rw [List.getElem_zip] at hpi
  subst hpi
  rw [List.length_zip] at hi
  have hi' : i < sites.length := by omega
  simp only [List.getElem_range]
  rw [h i hi']
  unfold sgn
  split_ifs <;> simp

/-- C134: for the recursion method, reversing the sign of the random numbers at the sites of one kind mirrors the LDOS. -/
theorem C134_recursion {m : FCsr} (hm : m.Legal n) (hH : (m.toMatrix n).IsHermitian) (h : Bipartite (m.toMatrix n) c)
    (sch sch' : ℕ → ℕ → List (Fin n)) (hs : ∀ s k, IsOrder (sch s k)) (hs' : ∀ s k, IsOrder (sch' s k)) (rescale : ℝ)
    (sites : List (Fin n)) (rnd rnd' : ℕ → ℕ → ℂ)
    (hr : ∀ s i (hi : i < sites.length), rnd' s i = if c sites[i] then -rnd s i else rnd s i)
    (delta eRange : ℝ) (depth nt ns : ℕ) (hd : 1 ≤ depth) {energy ldos : ℤ → ℝ}
    (hl : ldosHaydock sch m rescale sites rnd delta eRange depth nt ns = some (energy, ldos)) :
    ∃ ldos', ldosHaydock sch' m rescale sites rnd' delta eRange depth nt ns = some (energy, ldos') ∧
      ∀ i, energy (-i) = -energy i ∧ ldos' (-i) = ldos i := by
  have hA : Bipartite ((rescale : ℂ) • m.toMatrix n) c := fun i j hij => by rw [Matrix.smul_apply, h i j hij, smul_zero]
  have hAH : ((rescale : ℂ) • m.toMatrix n).IsHermitian := by
    unfold Matrix.IsHermitian
    rw [Matrix.conjTranspose_smul, hH.eq]
    congr 1
    exact Complex.conj_ofReal _
  set A := (rescale : ℂ) • m.toMatrix n with hAdef
  have hst : ∀ s, siteState sites (rnd' s) = flipState c (siteState sites (rnd s)) := fun s => siteState_flip c sites _ _ (hr s)
  have hcoef := fun s i (hi : i < depth) => haydock_coef (sch s) (hs s) m hm rescale (siteState sites (rnd s)) depth hd i hi
  have hcoef' := fun s i (hi : i < depth) => haydock_coef (sch' s) (hs' s) m hm rescale (siteState sites (rnd' s)) depth hd i hi
  simp only [← hAdef, hst, la_flip hA, lb_flip hA] at hcoef hcoef'
  unfold ldosHaydock at hl ⊢
  simp only [hst] at hl ⊢
  have hif : (∃ s < ns, ∃ i, i + 1 < depth ∧ (haydock (sch' s) m rescale (flipState c (siteState sites (rnd s))) depth).coefb i = 0) ↔
      ∃ s < ns, ∃ i, i + 1 < depth ∧ (haydock (sch s) m rescale (siteState sites (rnd s)) depth).coefb i = 0 := by
    refine exists_congr fun s => and_congr_right fun _ => exists_congr fun i => and_congr_right fun hi => ?_
    rw [(hcoef s i (by omega)).2, (hcoef' s i (by omega)).2]
  by_cases hb : ∃ s < ns, ∃ i, i + 1 < depth ∧ (haydock (sch s) m rescale (siteState sites (rnd s)) depth).coefb i = 0
  · rw [if_pos hb] at hl; cases hl
  · rw [if_neg hb] at hl
    rw [if_neg fun h => hb (hif.1 (by simpa only [hst] using h))]
    simp only [Option.some.injEq, Prod.mk.injEq] at hl
    obtain ⟨he, hv⟩ := hl
    refine ⟨_, by rw [he], fun i => ?_⟩
    have hen : energy (-i) = -energy i := by
      rw [← he]
      push_cast
      ring
    refine ⟨hen, ?_⟩
    rw [← hv]
    have hen1 : (0.5 * ((-i : ℤ) : ℝ) * eRange / nt) = -(0.5 * (i : ℝ) * eRange / nt) := by push_cast; ring
    simp only [hen1]
    congr 1
    rw [green_eq, green_eq, avg_sums (fun s => (haydock (sch s) m rescale (siteState sites (rnd s)) depth).coefa)
      (fun s => (haydock (sch s) m rescale (siteState sites (rnd s)) depth).coefb),
      avg_sums (fun s => (haydock (sch' s) m rescale (flipState c (siteState sites (rnd s))) depth).coefa)
      (fun s => (haydock (sch' s) m rescale (flipState c (siteState sites (rnd s))) depth).coefb)]
    simp only
    set a : ℕ → ℂ := fun i => ∑ s ∈ Finset.range ns, la A (siteState sites (rnd s)) i / ns with ha
    set b : ℕ → ℝ := fun i => ∑ s ∈ Finset.range ns, lb A (siteState sites (rnd s)) i / ns with hbdef
    have hreal : ∀ i, (a i).im = 0 := by
      intro i
      rw [ha]
      simp only [Complex.im_sum]
      refine Finset.sum_eq_zero fun s _ => ?_
      have h2 := Complex.conj_eq_iff_im.1 (la_real (v0 := siteState sites (rnd s)) hAH i)
      rw [Complex.div_natCast_im, h2, zero_div]
    have hL : ∀ z, cfrac z (fun i => ∑ s ∈ Finset.range ns, (haydock (sch s) m rescale (siteState sites (rnd s)) depth).coefa i / ns)
        (fun i => ∑ s ∈ Finset.range ns, (haydock (sch s) m rescale (siteState sites (rnd s)) depth).coefb i / ns) depth 0 =
        cfrac z a b depth 0 := fun z => cfrac_congr _ _ _ _ _ _ _ fun j _ hj =>
      ⟨Finset.sum_congr rfl fun s _ => by rw [(hcoef s j (by omega)).1], Finset.sum_congr rfl fun s _ => by rw [(hcoef s j (by omega)).2]⟩
    have hR : ∀ z, cfrac z (fun i => ∑ s ∈ Finset.range ns, (haydock (sch' s) m rescale (flipState c (siteState sites (rnd s))) depth).coefa i / ns)
        (fun i => ∑ s ∈ Finset.range ns, (haydock (sch' s) m rescale (flipState c (siteState sites (rnd s))) depth).coefb i / ns) depth 0 =
        cfrac z (fun i => -a i) b depth 0 := fun z => cfrac_congr _ _ _ _ _ _ _ fun j _ hj =>
      ⟨by
        rw [ha]
        simp only
        rw [← Finset.sum_neg_distrib]
        exact Finset.sum_congr rfl fun s _ => by rw [(hcoef' s j (by omega)).1, neg_div],
        Finset.sum_congr rfl fun s _ => by rw [(hcoef' s j (by omega)).2]⟩
    rw [hL, hR, cfrac_flip _ _ a hreal]
    simp

/-- C134: hence the recursion LDOS at sites of one kind is symmetric. -/
theorem C134_recursion_even {m : FCsr} (hm : m.Legal n) (hH : (m.toMatrix n).IsHermitian) (h : Bipartite (m.toMatrix n) c)
    (sch : ℕ → ℕ → List (Fin n)) (hs : ∀ s k, IsOrder (sch s k)) (rescale : ℝ) (sites : List (Fin n)) (b : Bool)
    (hb : ∀ i ∈ sites, c i = b) (rnd : ℕ → ℕ → ℂ) (delta eRange : ℝ) (depth nt ns : ℕ) (hd : 1 ≤ depth) {energy ldos : ℤ → ℝ}
    (hl : ldosHaydock sch m rescale sites rnd delta eRange depth nt ns = some (energy, ldos)) (i : ℤ) :
    energy (-i) = -energy i ∧ ldos (-i) = ldos i := by
  have h' : Bipartite (m.toMatrix n) (fun i => Bool.xor (c i) b) := fun i j hij => h i j (by simpa using hij)
  obtain ⟨l', h1, h2⟩ := C134_recursion hm hH h' sch sch hs hs rescale sites rnd rnd
    (fun s i hi => by simp [hb _ (List.getElem_mem hi)]) delta eRange depth nt ns hd hl
  rw [hl] at h1
  obtain ⟨-, rfl⟩ := Prod.mk.inj (Option.some.inj h1)
  exact h2 i

/-- A path of three sites is bipartite. -/
theorem path_bipartite : Bipartite ((pathCsr 3).toMatrix 3) (fun i => decide (i = 1)) := by
  rw [path3]
  intro i j h
  fin_cases i <;> fin_cases j <;> simp_all

/-- A case: the outer sites of a path of three sites.  Every run succeeds without a norm check; the LDOS is symmetric. -/
example (bes : ℕ → ℝ) (w : World) (rnd : ℤ → CVec 3) (seed : ℤ) (thr : ℝ) (nsamp : ℕ) (junk : ℕ → ℕ → ℂ) (window : ℕ → ℕ → ℝ)
    (ctx : Verif.Analysis.Ctx) (hn : 0 < ctx.tnr) (hR : ctx.energyRange ≠ 0) :
    ∃ d E f, calcCorrLdos w ⟨fun _ _ => List.finRange 3, pathCsr 3, bes, 3⟩ [0, 2] rnd seed 0 thr 1024 nsamp = .ok d ∧
      Verif.Analysis.calcDos w ctx window d junk = .ok (E, f) ∧ ∀ r < w.size, ∀ j, 1 ≤ j → j < 2 * ctx.tnr →
        E.getD (2 * ctx.tnr - j) 0 = -E.getD j 0 ∧ f r (2 * ctx.tnr - j) = f r j := by
  have g : Env.Good ⟨fun _ _ => List.finRange 3, pathCsr 3, bes, 3⟩ := ⟨fun _ _ => List.Perm.refl _, pathCsr_legal 3 (by norm_num), le_rfl⟩
  obtain ⟨d, hd, -⟩ := (ldos_run g w [0, 2] rnd seed 0 thr 1024 nsamp).2 (by
    rintro ⟨j, -, t, ht, h1, -⟩
    omega)
  obtain ⟨E, f, h1, h2⟩ := C134_ldos (c := fun i => decide (i = 1)) g
    (by unfold Env.H; rw [path3]; ext a b; fin_cases a <;> fin_cases b <;> simp) path_bipartite w [0, 2] false (by simp) rnd seed 0 thr 1024
    nsamp hd ctx hn hR window junk
  exact ⟨d, E, f, hd, h1, h2⟩

/-- A case: the recursion for the middle site. -/
example (rnd : ℕ → ℕ → ℂ) (delta eRange : ℝ) : ∃ energy ldos,
    ldosHaydock (fun _ _ => List.finRange 3) (pathCsr 3) 2.7 [1] rnd delta eRange 1 1000 4 = some (energy, ldos) ∧
      ∀ i, energy (-i) = -energy i ∧ ldos (-i) = ldos i := by
  cases h : ldosHaydock (fun _ _ => List.finRange 3) (pathCsr 3) 2.7 [1] rnd delta eRange 1 1000 4 with
  | none =>
    unfold ldosHaydock at h
    rw [if_neg (by rintro ⟨s, -, i, hi, -⟩; omega)] at h
    cases h
  | some q =>
    exact ⟨q.1, q.2, rfl, fun i => C134_recursion_even (c := fun i => decide (i = 1)) (pathCsr_legal 3 (by norm_num))
      (by rw [path3]; ext a b; fin_cases a <;> fin_cases b <;> simp) path_bipartite _ (fun _ _ => List.Perm.refl _) 2.7 [1] true
      (by simp) rnd delta eRange 1 1000 4 le_rfl h i⟩

end Verif.Tbpm

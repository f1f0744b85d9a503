import Verif.Props.Order
import Verif.Props.RandomAvg

/-! # C135: the propagation methods under a change of the numbering -/

namespace Verif.Tbpm

open Matrix

variable {n : ℕ}

/-- The matrix of the renumbered sample. -/
def MovedMat (σ : Equiv.Perm (Fin n)) (A A' : Matrix (Fin n) (Fin n) ℂ) : Prop := ∀ i j, A' (σ i) (σ j) = A i j

theorem moved_iff {σ : Equiv.Perm (Fin n)} {A A' : Matrix (Fin n) (Fin n) ℂ} (h : MovedMat σ A A') :
    A' = Matrix.reindexAlgEquiv ℂ ℂ σ A := by
  ext i j
  have := h (σ.symm i) (σ.symm j)
  rw [σ.apply_symm_apply, σ.apply_symm_apply] at this
  rw [this]
  rfl

theorem moved_poly {σ : Equiv.Perm (Fin n)} {A A' : Matrix (Fin n) (Fin n) ℂ} (h : MovedMat σ A A') (p : Polynomial ℂ) :
    MovedMat σ (Polynomial.aeval A p) (Polynomial.aeval A' p) := by
  intro i j
  rw [moved_iff h, Polynomial.aeval_algHom_apply]
  change Polynomial.aeval A p (σ.symm (σ i)) (σ.symm (σ j)) = _
  rw [σ.symm_apply_apply, σ.symm_apply_apply]

theorem moved_mulVec {σ : Equiv.Perm (Fin n)} {A A' : Matrix (Fin n) (Fin n) ℂ} (h : MovedMat σ A A') {x x' : CVec n}
    (hx : ∀ i, x' (σ i) = x i) (i : Fin n) : A'.mulVec x' (σ i) = A.mulVec x i := by
  unfold Matrix.mulVec dotProduct
  rw [← Equiv.sum_comp σ]
  simp only [h i, hx]

theorem moved_inner {σ : Equiv.Perm (Fin n)} {x x' y y' : CVec n} (hx : ∀ i, x' (σ i) = x i) (hy : ∀ i, y' (σ i) = y i) :
    innerProd x' y' = innerProd x y := by
  unfold innerProd
  rw [← Equiv.sum_comp σ]
  simp only [hx, hy]

theorem moved_U {σ : Equiv.Perm (Fin n)} {e e' : Env n} (h : MovedMat σ e.H e'.H) (hbes : e'.bes = e.bes) (hnb : e'.nbes = e.nbes)
    (fwd : Bool) (t : ℕ) : MovedMat σ (e.U fwd ^ t) (e'.U fwd ^ t) := by
  rw [U_pow_poly, U_pow_poly, hbes, hnb]
  exact moved_poly h _

theorem moved_dosF {σ : Equiv.Perm (Fin n)} {e e' : Env n} (h : MovedMat σ e.H e'.H) (hbes : e'.bes = e.bes) (hnb : e'.nbes = e.nbes)
    (nt : ℕ) {x x' : CVec n} (hx : ∀ i, x' (σ i) = x i) : dosF e' nt x' = dosF e nt x := by
  funext t
  unfold dosF
  split_ifs
  · exact moved_inner hx (moved_mulVec (moved_U h hbes hnb true t) hx)
  · rfl

theorem moved_drifts {σ : Equiv.Perm (Fin n)} (thr : ℝ) {x x' y y' : CVec n} (hx : ∀ i, x' (σ i) = x i) (hy : ∀ i, y' (σ i) = y i) :
    Drifts thr x' y' ↔ Drifts thr x y := by
  unfold Drifts
  rw [moved_inner hx hx, moved_inner hy hy]

theorem same_of_runs {w : World} {N : ℕ} {seed : ℤ} {B B' : Prop} {x x' : Except TErr (ℕ → ℕ → ℂ)} {f f' : ℤ → ℕ → ℂ}
    (h1 : B → x = .error .diverged) (h2 : ¬B → ∃ c, x = .ok c ∧ ∀ r < w.size, c r = meanSamples ℂ N seed f)
    (h1' : B' → x' = .error .diverged) (h2' : ¬B' → ∃ c, x' = .ok c ∧ ∀ r < w.size, c r = meanSamples ℂ N seed f') (hB : B' ↔ B)
    (hf : f' = f) : SameOutcome w x x' := by
  by_cases hb : B
  · exact Or.inl ⟨h1 hb, h1' (hB.2 hb)⟩
  · obtain ⟨c, hc, hv⟩ := h2 hb
    obtain ⟨c', hc', hv'⟩ := h2' fun h => hb (hB.1 h)
    exact Or.inr ⟨c, c', hc, hc', fun r hr => by rw [hv r hr, hv' r hr, hf]⟩

/-- C135: the correlation function of the DOS from the renumbered random states is the same. -/
theorem C135_corr_dos {e e' : Env n} (g : e.Good) (g' : e'.Good) {σ : Equiv.Perm (Fin n)} (h : ∀ i j, e'.H (σ i) (σ j) = e.H i j)
    (hbes : e'.bes = e.bes) (hnb : e'.nbes = e.nbes) (w : World) {rnd rnd' : ℤ → CVec n} (hr : ∀ s i, rnd' s (σ i) = rnd s i)
    (seed chk : ℤ) (thr : ℝ) (nt : ℕ) (hnt : 1 ≤ nt) (nsamp : ℕ) :
    SameOutcome w (calcCorrDos w e rnd seed chk thr nt nsamp) (calcCorrDos w e' rnd' seed chk thr nt nsamp) := by
  obtain ⟨h1, h2⟩ := dos_run g w rnd seed chk thr nt hnt nsamp
  obtain ⟨h1', h2'⟩ := dos_run g' w rnd' seed chk thr nt hnt nsamp
  refine same_of_runs h1 h2 h1' h2' ?_ (funext fun s => moved_dosF h hbes hnb nt (hr s))
  have := fun (s : ℤ) (t : ℕ) => moved_drifts thr (moved_mulVec (moved_U h hbes hnb true (t - 1)) (hr s))
    (moved_mulVec (by simpa only [pow_one] using moved_U h hbes hnb true 1) (hr s))
  simp only [this]

/-- C135: that of the LDOS is the same when the sites are renumbered; the random states have to agree at the sites only. -/
theorem C135_corr_ldos {e e' : Env n} (g : e.Good) (g' : e'.Good) {σ : Equiv.Perm (Fin n)} (h : ∀ i j, e'.H (σ i) (σ j) = e.H i j)
    (hbes : e'.bes = e.bes) (hnb : e'.nbes = e.nbes) (w : World) (sites : List (Fin n)) {rnd rnd' : ℤ → CVec n}
    (hr : ∀ s, ∀ i ∈ sites, rnd' s (σ i) = rnd s i) (seed chk : ℤ) (thr : ℝ) (nt : ℕ) (nsamp : ℕ) :
    SameOutcome w (calcCorrLdos w e sites rnd seed chk thr nt nsamp)
      (calcCorrLdos w e' (sites.map σ) rnd' seed chk thr nt nsamp) := by
  obtain ⟨h1, h2⟩ := ldos_run g w sites rnd seed chk thr nt nsamp
  obtain ⟨h1', h2'⟩ := ldos_run g' w (sites.map σ) rnd' seed chk thr nt nsamp
  have hl : ∀ s i, ldosState (sites.map σ) (rnd' s) (σ i) = ldosState sites (rnd s) i := by
    intro s i
    have hf : ∀ i, (sites.map σ).foldl (fun w i => Function.update w i (rnd' s i)) (0 : CVec n) (σ i) =
        sites.foldl (fun w i => Function.update w i (rnd s i)) (0 : CVec n) i := by
      intro i
      rw [ldosFold, ldosFold]
      simp only [List.mem_map, EmbeddingLike.apply_eq_iff_eq, exists_eq_right, Pi.zero_apply]
      split_ifs with hi
      · exact hr s i hi
      · rfl
    unfold ldosState
    simp only [moved_inner hf hf, hf]
  refine same_of_runs h1 h2 h1' h2' ?_ (funext fun s => moved_dosF h hbes hnb nt (hl s))
  have := fun (s : ℤ) (t : ℕ) => moved_drifts thr (moved_mulVec (moved_U h hbes hnb true (t - 1)) (hl s)) (hl s)
  simp only [this]

theorem moved_cheb {σ : Equiv.Perm (Fin n)} {e e' : Env n} (h : MovedMat σ e.H e'.H) (c : (ℕ → ℝ) × ℕ) :
    MovedMat σ (e.chebSeries c) (e'.chebSeries c) := by
  intro i j
  unfold Env.chebSeries
  rw [Matrix.sum_apply, Matrix.sum_apply]
  refine Finset.sum_congr rfl fun k _ => ?_
  rw [Matrix.smul_apply, Matrix.smul_apply]
  congr 1
  exact moved_poly h _ i j

/-- C135: so is that of the optical conductivity, if the velocity matrices are those of the renumbered sample. -/
theorem C135_corr_ac {e e' : Env n} (g : e.Good) (g' : e'.Good) {σ : Equiv.Perm (Fin n)} (h : ∀ i j, e'.H (σ i) (σ j) = e.H i j)
    (hbes : e'.bes = e.bes) (hnb : e'.nbes = e.nbes) (w : World) (rescale : ℝ) {dx dy dx' dy' : ℕ → ℝ}
    (hx : ∀ i j, (e'.ham.current dx' rescale).toMatrix n (σ i) (σ j) = (e.ham.current dx rescale).toMatrix n i j)
    (hy : ∀ i j, (e'.ham.current dy' rescale).toMatrix n (σ i) (σ j) = (e.ham.current dy rescale).toMatrix n i j)
    {cF cOmF : (ℕ → ℝ) × ℕ} (hF : 3 ≤ cF.2) (hO : 3 ≤ cOmF.2) {rnd rnd' : ℤ → CVec n} (hr : ∀ s i, rnd' s (σ i) = rnd s i)
    (seed chk : ℤ) (thr : ℝ) (nt nsamp : ℕ) :
    let x := calcCorrAcCond w e rescale dx dy cF cOmF rnd seed chk thr nt nsamp
    let x' := calcCorrAcCond w e' rescale dx' dy' cF cOmF rnd' seed chk thr nt nsamp
    (x = .error .diverged ∧ x' = .error .diverged) ∨ ∃ c c', x = .ok c ∧ x' = .ok c' ∧ ∀ r < w.size, c' r = c r := by
  intro x x'
  obtain ⟨h1, h2⟩ := ac_run g w rescale dx dy hF hO rnd seed chk thr nt nsamp
  obtain ⟨h1', h2'⟩ := ac_run g' w rescale dx' dy' hF hO rnd' seed chk thr nt nsamp
  have hf : ∀ s i, (e'.chebSeries cF).mulVec (rnd' s) (σ i) = (e.chebSeries cF).mulVec (rnd s) i := fun s i =>
    moved_mulVec (moved_cheb h cF) (hr s) i
  have hdr := fun (s : ℤ) (t : ℕ) => moved_drifts thr (moved_mulVec (moved_U h hbes hnb true (t - 2)) (hf s)) (hf s)
  simp only [hdr] at h1' h2'
  by_cases hb : ∃ j < (distSample w nsamp).1, ∃ t : ℕ, (t : ℤ) = chk ∧ 2 ≤ t ∧ t ≤ nt ∧
        Drifts thr ((e.U true ^ (t - 2)).mulVec ((e.chebSeries cF).mulVec (rnd (seed * (j + 1)))))
          ((e.chebSeries cF).mulVec (rnd (seed * (j + 1))))
  · exact Or.inl ⟨h1 hb, h1' hb⟩
  · obtain ⟨c, hc, hv⟩ := h2 hb
    obtain ⟨c', hc', hv'⟩ := h2' hb
    refine Or.inr ⟨c, c', hc, hc', fun r hr' => ?_⟩
    rw [hv r hr', hv' r hr']
    congr 1
    funext s t k
    unfold acF
    split_ifs
    · refine moved_inner (moved_mulVec (moved_U h hbes hnb true _) (hf s)) ?_
      refine moved_mulVec ?_ (moved_mulVec (moved_U h hbes hnb true _) (moved_mulVec (moved_cheb h cOmF) (moved_mulVec ?_ (hr s))))
      · fin_cases k
        exacts [hx, hy, hx, hy]
      · fin_cases k
        exacts [hx, hx, hy, hy]
    · rfl

/-- C135: without renumbering the random states, as when the program is run on each of the two samples: the mean and the mean square
error of the correlation function are the same. -/
theorem C135_mean {Ω : Type*} [MeasurableSpace Ω] {P : MeasureTheory.Measure Ω} [MeasureTheory.IsProbabilityMeasure P]
    {D : ℤ → Ω → Fin n → ℝ × ℝ} (hn : 0 < n) (hD : IdealDraws P D) {e e' : Env n} (g : e.Good) (g' : e'.Good)
    {σ : Equiv.Perm (Fin n)} (h : ∀ i j, e'.H (σ i) (σ j) = e.H i j) (hbes : e'.bes = e.bes) (hnb : e'.nbes = e.nbes) (w : World)
    {seed : ℤ} (hs : seed ≠ 0) (chk : ℤ) (thr : ℝ) (nt : ℕ) (hnt : 1 ≤ nt) (nsamp : ℕ) (h1 : 1 ≤ nsamp) {c c' : Ω → ℕ → ℕ → ℂ}
    (hc : ∀ ω, calcCorrDos w e (fun s => randomState (D s ω)) seed chk thr nt nsamp = .ok (c ω))
    (hc' : ∀ ω, calcCorrDos w e' (fun s => randomState (D s ω)) seed chk thr nt nsamp = .ok (c' ω)) :
    ∀ r < w.size, ∀ t ≤ nt, ∫ ω, c' ω r t ∂P = ∫ ω, c ω r t ∂P ∧
      ∫ ω, ‖c' ω r t - ∫ ω, c' ω r t ∂P‖ ^ 2 ∂P = ∫ ω, ‖c ω r t - ∫ ω, c ω r t ∂P‖ ^ 2 ∂P := by
  intro r hr t ht
  have key : ∀ {e : Env n} {c : Ω → ℕ → ℕ → ℂ}, e.Good →
      (∀ ω, calcCorrDos w e (fun s => randomState (D s ω)) seed chk thr nt nsamp = .ok (c ω)) →
      ∫ ω, c ω r t ∂P = (e.U true ^ t).trace / n ∧ ∫ ω, ‖c ω r t - (e.U true ^ t).trace / n‖ ^ 2 ∂P =
        (n * ∑ i, ∑ j, ‖(e.U true ^ t) i j‖ ^ 2 - ‖(e.U true ^ t).trace‖ ^ 2) / (n ^ 2 * (n + 1)) / (distSample w nsamp).1 := by
    intro e c g hc
    have hN := (Verif.Props.C46_samples w nsamp).2.1
    simp only [fun ω => C81_dos g w _ seed chk thr nt hnt nsamp (hc ω) r hr t ht]
    exact ⟨samples_mean hD _ seed (by omega), samples_var hn hD _ hs (by omega)⟩
  have hm := moved_U h hbes hnb true t
  have htr : (e'.U true ^ t).trace = (e.U true ^ t).trace := by
    unfold Matrix.trace
    rw [← Equiv.sum_comp σ]
    exact Finset.sum_congr rfl fun i _ => hm i i
  have hfr : ∑ i, ∑ j, ‖(e'.U true ^ t) i j‖ ^ 2 = ∑ i, ∑ j, ‖(e.U true ^ t) i j‖ ^ 2 := by
    rw [← Equiv.sum_comp σ]
    refine Finset.sum_congr rfl fun i _ => ?_
    rw [← Equiv.sum_comp σ]
    exact Finset.sum_congr rfl fun j _ => by rw [hm i j]
  obtain ⟨a, b⟩ := key g hc
  obtain ⟨a', b'⟩ := key g' hc'
  refine ⟨by rw [a, a', htr], ?_⟩
  rw [a', a, b', b, htr, hfr]

end Verif.Tbpm

import Verif.Props.HaydockErr
import Verif.Props.RandomAvg

/-! # The recursion LDOS of several sites from random samples: C129 -/

namespace Verif.Tbpm

open Matrix MeasureTheory

variable {n : ℕ}

/-- The amplitudes on `L` sites of the random state for the draws `d`. -/
noncomputable def siteAmps {L : ℕ} (d : Fin L → ℝ × ℝ) (k : ℕ) : ℂ := if h : k < L then randomState d ⟨k, h⟩ else 0

private theorem siteState_get (sites : List (Fin n)) (hnd : sites.Nodup) (w : ℕ → ℂ) :
    siteState sites w = Function.extend sites.get (fun k => w k) 0 := by
  have hinj : Function.Injective sites.get := List.nodup_iff_injective_get.1 hnd
  have h := siteState_extend sites.get hinj w (List.finRange sites.length)
  rw [List.map_get_finRange] at h
  rw [h]
  congr 1
  funext k
  have key : ∀ (L : List (ℕ × Fin sites.length)) (v : CVec sites.length), (∀ p ∈ L, p.1 = (p.2 : ℕ)) →
      L.foldl (fun (v : CVec sites.length) p => Function.update v p.2 (w p.1)) v k =
        if ∃ p ∈ L, p.2 = k then w k else v k := by
    intro L
    induction L with
    | nil => intro v _; simp
    | cons p L ih =>
      intro v hp
      rw [List.foldl_cons, ih _ fun q hq => hp q (by simp [hq])]
      by_cases h1 : ∃ q ∈ L, q.2 = k
      · obtain ⟨q, hq, rfl⟩ := h1
        rw [if_pos ⟨q, hq, rfl⟩, if_pos ⟨q, by simp [hq], rfl⟩]
      · rw [if_neg h1]
        by_cases h2 : p.2 = k
        · subst h2
          rw [if_pos ⟨p, by simp, rfl⟩, Function.update_self, hp p (by simp)]
        · rw [if_neg, Function.update_of_ne (Ne.symm h2)]
          rintro ⟨q, hq, e⟩
          rcases List.mem_cons.1 hq with rfl | hq
          · exact h2 e
          · exact h1 ⟨q, hq, e⟩
  unfold siteState
  rw [key]
  · rw [if_pos]
    refine ⟨(k, k), ?_, rfl⟩
    rw [List.mem_iff_getElem]
    refine ⟨k, by simp, by simp⟩
  · rintro ⟨a, b⟩ hp
    rw [List.mem_iff_getElem] at hp
    obtain ⟨i, hi, e⟩ := hp
    simp at e
    obtain ⟨rfl, rfl⟩ := e
    rfl

/-- C129 (part): one random sample.  For every group of different sites and every draw the result is the matrix element of the Green's
function in the random state on the sites, up to the bound of C128; the mean of these matrix elements over the draws is the mean over
the sites of the diagonal elements of the Green's function.  Missing: several samples, see `C129_several_samples_wrong`. -/
theorem C129_one_sample_partial {sch : List ℕ → ℕ → List (Fin n)} {m : FCsr} (hm : Ready sch m) (key : List ℕ) (r : ℝ) (hr : 0 < r)
    (sites : List (Fin n)) (hnd : sites.Nodup) (delta eRange : ℝ) (hdelta : 0 < delta) (depth nt : ℕ) (hd : 1 ≤ depth) :
    let G : ℝ → Matrix (Fin n) (Fin n) ℂ := fun e => ((⟨e, delta⟩ : ℂ) • (1 : Matrix (Fin n) (Fin n) ℂ) - (r : ℂ) • m.toMatrix n)⁻¹
    let psi : (Fin sites.length → ℝ × ℝ) → CVec n := fun d => siteState sites (siteAmps d)
    (∀ (d : Fin sites.length → ℝ × ℝ) (energy ldos : ℤ → ℝ), (∀ i, 0 ≤ (d i).1 ∧ (d i).1 < 1) → (∃ i, 0 < (d i).1) →
      ldosHaydock (fun _ => sch key) m r sites (fun _ => siteAmps d) delta eRange depth nt 1 = some (energy, ldos) → ∀ i,
      |ldos i - -(innerProd (psi d) ((G (energy i)).mulVec (psi d))).im / Real.pi| ≤ haydockBound r delta depth / Real.pi) ∧
    ∀ e, ∫ d, innerProd (psi d) ((G e).mulVec (psi d)) ∂drawLaw sites.length = (sites.map fun s => G e s s).sum / sites.length := by
  intro G psi
  have hinj : Function.Injective sites.get := List.nodup_iff_injective_get.1 hnd
  have hpsi : ∀ d, psi d = Function.extend sites.get (randomState d) 0 := by
    intro d
    show siteState sites (siteAmps d) = _
    rw [siteState_get sites hnd]
    congr 1
    funext k
    simp [siteAmps]
  refine ⟨?_, ?_⟩
  · intro d energy ldos h0 hne h i
    have hn1 : innerProd (psi d) (psi d) = 1 := by
      rw [hpsi, innerProd_extend hinj]
      exact C80_random_state d h0 hne
    unfold ldosHaydock at h
    simp only at h
    split at h
    · exact absurd h (by simp)
    · rename_i hnb
      simp only [Option.some.injEq, Prod.mk.injEq] at h
      obtain ⟨he, rfl⟩ := h
      have herr := C128_error hm key r hr (psi d) hn1 depth hd (fun j hj h0 => hnb ⟨0, by omega, j, hj, h0⟩) (energy i) delta hdelta
      have hei : energy i = 0.5 * i * eRange / nt := by rw [← he]
      have hpi := Real.pi_pos
      have h3 := (Complex.abs_im_le_norm _).trans herr
      rw [Complex.sub_im] at h3
      beta_reduce
      rw [← hei]
      simp only [List.range_one, List.foldl_cons, List.foldl_nil, Nat.cast_one, div_one, zero_add]
      rw [show ∀ x y : ℝ, -1 / Real.pi * x - -y / Real.pi = -((x - y) / Real.pi) from fun x y => by ring, abs_neg, abs_div,
        abs_of_pos hpi]
      exact div_le_div_of_nonneg_right h3 hpi.le
  · intro e
    have hform : ∀ d, innerProd (psi d) ((G e).mulVec (psi d)) =
        innerProd (randomState d) (((G e).submatrix sites.get sites.get).mulVec (randomState d)) := by
      intro d
      rw [hpsi]
      have h1 : ∀ x : CVec sites.length, ∀ y : CVec n, innerProd (Function.extend sites.get x 0 : CVec n) y =
          innerProd x (fun k => y (sites.get k)) := by
        intro x y
        unfold innerProd
        symm
        refine Fintype.sum_of_injective sites.get hinj _ _ ?_ ?_
        · intro i hi
          rw [Function.extend_apply' _ _ _ hi]
          simp
        · intro i
          rw [hinj.extend_apply]
      rw [h1]
      congr 1
      funext k
      unfold mulVec dotProduct
      symm
      refine Fintype.sum_of_injective sites.get hinj _ _ ?_ ?_
      · intro i hi
        rw [Function.extend_apply' _ _ _ hi]
        simp
      · intro i
        rw [hinj.extend_apply]
        rfl
    simp only [hform]
    rw [C124_mean]
    congr 1
    unfold Matrix.trace
    simp only [Matrix.diag_apply, Matrix.submatrix_apply]
    rw [← Fin.sum_univ_fun_getElem sites fun s => G e s s]
    rfl

/-! ## Several samples -/

/-- Two orbitals with on-site energies 1 and -1 and no hopping. -/
def twoLevels : FCsr := ⟨fun k => k, fun k => k, fun k => if k = 0 then 1 else -1⟩

theorem twoLevels_legal : twoLevels.Legal 2 := by
  intro i hi j h1 h2
  simp only [twoLevels] at *
  omega

theorem twoLevels_matrix : twoLevels.toMatrix 2 = !![1, 0; 0, -1] := by
  ext a b
  fin_cases a <;> fin_cases b <;> simp [FCsr.toMatrix, twoLevels]

theorem twoLevels_ready : Ready (fun _ k => flip k) twoLevels where
  order := fun _ k => flip_order k
  legal := twoLevels_legal
  herm := by
    rw [twoLevels_matrix]
    ext a b
    fin_cases a <;> fin_cases b <;> simp
  spectrum := by
    intro lam v hv h
    rw [twoLevels_matrix] at h
    have a := congrFun h 0
    have b := congrFun h 1
    simp [Matrix.mulVec, dotProduct, Fin.sum_univ_two] at a b
    by_cases h0 : v 0 = 0
    · have h1 : v 1 ≠ 0 := by
        intro h1
        apply hv
        funext i
        fin_cases i
        · exact h0
        · exact h1
      have : lam = -1 := mul_right_cancel₀ h1 (by rw [← b]; ring)
      rw [this]; simp
    · have : lam = 1 := mul_right_cancel₀ h0 (by rw [← a]; ring)
      rw [this]; simp

/-- Draws which put all the weight on one of two sites. -/
noncomputable def oneSided (s : ℕ) (i : Fin 2) : ℝ × ℝ := if (i : ℕ) = s then (1 / 2, 0) else (0, 0)

private theorem amps_zero : siteState [(0 : Fin 2), 1] (siteAmps (oneSided 0)) = ![1, 0] := by
  have hl : Real.log (1 / 2) ≠ 0 := by
    apply (Real.log_neg (by norm_num) (by norm_num)).ne
  have hl' : 0 < -Real.log (1 / 2) := by
    have := Real.log_neg (x := 1 / 2) (by norm_num) (by norm_num)
    linarith
  have hs : (Real.sqrt (-Real.log (1 / 2)) : ℂ) ≠ 0 := by exact_mod_cast (Real.sqrt_pos.2 hl').ne'
  ext i
  fin_cases i
  · simp only [siteState, List.length_cons, List.length_nil, List.range_succ, List.range_zero, siteAmps, randomState, oneSided]
    simp [Fin.sum_univ_two]
    rw [show (1 : ℝ) - 2⁻¹ = 1 / 2 by norm_num, show (⟨0, 0⟩ : ℂ) = 0 from rfl, Complex.exp_zero, mul_one]
    exact div_self hs
  · simp only [siteState, List.length_cons, List.length_nil, List.range_succ, List.range_zero, siteAmps, randomState, oneSided]
    simp [Fin.sum_univ_two]

private theorem amps_one : siteState [(0 : Fin 2), 1] (siteAmps (oneSided 1)) = ![0, 1] := by
  have hl' : 0 < -Real.log (1 / 2) := by
    have := Real.log_neg (x := 1 / 2) (by norm_num) (by norm_num)
    linarith
  have hs : (Real.sqrt (-Real.log (1 / 2)) : ℂ) ≠ 0 := by exact_mod_cast (Real.sqrt_pos.2 hl').ne'
  ext i
  fin_cases i
  · simp only [siteState, List.length_cons, List.length_nil, List.range_succ, List.range_zero, siteAmps, randomState, oneSided]
    simp [Fin.sum_univ_two]
  · simp only [siteState, List.length_cons, List.length_nil, List.range_succ, List.range_zero, siteAmps, randomState, oneSided]
    simp [Fin.sum_univ_two]
    rw [show (1 : ℝ) - 2⁻¹ = 1 / 2 by norm_num, show (⟨0, 0⟩ : ℂ) = 0 from rfl, Complex.exp_zero, mul_one]
    exact div_self hs

private theorem coefa_two (s : ℕ) (hs : s < 2) :
    (haydock flip twoLevels 1 (siteState [(0 : Fin 2), 1] (siteAmps (oneSided s))) 1).coefa 0 = if s = 0 then 1 else -1 := by
  rw [(haydock_coef flip flip_order twoLevels twoLevels_legal 1 _ 1 le_rfl 0 (by norm_num)).1, twoLevels_matrix]
  interval_cases s
  · rw [amps_zero]
    simp [la, lv, lanc, innerProd, mulVec, dotProduct]
  · rw [amps_one]
    simp [la, lv, lanc, innerProd, mulVec, dotProduct]

private theorem green_one (delta : ℝ) (hdelta : 0 < delta) (a : ℕ → ℂ) (b : ℕ → ℝ) (x : ℝ) (ha : a 0 = x) :
    -1 / Real.pi * (greenFunction 0 delta a b 1).im = delta / (x ^ 2 + delta ^ 2) / Real.pi := by
  have : greenFunction 0 delta a b 1 = (⟨-x, delta⟩ : ℂ)⁻¹ := by
    rw [green_eq]
    simp only [cfrac, mul_zero, sub_zero, one_div, ha]
    congr 1
    apply Complex.ext <;> simp
  rw [this, Complex.inv_im, Complex.normSq_apply]
  simp only
  rw [show -x * -x + delta * delta = x ^ 2 + delta ^ 2 by ring]
  ring

/-- C129: with several samples the result is not the mean over the samples.  The program averages the coefficients of the recursion
instead of the Green's functions.  Here, at every broadening, for two sites with the levels 1 and -1 and one random state on each of
them, either state gives the value `delta/(π(1 + delta^2))` at the energy 0, which is also the exact LDOS of either site; both together
give `1/(π delta)`, a peak where neither site has a level. -/
theorem C129_several_samples_wrong (delta : ℝ) (hdelta : 0 < delta) :
    ∃ e l : ℤ → ℝ, ldosHaydock (fun _ => flip) twoLevels 1 [0, 1] (fun s => siteAmps (oneSided s)) delta 4 1 8 2 = some (e, l) ∧ e 0 = 0 ∧
      l 0 = 1 / delta / Real.pi ∧
      (∀ s < 2, (∀ i, 0 ≤ (oneSided s i).1 ∧ (oneSided s i).1 < 1) ∧ (∃ i, 0 < (oneSided s i).1) ∧ ∃ e' l' : ℤ → ℝ,
        ldosHaydock (fun _ => flip) twoLevels 1 [0, 1] (fun _ => siteAmps (oneSided s)) delta 4 1 8 1 = some (e', l') ∧ e' 0 = 0 ∧
        l' 0 = delta / (1 + delta ^ 2) / Real.pi) ∧
      ∀ i, -(((⟨0, delta⟩ : ℂ) • (1 : Matrix (Fin 2) (Fin 2) ℂ) - ((1 : ℝ) : ℂ) • twoLevels.toMatrix 2)⁻¹ i i).im / Real.pi =
        delta / (1 + delta ^ 2) / Real.pi := by
  unfold ldosHaydock
  simp only
  rw [if_neg (by rintro ⟨s, hs, i, hi, h⟩; omega)]
  refine ⟨_, _, rfl, by simp, ?_, ?_, ?_⟩
  · beta_reduce
    rw [show (0.5 * ((0 : ℤ) : ℝ) * 4 / ((8 : ℕ) : ℝ)) = 0 by simp, green_one delta hdelta _ _ 0]
    · have := hdelta.ne'
      field_simp
      ring
    · simp [List.range_succ, coefa_two]
      ring
  · intro s hs
    refine ⟨?_, ⟨⟨s, hs⟩, by simp [oneSided]⟩, ?_⟩
    · intro i
      unfold oneSided
      split <;> norm_num
    · rw [if_neg (by rintro ⟨s, hs, i, hi, h⟩; omega)]
      refine ⟨_, _, rfl, by simp, ?_⟩
      beta_reduce
      rw [show (0.5 * ((0 : ℤ) : ℝ) * 4 / ((8 : ℕ) : ℝ)) = 0 by simp, green_one delta hdelta _ _ (if s = 0 then 1 else -1)]
      · split_ifs <;> norm_num
      · simp [coefa_two s hs]
        split_ifs <;> simp
  · have hd1 : (⟨0, delta⟩ : ℂ) - 1 ≠ 0 := by
      intro h
      have := congrArg Complex.im h
      simp at this
      linarith
    have hd2 : (⟨0, delta⟩ : ℂ) + 1 ≠ 0 := by
      intro h
      have := congrArg Complex.im h
      simp at this
      linarith
    have hinv : ((⟨0, delta⟩ : ℂ) • (1 : Matrix (Fin 2) (Fin 2) ℂ) - ((1 : ℝ) : ℂ) • twoLevels.toMatrix 2)⁻¹ =
        !![((⟨0, delta⟩ : ℂ) - 1)⁻¹, 0; 0, ((⟨0, delta⟩ : ℂ) + 1)⁻¹] := by
      apply Matrix.inv_eq_right_inv
      rw [twoLevels_matrix]
      ext a b
      fin_cases a <;> fin_cases b <;> simp [Matrix.mul_apply, Fin.sum_univ_two, hd1, hd2]
    intro i
    rw [hinv]
    fin_cases i
    · simp [Complex.inv_im, Complex.normSq_apply, neg_div]
      ring
    · simp [Complex.inv_im, Complex.normSq_apply, neg_div]
      ring

/-- Concrete case of `C129_one_sample_partial`: the two sites above. -/
example (delta : ℝ) (hdelta : 0 < delta) (e : ℝ) :
    ∫ d, innerProd (siteState [(0 : Fin 2), 1] (siteAmps d)) ((((⟨e, delta⟩ : ℂ) • (1 : Matrix (Fin 2) (Fin 2) ℂ) -
      ((1 : ℝ) : ℂ) • twoLevels.toMatrix 2)⁻¹).mulVec (siteState [(0 : Fin 2), 1] (siteAmps d))) ∂drawLaw 2 =
      ([(0 : Fin 2), 1].map fun s => (((⟨e, delta⟩ : ℂ) • (1 : Matrix (Fin 2) (Fin 2) ℂ) -
        ((1 : ℝ) : ℂ) • twoLevels.toMatrix 2)⁻¹) s s).sum / (2 : ℕ) :=
  (C129_one_sample_partial twoLevels_ready [] 1 one_pos [0, 1] (by decide) delta 4 hdelta 1 8 le_rfl).2 e

end Verif.Tbpm

import Verif.Proof.ParallelDiag
import Mathlib.Analysis.SpecialFunctions.ImproperIntegrals
import Mathlib.Analysis.SpecialFunctions.Gaussian.GaussianIntegral
import Mathlib.MeasureTheory.Measure.Haar.NormedSpace

/-! # The density of states of a set of levels

Lemmas for C125. -/

open MeasureTheory Filter Topology

namespace Verif

/-- A broadening function of width 1. -/
structure Bump (φ : ℝ → ℝ) : Prop where
  nonneg : ∀ u, 0 ≤ φ u
  int : Integrable φ
  one : ∫ u, φ u = 1

/-- The two basis functions are scaled bumps. -/
theorem basis_bump {basis : ℝ → ℝ → ℝ → ℝ} (hb : basis = gaussian ∨ basis = lorentzian) :
    ∃ φ, Bump φ ∧ ∀ σ, 0 < σ → ∀ x mu, basis x mu σ = σ⁻¹ * φ (x / σ - mu / σ) := by
  have hpi := Real.pi_pos
  rcases hb with rfl | rfl
  · refine ⟨fun u => (Real.sqrt (2 * Real.pi))⁻¹ * Real.exp (-(1 / 2) * u ^ 2), ⟨fun u => by positivity, ?_, ?_⟩, ?_⟩
    · exact (integrable_exp_neg_mul_sq (by norm_num)).const_mul _
    · rw [integral_const_mul, integral_gaussian, show Real.pi / (1 / 2) = 2 * Real.pi by ring]
      exact inv_mul_cancel₀ (by positivity)
    · intro σ hσ x mu
      unfold gaussian
      rw [show -(x - mu) ^ 2 / (2 * σ ^ 2) = -(1 / 2) * (x / σ - mu / σ) ^ 2 by field_simp]
      field_simp
  · refine ⟨fun u => Real.pi⁻¹ * (1 + u ^ 2)⁻¹, ⟨fun u => by positivity, ?_, ?_⟩, ?_⟩
    · exact integrable_inv_one_add_sq.const_mul _
    · rw [integral_const_mul, integral_univ_inv_one_add_sq]
      exact inv_mul_cancel₀ hpi.ne'
    · intro σ hσ x mu
      unfold lorentzian
      have h1 : (x - mu) ^ 2 + σ ^ 2 ≠ 0 := by positivity
      have h2 : 1 + (x / σ - mu / σ) ^ 2 = ((x - mu) ^ 2 + σ ^ 2) / σ ^ 2 := by field_simp; ring
      change _ = σ⁻¹ * (Real.pi⁻¹ * (1 + (x / σ - mu / σ) ^ 2)⁻¹)
      rw [h2]
      field_simp

variable {φ : ℝ → ℝ}

theorem bump_int (h : Bump φ) {σ : ℝ} (hσ : 0 < σ) (mu : ℝ) :
    Integrable (fun x => σ⁻¹ * φ (x / σ - mu / σ)) ∧ ∫ x, σ⁻¹ * φ (x / σ - mu / σ) = 1 := by
  constructor
  · exact ((h.int.comp_sub_right (mu / σ)).comp_div hσ.ne').const_mul _
  · rw [integral_const_mul, Measure.integral_comp_div (fun y => φ (y - mu / σ)), integral_sub_right_eq_self φ, h.one, abs_of_pos hσ,
      smul_eq_mul, mul_one, inv_mul_cancel₀ hσ.ne']

theorem to_top {c : ℝ} (hc : 0 < c) : Tendsto (fun σ : ℝ => c / σ) (𝓝[>] 0) atTop :=
  (tendsto_inv_nhdsGT_zero.const_mul_atTop hc).congr fun σ => by rw [div_eq_mul_inv]

theorem to_bot {c : ℝ} (hc : c < 0) : Tendsto (fun σ : ℝ => c / σ) (𝓝[>] 0) atBot :=
  (tendsto_inv_nhdsGT_zero.const_mul_atTop_of_neg hc).congr fun σ => by rw [div_eq_mul_inv]

/-- A narrow bump counts its level. -/
theorem bump_count (h : Bump φ) {a b mu : ℝ} (hab : a < b) (ha : mu ≠ a) (hb : mu ≠ b) :
    Tendsto (fun σ : ℝ => ∫ x in a..b, σ⁻¹ * φ (x / σ - mu / σ)) (𝓝[>] 0) (𝓝 (if a < mu ∧ mu < b then 1 else 0)) := by
  have e : ∀ σ : ℝ, 0 < σ → ∫ x in a..b, σ⁻¹ * φ (x / σ - mu / σ) = ∫ u in (a - mu) / σ..(b - mu) / σ, φ u := by
    intro σ hσ
    rw [intervalIntegral.integral_const_mul, intervalIntegral.integral_comp_div_sub φ hσ.ne', smul_eq_mul, ← mul_assoc,
      inv_mul_cancel₀ hσ.ne', one_mul, sub_div, sub_div]
  have e' : (fun σ : ℝ => ∫ u in (a - mu) / σ..(b - mu) / σ, φ u) =ᶠ[𝓝[>] 0] fun σ : ℝ => ∫ x in a..b, σ⁻¹ * φ (x / σ - mu / σ) := by
    filter_upwards [self_mem_nhdsWithin] with σ hσ using (e σ hσ).symm
  refine Tendsto.congr' e' ?_
  have hi : ∀ u v, IntervalIntegrable φ volume u v := fun u v => h.int.intervalIntegrable
  rcases lt_or_gt_of_ne ha with h1 | h1
  · -- the level is below the window
    rw [if_neg (by intro hh; linarith)]
    have t1 := intervalIntegral_tendsto_integral_Ioi 0 h.int.integrableOn (to_top (sub_pos.2 h1))
    have t2 := intervalIntegral_tendsto_integral_Ioi 0 h.int.integrableOn (to_top (sub_pos.2 (h1.trans hab)))
    have := t2.sub t1
    rw [sub_self] at this
    refine this.congr fun σ => ?_
    rw [intervalIntegral.integral_interval_sub_left (hi _ _) (hi _ _)]
  · rcases lt_or_gt_of_ne hb with h2 | h2
    · rw [if_pos ⟨h1, h2⟩, ← h.one]
      exact intervalIntegral_tendsto_integral h.int (to_bot (sub_neg.2 h1)) (to_top (sub_pos.2 h2))
    · rw [if_neg (by intro hh; linarith)]
      have t1 := intervalIntegral_tendsto_integral_Iic 0 h.int.integrableOn (to_bot (sub_neg.2 h1))
      have t2 := intervalIntegral_tendsto_integral_Iic 0 h.int.integrableOn (to_bot (sub_neg.2 h2))
      have := t1.sub t2
      rw [sub_self] at this
      refine this.congr fun σ => ?_
      rw [intervalIntegral.integral_interval_sub_interval_comm (hi _ _) (hi _ _) (hi _ _)]
      simp

/-! The sums made by the program -/

/-- What the run computes, by the levels as they come from the eigensolver. -/
theorem dos_levels (D : Diag) (hperm : ∀ ev, (D.argsort ev).Perm (List.range D.nb)) (n : ℕ) (kpts : ℕ → Vec3 ℝ) (conv : ℤ)
    (q : ℕ → (ℕ → ℝ) × (ℕ → ℕ → ℂ)) (hq : ∀ i < n, eigen D (kpts i) conv = .ok (q i)) (orbs : Option (List ℕ))
    (w : World) (buf : ℕ → Buf) (emin emax : Option ℝ) (step sigma : ℝ) (basis : ℝ → ℝ → ℝ → ℝ) (gs : ℝ) (f : ℕ → List ℝ × (ℕ → ℝ))
    (hf : calcDos D w buf n kpts conv orbs emin emax step sigma basis gs = .ok f) (r : ℕ) (hr : r < w.size) (x : ℕ) :
    (f r).2 x = gs * (∑ k ∈ Finset.range n, ∑ j ∈ Finset.range D.nb, basis ((f r).1.getD x 0) ((q k).1 j) sigma *
      stateWeight q orbs k j) / (n * D.nb) := by
  have h := dos_spec D w buf n kpts conv orbs emin emax step sigma basis gs r hr
  rw [hf] at h
  unfold dosSpec bandsSpec at h
  have hfe : firstErr (fun i => eigen D (kpts i) conv) (List.range n) = none := by
    unfold firstErr
    rw [List.findSome?_eq_none_iff]
    intro i hi
    simp only [hq i (List.mem_range.1 hi)]
  have hv : ∀ i < n, eigVal D (kpts i) conv = q i := by
    intro i hi
    rcases diag_eigen D (kpts i) conv with ⟨e, h1, h2⟩ | ⟨b, h1, h2⟩
    · rw [hq i hi] at h2; cases h2
    · rw [hq i hi] at h2; exact (Except.ok.inj h2).symm
  rw [eigens_eq, rowsOut_map, hfe] at h
  simp only [rowsOut, Except.map] at h
  split at h
  · cases h
  · rename_i grid hg
    simp only [Except.ok.injEq] at h
    rw [h]
    dsimp only
    congr 2
    refine Finset.sum_congr rfl fun k hk => ?_
    have hk' := Finset.mem_range.1 hk
    simp only [List.getElem?_map, List.getElem?_range hk', Option.map_some, hv k hk']
    have hp : ((D.argsort (q k).1).reverse).Perm (List.range D.nb) := (List.reverse_perm _).trans (hperm _)
    have hl : (D.argsort (q k).1).reverse.length = D.nb := by rw [hp.length_eq, List.length_range]
    set L := (D.argsort (q k).1).reverse with hL
    set G : ℕ → ℝ := fun j => basis (grid.getD x 0) ((q k).1 j) sigma *
      stateWeight q orbs k j with hG
    have e1 : (∑ j ∈ Finset.range D.nb, G j) = (L.map G).sum := by
      rw [(hp.map G).sum_eq, list_sum_range]
    rw [e1, ← list_sum_range]
    congr 1
    apply List.ext_getElem
    · simp [hl]
    · intro i h1 h2
      have hi : i < L.length := by simpa using h2
      simp only [List.getElem_map, List.getElem_range, List.getElem?_eq_getElem hi, hG]
      cases orbs <;> rfl

/-- The energies do not depend on the process. -/
theorem dos_grid_eq (D : Diag) (n : ℕ) (kpts : ℕ → Vec3 ℝ) (conv : ℤ)
    (orbs : Option (List ℕ)) (w : World) (buf : ℕ → Buf) (a b step sigma : ℝ) (basis : ℝ → ℝ → ℝ → ℝ) (gs : ℝ)
    (f : ℕ → List ℝ × (ℕ → ℝ)) (hf : calcDos D w buf n kpts conv orbs (some a) (some b) step sigma basis gs = .ok f) (r : ℕ)
    (hr : r < w.size) : dosGrid 0 0 (fun _ _ => 0) (some a) (some b) step = .ok (f r).1 := by
  have h := dos_spec D w buf n kpts conv orbs (some a) (some b) step sigma basis gs r hr
  rw [hf] at h
  unfold dosSpec at h
  split at h
  · cases h
  · split at h
    · cases h
    · rename_i grid hg
      simp only [Except.map, Except.ok.injEq] at h
      rw [h]
      exact hg

end Verif

import Verif.Proof.Fold
import Verif.Proof.Bloch
import Verif.Spec.Advanced

/-! # Plane waves on the cells of a lattice -/

namespace Verif

theorem eiPhase_eq_one {t : ℝ} (h : eiPhase (2 * Real.pi * t) = 1) : ∃ z : ℤ, t = z := by
  rw [eiPhase_eq_exp, Complex.exp_eq_one_iff] at h
  obtain ⟨z, hz⟩ := h
  refine ⟨z, ?_⟩
  have hI : (2 * (Real.pi : ℂ) * Complex.I) ≠ 0 := by
    simp [Real.pi_ne_zero]
  have h2 : (t : ℂ) * (2 * (Real.pi : ℂ) * Complex.I) = (z : ℂ) * (2 * (Real.pi : ℂ) * Complex.I) := by
    rw [← hz]; push_cast; ring
  exact_mod_cast mul_right_cancel₀ hI h2

/-- A plane wave that has the period of a sublattice and is not constant sums to zero over representatives of the cosets. -/
theorem wave_sum_zero (S : AddSubgroup Cell) (R : Finset Cell) (hR : ∀ c, ∃! r, r ∈ R ∧ c - r ∈ S) (q : Vec3 ℝ)
    (hS : ∀ s ∈ S, ∃ z : ℤ, ∑ x, q x * cellAt s x = z) (c : Cell) (hc : ∀ z : ℤ, ∑ x, q x * cellAt c x ≠ z) :
    ∑ J ∈ R, eiPhase (2 * Real.pi * ∑ x, q x * cellAt J x) = 0 := by
  refine char_sum_zero S R hR (fun J => eiPhase (2 * Real.pi * ∑ x, q x * cellAt J x)) ?_ ?_ c ?_
  · intro a b
    rw [← eiPhase_add, ← mul_add, ← Finset.sum_add_distrib]
    congr 2
    refine Finset.sum_congr rfl fun x _ => ?_
    have : cellAt (a + b) x = cellAt a x + cellAt b x := by fin_cases x <;> rfl
    rw [this]; push_cast; ring
  · intro s hs
    obtain ⟨z, hz⟩ := hS s hs
    simp only [hz, eiPhase_int]
  · intro h
    obtain ⟨z, hz⟩ := eiPhase_eq_one h
    exact hc z hz

end Verif

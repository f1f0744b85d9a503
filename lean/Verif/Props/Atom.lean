import Verif.Proof.Atom

/-!
# C113: the atomic orbitals written to a cube
-/

namespace Verif.Props

open AtomSpec

/-- **C113** There is a family of functions that are the stationary states of the hydrogen-like atom, orthonormal, and with the angular
dependence of the table, such that the cube holds, at every grid point at least `1e-7` bohr away from the nucleus, the value of the member of
the family with the given quantum numbers at the displacement from the nucleus; memory outside the grid is not touched.
Missing from the full claim: the grid points closer to the nucleus, see `C113_nucleus`. -/
theorem C113_orbitals_partial : ∃ ψ : Atom.Qn → ℝ → ℝ → ℝ → ℝ, IsOrbitals ψ ∧
    ∀ (q : Atom.Qn), Valid q → ∀ (c0 o : Fin 3 → ℝ) (N : Fin 3 → ℕ) (res : ℝ) (cube : ℕ → ℕ → ℕ → ℝ) (i j k : ℕ),
      (i < N 0 ∧ j < N 1 ∧ k < N 2 → 1.0e-7 ≤ rad (o 0 + res * i - c0 0) (o 1 + res * j - c0 1) (o 2 + res * k - c0 2) →
        Atom.setCube c0 q o N res cube i j k = ψ q (o 0 + res * i - c0 0) (o 1 + res * j - c0 1) (o 2 + res * k - c0 2)) ∧
      (¬ (i < N 0 ∧ j < N 1 ∧ k < N 2) → Atom.setCube c0 q o N res cube i j k = cube i j k) := by
  refine ⟨orb, orb_isOrbitals, fun q hq c0 o N res cube i j k => ⟨fun hin hr => ?_, fun hout => ?_⟩⟩
  · rw [setCube_eq, if_pos hin, gridval_orb hq c0 o res i j k hr]
  · rw [setCube_eq, if_neg hout]

/-- **C113, the exception**: at a grid point on the nucleus the cube holds zero, whatever the orbital, whereas every s orbital is
positive there. -/
theorem C113_nucleus (ψ : Atom.Qn → ℝ → ℝ → ℝ → ℝ) (hψ : IsOrbitals ψ) (q : Atom.Qn) (hq : Valid q) (hs : q.l = 0)
    (o : Fin 3 → ℝ) (N : Fin 3 → ℕ) (res : ℝ) (cube : ℕ → ℕ → ℕ → ℝ) (i j k : ℕ) (hin : i < N 0 ∧ j < N 1 ∧ k < N 2) :
    Atom.setCube (fun a => o a + res * ![(i : ℝ), j, k] a) q o N res cube i j k = 0 ∧ 0 < ψ q 0 0 0 := by
  constructor
  · rw [setCube_eq, if_pos hin, Atom.gridval]
    simp only [Matrix.cons_val_zero, Matrix.cons_val_one, Matrix.cons_val, sub_self]
    norm_num
  · obtain ⟨f, _, h0, h1⟩ := hψ.shape q hq
    have hm : q.m = 0 := by
      have := hq.m_le
      rw [hs] at this
      exact abs_eq_zero.1 (le_antisymm this (abs_nonneg _))
    rw [h1, hs, hm]
    simpa [rad, solid] using h0

/-- **C113, other quantum numbers**: shells above f, and a magnetic quantum number out of range of a p, d or f shell, give zero everywhere on the
grid. -/
theorem C113_zero (q : Atom.Qn) (h : 4 ≤ q.l ∨ 1 ≤ q.l ∧ q.l < |q.m|) (c0 o : Fin 3 → ℝ) (N : Fin 3 → ℕ) (res : ℝ) (cube : ℕ → ℕ → ℕ → ℝ)
    (i j k : ℕ) (hin : i < N 0 ∧ j < N 1 ∧ k < N 2) : Atom.setCube c0 q o N res cube i j k = 0 := by
  rw [setCube_eq, if_pos hin, Atom.gridval]
  have hy : Atom.ylmFactor q.l q.m = 0 := by
    rw [Atom.ylmFactor]
    rcases h with h | ⟨h1, h2⟩
    · rw [if_neg (by omega), if_neg (by omega), if_neg (by omega), if_neg (by omega)]
    · have h3 : q.m < -q.l ∨ q.l < q.m := by
        rcases lt_abs.1 h2 with h | h
        · exact Or.inr h
        · exact Or.inl (by omega)
      by_cases h4 : 4 ≤ q.l
      · rw [if_neg (by omega), if_neg (by omega), if_neg (by omega), if_neg (by omega)]
      · obtain h5 | h5 | h5 : q.l = 1 ∨ q.l = 2 ∨ q.l = 3 := by omega
        · simp [h5, show q.m ≠ -1 by omega, show q.m ≠ 0 by omega, show q.m ≠ 1 by omega]
        · simp [h5, show q.m ≠ -2 by omega, show q.m ≠ -1 by omega, show q.m ≠ 0 by omega, show q.m ≠ 1 by omega, show q.m ≠ 2 by omega]
        · simp [h5, show q.m ≠ -3 by omega, show q.m ≠ -2 by omega, show q.m ≠ -1 by omega, show q.m ≠ 0 by omega, show q.m ≠ 1 by omega,
            show q.m ≠ 2 by omega, show q.m ≠ 3 by omega]
  simp only [hy, mul_zero]
  split_ifs <;> norm_num

/-- **C113, the s shell ignores the magnetic quantum number**: `l = 0` gives the s orbital for every `m`. -/
theorem C113_s_any_m (q : Atom.Qn) (hs : q.l = 0) (c0 o : Fin 3 → ℝ) (N : Fin 3 → ℕ) (res : ℝ) (cube : ℕ → ℕ → ℕ → ℝ) :
    Atom.setCube c0 q o N res cube = Atom.setCube c0 { q with m := 0 } o N res cube := by
  funext i j k
  rw [setCube_eq, setCube_eq]
  simp [Atom.gridval, Atom.ylmFactor, Atom.ylm, hs]

/-- The carbon `2p_z` orbital is covered. -/
example : Valid ⟨6, 2, 1, 0⟩ := ⟨by decide, by decide, by decide, by decide, by decide⟩

/-- The sulphur and molybdenum orbitals of MoS2 are covered. -/
example : Valid ⟨42, 4, 2, -2⟩ ∧ Valid ⟨16, 3, 1, 1⟩ := ⟨⟨by decide, by decide, by decide, by decide, by decide⟩, ⟨by decide, by decide, by decide, by decide, by decide⟩⟩

/-- The ground state of hydrogen as written to a cube: `e^{-r}/√π`. -/
example : Atom.gridval ![0, 0, 0] ⟨1, 1, 0, 0⟩ ![0, 0, 0] 1 0 0 1 = Real.exp (-1) / Real.sqrt Real.pi := by
  have h1 : Atom.rnlFactor 1 1 0 = 2 := by
    have := rnlFactor_eq 1 0 0
    norm_num at this
    exact this
  simp [Atom.gridval, h1, Atom.ylmFactor, Atom.coeff, Atom.ylm, Atom.radial, Atom.kummer]
  norm_num
  rw [div_eq_mul_inv]

end Verif.Props

import Mathlib.Analysis.Matrix.Spectrum
import Mathlib.LinearAlgebra.Matrix.Charpoly.Basic
import Mathlib.Analysis.Complex.Basic
import Mathlib.LinearAlgebra.Matrix.NonsingularInverse
import Mathlib.GroupTheory.QuotientGroup.Defs
import Mathlib.SetTheory.Cardinal.Finite

/-! # Spectra of folded Hamiltonians -/

namespace Verif

open Polynomial Matrix

/-- A matrix with a complete orthogonal family of eigenvectors. -/
theorem charpoly_of_orthogonal {ι κ : Type*} [Fintype ι] [DecidableEq ι] [Fintype κ] [DecidableEq κ]
    (A : Matrix ι ι ℂ) (W : Matrix ι κ ℂ) (hcard : Fintype.card ι = Fintype.card κ) (c : ℂ) (hc : c ≠ 0)
    (hW : W.conjTranspose * W = c • (1 : Matrix κ κ ℂ)) (μ : κ → ℂ) (hA : A * W = W * diagonal μ) :
    A.charpoly = ∏ q, (X - C (μ q)) := by
  obtain ⟨e⟩ := Fintype.card_eq.1 hcard
  have hl : (c⁻¹ • W.conjTranspose) * W = 1 := by
    rw [Matrix.smul_mul, hW, smul_smul, inv_mul_cancel₀ hc, one_smul]
  -- square version
  set V : Matrix ι ι ℂ := W.submatrix id e with hV
  set V' : Matrix ι ι ℂ := (c⁻¹ • W.conjTranspose).submatrix e id with hV'
  have h1 : V' * V = 1 := by
    rw [hV, hV', ← Matrix.submatrix_mul _ _ _ _ _ Function.bijective_id, hl, Matrix.submatrix_one_equiv]
  have h2 : V * V' = 1 := mul_eq_one_comm.1 h1
  have h3 : A * V = V * diagonal (fun i => μ (e i)) := by
    have : diagonal (fun i => μ (e i)) = (diagonal μ).submatrix e e := by
      ext i j
      simp [diagonal_apply]
    rw [this, hV, ← Matrix.submatrix_mul _ _ _ _ _ e.bijective, ← hA]
    rw [Matrix.submatrix_mul (e₂ := id) _ _ _ _ Function.bijective_id]
    rfl
  have h4 : A = V * (diagonal (fun i => μ (e i)) * V') := by
    rw [← mul_assoc, ← h3, mul_assoc, h2, mul_one]
  rw [h4, charpoly_mul_comm, mul_assoc, h1, mul_one, charpoly_diagonal]
  exact Fintype.prod_equiv e _ _ fun _ => rfl

/-- A nontrivial character sums to zero over representatives of the cosets on which it is constant. -/
theorem char_sum_zero {G : Type*} [AddCommGroup G] (S : AddSubgroup G) (R : Finset G)
    (hR : ∀ c, ∃! r, r ∈ R ∧ c - r ∈ S) (χ : G → ℂ) (hmul : ∀ a b, χ (a + b) = χ a * χ b) (hS : ∀ s ∈ S, χ s = 1) (c : G)
    (hc : χ c ≠ 1) : ∑ r ∈ R, χ r = 0 := by
  choose rep hrep huniq using hR
  simp only at hrep huniq
  have hchi : ∀ a, χ (rep a) = χ a := by
    intro a
    have h := hmul (rep a) (a - rep a)
    rw [hS _ (hrep a).2, mul_one, add_sub_cancel] at h
    exact h.symm
  have hsum : ∑ r ∈ R, χ r = ∑ r ∈ R, χ (rep (r + c)) := by
    refine (Finset.sum_nbij' (fun r => rep (r + c)) (fun r => rep (r - c)) ?_ ?_ ?_ ?_ ?_).symm
    · intro r _; exact (hrep _).1
    · intro r _; exact (hrep _).1
    · intro r hr
      refine (huniq _ r ⟨hr, ?_⟩).symm
      have : rep (r + c) - c - r = -(r + c - rep (r + c)) := by abel
      rw [this]
      exact S.neg_mem (hrep _).2
    · intro r hr
      refine (huniq _ r ⟨hr, ?_⟩).symm
      have : rep (r - c) + c - r = -(r - c - rep (r - c)) := by abel
      rw [this]
      exact S.neg_mem (hrep _).2
    · intro r _; rfl
  have h2 : ∑ r ∈ R, χ r = (∑ r ∈ R, χ r) * χ c := by
    conv_lhs => rw [hsum]
    rw [Finset.sum_mul]
    exact Finset.sum_congr rfl fun r _ => by rw [hchi, hmul]
  have h3 : (∑ r ∈ R, χ r) * (χ c - 1) = 0 := by
    rw [mul_sub, mul_one, ← h2, sub_self]
  rcases mul_eq_zero.1 h3 with h | h
  · exact h
  · exact absurd (sub_eq_zero.1 h) hc

/-- The number of representatives is the index of the subgroup. -/
theorem card_reps {G : Type*} [AddCommGroup G] (S : AddSubgroup G) (R : Finset G) (hR : ∀ c, ∃! r, r ∈ R ∧ c - r ∈ S) :
    R.card = Nat.card (G ⧸ S) := by
  let f : R → G ⧸ S := fun r => QuotientAddGroup.mk r.1
  have hf : Function.Bijective f := by
    constructor
    · rintro ⟨a, ha⟩ ⟨b, hb⟩ h
      have h' : -a + b ∈ S := QuotientAddGroup.eq.1 h
      obtain ⟨r, -, hu⟩ := hR b
      have h1 := hu a ⟨ha, by rw [sub_eq_neg_add]; exact h'⟩
      have h2 := hu b ⟨hb, by rw [sub_self]; exact S.zero_mem⟩
      exact Subtype.ext (h1.trans h2.symm)
    · intro q
      obtain ⟨c, rfl⟩ := QuotientAddGroup.mk_surjective q
      obtain ⟨r, ⟨h1, h2⟩, -⟩ := hR c
      exact ⟨⟨r, h1⟩, QuotientAddGroup.eq.2 (by rw [← sub_eq_neg_add]; exact h2)⟩
  rw [← Nat.card_eq_of_bijective f hf, Nat.card_eq_fintype_card, Fintype.card_coe]

/-- If every eigenvector of the Hermitian matrices `B m` unfolds to an eigenvector of `A`, and the phases are orthogonal, the
spectrum of `A` is the union of those of the `B m`, with multiplicities. -/
theorem fold_charpoly {N n : ℕ} {κ : Type*} [Fintype κ] [DecidableEq κ] (A : Matrix (Fin N) (Fin N) ℂ)
    (B : κ → Matrix (Fin n) (Fin n) ℂ) (hB : ∀ m, (B m).IsHermitian) (hN : N = Fintype.card κ * n) (p : κ → Fin N → ℂ)
    (o : Fin N → Fin n) (c : ℂ) (hc : c ≠ 0)
    (horth : ∀ m m' j, ∑ a with o a = j, star (p m a) * p m' a = if m = m' then c else 0)
    (heig : ∀ m (v : Fin n → ℂ) (μ : ℂ), (B m).mulVec v = μ • v →
      A.mulVec (fun a => p m a * v (o a)) = μ • fun a => p m a * v (o a)) :
    A.charpoly = ∏ m, (B m).charpoly := by
  let W : Matrix (Fin N) (κ × Fin n) ℂ := fun a q => p q.1 a * ((hB q.1).eigenvectorBasis q.2) (o a)
  have hev : ∀ q : κ × Fin n, A.mulVec (fun a => W a q) = ((hB q.1).eigenvalues q.2 : ℂ) • fun a => W a q := by
    intro q
    refine heig q.1 (fun i => ((hB q.1).eigenvectorBasis q.2) i) _ ?_
    exact (hB q.1).mulVec_eigenvectorBasis q.2
  have hW : W.conjTranspose * W = c • (1 : Matrix (κ × Fin n) (κ × Fin n) ℂ) := by
    ext ⟨m, j⟩ ⟨m', j'⟩
    rw [Matrix.mul_apply]
    have h0 : ∀ a : Fin N, W.conjTranspose (m, j) a * W a (m', j') =
        star (p m a) * star ((hB m).eigenvectorBasis j (o a)) * (p m' a * (hB m').eigenvectorBasis j' (o a)) := by
      intro a
      rw [Matrix.conjTranspose_apply]
      show star (p m a * _) * _ = _
      rw [star_mul']
    rw [Finset.sum_congr rfl fun a _ => h0 a]
    have h1 : ∀ a : Fin N, star (p m a) * star ((hB m).eigenvectorBasis j (o a)) * (p m' a * (hB m').eigenvectorBasis j' (o a)) =
        ∑ i : Fin n, if o a = i then star ((hB m).eigenvectorBasis j i) * (hB m').eigenvectorBasis j' i *
          (star (p m a) * p m' a) else 0 := by
      intro a
      rw [Finset.sum_ite_eq, if_pos (Finset.mem_univ _)]
      ring
    rw [Finset.sum_congr rfl fun a _ => h1 a, Finset.sum_comm]
    have h2 : ∀ i : Fin n, (∑ a : Fin N, if o a = i then star ((hB m).eigenvectorBasis j i) * (hB m').eigenvectorBasis j' i *
          (star (p m a) * p m' a) else 0) = star ((hB m).eigenvectorBasis j i) * (hB m').eigenvectorBasis j' i *
            (if m = m' then c else 0) := by
      intro i
      rw [← Finset.sum_filter, ← Finset.mul_sum, horth]
    rw [Finset.sum_congr rfl fun i _ => h2 i, ← Finset.sum_mul]
    by_cases hm : m = m'
    · subst hm
      have hin : ∑ i, star ((hB m).eigenvectorBasis j i) * (hB m).eigenvectorBasis j' i = if j = j' then 1 else 0 := by
        have := (orthonormal_iff_ite.1 (hB m).eigenvectorBasis.orthonormal) j j'
        rw [← this, PiLp.inner_apply]
        refine Finset.sum_congr rfl fun i _ => ?_
        simp [mul_comm]
      rw [hin, if_pos rfl]
      simp [Matrix.one_apply]
    · rw [if_neg hm, mul_zero]
      simp [Matrix.one_apply, hm]
  rw [charpoly_of_orthogonal A W (by simp [hN]) c hc hW (fun q => ((hB q.1).eigenvalues q.2 : ℂ)) ?_]
  · rw [Fintype.prod_prod_type]
    refine Finset.prod_congr rfl fun m _ => ?_
    rw [(hB m).charpoly_eq]
    rfl
  · ext a q
    have := congrFun (hev q) a
    rw [Matrix.mul_diagonal]
    simp only [Matrix.mulVec, dotProduct, Pi.smul_apply, smul_eq_mul] at this
    rw [Matrix.mul_apply, this, mul_comm]

end Verif

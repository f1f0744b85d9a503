import Verif.Proof.Reshape
import Mathlib.LinearAlgebra.Matrix.ToLin
import Mathlib.SetTheory.Cardinal.Finite

/-! # The number of orbitals of a reshaped cell -/

namespace Verif

variable {F Λ : Type*} [Field F] [LinearOrder F] [IsStrictOrderedRing F] [FloorRing F]
variable {Lz : Matrix (Fin 3) (Fin 3) ℤ}

/-- A cell as a vector of integers. -/
def cellFun (R : Cell) : Fin 3 → ℤ := ![R.1, R.2.1, R.2.2]

theorem cellFun_inj {R S : Cell} (h : cellFun R = cellFun S) : R = S := by
  have h0 := congrFun h 0
  have h1 := congrFun h 1
  have h2 := congrFun h 2
  exact Prod.ext h0 (Prod.ext h1 h2)

theorem cellFun_sub (R S : Cell) : cellFun (R - S) = cellFun R - cellFun S := by
  funext x; fin_cases x <;> rfl

theorem cellFun_surj (v : Fin 3 → ℤ) : ∃ R, cellFun R = v :=
  ⟨(v 0, v 1, v 2), by funext x; fin_cases x <;> rfl⟩

theorem cellFun_rowMul (m : Cell) : cellFun (rowMul m Lz) = Matrix.vecMul (cellFun m) Lz := by
  funext x; fin_cases x <;> simp [cellFun, rowMul, Matrix.vecMul, dotProduct, Fin.sum_univ_three]

/-- The sublattice of the reshaped cell. -/
def subLat (Lz : Matrix (Fin 3) (Fin 3) ℤ) : Submodule ℤ (Fin 3 → ℤ) := LinearMap.range (Matrix.vecMulLinear Lz)

theorem card_subLat (hL : Lz.det ≠ 0) : Nat.card ((Fin 3 → ℤ) ⧸ subLat Lz) = Lz.det.natAbs := by
  have hinj : Function.Injective (Matrix.vecMulLinear Lz) := by
    rw [← LinearMap.ker_eq_bot, LinearMap.ker_eq_bot']
    intro v hv
    exact Matrix.eq_zero_of_vecMul_eq_zero hL hv
  let e : (Fin 3 → ℤ) ≃ₗ[ℤ] subLat Lz := LinearEquiv.ofInjective (Matrix.vecMulLinear Lz) hinj
  have h := Submodule.natAbs_det_equiv (subLat Lz) e
  rw [← h]
  congr 1
  refine (congrArg LinearMap.det (?_ : _ = Matrix.toLin' Lz.transpose)).trans ?_
  · apply LinearMap.ext
    intro v
    rw [Matrix.toLin'_apply, Matrix.mulVec_transpose]
    rfl
  · rw [LinearMap.det_toLin', Matrix.det_transpose]

theorem mem_subLat (v : Fin 3 → ℤ) : v ∈ subLat Lz ↔ ∃ m, cellFun (rowMul m Lz) = v := by
  unfold subLat
  rw [LinearMap.mem_range]
  constructor
  · rintro ⟨w, rfl⟩
    obtain ⟨m, rfl⟩ := cellFun_surj w
    exact ⟨m, by rw [cellFun_rowMul]; rfl⟩
  · rintro ⟨m, rfl⟩
    exact ⟨cellFun m, by rw [cellFun_rowMul]; rfl⟩

/-- Two cells of the list with the same orbital are not equivalent. -/
theorem IsHomeList.unique {delta : F} {orbs : List (Orbital F Λ)} {S : List (ExtId × Orbital F Λ)}
    (hS : IsHomeList Lz delta orbs S) (hL : Lz.det ≠ 0) {I J m : Cell} {i : ℤ} {o o' : Orbital F Λ}
    (h1 : (mkId I i, o) ∈ S) (h2 : (mkId J i, o') ∈ S) (h : I = J + rowMul m Lz) : m = 0 := by
  obtain ⟨-, a1, a2⟩ := hS.sound _ _ _ h1
  obtain ⟨-, b1, b2⟩ := hS.sound _ _ _ h2
  rw [a1] at b1
  have : o = o' := Option.some.inj b1
  subst this
  rw [h, resCell_shift hL, b2, zero_add] at a2
  exact a2

theorem homeList_length {delta : F} {orbs : List (Orbital F Λ)} {S : List (ExtId × Orbital F Λ)}
    (hS : IsHomeList Lz delta orbs S) (hL : Lz.det ≠ 0) : S.length = Lz.det.natAbs * orbs.length := by
  let f : {id // id ∈ S.map Prod.fst} → Fin orbs.length × ((Fin 3 → ℤ) ⧸ subLat Lz) := fun id =>
    (⟨id.1.2.2.2.toNat, by
      obtain ⟨⟨id', o⟩, hm, he⟩ := List.mem_map.1 id.2
      have he' : id' = id.1 := he
      have := (hS.sound _ _ _ (show (mkId (id'.1, id'.2.1, id'.2.2.1) id'.2.2.2, o) ∈ S from hm)).2.1
      rw [← he']
      exact (List.getElem?_eq_some_iff.1 this).1⟩,
      Submodule.Quotient.mk (cellFun (id.1.1, id.1.2.1, id.1.2.2.1)))
  have hf : Function.Bijective f := by
    constructor
    · rintro ⟨id, hid⟩ ⟨id', hid'⟩ h
      simp only [f, Prod.mk.injEq, Fin.mk.injEq] at h
      obtain ⟨⟨q, o⟩, hm, rfl⟩ := List.mem_map.1 hid
      obtain ⟨⟨q', o'⟩, hm', rfl⟩ := List.mem_map.1 hid'
      have s1 := hS.sound (q.1, q.2.1, q.2.2.1) q.2.2.2 o hm
      have s2 := hS.sound (q'.1, q'.2.1, q'.2.2.1) q'.2.2.2 o' hm'
      have hi : q.2.2.2 = q'.2.2.2 := by
        have := h.1
        simp only at this
        omega
      rw [Submodule.Quotient.eq, ← cellFun_sub, mem_subLat] at h
      obtain ⟨-, m, hmm⟩ := h
      have hc := cellFun_inj hmm
      simp only at hc
      have hI : ((q.1, q.2.1, q.2.2.1) : Cell) = (q'.1, q'.2.1, q'.2.2.1) + rowMul m Lz := by
        rw [hc]; abel
      have hm0 : m = 0 := hS.unique hL (I := (q.1, q.2.1, q.2.2.1)) (i := q.2.2.2) (o := o) (o' := o') hm (by
        rw [hi]; exact hm') hI
      rw [hm0, rowMul_zero, add_zero] at hI
      have : q = q' := by
        rw [mkId_surj q, mkId_surj q', hI, hi]
      simp only [this]
    · rintro ⟨k, w⟩
      obtain ⟨v, rfl⟩ := Submodule.Quotient.mk_surjective _ w
      obtain ⟨R, rfl⟩ := cellFun_surj v
      obtain ⟨a, ha⟩ := hS.rep hL R (i := (k : ℤ)) (o := orbs[(k : ℕ)]) (by omega) (by simp)
      have hm := List.mem_of_getElem? ha
      refine ⟨⟨_, List.mem_map.2 ⟨_, hm, rfl⟩⟩, ?_⟩
      simp only [f, Prod.mk.injEq]
      refine ⟨by ext; simp [mkId], ?_⟩
      rw [Submodule.Quotient.eq, ← cellFun_sub, mem_subLat]
      refine ⟨-(resCell Lz delta R orbs[(k : ℕ)].position), ?_⟩
      congr 1
      rw [rowMul_neg]
      show _ = R - rowMul _ Lz - R
      abel
  have hc := Nat.card_eq_of_bijective f hf
  rw [Nat.card_prod, card_subLat hL, Nat.card_eq_fintype_card, Nat.card_eq_fintype_card, Fintype.card_fin] at hc
  have hl : Fintype.card {id // id ∈ S.map Prod.fst} = S.length := by
    rw [Fintype.card_of_subtype (S.map Prod.fst).toFinset (by simp), List.toFinset_card_of_nodup hS.nodup, List.length_map]
  rw [← hl, hc, mul_comm]

end Verif

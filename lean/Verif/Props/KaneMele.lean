import Verif.Proof.HopDict
import Verif.Props.Graphene
import Verif.Spec.Spin

/-! # Property C99: graphene with spin-orbit coupling -/

namespace Verif.Props

open PrimCell Materials

theorem soc_blockSum (q : Bool) : ∀ b ∈ socBlocks q, ∀ i j, i < 4 → j < 4 → b.2 i j ≠ 0 →
    blockSum (socBlocks q) b.1 i j = b.2 i j ∧ blockSum (socBlocks q) (-b.1) j i = star (b.2 i j) := by
  intro b hb i j hi hj hne
  simp only [socBlocks, socParams, List.mem_cons, List.not_mem_nil, or_false] at hb
  rcases hb with rfl | rfl | rfl | rfl | rfl | rfl <;>
  · simp only [blockSum, socBlocks, socParams, List.map_cons, List.map_nil, List.sum_cons, List.sum_nil, Prod.neg_mk, neg_zero,
      neg_neg, Prod.mk.injEq, putBlock] at hne ⊢
    interval_cases i <;> interval_cases j <;> simp at hne ⊢

/-- What `make_graphene_soc` builds. -/
theorem soc_spec (H : HashFns ℝ ℂ String) (q : Bool) :
    ∃ s, grapheneSoc H q = .ok s ∧ s.lat = (0.1 : ℝ) • !![0.5 * Real.sqrt 3, -0.5, 0; 0.5 * Real.sqrt 3, 0.5, 0; 0, 0, 1] ∧
      s.origin = 0 ∧ s.orbs = [⟨![0, 0, 0], (socParams q).2.2.2, "X"⟩, ⟨![0, 0, 0], (socParams q).2.2.2, "X"⟩,
        ⟨![1/3, 1/3, 0], -(socParams q).2.2.2, "X"⟩, ⟨![1/3, 1/3, 0], -(socParams q).2.2.2, "X"⟩] ∧
      (∀ R i j, s.hops.get R i j = open Classical in
        if 0 ≤ i ∧ i < 4 ∧ 0 ≤ j ∧ j < 4 ∧ blockSum (socBlocks q) R i.toNat j.toNat ≠ 0
        then some (blockSum (socBlocks q) R i.toNat j.toNat) else none) ∧
      WF s ∧ s.hashOrb = H.orb [] ∧ s.hashHop = H.hop [] := by
  have hok : ∀ p ∈ (socBlocks q).flatMap fun b => cooEntries 4 b.1 b.2, HopOk 4 ([p.1.1, p.1.2.1, p.1.2.2], p.2) := by
    intro p hp
    obtain ⟨b, hb, hp⟩ := List.mem_flatMap.1 hp
    obtain ⟨i, j, hi, hj, hm, rfl⟩ := mem_cooEntries.1 hp
    refine ⟨by simp [checkLen], ⟨by simp, by simp; omega⟩, ⟨by simp, by simp; omega⟩, ?_⟩
    rintro ⟨h0, hij⟩
    have hij : i = j := by simpa using hij
    subst hij
    have h0 : b.1 = 0 := by simpa [cellOf, checkLen] using h0
    simp only [socBlocks, socParams, List.mem_cons, List.not_mem_nil, or_false] at hb
    rcases hb with rfl | rfl | rfl | rfl | rfl | rfl <;> simp at h0
    simp only [putBlock] at hm
    interval_cases i <;> simp at hm
  obtain ⟨s, h1, h2, h3, h4, h5, h6, h7, -, h8, h9⟩ := build_spec H
    ((0.1 : ℝ) • !![0.5 * Real.sqrt 3, -0.5, 0; 0.5 * Real.sqrt 3, 0.5, 0; 0, 0, 1]) 0
    [([0, 0], (socParams q).2.2.2, "X"), ([0, 0], (socParams q).2.2.2, "X"), ([1/3, 1/3], -(socParams q).2.2.2, "X"),
      ([1/3, 1/3], -(socParams q).2.2.2, "X")]
    (((socBlocks q).flatMap fun b => cooEntries 4 b.1 b.2).map fun q => ([q.1.1, q.1.2.1, q.1.2.2], q.2))
    (by intro q hq; fin_cases hq <;> simp [checkLen])
    (by intro p hp; obtain ⟨r, hr, rfl⟩ := List.mem_map.1 hp; exact hok r hr) _ rfl
  refine ⟨s, ?_, h2, h3, ?_, ?_, ?_, h8, h9⟩
  · rw [← h1]
    unfold grapheneSoc
    have h10 := runOk_orbs H [([0, 0], (socParams q).2.2.2, "X"), ([0, 0], (socParams q).2.2.2, "X"), ([1/3, 1/3], -(socParams q).2.2.2, "X"),
      ([1/3, 1/3], -(socParams q).2.2.2, "X")] (init H ((0.1 : ℝ) • !![0.5 * Real.sqrt 3, -0.5, 0; 0.5 * Real.sqrt 3, 0.5, 0; 0, 0, 1]) 0)
      rfl (by intro q hq; fin_cases hq <;> simp [checkLen])
    rw [runOk_append H _ _ _ _ h10, ← runOk_dict H _ (by rfl) (fun e => @decide _ (Classical.propDecidable _)) _ (by simpa [numOrb, init] using hok), ← runOk_append H _ _ _ _ h10]
    rfl
  · rw [h4]
    simp [checkLen, vec3]
  · intro R i j
    rw [h5, List.foldl_map]
    have := fold_blocks 4 (socBlocks q) (soc_blockSum q) R i j
    simpa [cellOf, checkLen] using this
  · exact h6 ▸ WF_run H (WF_init H _ _) _ h7

/-- The hopping amplitudes. -/
theorem soc_amp {s : PrimCell ℝ ℂ String} {q : Bool} (h : ∀ R i j, s.hops.get R i j = open Classical in
        if 0 ≤ i ∧ i < 4 ∧ 0 ≤ j ∧ j < 4 ∧ blockSum (socBlocks q) R i.toNat j.toNat ≠ 0
        then some (blockSum (socBlocks q) R i.toNat j.toNat) else none) (R : Cell) (i j : ℕ) (hi : i < 4) (hj : j < 4) :
    (s.hops.get R i j).getD 0 = blockSum (socBlocks q) R i j := by
  classical
  rw [h]
  simp only [Int.toNat_natCast]
  by_cases h0 : blockSum (socBlocks q) R i j = 0
  · rw [if_neg (by simp [h0]), h0]; rfl
  · rw [if_pos ⟨by omega, by omega, by omega, by omega, h0⟩]; rfl

theorem hex_gap (x y : ℤ) : 0 ≤ x ^ 2 + x * y + y ^ 2 + x + y ∧
    (x ^ 2 + x * y + y ^ 2 + x + y = 0 ↔ (x = 0 ∧ y = 0) ∨ (x = -1 ∧ y = 0) ∨ (x = 0 ∧ y = -1)) := by
  constructor
  · by_contra hlt
    have h1 : (x + y + 1) ^ 2 + x ^ 2 + y ^ 2 ≤ 0 := by nlinarith
    have hx : x = 0 := by
      have : x ^ 2 = 0 := by nlinarith [sq_nonneg (x + y + 1), sq_nonneg x, sq_nonneg y]
      exact pow_eq_zero_iff (two_ne_zero) |>.1 this
    have hy : y = 0 := by
      have : y ^ 2 = 0 := by nlinarith [sq_nonneg (x + y + 1), sq_nonneg x, sq_nonneg y]
      exact pow_eq_zero_iff (two_ne_zero) |>.1 this
    rw [hx, hy] at h1
    norm_num at h1
  · constructor
    · intro h
      exact three_sq (x := x + y + 1) (by linarith [h]) rfl
    · rintro (⟨rfl, rfl⟩ | ⟨rfl, rfl⟩ | ⟨rfl, rfl⟩) <;> norm_num

theorem hex_six {x y : ℤ} (h : x ^ 2 + x * y + y ^ 2 = 1) :
    (x = 1 ∧ y = 0) ∨ (x = -1 ∧ y = 0) ∨ (x = 0 ∧ y = 1) ∨ (x = 0 ∧ y = -1) ∨ (x = 1 ∧ y = -1) ∨ (x = -1 ∧ y = 1) := by
  have h1 : -1 ≤ x ∧ x ≤ 1 := by
    constructor <;> nlinarith [sq_nonneg (x + 2 * y), sq_nonneg x]
  have h2 : -1 ≤ y ∧ y ≤ 1 := by
    constructor <;> nlinarith [sq_nonneg (y + 2 * x), sq_nonneg y]
  rcases (show x = -1 ∨ x = 0 ∨ x = 1 by omega) with rfl | rfl | rfl <;>
    rcases (show y = -1 ∨ y = 0 ∨ y = 1 by omega) with rfl | rfl | rfl <;> simp_all

theorem hop2nd_vals {v w : Vec3 ℝ} {ν : ℝ} (h : 2 / Real.sqrt 3 * crossZ v w = ν) (l : ℝ) :
    hop2nd l v w 0 0 = Complex.I * ν * l ∧ hop2nd l v w 1 1 = -(Complex.I * ν * l) ∧ hop2nd l v w 0 1 = 0 ∧ hop2nd l v w 1 0 = 0 := by
  simp only [hop2nd, h]
  simp

/-- The amplitude of the hopping from orbital `j` of cell `R` to orbital `i` of cell 0. -/
noncomputable def amp {Λ : Type*} (s : PrimCell ℝ ℂ Λ) (R : Cell) (i j : ℕ) : ℂ := (s.hops.get R i j).getD 0

/-- The vector between two sites in units of the carbon-carbon distance `0.1 / √3`. -/
noncomputable def ccVec (s : PrimCell ℝ ℂ String) (R0 : Cell) (i : ℕ) (R : Cell) (j : ℕ) : Vec3 ℝ := fun x =>
  (sitePos s R j x - sitePos s R0 i x) * (Real.sqrt 3 / 0.1)

/-- Square of the length. -/
def len2 (v : Vec3 ℝ) : ℝ := ∑ x, v x ^ 2

set_option maxHeartbeats 1600000 in
/-- **C99.** `make_graphene_soc` builds the Kane-Mele model with Rashba coupling.  Lengths are in units of the carbon-carbon
distance.  Orbital `2 a + σ` is spin `σ` on sublattice `a`.  The sublattice energy is `± λν`; nearest neighbours at `d` have the
amplitude `t + i λR (σx d_y - σy d_x)`; second neighbours, reached through a common neighbour by the bonds `d₁` and `d₂`, have
`i λso ν σz` with `ν = 2/√3 (d₁ × d₂)_z`; no other sites are coupled. -/
theorem C99_kane_mele (H : HashFns ℝ ℂ String) (q : Bool) :
    ∃ s, grapheneSoc H q = .ok s ∧ s.numOrb = 4 ∧
      (∀ a σ : Fin 2, (s.orbs[2 * (a : ℕ) + σ]?).map Orbital.energy =
        some ((if a = 0 then 1 else -1) * (if q then -0.1 else -0.4 : ℝ))) ∧
      (∀ a σ : Fin 2, ∀ R, sitePos s R (2 * a + σ) = sitePos s R (2 * a)) ∧
      (∀ R : Cell, ∀ a b : Fin 2, R.2.2 = 0 →
        (len2 (ccVec s 0 (2 * a) R (2 * b)) = 1 → ∀ σ τ : Fin 2, amp s R (2 * a + σ) (2 * b + τ) =
          -1 * (1 : Matrix (Fin 2) (Fin 2) ℂ) σ τ + Complex.I * (-0.05) *
            (ccVec s 0 (2 * a) R (2 * b) 1 * pauli "x" σ τ - ccVec s 0 (2 * a) R (2 * b) 0 * pauli "y" σ τ)) ∧
        (len2 (ccVec s 0 (2 * a) R (2 * b)) = 3 → ∃ R1 : Cell,
          len2 (ccVec s 0 (2 * a) R1 (2 * (1 - a : Fin 2))) = 1 ∧ len2 (ccVec s R1 (2 * (1 - a : Fin 2)) R (2 * b)) = 1 ∧
          ∀ σ τ : Fin 2, amp s R (2 * a + σ) (2 * b + τ) = Complex.I * (-0.06) * pauli "z" σ τ *
            (2 / Real.sqrt 3 * crossZ (ccVec s 0 (2 * a) R1 (2 * (1 - a : Fin 2))) (ccVec s R1 (2 * (1 - a : Fin 2)) R (2 * b)) : ℝ)) ∧
        (len2 (ccVec s 0 (2 * a) R (2 * b)) ≠ 1 → len2 (ccVec s 0 (2 * a) R (2 * b)) ≠ 3 →
          ∀ σ τ : Fin 2, amp s R (2 * a + σ) (2 * b + τ) = 0)) ∧
      ∀ R i j, R.2.2 ≠ 0 → s.hops.get R i j = none := by
  obtain ⟨s, h1, h2, h3, h4, h5, -⟩ := soc_spec H q
  have hs : Real.sqrt 3 ^ 2 = 3 := Real.sq_sqrt (by norm_num)
  have hs0 : Real.sqrt 3 ≠ 0 := by positivity
  have c6 : (starRingEnd ℂ) (0.06 : ℂ) = 0.06 := by
    rw [show (0.06 : ℂ) = ((0.06 : ℝ) : ℂ) by norm_num]; exact Complex.conj_ofReal _
  have c5 : (starRingEnd ℂ) (0.05 : ℂ) = 0.05 := by
    rw [show (0.05 : ℂ) = ((0.05 : ℝ) : ℂ) by norm_num]; exact Complex.conj_ofReal _
  have c2 : (starRingEnd ℂ) (0.5 : ℂ) = 0.5 := by
    rw [show (0.5 : ℂ) = ((0.5 : ℝ) : ℂ) by norm_num]; exact Complex.conj_ofReal _
  have hamp : ∀ (R : Cell) (i j : ℕ), i < 4 → j < 4 → amp s R i j = blockSum (socBlocks q) R i j := fun R i j hi hj =>
    soc_amp h5 R i j hi hj
  have hv : ∀ (R0 R : Cell) (a b : Fin 2), R0.2.2 = 0 → R.2.2 = 0 → ccVec s R0 (2 * a) R (2 * b) =
      ![(3 / 2) * ((R.1 - R0.1 + R.2.1 - R0.2.1 : ℝ) + 2 * ((b : ℕ) - (a : ℕ) : ℝ) / 3),
        Real.sqrt 3 / 2 * (R.2.1 - R0.2.1 - R.1 + R0.1), 0] := by
    rintro ⟨x0, y0, z0⟩ ⟨x, y, z⟩ a b rfl rfl
    funext i
    fin_cases a <;> fin_cases b <;> fin_cases i <;>
      simp [ccVec, sitePos, h2, h3, h4, frac2cartRow, cellVec, Fin.sum_univ_three, Matrix.mulVec, dotProduct] <;>
      first
      | ring1
      | (ring_nf; simp only [hs]; ring1)
  have hl : ∀ (R0 R : Cell) (a b : Fin 2), R0.2.2 = 0 → R.2.2 = 0 → len2 (ccVec s R0 (2 * a) R (2 * b)) =
      ((3 * ((R.1 - R0.1) ^ 2 + (R.1 - R0.1) * (R.2.1 - R0.2.1) + (R.2.1 - R0.2.1) ^ 2) +
        3 * ((b : ℕ) - (a : ℕ)) * (R.1 - R0.1 + (R.2.1 - R0.2.1)) + ((b : ℕ) - (a : ℕ)) ^ 2 : ℤ) : ℝ) := by
    intro R0 R a b hz0 hz
    rw [hv R0 R a b hz0 hz, len2, Fin.sum_univ_three]
    simp
    linear_combination (1 / 4) * (R.2.1 - R0.2.1 - R.1 + R0.1 : ℝ) ^ 2 * hs
  refine ⟨s, h1, by simp [numOrb, h4], ?_, ?_, ?_, ?_⟩
  · intro a σ
    fin_cases a <;> fin_cases σ <;> cases q <;> simp [h4, socParams]
  · intro a σ R
    fin_cases a <;> fin_cases σ <;> simp [sitePos, h4]
  · rintro ⟨x, y, z⟩ a b rfl
    rw [hl 0 (x, y, 0) a b rfl rfl]
    rcases (show a = b ∨ a ≠ b from em _) with rfl | hab
    · simp only [sub_self, mul_zero, zero_mul, add_zero, Prod.fst_zero, Prod.snd_zero, sub_zero, ne_eq, OfNat.ofNat_ne_zero,
        not_false_eq_true, zero_pow]
      refine ⟨?_, ?_, ?_⟩
      · intro h
        have : 3 * (x ^ 2 + x * y + y ^ 2) = 1 := by exact_mod_cast h
        omega
      · intro h
        have : 3 * (x ^ 2 + x * y + y ^ 2) = 3 := by exact_mod_cast h
        have h6 := hex_six (show x ^ 2 + x * y + y ^ 2 = 1 by omega)
        have hR1 : ∃ R1 : Cell, R1.2.2 = 0 ∧ (((3 * ((R1.1 - 0) ^ 2 + (R1.1 - 0) * (R1.2.1 - 0) + (R1.2.1 - 0) ^ 2) +
            3 * (((1 - a : Fin 2) : ℕ) - (a : ℕ)) * (R1.1 - 0 + (R1.2.1 - 0)) + (((1 - a : Fin 2) : ℕ) - (a : ℕ)) ^ 2 : ℤ) : ℤ) = 1 ∧
            (3 * ((x - R1.1) ^ 2 + (x - R1.1) * (y - R1.2.1) + (y - R1.2.1) ^ 2) +
            3 * ((a : ℕ) - ((1 - a : Fin 2) : ℕ)) * (x - R1.1 + (y - R1.2.1)) + ((a : ℕ) - ((1 - a : Fin 2) : ℕ)) ^ 2 : ℤ) = 1) ∧
            ∀ σ τ : Fin 2, blockSum (socBlocks q) (x, y, 0) (2 * a + σ) (2 * a + τ) = Complex.I * (-0.06) * pauli "z" σ τ *
            (2 / Real.sqrt 3 * crossZ (ccVec s 0 (2 * a) R1 (2 * (1 - a : Fin 2))) (ccVec s R1 (2 * (1 - a : Fin 2)) (x, y, 0) (2 * a)) : ℝ) := by
          have n1 : 2 / Real.sqrt 3 * crossZ (acVec 0) (bcVec 2) = 1 := by simp [crossZ, acVec, bcVec, hs0]
          have n2 : 2 / Real.sqrt 3 * crossZ (bcVec 2) (acVec 0) = -1 := by simp [crossZ, acVec, bcVec, hs0]
          have n3 : 2 / Real.sqrt 3 * crossZ (acVec 0) (bcVec 1) = -1 := by simp [crossZ, acVec, bcVec, hs0]
          have n4 : 2 / Real.sqrt 3 * crossZ (bcVec 1) (acVec 0) = 1 := by simp [crossZ, acVec, bcVec, hs0]
          have n5 : 2 / Real.sqrt 3 * crossZ (acVec 2) (bcVec 1) = 1 := by simp [crossZ, acVec, bcVec]; field_simp; norm_num
          have n6 : 2 / Real.sqrt 3 * crossZ (bcVec 1) (acVec 2) = -1 := by simp [crossZ, acVec, bcVec]; field_simp; norm_num
          have key : ∀ R1 : Cell, R1.2.2 = 0 → ∀ ν : ℝ, (3 * (R1.1 * y - R1.2.1 * x) + (((1 - a : Fin 2) : ℕ) - (a : ℕ)) * (y - x) : ℝ) = ν →
              2 / Real.sqrt 3 * crossZ (ccVec s 0 (2 * a) R1 (2 * (1 - a : Fin 2))) (ccVec s R1 (2 * (1 - a : Fin 2)) (x, y, 0) (2 * a)) = ν := by
            rintro ⟨x1, y1, z1⟩ rfl ν rfl
            rw [hv 0 (x1, y1, 0) a (1 - a) rfl rfl, hv (x1, y1, 0) (x, y, 0) (1 - a) a rfl rfl]
            simp [crossZ]
            field_simp
            ring
          rcases h6 with ⟨rfl, rfl⟩ | ⟨rfl, rfl⟩ | ⟨rfl, rfl⟩ | ⟨rfl, rfl⟩ | ⟨rfl, rfl⟩ | ⟨rfl, rfl⟩
          · fin_cases a
            · refine ⟨(0, 0, 0), rfl, by decide, ?_⟩
              intro σ τ
              rw [key (0, 0, 0) rfl (-1) (by norm_num)]
              fin_cases σ <;> fin_cases τ <;> simp [blockSum, socBlocks, socParams, putBlock, pauli, hop2nd_vals n1, hop2nd_vals n2, hop2nd_vals n3, hop2nd_vals n4,
                hop2nd_vals n5, hop2nd_vals n6, c6]
            · refine ⟨(1, 0, 0), rfl, by decide, ?_⟩
              intro σ τ
              rw [key (1, 0, 0) rfl (1) (by norm_num)]
              fin_cases σ <;> fin_cases τ <;> simp [blockSum, socBlocks, socParams, putBlock, pauli, hop2nd_vals n1, hop2nd_vals n2, hop2nd_vals n3, hop2nd_vals n4,
                hop2nd_vals n5, hop2nd_vals n6, c6]
          · fin_cases a
            · refine ⟨(-1, 0, 0), rfl, by decide, ?_⟩
              intro σ τ
              rw [key (-1, 0, 0) rfl (1) (by norm_num)]
              fin_cases σ <;> fin_cases τ <;> simp [blockSum, socBlocks, socParams, putBlock, pauli, hop2nd_vals n1, hop2nd_vals n2, hop2nd_vals n3, hop2nd_vals n4,
                hop2nd_vals n5, hop2nd_vals n6, c6]
            · refine ⟨(0, 0, 0), rfl, by decide, ?_⟩
              intro σ τ
              rw [key (0, 0, 0) rfl (-1) (by norm_num)]
              fin_cases σ <;> fin_cases τ <;> simp [blockSum, socBlocks, socParams, putBlock, pauli, hop2nd_vals n1, hop2nd_vals n2, hop2nd_vals n3, hop2nd_vals n4,
                hop2nd_vals n5, hop2nd_vals n6, c6]
          · fin_cases a
            · refine ⟨(0, 0, 0), rfl, by decide, ?_⟩
              intro σ τ
              rw [key (0, 0, 0) rfl (1) (by norm_num)]
              fin_cases σ <;> fin_cases τ <;> simp [blockSum, socBlocks, socParams, putBlock, pauli, hop2nd_vals n1, hop2nd_vals n2, hop2nd_vals n3, hop2nd_vals n4,
                hop2nd_vals n5, hop2nd_vals n6, c6]
            · refine ⟨(0, 1, 0), rfl, by decide, ?_⟩
              intro σ τ
              rw [key (0, 1, 0) rfl (-1) (by norm_num)]
              fin_cases σ <;> fin_cases τ <;> simp [blockSum, socBlocks, socParams, putBlock, pauli, hop2nd_vals n1, hop2nd_vals n2, hop2nd_vals n3, hop2nd_vals n4,
                hop2nd_vals n5, hop2nd_vals n6, c6]
          · fin_cases a
            · refine ⟨(0, -1, 0), rfl, by decide, ?_⟩
              intro σ τ
              rw [key (0, -1, 0) rfl (-1) (by norm_num)]
              fin_cases σ <;> fin_cases τ <;> simp [blockSum, socBlocks, socParams, putBlock, pauli, hop2nd_vals n1, hop2nd_vals n2, hop2nd_vals n3, hop2nd_vals n4,
                hop2nd_vals n5, hop2nd_vals n6, c6]
            · refine ⟨(0, 0, 0), rfl, by decide, ?_⟩
              intro σ τ
              rw [key (0, 0, 0) rfl (1) (by norm_num)]
              fin_cases σ <;> fin_cases τ <;> simp [blockSum, socBlocks, socParams, putBlock, pauli, hop2nd_vals n1, hop2nd_vals n2, hop2nd_vals n3, hop2nd_vals n4,
                hop2nd_vals n5, hop2nd_vals n6, c6]
          · fin_cases a
            · refine ⟨(0, -1, 0), rfl, by decide, ?_⟩
              intro σ τ
              rw [key (0, -1, 0) rfl (1) (by norm_num)]
              fin_cases σ <;> fin_cases τ <;> simp [blockSum, socBlocks, socParams, putBlock, pauli, hop2nd_vals n1, hop2nd_vals n2, hop2nd_vals n3, hop2nd_vals n4,
                hop2nd_vals n5, hop2nd_vals n6, c6]
            · refine ⟨(1, 0, 0), rfl, by decide, ?_⟩
              intro σ τ
              rw [key (1, 0, 0) rfl (-1) (by norm_num)]
              fin_cases σ <;> fin_cases τ <;> simp [blockSum, socBlocks, socParams, putBlock, pauli, hop2nd_vals n1, hop2nd_vals n2, hop2nd_vals n3, hop2nd_vals n4,
                hop2nd_vals n5, hop2nd_vals n6, c6]
          · fin_cases a
            · refine ⟨(-1, 0, 0), rfl, by decide, ?_⟩
              intro σ τ
              rw [key (-1, 0, 0) rfl (-1) (by norm_num)]
              fin_cases σ <;> fin_cases τ <;> simp [blockSum, socBlocks, socParams, putBlock, pauli, hop2nd_vals n1, hop2nd_vals n2, hop2nd_vals n3, hop2nd_vals n4,
                hop2nd_vals n5, hop2nd_vals n6, c6]
            · refine ⟨(0, 1, 0), rfl, by decide, ?_⟩
              intro σ τ
              rw [key (0, 1, 0) rfl (1) (by norm_num)]
              fin_cases σ <;> fin_cases τ <;> simp [blockSum, socBlocks, socParams, putBlock, pauli, hop2nd_vals n1, hop2nd_vals n2, hop2nd_vals n3, hop2nd_vals n4,
                hop2nd_vals n5, hop2nd_vals n6, c6]
        obtain ⟨R1, hz1, ⟨h7, h8⟩, h9⟩ := hR1
        refine ⟨R1, ?_, ?_, ?_⟩
        · rw [hl 0 R1 a (1 - a) rfl hz1]
          simp only [Prod.fst_zero, Prod.snd_zero]
          rw [h7]; simp
        · rw [hl R1 (x, y, 0) (1 - a) a hz1 rfl]
          simp only
          rw [h8]; simp
        · intro σ τ
          rw [hamp _ _ _ (by omega) (by omega)]
          exact h9 σ τ
      · intro _ h
        have hn : ¬ (x ^ 2 + x * y + y ^ 2 = 1) := by
          intro h'
          apply h
          rw [h']; norm_num
        intro σ τ
        rw [hamp _ _ _ (by omega) (by omega)]
        have : ¬ (x = 1 ∧ y = 0) ∧ ¬ (x = -1 ∧ y = 0) ∧ ¬ (x = 0 ∧ y = 1) ∧ ¬ (x = 0 ∧ y = -1) ∧ ¬ (x = 1 ∧ y = -1) ∧
            ¬ (x = -1 ∧ y = 1) := by
          refine ⟨?_, ?_, ?_, ?_, ?_, ?_⟩ <;> rintro ⟨rfl, rfl⟩ <;> norm_num at hn
        obtain ⟨g1, g2, g3, g4, g5, g6⟩ := this
        fin_cases a <;> fin_cases σ <;> fin_cases τ <;>
          simp [blockSum, socBlocks, socParams, putBlock, g1, g2, g3, g4, g5, g6]
    · have hq : ∃ u v : ℤ, ((3 * ((x - 0) ^ 2 + (x - 0) * (y - 0) + (y - 0) ^ 2) +
          3 * ((b : ℕ) - (a : ℕ)) * (x - 0 + (y - 0)) + ((b : ℕ) - (a : ℕ)) ^ 2 : ℤ) : ℤ) = 3 * (u ^ 2 + u * v + v ^ 2 + u + v) + 1 ∧
          u = ((b : ℕ) - (a : ℕ)) * x ∧ v = ((b : ℕ) - (a : ℕ)) * y := by
        refine ⟨_, _, ?_, rfl, rfl⟩
        fin_cases a <;> fin_cases b <;> simp at hab ⊢ <;> ring
      obtain ⟨u, v, e, hu, hv'⟩ := hq
      simp only [Prod.fst_zero, Prod.snd_zero]
      rw [e]
      refine ⟨?_, ?_, ?_⟩
      · intro h
        have h' : 3 * (u ^ 2 + u * v + v ^ 2 + u + v) + 1 = 1 := by exact_mod_cast h
        have h6 := (hex_gap u v).2.1 (by omega)
        intro σ τ
        rw [hv 0 (x, y, 0) a b rfl rfl, hamp _ _ _ (by omega) (by omega)]
        have hx : x = ((b : ℕ) - (a : ℕ)) * u ∧ y = ((b : ℕ) - (a : ℕ)) * v := by
          rw [hu, hv']
          fin_cases a <;> fin_cases b <;> simp at hab ⊢
        clear hu hv' e h h' hl hv hamp h1 h2 h3 h4 h5
        rcases h6 with ⟨rfl, rfl⟩ | ⟨rfl, rfl⟩ | ⟨rfl, rfl⟩ <;>
          fin_cases a <;> fin_cases b <;> simp at hab hx <;> obtain ⟨rfl, rfl⟩ := hx <;>
          fin_cases σ <;> fin_cases τ <;>
          simp [blockSum, socBlocks, socParams, putBlock, hop1st, acVec, pauli, c5, c2, map_ofNat (starRingEnd ℂ) 2] <;>
          (ring_nf; try simp only [Complex.I_sq]; try ring_nf)
      · intro h
        have h' : 3 * (u ^ 2 + u * v + v ^ 2 + u + v) + 1 = 3 := by exact_mod_cast h
        omega
      · intro h _ σ τ
        have h6 : ¬ ((u = 0 ∧ v = 0) ∨ (u = -1 ∧ v = 0) ∨ (u = 0 ∧ v = -1)) := by
          intro h6
          apply h
          rw [(hex_gap u v).2.2 h6]; norm_num
        rw [hamp _ _ _ (by omega) (by omega)]
        have hx : x = ((b : ℕ) - (a : ℕ)) * u ∧ y = ((b : ℕ) - (a : ℕ)) * v := by
          rw [hu, hv']
          fin_cases a <;> fin_cases b <;> simp at hab ⊢
        clear hu hv' e h hl hv hamp h1 h2 h3 h4 h5
        push Not at h6
        obtain ⟨g1, g2, g3⟩ := h6
        fin_cases a <;> fin_cases b <;> simp at hab hx <;> obtain ⟨rfl, rfl⟩ := hx
        · have f1 : ¬ (x = 0 ∧ y = 0) := fun h => g1 h.1 h.2
          have f2 : ¬ (x = -1 ∧ y = 0) := fun h => g2 h.1 h.2
          have f3 : ¬ (x = 0 ∧ y = -1) := fun h => g3 h.1 h.2
          fin_cases σ <;> fin_cases τ <;> simp [blockSum, socBlocks, socParams, putBlock, f1, f2, f3]
        · have f1 : ¬ (u = 0 ∧ v = 0) := fun h => g1 h.1 h.2
          have f2 : ¬ (-u = 1 ∧ v = 0) := fun h => g2 (by omega) h.2
          have f3 : ¬ (u = 0 ∧ -v = 1) := fun h => g3 h.1 (by omega)
          fin_cases σ <;> fin_cases τ <;> simp [blockSum, socBlocks, socParams, putBlock, f1, f2, f3]
  · rintro ⟨x, y, z⟩ i j hz
    rw [h5, if_neg]
    rintro ⟨-, -, -, -, h⟩
    apply h
    simp only at hz
    simp [blockSum, socBlocks, socParams, hz]

end Verif.Props

import Verif.Proof.Build
import Verif.Props.Extend
import Verif.Props.Reshape
import Verif.Props.Bloch
import Mathlib.LinearAlgebra.Matrix.Charpoly.Coeff
import Verif.Spec.Crystal
import Mathlib.Analysis.SpecialFunctions.Trigonometric.Bounds

/-! # Property C98: the graphene cells -/

namespace Verif.Props

open PrimCell Materials

/-- The lattice of the diamond-shaped cell. -/
theorem diamond_lat (c : ℝ) : genLatticeVectors 0.246 0.246 c 90 90 60 =
    some !![0.246, 0, 0; 0.123, 0.123 * Real.sqrt 3, 0; 0, 0, cleanEntry c] := by
  have e1 : (90 : ℝ) / 180 * Real.pi = Real.pi / 2 := by ring
  have e2 : (60 : ℝ) / 180 * Real.pi = Real.pi / 3 := by ring
  have h3 : (1 : ℝ) < Real.sqrt 3 := by
    rw [Real.lt_sqrt (by norm_num)]; norm_num
  have hs : Real.sqrt 3 * Real.sqrt 3 = 3 := Real.mul_self_sqrt (by norm_num)
  have hr : Real.sqrt (1 - (2 ^ 2)⁻¹) = Real.sqrt 3 / 2 := by
    rw [Real.sqrt_eq_iff_mul_self_eq (by norm_num) (by positivity)]
    nlinarith
  unfold genLatticeVectors
  rw [if_neg]
  · congr 1
    ext i j
    simp only [Matrix.map_apply, genLatRaw, e1, e2, latRad, Real.cos_pi_div_two, Real.cos_pi_div_three, Real.sin_pi_div_three]
    fin_cases i <;> fin_cases j <;> simp [cleanEntry]
    · norm_num [abs_of_pos]
    · norm_num [abs_of_pos]
    · rw [if_neg]
      · ring
      · rw [not_lt, abs_of_pos (show (0 : ℝ) < Real.sqrt 3 / 2 by positivity), abs_of_pos (by norm_num)]
        norm_num
        linarith
    · rw [hr]
      have : c * (Real.sqrt 3 / 2) / (Real.sqrt 3 / 2) = c := by field_simp
      rw [this]
  · simp only [e1, e2, latRad, Real.cos_pi_div_two, Real.cos_pi_div_three, Real.sin_pi_div_three]
    push Not
    constructor
    · norm_num
    · positivity

/-- The lattice of the rectangular cell. -/
theorem rect_lat (c : ℝ) : genLatticeVectors (Real.sqrt 3 * (Real.sqrt 3 / 3 * 0.246)) (3 * (Real.sqrt 3 / 3 * 0.246)) c 90 90 90 =
    some !![0.246, 0, 0; 0, 0.246 * Real.sqrt 3, 0; 0, 0, cleanEntry c] := by
  have e1 : (90 : ℝ) / 180 * Real.pi = Real.pi / 2 := by ring
  have h3 : (1 : ℝ) < Real.sqrt 3 := by
    rw [Real.lt_sqrt (by norm_num)]; norm_num
  have hs : Real.sqrt 3 * Real.sqrt 3 = 3 := Real.mul_self_sqrt (by norm_num)
  have ha : Real.sqrt 3 * (Real.sqrt 3 / 3 * 0.246) = 0.246 := by linear_combination 0.082 * hs
  have hb : 3 * (Real.sqrt 3 / 3 * 0.246) = 0.246 * Real.sqrt 3 := by ring
  rw [ha, hb]
  unfold genLatticeVectors
  rw [if_neg]
  · congr 1
    ext i j
    simp only [Matrix.map_apply, genLatRaw, e1, latRad, Real.cos_pi_div_two, Real.sin_pi_div_two]
    fin_cases i <;> fin_cases j <;> simp [cleanEntry]
    · norm_num [abs_of_pos]
    · intro h
      exfalso
      rw [abs_of_pos (show (0 : ℝ) < Real.sqrt 3 by positivity), abs_of_pos (by norm_num)] at h
      norm_num at h
      linarith
  · simp only [e1, latRad, Real.cos_pi_div_two, Real.sin_pi_div_two]
    norm_num

/-- The hopping map of the diamond-shaped cell. -/
theorem diamond_spec (H : HashFns ℝ ℂ String) (c : ℝ) (t : ℂ) :
    ∃ s, grapheneDiamond H c t = .ok s ∧ s.lat = !![0.246, 0, 0; 0.123, 0.123 * Real.sqrt 3, 0; 0, 0, cleanEntry c] ∧
      s.origin = 0 ∧ s.orbs = [⟨![0, 0, 0], 0, "C_pz"⟩, ⟨![1/3, 1/3, 0], 0, "C_pz"⟩] ∧
      (∀ R i j, s.hops.get R i j =
        if (R = (0, 1, 0) ∧ i = 1 ∧ j = 0) ∨ (R = (1, 0, 0) ∧ i = 1 ∧ j = 0) ∨ (R = 0 ∧ i = 0 ∧ j = 1) then some t else
        if (R = (0, -1, 0) ∧ i = 0 ∧ j = 1) ∨ (R = (-1, 0, 0) ∧ i = 0 ∧ j = 1) ∨ (R = 0 ∧ i = 1 ∧ j = 0) then some (star t)
        else none) ∧
      s = run H (init H s.lat 0) ((diamondCalls t).map Sum.inl) ∧ InRange H (init H s.lat 0) ((diamondCalls t).map Sum.inl) ∧
      s.hashOrb = H.orb [] ∧ s.hashHop = H.hop [] := by
  obtain ⟨s, h1, h2, h3, h4, h5, h6, h7, -, h8, h9⟩ := build_spec H
    !![0.246, 0, 0; 0.123, 0.123 * Real.sqrt 3, 0; 0, 0, cleanEntry c] 0
    [([0, 0], 0, "C_pz"), ([1/3, 1/3], 0, "C_pz")] [([0, 0], 0, 1, t), ([1, 0], 1, 0, t), ([0, 1], 1, 0, t)]
    (by intro q hq; fin_cases hq <;> simp [checkLen]) (by intro q hq; fin_cases hq <;> simp [HopOk, checkLen, cellOf])
    (diamondCalls t) rfl
  refine ⟨s, ?_, h2, h3, ?_, ?_, ?_, ?_, h8, h9⟩
  · unfold grapheneDiamond
    rw [diamond_lat]
    exact h1
  · rw [h4]
    simp [checkLen, vec3]
  · intro R i j
    rw [h5]
    simp only [List.foldl_cons, List.foldl_nil, HopMap.add, cellOf, checkLen, Option.getD_some]
    obtain ⟨x, y, z⟩ := R
    simp only [Prod.neg_mk, neg_zero, Prod.mk.injEq, Prod.mk_eq_zero]
    by_cases hi : i = 0
    · subst hi; simp; split_ifs <;> grind
    · by_cases hi1 : i = 1
      · subst hi1; simp; split_ifs <;> grind
      · simp [hi, hi1]
  · rw [h2]; exact h6
  · rw [h2]; exact h7

/-- The hopping map of the rectangular cell. -/
theorem rect_spec (H : HashFns ℝ ℂ String) (c : ℝ) (t : ℂ) :
    ∃ s, grapheneRect H c t = .ok s ∧ s.lat = !![0.246, 0, 0; 0, 0.246 * Real.sqrt 3, 0; 0, 0, cleanEntry c] ∧
      s.origin = 0 ∧ s.orbs = [⟨![0, 0, 0], 0, "C_pz"⟩, ⟨![0, 2/3, 0], 0, "C_pz"⟩, ⟨![1/2, 1/6, 0], 0, "C_pz"⟩,
        ⟨![1/2, 1/2, 0], 0, "C_pz"⟩] ∧
      (∀ R i j, s.hops.get R i j =
        if (R = 0 ∧ i = 0 ∧ j = 2) ∨ (R = 0 ∧ i = 2 ∧ j = 3) ∨ (R = 0 ∧ i = 3 ∧ j = 1) ∨ (R = (0, 1, 0) ∧ i = 1 ∧ j = 0) ∨
          (R = (1, 0, 0) ∧ i = 3 ∧ j = 1) ∨ (R = (1, 0, 0) ∧ i = 2 ∧ j = 0) then some t else
        if (R = 0 ∧ j = 0 ∧ i = 2) ∨ (R = 0 ∧ j = 2 ∧ i = 3) ∨ (R = 0 ∧ j = 3 ∧ i = 1) ∨ (R = (0, -1, 0) ∧ j = 1 ∧ i = 0) ∨
          (R = (-1, 0, 0) ∧ j = 3 ∧ i = 1) ∨ (R = (-1, 0, 0) ∧ j = 2 ∧ i = 0) then some (star t) else none) ∧
      s = run H (init H s.lat 0) ((rectCalls t).map Sum.inl) ∧ InRange H (init H s.lat 0) ((rectCalls t).map Sum.inl) ∧
      s.hashOrb = H.orb [] ∧ s.hashHop = H.hop [] := by
  obtain ⟨s, h1, h2, h3, h4, h5, h6, h7, -, h8, h9⟩ := build_spec H
    !![0.246, 0, 0; 0, 0.246 * Real.sqrt 3, 0; 0, 0, cleanEntry c] 0
    [([0, 0], 0, "C_pz"), ([0, 2/3], 0, "C_pz"), ([1/2, 1/6], 0, "C_pz"), ([1/2, 1/2], 0, "C_pz")]
    [([0, 0], 0, 2, t), ([0, 0], 2, 3, t), ([0, 0], 3, 1, t), ([0, 1], 1, 0, t), ([1, 0], 3, 1, t), ([1, 0], 2, 0, t)]
    (by intro q hq; fin_cases hq <;> simp [checkLen]) (by intro q hq; fin_cases hq <;> simp [HopOk, checkLen, cellOf])
    (rectCalls t) rfl
  refine ⟨s, ?_, h2, h3, ?_, ?_, ?_, ?_, h8, h9⟩
  · unfold grapheneRect
    simp only
    rw [rect_lat]
    exact h1
  · rw [h4]
    simp [checkLen, vec3]
  · intro R i j
    rw [h5]
    simp only [List.foldl_cons, List.foldl_nil, HopMap.add, cellOf, checkLen, Option.getD_some]
    obtain ⟨x, y, z⟩ := R
    simp only [Prod.neg_mk, neg_zero, Prod.mk.injEq, Prod.mk_eq_zero]
    rcases (show i = 0 ∨ i = 1 ∨ i = 2 ∨ i = 3 ∨ ¬ (i = 0 ∨ i = 1 ∨ i = 2 ∨ i = 3) by tauto) with rfl | rfl | rfl | rfl | h
    · simp; split_ifs <;> grind
    · simp; split_ifs <;> grind
    · simp; split_ifs <;> grind
    · simp; split_ifs <;> grind
    · push Not at h
      obtain ⟨ha, hb, hc, hd⟩ := h
      simp [ha, hb, hc, hd]
  · rw [h2]; exact h6
  · rw [h2]; exact h7

/-- The sum of three squares that gives the distances in a honeycomb. -/
theorem three_sq {x y z : ℤ} (h : x ^ 2 + y ^ 2 + z ^ 2 = 1) (hs : x = y + z + 1) :
    (y = 0 ∧ z = 0) ∨ (y = -1 ∧ z = 0) ∨ (y = 0 ∧ z = -1) := by
  have h1 : -1 ≤ y ∧ y ≤ 1 := by constructor <;> nlinarith [sq_nonneg x, sq_nonneg z]
  have h2 : -1 ≤ z ∧ z ≤ 1 := by constructor <;> nlinarith [sq_nonneg x, sq_nonneg y]
  subst hs
  rcases (show y = -1 ∨ y = 0 ∨ y = 1 by omega) with rfl | rfl | rfl <;>
    rcases (show z = -1 ∨ z = 0 ∨ z = 1 by omega) with rfl | rfl | rfl <;> simp_all

/-- **C98 (geometry).** For every `c` and every `t`, `make_graphene_diamond` builds a layer in which two sites are coupled exactly
if their distance is the carbon-carbon distance `0.246 / √3`, and no two sites of the layer are closer. -/
theorem C98_honeycomb (H : HashFns ℝ ℂ String) (c : ℝ) (t : ℂ) :
    ∃ s, grapheneDiamond H c t = .ok s ∧ s.numOrb = 2 ∧
      (∀ (R : Cell) (i j : ℕ), i < 2 → j < 2 → R.2.2 = 0 → ¬ (R = 0 ∧ i = j) →
        (s.hops.get R i j ≠ none ↔ dist2 (sitePos s 0 i) (sitePos s R j) = (0.246 / Real.sqrt 3) ^ 2) ∧
        (0.246 / Real.sqrt 3) ^ 2 ≤ dist2 (sitePos s 0 i) (sitePos s R j)) ∧
      ∀ R i j, s.hops.get R i j ≠ none → R.2.2 = 0 := by
  obtain ⟨s, h1, h2, h3, h4, h5, -⟩ := diamond_spec H c t
  have hs : Real.sqrt 3 ^ 2 = 3 := Real.sq_sqrt (by norm_num)
  refine ⟨s, h1, by simp [numOrb, h4], ?_, ?_⟩
  · intro R i j hi hj hz hne
    have hd : (0.246 / Real.sqrt 3) ^ 2 = (0.246 : ℝ) ^ 2 / 3 := by rw [div_pow, hs]
    obtain ⟨x, y, z⟩ := R
    simp only at hz
    subst hz
    have key : dist2 (sitePos s 0 i) (sitePos s (x, y, 0) j) = (0.246 : ℝ) ^ 2 *
        (((x : ℝ) + ((j : ℝ) - i) / 3) ^ 2 + (x + ((j : ℝ) - i) / 3) * (y + ((j : ℝ) - i) / 3) + (y + ((j : ℝ) - i) / 3) ^ 2) := by
      rcases (show i = 0 ∨ i = 1 by omega) with rfl | rfl <;> rcases (show j = 0 ∨ j = 1 by omega) with rfl | rfl <;>
        simp [dist2, sitePos, h2, h3, h4, frac2cartRow, cellVec, Fin.sum_univ_three, Matrix.mulVec, dotProduct]
      · linear_combination (0.123 : ℝ) ^ 2 * y ^ 2 * hs
      · linear_combination (0.123 : ℝ) ^ 2 * (y + 1 / 3) ^ 2 * hs
      · linear_combination (0.123 : ℝ) ^ 2 * (y - 1 / 3) ^ 2 * hs
      · linear_combination (0.123 : ℝ) ^ 2 * y ^ 2 * hs
    rw [key, hd]
    have hcast : ∀ (q : ℤ) (r : ℝ), r = q + 1 / 3 → 0 ≤ q → ((0.246 : ℝ) ^ 2 * r = 0.246 ^ 2 / 3 ↔ q = 0) ∧
        (0.246 : ℝ) ^ 2 / 3 ≤ 0.246 ^ 2 * r := by
      rintro q r rfl hq
      have hq' : (0 : ℝ) ≤ q := by exact_mod_cast hq
      refine ⟨⟨fun h => ?_, fun h => ?_⟩, by nlinarith⟩
      · have : (q : ℝ) = 0 := by nlinarith
        exact_mod_cast this
      · rw [h]; norm_num
    have hsame : i = j → ((0.246 : ℝ) ^ 2 * (((x : ℝ) + ((j : ℝ) - i) / 3) ^ 2 + (x + ((j : ℝ) - i) / 3) *
        (y + ((j : ℝ) - i) / 3) + (y + ((j : ℝ) - i) / 3) ^ 2) ≥ 0.246 ^ 2) := by
      rintro rfl
      have h0 : ¬ (x = 0 ∧ y = 0) := by
        rintro ⟨rfl, rfl⟩
        exact hne ⟨rfl, rfl⟩
      have hq : 1 ≤ x ^ 2 + x * y + y ^ 2 := by
        by_contra hlt
        have h1 : (2 * x + y) ^ 2 + 3 * y ^ 2 ≤ 0 := by nlinarith
        have hy : y = 0 := by
          have : y ^ 2 = 0 := by nlinarith [sq_nonneg (2 * x + y), sq_nonneg y]
          exact pow_eq_zero_iff (two_ne_zero) |>.1 this
        have hx : x = 0 := by
          rw [hy] at h1
          have : x ^ 2 = 0 := by nlinarith [sq_nonneg x]
          exact pow_eq_zero_iff (two_ne_zero) |>.1 this
        exact h0 ⟨hx, hy⟩
      have hq' : (1 : ℝ) ≤ (x : ℝ) ^ 2 + x * y + y ^ 2 := by exact_mod_cast hq
      simp only [sub_self, zero_div, add_zero]
      nlinarith
    have hgap : ∀ x y : ℤ, 0 ≤ x ^ 2 + x * y + y ^ 2 + x + y ∧
        (x ^ 2 + x * y + y ^ 2 + x + y = 0 ↔ (x = 0 ∧ y = 0) ∨ (x = -1 ∧ y = 0) ∨ (x = 0 ∧ y = -1)) := by
      intro x y
      constructor
      · by_contra hlt
        have h1 : (x + y + 1) ^ 2 + x ^ 2 + y ^ 2 ≤ 0 := by nlinarith
        have hx : x = 0 := by
          have : x ^ 2 = 0 := by nlinarith [sq_nonneg (x + y + 1), sq_nonneg x, sq_nonneg y]
          exact pow_eq_zero_iff (two_ne_zero) |>.1 this
        have hy : y = 0 := by
          have : y ^ 2 = 0 := by nlinarith [sq_nonneg (x + y + 1), sq_nonneg x, sq_nonneg y]
          exact pow_eq_zero_iff (two_ne_zero) |>.1 this
        rw [hx, hy] at h1
        norm_num at h1
      · constructor
        · intro h
          exact three_sq (x := x + y + 1) (by linarith [h]) rfl
        · rintro (⟨rfl, rfl⟩ | ⟨rfl, rfl⟩ | ⟨rfl, rfl⟩) <;> norm_num
    clear key
    generalize hr : ((x : ℝ) + ((j : ℝ) - i) / 3) ^ 2 + (x + ((j : ℝ) - i) / 3) *
        (y + ((j : ℝ) - i) / 3) + (y + ((j : ℝ) - i) / 3) ^ 2 = r at hsame ⊢
    rcases (show i = 0 ∨ i = 1 by omega) with rfl | rfl <;> rcases (show j = 0 ∨ j = 1 by omega) with rfl | rfl
    · have := hsame rfl
      refine ⟨⟨fun h => ?_, fun h => ?_⟩, by linarith⟩
      · rw [h5] at h; simp at h
      · rw [h] at this; norm_num at this
    · obtain ⟨h7, h8⟩ := hcast (x ^ 2 + x * y + y ^ 2 + x + y) r (by rw [← hr]; push_cast; ring) (hgap x y).1
      refine ⟨?_, h8⟩
      rw [h7, (hgap x y).2, h5]
      simp only [Prod.mk.injEq, Prod.mk_eq_zero]
      constructor
      · intro h; by_contra hc; apply h; rw [if_neg (by grind), if_neg (by grind)]
      · intro h; split_ifs <;> grind
    · obtain ⟨h7, h8⟩ := hcast ((-x) ^ 2 + (-x) * (-y) + (-y) ^ 2 + (-x) + (-y)) r (by rw [← hr]; push_cast; ring) (hgap (-x) (-y)).1
      refine ⟨?_, h8⟩
      rw [h7, (hgap (-x) (-y)).2, h5]
      simp only [Prod.mk.injEq, Prod.mk_eq_zero]
      constructor
      · intro h; by_contra hc; apply h; rw [if_neg (by grind), if_neg (by grind)]
      · intro h; split_ifs <;> grind
    · have := hsame rfl
      refine ⟨⟨fun h => ?_, fun h => ?_⟩, by linarith⟩
      · rw [h5] at h; simp at h
      · rw [h] at this; norm_num at this
  · rintro ⟨x, y, z⟩ i j
    rw [h5]
    simp only [Prod.mk.injEq, Prod.mk_eq_zero]
    clear h2 h4 hs h5
    split_ifs <;> grind

/-- The geometric factor of the honeycomb lattice. -/
noncomputable def honeyF (k : Vec3 ℝ) : ℂ :=
  1 + Complex.exp (2 * Real.pi * k 0 * Complex.I) + Complex.exp (2 * Real.pi * k 1 * Complex.I)

theorem honeyF_eq (k : Vec3 ℝ) : honeyF k = 1 + eiPhase (2 * Real.pi * k 0) + eiPhase (2 * Real.pi * k 1) := by
  simp only [honeyF, eiPhase_eq_exp]
  push_cast
  rfl

/-- The Bloch matrix of the diamond-shaped cell. -/
theorem diamond_bloch (H : HashFns ℝ ℂ String) (hO : ∀ l, l ≠ [] → H.orb l ≠ H.orb [])
    (hP : ∀ l, l ≠ [] → H.hop l ≠ H.hop []) (c t : ℝ) (k : Vec3 ℝ) (conv : ℤ) (s : PrimCell ℝ ℂ String)
    (h1 : grapheneDiamond H c t = .ok s) (ham : IMat) (hham : setHamDense (syncArray H s) k conv = .ok ham) :
    ∃ φ : ℝ, ham 0 0 = 0 ∧ ham 1 1 = 0 ∧ ham 1 0 = t * eiPhase φ * honeyF k ∧ ham 0 1 = star (ham 1 0) := by
  obtain ⟨s', h1', h2, h3, h4, h5, h6, h7, h8, h9⟩ := diamond_spec H c t
  obtain rfl : s = s' := by rw [h1] at h1'; exact Except.ok.inj h1'
  have hw : WF s := h6 ▸ WF_run H (WF_init H _ _) _ h7
  obtain ⟨b1, b2, b3, b4, b5, b6, -⟩ := build_ham hw hO hP h8 h9 (by rw [h4]; simp) 0 0 1 (by rw [h5]; simp)
  have e00 := ham_entry b1 b2 k conv ham hham 0 0 _ _ (by rw [b3, h4]; rfl) (by rw [b3, h4]; rfl) ∅ (by
    intro R; rw [b4, h5]; simp)
  have e11 := ham_entry b1 b2 k conv ham hham 1 1 _ _ (by rw [b3, h4]; rfl) (by rw [b3, h4]; rfl) ∅ (by
    intro R; rw [b4, h5]; simp)
  have e01 := ham_entry b1 b2 k conv ham hham 0 1 _ _ (by rw [b3, h4]; rfl) (by rw [b3, h4]; rfl)
    {(0, 0, 0), (-1, 0, 0), (0, -1, 0)} (by
    rintro ⟨x, y, z⟩; rw [b4, h5]; simp only [Prod.mk_eq_zero, Prod.mk.injEq]; split_ifs <;> simp <;> grind)
  have e10 := ham_entry b1 b2 k conv ham hham 1 0 _ _ (by rw [b3, h4]; rfl) (by rw [b3, h4]; rfl)
    {(0, 0, 0), (1, 0, 0), (0, 1, 0)} (by
    rintro ⟨x, y, z⟩; rw [b4, h5]; simp only [Prod.mk_eq_zero, Prod.mk.injEq]; split_ifs <;> simp <;> grind)
  rw [Finset.sum_insert (by decide), Finset.sum_insert (by decide), Finset.sum_singleton] at e01 e10
  simp [b4, h5, cellAt, Fin.sum_univ_three] at e00 e11 e01 e10
  refine ⟨2 * Real.pi * (if conv = 1 then -((k 0 + k 1) / 3) else 0), e00, e11, ?_, ?_⟩
  · have hx : ∀ u g h : ℂ, (t : ℂ) * u * (1 + g + h) = t * u + (t * (u * g) + t * (u * h)) := by intros; ring
    rw [honeyF_eq, hx, ← eiPhase_add, ← eiPhase_add, e10]
    congr 2
    · congr 1; split_ifs <;> ring
    · congr 2; split_ifs <;> ring
    · congr 2; split_ifs <;> ring
  · rw [e01, e10]
    simp only [star_add, star_mul', ← eiPhase_neg, Complex.star_def, Complex.conj_ofReal]
    congr 2
    · congr 1; split_ifs <;> ring
    · congr 2; split_ifs <;> ring
    · congr 2; split_ifs <;> ring

theorem diamond_charpoly (H : HashFns ℝ ℂ String) (hO : ∀ l, l ≠ [] → H.orb l ≠ H.orb [])
    (hP : ∀ l, l ≠ [] → H.hop l ≠ H.hop []) (c t : ℝ) (k : Vec3 ℝ) (conv : ℤ) (s : PrimCell ℝ ℂ String)
    (h1 : grapheneDiamond H c t = .ok s) (ham : IMat) (hham : setHamDense (syncArray H s) k conv = .ok ham) :
    (toMatrix 2 ham).charpoly = (Polynomial.X - Polynomial.C ((|t| * ‖honeyF k‖ : ℝ) : ℂ)) *
      (Polynomial.X - Polynomial.C ((-(|t| * ‖honeyF k‖) : ℝ) : ℂ)) := by
  obtain ⟨φ, e00, e11, e10, e01⟩ := diamond_bloch H hO hP c t k conv s h1 ham hham
  rw [Matrix.charpoly_fin_two, Matrix.trace_fin_two, Matrix.det_fin_two]
  simp only [toMatrix, Matrix.of_apply, Fin.val_zero, Fin.val_one, Nat.cast_zero, Nat.cast_one, e00, e11]
  have hd : ham 0 1 * ham 1 0 = (((|t| * ‖honeyF k‖) ^ 2 : ℝ) : ℂ) := by
    rw [e01, e10, Complex.star_def, Complex.conj_mul', norm_mul, norm_mul, Complex.norm_real]
    have : ‖eiPhase φ‖ = 1 := by rw [eiPhase_eq_exp, Complex.norm_exp_ofReal_mul_I]
    rw [this, mul_one, Real.norm_eq_abs]
    push_cast
    rfl
  rw [hd]
  simp only [Complex.ofReal_neg, Complex.ofReal_pow, map_neg, map_pow, map_sub, map_add, map_zero, zero_mul, mul_zero]
  ring

/-- **C98 (bands).** For every `c`, every real `t`, every Bloch vector and both conventions, the energies of the diamond-shaped
cell are `± |t| |1 + exp(2πi k_a) + exp(2πi k_b)|`. -/
theorem C98_bands (H : HashFns ℝ ℂ String) (hO : ∀ l, l ≠ [] → H.orb l ≠ H.orb [])
    (hP : ∀ l, l ≠ [] → H.hop l ≠ H.hop []) (c t : ℝ) (k : Vec3 ℝ) (conv : ℤ) (hc : conv = 1 ∨ conv = 2) :
    ∃ s ham, grapheneDiamond H c t = .ok s ∧ setHamDense (syncArray H s) k conv = .ok ham ∧
      (toMatrix s.numOrb ham).charpoly.roots = {((|t| * ‖honeyF k‖ : ℝ) : ℂ), ((-(|t| * ‖honeyF k‖) : ℝ) : ℂ)} := by
  obtain ⟨s, h1, h2, h3, h4, h5, h6, h7, h8, h9⟩ := diamond_spec H c t
  have hw : WF s := h6 ▸ WF_run H (WF_init H _ _) _ h7
  obtain ⟨b1, b2, b3, b4, b5, b6, -⟩ := build_ham hw hO hP h8 h9 (by rw [h4]; simp) 0 0 1 (by rw [h5]; simp)
  obtain ⟨ham, hham⟩ := b6 k conv hc
  have hn : s.numOrb = 2 := by simp [numOrb, h4]
  refine ⟨s, ham, h1, hham, ?_⟩
  rw [hn, diamond_charpoly H hO hP c t k conv s h1 ham hham, Polynomial.roots_mul, Polynomial.roots_X_sub_C,
    Polynomial.roots_X_sub_C]
  · rfl
  · exact mul_ne_zero (Polynomial.X_sub_C_ne_zero _) (Polynomial.X_sub_C_ne_zero _)

/-- **C98 (Dirac points).** For real `t ≠ 0` the two bands touch exactly at the points `(1/3, 2/3)` and `(2/3, 1/3)` of the
Brillouin zone and their translates. -/
theorem C98_dirac (t : ℝ) (ht : t ≠ 0) (k : Vec3 ℝ) :
    |t| * ‖honeyF k‖ = -(|t| * ‖honeyF k‖) ↔
      ∃ m n : ℤ, (k 0 = m + 1 / 3 ∧ k 1 = n + 2 / 3) ∨ (k 0 = m + 2 / 3 ∧ k 1 = n + 1 / 3) := by
  have h0 : |t| * ‖honeyF k‖ = -(|t| * ‖honeyF k‖) ↔ honeyF k = 0 := by
    have := abs_pos.2 ht
    constructor
    · intro h
      have h1 : |t| * ‖honeyF k‖ = 0 := by linarith
      exact norm_eq_zero.1 ((mul_eq_zero.1 h1).resolve_left this.ne')
    · intro h; rw [h]; simp
  rw [h0, honeyF_eq, eiPhase, eiPhase, Complex.ext_iff]
  simp only [Complex.add_re, Complex.add_im, Complex.mul_re, Complex.mul_im, Complex.ofReal_re, Complex.ofReal_im,
    Complex.I_re, Complex.I_im, Complex.one_re, Complex.one_im, Complex.zero_re, Complex.zero_im]
  have hpi := Real.pi_pos
  have c3 : Real.cos (2 * Real.pi / 3) = -1 / 2 := by
    have : 2 * Real.pi / 3 = Real.pi - Real.pi / 3 := by ring
    rw [this, Real.cos_pi_sub, Real.cos_pi_div_three]; ring
  have s3 : Real.sin (2 * Real.pi / 3) = Real.sqrt 3 / 2 := by
    have : 2 * Real.pi / 3 = Real.pi - Real.pi / 3 := by ring
    rw [this, Real.sin_pi_sub, Real.sin_pi_div_three]
  have hs3 : 0 < Real.sqrt 3 := by positivity
  have dec : ∀ x : ℝ, Real.cos (2 * Real.pi * x) = -1 / 2 →
      (∃ m : ℤ, x = m + 1 / 3 ∧ Real.sin (2 * Real.pi * x) = Real.sqrt 3 / 2) ∨
      (∃ m : ℤ, x = m + 2 / 3 ∧ Real.sin (2 * Real.pi * x) = -(Real.sqrt 3 / 2)) := by
    intro x hx
    rw [← c3, Eq.comm, Real.cos_eq_cos_iff] at hx
    obtain ⟨m, h | h⟩ := hx
    · left
      refine ⟨m, ?_, ?_⟩
      · have h2 : 2 * Real.pi * (x - (m + 1 / 3)) = 0 := by linear_combination h
        have := (mul_eq_zero.1 h2).resolve_left (by positivity)
        linarith
      · rw [h, show 2 * (m : ℝ) * Real.pi + 2 * Real.pi / 3 = 2 * Real.pi / 3 + m * (2 * Real.pi) by ring,
          Real.sin_add_int_mul_two_pi, s3]
    · right
      refine ⟨m - 1, ?_, ?_⟩
      · have h2 : 2 * Real.pi * (x - (m - 1 / 3)) = 0 := by linear_combination h
        have := (mul_eq_zero.1 h2).resolve_left (by positivity)
        push_cast
        linarith
      · rw [h, show 2 * (m : ℝ) * Real.pi - 2 * Real.pi / 3 = -(2 * Real.pi / 3) + m * (2 * Real.pi) by ring,
          Real.sin_add_int_mul_two_pi, Real.sin_neg, s3]
  have hα := Real.sin_sq_add_cos_sq (2 * Real.pi * k 0)
  have hβ := Real.sin_sq_add_cos_sq (2 * Real.pi * k 1)
  constructor
  · rintro ⟨hre, him⟩
    have r1 : 1 + Real.cos (2 * Real.pi * k 0) + Real.cos (2 * Real.pi * k 1) = 0 := by linarith
    have r2 : Real.sin (2 * Real.pi * k 1) = -Real.sin (2 * Real.pi * k 0) := by linarith
    have r3 : Real.cos (2 * Real.pi * k 1) = -1 - Real.cos (2 * Real.pi * k 0) := by linarith
    rw [r2, r3] at hβ
    have ca : Real.cos (2 * Real.pi * k 0) = -1 / 2 := by nlinarith
    have cb : Real.cos (2 * Real.pi * k 1) = -1 / 2 := by rw [r3, ca]; norm_num
    rcases dec _ ca with ⟨m, h1, h2⟩ | ⟨m, h1, h2⟩ <;> rcases dec _ cb with ⟨n, h3, h4⟩ | ⟨n, h3, h4⟩
    · rw [r2, h2] at h4; linarith
    · exact ⟨m, n, Or.inl ⟨h1, h3⟩⟩
    · exact ⟨m, n, Or.inr ⟨h1, h3⟩⟩
    · rw [r2, h2] at h4; linarith
  · have val1 : ∀ m : ℤ, Real.cos (2 * Real.pi * (m + 1 / 3)) = -1 / 2 ∧ Real.sin (2 * Real.pi * (m + 1 / 3)) = Real.sqrt 3 / 2 := by
      intro m
      rw [show 2 * Real.pi * ((m : ℝ) + 1 / 3) = 2 * Real.pi / 3 + m * (2 * Real.pi) by ring, Real.sin_add_int_mul_two_pi,
        Real.cos_add_int_mul_two_pi]
      exact ⟨c3, s3⟩
    have val2 : ∀ m : ℤ, Real.cos (2 * Real.pi * (m + 2 / 3)) = -1 / 2 ∧ Real.sin (2 * Real.pi * (m + 2 / 3)) = -(Real.sqrt 3 / 2) := by
      intro m
      rw [show 2 * Real.pi * ((m : ℝ) + 2 / 3) = -(2 * Real.pi / 3) + ((m + 1 : ℤ) : ℝ) * (2 * Real.pi) by push_cast; ring,
        Real.sin_add_int_mul_two_pi, Real.cos_add_int_mul_two_pi, Real.cos_neg, Real.sin_neg]
      exact ⟨c3, by rw [s3]⟩
    rintro ⟨m, n, ⟨h1, h2⟩ | ⟨h1, h2⟩⟩ <;> rw [h1, h2]
    · rw [(val1 m).1, (val1 m).2, (val2 n).1, (val2 n).2]; constructor <;> ring
    · rw [(val2 m).1, (val2 m).2, (val1 n).1, (val1 n).2]; constructor <;> ring

end Verif.Props

import Verif.Props.SkCells
import Verif.Props.Graphene
import Verif.Spec.Tmdc

/-! # Property C111: `make_graphene_sp` -/

namespace Verif.Props

open PrimCell Materials SK

/-- The kinds of the orbitals of `make_graphene_sp`. -/
def gsLab (i : ℕ) : OrbLabel := if i % 4 = 0 then .s else if i % 4 = 1 then .p .x else if i % 4 = 2 then .p .y else .p .z

/-- The sublattice. -/
def gsSub (i : ℕ) : ℤ := if i < 4 then 0 else 1

/-- The orbitals. -/
noncomputable def gsOrbs : List (Orbital ℝ String) :=
  grapheneSpOrbs.map fun q => ⟨vec3 ((checkLen 0 q.1).getD 0), q.2.1, q.2.2⟩

/-- The lattice. -/
noncomputable def gsLat (c : ℝ) : Mat3 ℝ := !![0.246, 0, 0; 0.123, 0.123 * Real.sqrt 3, 0; 0, 0, cleanEntry c]

theorem gs_orb (i : ℕ) (hi : i < 8) : ∃ o, gsOrbs[i]? = some o ∧ (∀ x : Fin 3, o.position x = if x = 2 then 0 else (gsSub i : ℝ) / 3) ∧
    skLabel o.label = gsLab i ∧ o.energy = if gsLab i = .s then -8.370 else 0 := by
  interval_cases i <;> refine ⟨_, rfl, ?_, rfl, ?_⟩ <;>
    first
    | (intro x; fin_cases x <;> simp [vec3, checkLen, gsSub] <;> norm_num)
    | (simp [gsLab]; try norm_num)

/-- Three times the lattice coordinates of a bond. -/
def gsM (R : ℤ) (i j : ℕ) : ℤ := 3 * R + gsSub j - gsSub i

theorem gs_vec {s : PrimCell ℝ ℂ String} {c : ℝ} (ho : s.orbs = gsOrbs) (hl : s.lat = gsLat c) (h0 : s.origin = 0) (R : Cell) (i j : ℕ)
    (hi : i < 8) (hj : j < 8) : skVec s R i j = ![0.246 * (gsM R.1 i j / 3 : ℝ) + 0.123 * (gsM R.2.1 i j / 3 : ℝ),
      0.123 * Real.sqrt 3 * (gsM R.2.1 i j / 3 : ℝ), R.2.2 * cleanEntry c] := by
  obtain ⟨oi, ei, pi, -, -⟩ := gs_orb i hi
  obtain ⟨oj, ej, pj, -, -⟩ := gs_orb j hj
  have pi0 := pi 0; have pi1 := pi 1; have pi2 := pi 2
  have pj0 := pj 0; have pj1 := pj 1; have pj2 := pj 2
  simp at pi0 pi1 pi2 pj0 pj1 pj2
  funext x
  rw [skVec, Pi.sub_apply]
  simp only [sitePos, ho, ei, ej, Option.elim_some, frac2cartRow, hl, h0, gsLat, Matrix.mulVec, dotProduct, Fin.sum_univ_three,
    Pi.add_apply, Matrix.transpose_apply, pi0, pi1, pi2, pj0, pj1, pj2, cellVec]
  fin_cases x <;> simp [gsM] <;> ring

/-- The square of the length of a bond in the plane. -/
theorem gs_norm {s : PrimCell ℝ ℂ String} {c : ℝ} (ho : s.orbs = gsOrbs) (hl : s.lat = gsLat c) (h0 : s.origin = 0) (R : Cell) (i j : ℕ)
    (hi : i < 8) (hj : j < 8) (hR : R.2.2 = 0) : norm3 (skVec s R i j) =
      Real.sqrt (0.006724 * ((gsM R.1 i j ^ 2 + gsM R.1 i j * gsM R.2.1 i j + gsM R.2.1 i j ^ 2 : ℤ) : ℝ)) := by
  rw [gs_vec ho hl h0 R i j hi hj, norm3]
  congr 1
  have h3 : Real.sqrt 3 * Real.sqrt 3 = 3 := Real.mul_self_sqrt (by norm_num)
  simp [hR]
  linear_combination (0.123 * (gsM R.2.1 i j / 3 : ℝ)) ^ 2 * h3

theorem gs_class (R1 R2 : ℤ) (i j : ℕ) (h0 : 0 < gsM R1 i j ^ 2 + gsM R1 i j * gsM R2 i j + gsM R2 i j ^ 2)
    (h9 : gsM R1 i j ^ 2 + gsM R1 i j * gsM R2 i j + gsM R2 i j ^ 2 ≤ 9) :
    (|R1| ≤ 1 ∧ |R2| ≤ 1) ∧
    ((gsM R1 i j ^ 2 + gsM R1 i j * gsM R2 i j + gsM R2 i j ^ 2 = 3 ∧ gsSub i ≠ gsSub j) ∨
     (gsM R1 i j ^ 2 + gsM R1 i j * gsM R2 i j + gsM R2 i j ^ 2 = 9 ∧ gsSub i = gsSub j)) := by
  have hM : -3 ≤ gsM R1 i j ∧ gsM R1 i j ≤ 3 := by constructor <;> nlinarith [sq_nonneg (gsM R1 i j + 2 * gsM R2 i j)]
  have hN : -3 ≤ gsM R2 i j ∧ gsM R2 i j ≤ 3 := by constructor <;> nlinarith [sq_nonneg (gsM R2 i j + 2 * gsM R1 i j)]
  have hi : gsSub i = 0 ∨ gsSub i = 1 := by unfold gsSub; split <;> simp
  have hj : gsSub j = 0 ∨ gsSub j = 1 := by unfold gsSub; split <;> simp
  unfold gsM at *
  generalize gsSub i = u at *
  generalize gsSub j = w at *
  rcases hi with rfl | rfl <;> rcases hj with rfl | rfl <;>
    (have h1 : -1 ≤ R1 := by omega
     have h2 : R1 ≤ 1 := by omega
     have h3 : -1 ≤ R2 := by omega
     have h4 : R2 ≤ 1 := by omega
     refine ⟨⟨abs_le.2 ⟨h1, h2⟩, abs_le.2 ⟨h3, h4⟩⟩, ?_⟩
     interval_cases R1 <;> interval_cases R2 <;> simp at * <;> omega)

/-- The bonds found: nearest and second-nearest neighbours in the plane. -/
theorem gs_bond {s : PrimCell ℝ ℂ String} {c : ℝ} (ho : s.orbs = gsOrbs) (hl : s.lat = gsLat c) (h0 : s.origin = 0) (R : Cell) (i j : ℕ)
    (hi : i < 8) (hj : j < 8) (hR : R.2.2 = 0) (hp : 0 < norm3 (skVec s R i j)) (hd : norm3 (skVec s R i j) ≤ 0.25) :
    (|R.1| ≤ 1 ∧ |R.2.1| ≤ 1) ∧ ((norm3 (skVec s R i j) = 0.246 / Real.sqrt 3 ∧ gsSub i ≠ gsSub j) ∨
      (norm3 (skVec s R i j) = 0.246 ∧ gsSub i = gsSub j)) := by
  rw [gs_norm ho hl h0 R i j hi hj hR] at *
  set q := gsM R.1 i j ^ 2 + gsM R.1 i j * gsM R.2.1 i j + gsM R.2.1 i j ^ 2 with hq
  have hq0 : 0 < q := by
    have := Real.sqrt_pos.1 hp
    have : (0 : ℝ) < (q : ℝ) := by linarith
    exact_mod_cast this
  have hq9 : q ≤ 9 := by
    rw [Real.sqrt_le_iff] at hd
    have h : (q : ℝ) < 10 := by nlinarith [hd.2]
    have : q < 10 := by exact_mod_cast h
    omega
  obtain ⟨h1, h2⟩ := gs_class R.1 R.2.1 i j hq0 hq9
  refine ⟨h1, ?_⟩
  rcases h2 with ⟨h2, h3⟩ | ⟨h2, h3⟩
  · left
    refine ⟨?_, h3⟩
    rw [← hq] at h2
    rw [h2, Real.sqrt_eq_iff_mul_self_eq (by norm_num) (by positivity)]
    have h3 : Real.sqrt 3 * Real.sqrt 3 = 3 := Real.mul_self_sqrt (by norm_num)
    have : (0.246 / Real.sqrt 3) * (0.246 / Real.sqrt 3) = 0.246 * 0.246 / (Real.sqrt 3 * Real.sqrt 3) := by ring
    rw [this, h3]
    norm_num
  · right
    refine ⟨?_, h3⟩
    rw [← hq] at h2
    rw [h2, Real.sqrt_eq_iff_mul_self_eq (by norm_num) (by norm_num)]
    norm_num

theorem gs_skBond {s : PrimCell ℝ ℂ String} {c : ℝ} (ho : s.orbs = gsOrbs) (hl : s.lat = gsLat c) (h0 : s.origin = 0) (R : Cell) (i j : ℕ)
    (hi : i < 8) (hj : j < 8) :
    SkBond s 5 5 0 0.25 R i j ↔ R.2.2 = 0 ∧ 0 < norm3 (skVec s R i j) ∧ norm3 (skVec s R i j) ≤ 0.25 := by
  constructor
  · rintro ⟨⟨-, -, h⟩, h1, h2⟩
    exact ⟨abs_eq_zero.1 (le_antisymm h (abs_nonneg _)), h1, h2⟩
  · rintro ⟨h, h1, h2⟩
    obtain ⟨⟨b1, b2⟩, -⟩ := gs_bond ho hl h0 R i j hi hj h h1 h2
    exact ⟨⟨by omega, by omega, by rw [h]; simp⟩, h1, h2⟩

theorem gs_near : |0.246 / Real.sqrt 3 - 0.14202816622064793| < 1.0e-5 := by
  have h1 : Real.sqrt 3 < 1.7321 := by rw [Real.sqrt_lt' (by norm_num)]; norm_num
  have h2 : 1.732 < Real.sqrt 3 := by rw [Real.lt_sqrt (by norm_num)]; norm_num
  have e : 0.246 / Real.sqrt 3 = 0.082 * Real.sqrt 3 := by
    rw [div_eq_iff (by positivity)]
    have h3 : Real.sqrt 3 * Real.sqrt 3 = 3 := Real.mul_self_sqrt (by norm_num)
    linear_combination (-0.082) * h3
  rw [e, abs_lt]
  constructor <;> norm_num <;> nlinarith

/-- The parameters chosen. -/
theorem gs_par1 : graphenePar (0.246 / Real.sqrt 3) = some (parSp (-5.729) 5.618 6.050 (-3.070)) := by
  unfold graphenePar
  rw [if_pos gs_near]

theorem gs_par2 : graphenePar 0.246 = some (parSp 0.102 (-0.171) (-0.377) 0.070) := by
  unfold graphenePar
  rw [if_neg, if_pos]
  · rw [abs_lt]; constructor <;> norm_num
  · rw [not_lt, abs_of_pos (by norm_num)]; norm_num

theorem parSp_real (a b c d : ℝ) : (parSp a b c d).real := by
  simp [parSp, Par.real]

theorem skVec_congr {Λ : Type*} {s t : PrimCell ℝ ℂ Λ} (ho : s.orbs = t.orbs) (hl : s.lat = t.lat) (h0 : s.origin = t.origin) (R : Cell) (i j : ℕ) :
    skVec s R i j = skVec t R i j := by
  simp only [skVec, sitePos, ho, hl, h0]

theorem skHop_congr {Λ : Type*} {s t : PrimCell ℝ ℂ Λ} (lm : Λ → OrbLabel) (par : ℝ → Option Par) (ho : s.orbs = t.orbs) (hl : s.lat = t.lat)
    (h0 : s.origin = t.origin) (R : Cell) (i j : ℕ) : skHop lm par s R i j = skHop lm par t R i j := by
  simp only [skHop, skVec_congr ho hl h0, orbLab, ho]

theorem skBond_congr {Λ : Type*} {s t : PrimCell ℝ ℂ Λ} (a b c : ℤ) (dmax : ℝ) (ho : s.orbs = t.orbs) (hl : s.lat = t.lat)
    (h0 : s.origin = t.origin) (R : Cell) (i j : ℕ) : SkBond s a b c dmax R i j ↔ SkBond t a b c dmax R i j := by
  simp only [SkBond, skVec_congr ho hl h0]

theorem gs_orbLab {s : PrimCell ℝ ℂ String} (ho : s.orbs = gsOrbs) (i : ℕ) (hi : i < 8) : orbLab skLabel s i = gsLab i := by
  obtain ⟨o, e, -, h, -⟩ := gs_orb i hi
  rw [orbLab, ho, e]
  exact h

theorem gsLab_legal (i : ℕ) : tens (gsLab i) ≠ none := by
  unfold gsLab
  split_ifs <;> simp [tens]

theorem gs_length : gsOrbs.length = 8 := rfl

open Classical in
/-- What `make_graphene_sp` builds. -/
theorem gs_build (H : HashFns ℝ ℂ String) (HS : SCHash ℝ ℂ String) (hO : ∀ l, l ≠ [] → H.orb l ≠ H.orb []) {tree : DistMatrix}
    (ht : IsDistMatrix tree) (c : ℝ) :
    ∃ s, grapheneSp H HS tree c = .ok s ∧ s.lat = gsLat c ∧ s.origin = 0 ∧ s.orbs = gsOrbs ∧ WF s ∧ s.hashOrb = H.orb s.orbs ∧
      s.hashHop = H.hop [] ∧ s.arrPos = s.orbs.map Orbital.position ∧ s.arrEng = s.orbs.map Orbital.energy ∧
      ∀ R (i j : ℕ), i < s.numOrb → j < s.numOrb →
        s.hops.get R i j = if SkBond s 5 5 0 0.25 R i j then some (skHop skLabel graphenePar s R i j) else none := by
  obtain ⟨s0, hs0⟩ : ∃ s0 : PrimCell ℝ ℂ String, s0 = { init H (gsLat c) 0 with orbs := gsOrbs } := ⟨_, rfl⟩
  have hne : gsOrbs ≠ [] := by
    intro h
    have := gs_length
    rw [h] at this
    simp at this
  obtain ⟨g1, g2, g3, g4, g5, g6, g7⟩ := orbs_cell H hO (gsLat c) gsOrbs hne s0 hs0
  have hn : s0.numOrb = 8 := by rw [numOrb, g3]; exact gs_length
  have hrun : runOk H (init H (gsLat c) 0) (grapheneSpOrbs.map fun q => .addOrbital q.1 q.2.1 q.2.2) = .ok s0 := by
    rw [runOk_orbs H grapheneSpOrbs (init H (gsLat c) 0) rfl (by
      intro q hq
      simp only [grapheneSpOrbs, List.mem_flatMap, List.mem_map] at hq
      obtain ⟨pos, hpos, q', -, rfl⟩ := hq
      simp only [List.mem_cons, List.not_mem_nil, or_false] at hpos
      rcases hpos with rfl | rfl <;> simp [checkLen]), hs0]
    rfl
  obtain ⟨s, e1, e2, e3, e4, e5, e6, e7⟩ := C111_hoppings H HS ht skLabel graphenePar 5 5 0 0.25 s0 g1 g2 (by rw [g3]; exact hne)
    (by rw [g7]) g6 (by
      intro o ho
      obtain ⟨i, hi, rfl⟩ := List.getElem_of_mem ho
      have hi' : i < 8 := by rw [← hn]; exact hi
      obtain ⟨o', e, -, h, -⟩ := gs_orb i hi'
      have : s0.orbs[i]? = some o' := by rw [g3]; exact e
      rw [List.getElem?_eq_getElem hi] at this
      rw [Option.some.inj this, h]
      exact gsLab_legal i) (by
      intro R i j hi hj hb
      rw [hn] at hi hj
      obtain ⟨h1, h2, h3⟩ := (gs_skBond g3 g4 g5 R i j hi hj).1 hb
      obtain ⟨-, h | h⟩ := gs_bond g3 g4 g5 R i j hi hj h1 h2 h3
      · rw [h.1]
        refine ⟨?_, _, gs_par1, by simpa using parSp_real (-5.729) 5.618 6.050 (-3.070)⟩
        have := (abs_lt.1 gs_near).1
        norm_num at this ⊢
        linarith
      · rw [h.1]
        exact ⟨by norm_num, _, gs_par2, by simpa using parSp_real 0.102 (-0.171) (-0.377) 0.070⟩)
  refine ⟨s, ?_, e2.trans g4, e3.trans g5, e4.trans g3, e6, ?_, ?_, ?_, ?_, ?_⟩
  · unfold grapheneSp
    have hlat : genLatticeVectors 0.246 0.246 c 90 90 60 = some (gsLat c) := diamond_lat c
    rw [hlat]
    dsimp only
    rw [hrun]
    exact e1
  · rw [e5, g7]
  · rw [e5, g7, hs0]; rfl
  · rw [e5, g7]
  · rw [e5, g7]
  · intro R i j hi hj
    have hn' : s.numOrb = s0.numOrb := by rw [numOrb, e4]; rfl
    rw [e7 R i j (by rw [← hn']; exact hi) (by rw [← hn']; exact hj)]
    simp only [skBond_congr 5 5 0 0.25 e4 e2 e3, skHop_congr skLabel graphenePar e4 e2 e3]

/-- **C111 (graphene with s and p orbitals).** `make_graphene_sp(c)` succeeds for every `c` - the branch that raises `ValueError`
cannot be reached - and returns eight orbitals s, px, py, pz on the two sublattices; the hopping between two orbitals of the
plane is the two-centre integral with the first parameters if their distance is the carbon-carbon distance `0.246/√3`, with
the second parameters if it is the lattice constant `0.246`, and absent otherwise. -/
theorem C111_graphene_sp (H : HashFns ℝ ℂ String) (HS : SCHash ℝ ℂ String) (hO : ∀ l, l ≠ [] → H.orb l ≠ H.orb []) {tree : DistMatrix}
    (ht : IsDistMatrix tree) (c : ℝ) :
    ∃ s, grapheneSp H HS tree c = .ok s ∧
      s.lat = !![0.246, 0, 0; 0.123, 0.123 * Real.sqrt 3, 0; 0, 0, cleanEntry c] ∧ s.origin = 0 ∧ s.numOrb = 8 ∧
      (∀ p : ℕ, p < 2 → ∀ m : ℕ, m < 4 → ∃ o, s.orbs[4 * p + m]? = some o ∧ (∀ x : Fin 3, o.position x = if x = 2 then 0 else (p : ℝ) / 3) ∧
        o.label = ["s", "px", "py", "pz"].getD m "" ∧ o.energy = if m = 0 then -8.370 else 0) ∧
      (∀ R (i j : ℕ), i < 8 → j < 8 → let r := skVec s R i j
        let value := fun v => twoCentre v (fun x => r x / norm3 r) (tensD (orbLab skLabel s i)) (tensD (orbLab skLabel s j))
        open Classical in
        s.hops.get R i j = if R.2.2 = 0 ∧ norm3 r = 0.246 / Real.sqrt 3 then some (value (parSp (-5.729) 5.618 6.050 (-3.070)))
          else if R.2.2 = 0 ∧ norm3 r = 0.246 then some (value (parSp 0.102 (-0.171) (-0.377) 0.070)) else none) := by
  classical
  obtain ⟨s, e1, e2, e3, e4, -, -, -, -, -, e10⟩ := gs_build H HS hO ht c
  have hn : s.numOrb = 8 := by rw [numOrb, e4]; exact gs_length
  have h31 : (1 : ℝ) < Real.sqrt 3 := by rw [Real.lt_sqrt (by norm_num)]; norm_num
  have hc : (0.246 : ℝ) / Real.sqrt 3 < 0.246 := by rw [div_lt_iff₀ (by linarith)]; nlinarith
  have hc0 : (0 : ℝ) < 0.246 / Real.sqrt 3 := by positivity
  refine ⟨s, e1, e2, e3, hn, ?_, ?_⟩
  · intro p hp m hm
    rw [e4]
    interval_cases p <;> interval_cases m <;> refine ⟨_, rfl, ?_, rfl, ?_⟩ <;>
    first
    | (intro x; fin_cases x <;> simp [vec3, checkLen] <;> norm_num)
    | (simp; try norm_num)
  · intro R i j hi hj
    dsimp only
    rw [e10 R i j (by omega) (by omega)]
    by_cases hb : SkBond s 5 5 0 0.25 R i j
    · rw [if_pos hb]
      obtain ⟨h1, h2, h3⟩ := (gs_skBond e4 e2 e3 R i j hi hj).1 hb
      obtain ⟨-, h | h⟩ := gs_bond e4 e2 e3 R i j hi hj h1 h2 h3
      · rw [if_pos ⟨h1, h.1⟩]
        congr 1
        rw [skHop, h.1, gs_par1]
        rfl
      · rw [if_neg (by rw [h.1]; exact fun h => by linarith [h.2]), if_pos ⟨h1, h.1⟩]
        congr 1
        rw [skHop, h.1, gs_par2]
        rfl
    · rw [if_neg hb, if_neg, if_neg]
      · rintro ⟨h1, h2⟩
        exact hb ((gs_skBond e4 e2 e3 R i j hi hj).2 ⟨h1, by rw [h2]; norm_num, by rw [h2]; norm_num⟩)
      · rintro ⟨h1, h2⟩
        refine hb ((gs_skBond e4 e2 e3 R i j hi hj).2 ⟨h1, by rw [h2]; exact hc0, ?_⟩)
        rw [h2]
        norm_num at hc ⊢
        linarith

/-- Position of the atom `p` of cell `R`. -/
noncomputable def gsPos (c : ℝ) (R : Cell) (p : ℕ) : Vec3 ℝ :=
  ![0.246 * ((R.1 : ℝ) + p / 3) + 0.123 * ((R.2.1 : ℝ) + p / 3), 0.123 * Real.sqrt 3 * ((R.2.1 : ℝ) + p / 3), R.2.2 * cleanEntry c]

theorem gs_site {s : PrimCell ℝ ℂ String} {c : ℝ} (ho : s.orbs = gsOrbs) (hl : s.lat = gsLat c) (h0 : s.origin = 0) (R : Cell) (i : ℕ)
    (hi : i < 8) : sitePos s R i = gsPos c R (i / 4) := by
  obtain ⟨oi, ei, pi, -, -⟩ := gs_orb i hi
  have pi0 := pi 0; have pi1 := pi 1; have pi2 := pi 2
  simp at pi0 pi1 pi2
  have hsub : (gsSub i : ℝ) = ((i / 4 : ℕ) : ℝ) := by
    unfold gsSub
    interval_cases i <;> simp
  rw [hsub] at pi0 pi1
  funext x
  simp only [sitePos, ho, ei, Option.elim_some, frac2cartRow, hl, h0, gsLat, Matrix.mulVec, dotProduct, Fin.sum_univ_three,
    Pi.add_apply, Matrix.transpose_apply, pi0, pi1, pi2, cellVec, gsPos]
  fin_cases x <;> simp <;> first | ring1 | (left; ring1)

/-- Sufficient conditions for a symmetry operation. -/
theorem gs_space {s : PrimCell ℝ ℂ String} {c : ℝ} (ho : s.orbs = gsOrbs) (hl : s.lat = gsLat c) (h0 : s.origin = 0) (Q : Mat3 ℝ)
    (v : Vec3 ℝ) (A : Matrix (Fin 3) (Fin 3) ℤ) (t : ℕ → Cell) (σ : ℕ → ℕ) (hQ : Q * Q.transpose = 1) (hA : IsUnit A.det)
    (hpos : ∀ p < 2, ∀ R, gsPos c (cellMul A R + t p) (σ p) = Q.mulVec (gsPos c R p) + v)
    (hz : ∀ p < 2, ∀ q < 2, ∀ R : Cell, (cellMul A R + t q - t p).2.2 = 0 ↔ R.2.2 = 0) (hσ : (∀ p, σ p = p) ∨ (∀ p, σ p = 1 - p)) :
    SpaceSym skLabel s 5 5 0 0.25 Q v A (fun i => t (i / 4)) (fun i => i / 4) σ := by
  have hn : s.numOrb = 8 := by rw [numOrb, ho]; exact gs_length
  have hp : ∀ i < s.numOrb, ∀ a < s.numOrb, a / 4 = σ (i / 4) → ∀ R,
      sitePos s (cellMul A R + t (i / 4)) a = Q.mulVec (sitePos s R i) + v := by
    intro i hi a ha h R
    rw [hn] at hi ha
    rw [gs_site ho hl h0 _ _ ha, gs_site ho hl h0 _ _ hi, h]
    exact hpos _ (by omega) R
  refine ⟨hQ, hA, ?_, hp, ?_, ?_, ?_, ?_⟩
  · intro i hi
    rw [gs_orbLab ho i (by omega)]
    exact gsLab_legal i
  · intro i hi l hll
    rw [hn] at hi ⊢
    rw [gs_orbLab ho i hi] at hll
    have key : ∃ a < 8, (gsLab a = l ∧ a / 4 = σ (i / 4)) ∧ ∀ b < 8, gsLab b = l → b / 4 = σ (i / 4) → b = a := by
      rcases hσ with h | h <;> simp only [h] <;> revert i l <;> decide +kernel
    obtain ⟨a, h1, ⟨h2, h3⟩, h4⟩ := key
    exact ⟨a, ⟨h1, by rw [gs_orbLab ho a h1]; exact h2, h3⟩, fun b hb => h4 b hb.1 (by rw [← gs_orbLab ho b hb.1]; exact hb.2.1) hb.2.2⟩
  · intro i hi l hll
    rw [hn] at hi ⊢
    rw [gs_orbLab ho i hi] at hll
    have key : ∃ a < 8, (gsLab a = l ∧ i / 4 = σ (a / 4)) ∧ ∀ b < 8, gsLab b = l → i / 4 = σ (b / 4) → b = a := by
      rcases hσ with h | h <;> simp only [h] <;> revert i l <;> decide +kernel
    obtain ⟨a, h1, ⟨h2, h3⟩, h4⟩ := key
    exact ⟨a, ⟨h1, by rw [gs_orbLab ho a h1]; exact h2, h3⟩, fun b hb => h4 b hb.1 (by rw [← gs_orbLab ho b hb.1]; exact hb.2.1) hb.2.2⟩
  · intro i hi a ha h hr
    rw [hn] at hi ha
    rw [gs_orbLab ho i hi, gs_orbLab ho a ha] at hr
    obtain ⟨oi, ei, -, -, Ei⟩ := gs_orb i hi
    obtain ⟨oa, ea, -, -, Ea⟩ := gs_orb a ha
    have hs : gsLab a = .s ↔ gsLab i = .s := by
      revert hr
      unfold gsLab
      split_ifs <;> simp [rotCoef, tens, Tens.inner, Tens.rot]
    rw [orbEnergy, orbEnergy, ho, ei, ea]
    simp only [Option.elim_some, Ei, Ea, hs]
  · intro R i hi j hj p hp' q hq' h1 h2
    have hv : skVec s (cellMul A R + t (j / 4) - t (i / 4)) p q = Q.mulVec (skVec s R i j) := by
      have e1 := hp j hj q hq' h2 R
      have e2 := hp i hi p hp' h1 0
      have e0 : cellMul A 0 + t (i / 4) = t (i / 4) := by simp [cellMul]
      rw [e0] at e2
      rw [← skVec_shift s _ (t (i / 4)), sub_add_cancel, e1, e2, skVec, Matrix.mulVec_sub]
      abel
    rw [hn] at hi hj hp' hq'
    rw [gs_skBond ho hl h0 _ _ _ hi hj, gs_skBond ho hl h0 _ _ _ hp' hq', hv, norm3_rot Q hQ, hz _ (by omega) _ (by omega)]

/-- The symmetry operations of a sheet of graphene that generate its point group `D6h`: the rotation by 120 degrees about an atom,
the inversion about the centre of a bond, the mirror exchanging the lattice vectors, and the mirror in the plane. -/
theorem gs_sym {s : PrimCell ℝ ℂ String} {c : ℝ} (ho : s.orbs = gsOrbs) (hl : s.lat = gsLat c) (h0 : s.origin = 0) :
    SpaceSym skLabel s 5 5 0 0.25 Tmdc.rot3 0 !![-1, -1, 0; 1, 0, 0; 0, 0, 1] (fun i => if i / 4 = 1 then (-1, 0, 0) else 0) (fun i => i / 4) id ∧
    SpaceSym skLabel s 5 5 0 0.25 (-1) ![0.123, 0.041 * Real.sqrt 3, 0] (-1) 0 (fun i => i / 4) (fun p => 1 - p) ∧
    SpaceSym skLabel s 5 5 0 0.25 !![1 / 2, Real.sqrt 3 / 2, 0; Real.sqrt 3 / 2, -(1 / 2), 0; 0, 0, 1] 0 !![0, 1, 0; 1, 0, 0; 0, 0, 1] 0
      (fun i => i / 4) id ∧
    SpaceSym skLabel s 5 5 0 0.25 !![1, 0, 0; 0, 1, 0; 0, 0, -1] 0 !![1, 0, 0; 0, 1, 0; 0, 0, -1] 0 (fun i => i / 4) id := by
  have h33 : Real.sqrt 3 * Real.sqrt 3 = 3 := Real.mul_self_sqrt (by norm_num)
  have h32 : Real.sqrt 3 ^ 2 = 3 := by rw [sq, h33]
  refine ⟨gs_space ho hl h0 _ _ _ (fun p => if p = 1 then (-1, 0, 0) else 0) _ ?_ ?_ ?_ ?_ (.inl fun _ => rfl),
    gs_space ho hl h0 _ _ _ 0 _ ?_ ?_ ?_ ?_ (.inr fun _ => rfl), gs_space ho hl h0 _ _ _ 0 _ ?_ ?_ ?_ ?_ (.inl fun _ => rfl),
    gs_space ho hl h0 _ _ _ 0 _ ?_ ?_ ?_ ?_ (.inl fun _ => rfl)⟩
  · ext x y
    fin_cases x <;> fin_cases y <;> simp [Tmdc.rot3, Matrix.mul_apply, Fin.sum_univ_three, Matrix.one_apply] <;> linarith
  · simp [Matrix.det_fin_three]
  · intro p hp R
    funext x
    interval_cases p <;> fin_cases x <;>
      simp [gsPos, Tmdc.rot3, cellMul, Matrix.mulVec, dotProduct, Fin.sum_univ_three] <;> first | ring1 | (ring_nf; simp only [h32]; ring1)
  · intro p hp q hq R
    interval_cases p <;> interval_cases q <;> simp [cellMul]
  · simp
  · simp [Matrix.det_fin_three]
  · intro p hp R
    funext x
    interval_cases p <;> fin_cases x <;>
      simp [gsPos, cellMul, Matrix.mulVec, dotProduct, Fin.sum_univ_three] <;> first | ring1 | (ring_nf; simp only [h32]; ring1)
  · intro p hp q hq R
    simp [cellMul]
  · ext x y
    fin_cases x <;> fin_cases y <;> simp [Matrix.mul_apply, Fin.sum_univ_three, Matrix.one_apply] <;> linarith
  · simp [Matrix.det_fin_three]
  · intro p hp R
    funext x
    interval_cases p <;> fin_cases x <;>
      simp [gsPos, cellMul, Matrix.mulVec, dotProduct, Fin.sum_univ_three] <;> first | ring1 | (ring_nf; simp only [h32]; ring1)
  · intro p hp q hq R
    simp [cellMul]
  · ext x y
    fin_cases x <;> fin_cases y <;> simp [Matrix.mul_apply, Fin.sum_univ_three, Matrix.one_apply]
  · simp [Matrix.det_fin_three]
  · intro p hp R
    funext x
    interval_cases p <;> fin_cases x <;>
      simp [gsPos, cellMul, Matrix.mulVec, dotProduct, Fin.sum_univ_three]
  · intro p hp q hq R
    simp [cellMul]

/-- **C111 (symmetry of graphene with s and p orbitals).** The rotation by 120 degrees about an atom, the inversion about the centre of a
bond, the mirror exchanging the lattice vectors and the mirror in the plane are symmetries of the arrangement of atoms and orbitals of
`make_graphene_sp`, and with the shells rotated accordingly they are unitary symmetries of its Hamiltonian. -/
theorem C111_graphene_sp_symmetric (H : HashFns ℝ ℂ String) (HS : SCHash ℝ ℂ String) (hO : ∀ l, l ≠ [] → H.orb l ≠ H.orb [])
    {tree : DistMatrix} (ht : IsDistMatrix tree) (c : ℝ) :
    ∃ s, grapheneSp H HS tree c = .ok s ∧ ∀ q ∈ ([(Tmdc.rot3, 0, !![-1, -1, 0; 1, 0, 0; 0, 0, 1], id),
        (-1, ![0.123, 0.041 * Real.sqrt 3, 0], -1, fun p => 1 - p),
        (!![1 / 2, Real.sqrt 3 / 2, 0; Real.sqrt 3 / 2, -(1 / 2), 0; 0, 0, 1], 0, !![0, 1, 0; 1, 0, 0; 0, 0, 1], id),
        (!![1, 0, 0; 0, 1, 0; 0, 0, -1], 0, !![1, 0, 0; 0, 1, 0; 0, 0, -1], id)] : List (Mat3 ℝ × Vec3 ℝ × Matrix (Fin 3) (Fin 3) ℤ × (ℕ → ℕ))),
      ∃ τ, SpaceSym skLabel s 5 5 0 0.25 q.1 q.2.1 q.2.2.1 τ (fun i => i / 4) q.2.2.2 ∧
        let U := symMat skLabel s q.1 (fun i => i / 4) q.2.2.2
        U.transpose * U = 1 ∧ UnitarySym s q.2.2.1 U τ := by
  obtain ⟨s, e1, e2, e3, e4, -, -, -, -, -, e10⟩ := gs_build H HS hO ht c
  obtain ⟨a1, a2, a3, a4⟩ := gs_sym e4 e2 e3
  refine ⟨s, e1, ?_⟩
  intro q hq
  simp only [List.mem_cons, List.not_mem_nil, or_false] at hq
  rcases hq with rfl | rfl | rfl | rfl
  · exact ⟨_, a1, C111_symmetric a1 e10⟩
  · exact ⟨_, a2, C111_symmetric a2 e10⟩
  · exact ⟨_, a3, C111_symmetric a3 e10⟩
  · exact ⟨_, a4, C111_symmetric a4 e10⟩

/-- **C111 (bands of graphene with s and p orbitals).** The bands of `make_graphene_sp` have the point group `D6h` of the sheet, for both
conventions and all Bloch vectors (reduced coordinates). -/
theorem C111_graphene_sp_bands (H : HashFns ℝ ℂ String) (HS : SCHash ℝ ℂ String) (hO : ∀ l, l ≠ [] → H.orb l ≠ H.orb [])
    (hP : ∀ l, l ≠ [] → H.hop l ≠ H.hop []) {tree : DistMatrix} (ht : IsDistMatrix tree) (c : ℝ) (k k' : Vec3 ℝ)
    (hk : k' = ![k 1 - k 0, -k 0, k 2] ∨ k' = -k ∨ k' = ![k 1, k 0, k 2] ∨ k' = ![k 0, k 1, -k 2]) (conv : ℤ) (hcv : conv = 1 ∨ conv = 2) :
    ∃ s ham ham', grapheneSp H HS tree c = .ok s ∧ setHamDense (syncArray H s) k conv = .ok ham ∧
      setHamDense (syncArray H s) k' conv = .ok ham' ∧
      (toMatrix s.numOrb ham').charpoly = (toMatrix s.numOrb ham).charpoly := by
  classical
  obtain ⟨s, e1, e2, e3, e4, hw, e5, e6, e7, e8, e10⟩ := gs_build H HS hO ht c
  have hn : s.numOrb = 8 := by rw [numOrb, e4]; exact gs_length
  have hne : s.orbs ≠ [] := by
    intro h
    rw [numOrb, h] at hn
    simp at hn
  have hg : s.hops.get (0, 0, 0) ((0 : ℕ) : ℤ) ((4 : ℕ) : ℤ) ≠ none := by
    rw [e10 _ _ _ (by omega) (by omega), if_pos]
    · simp
    · have h3 : Real.sqrt 3 * Real.sqrt 3 = 3 := Real.mul_self_sqrt (by norm_num)
      have hv : skVec s (0, 0, 0) 0 4 = ![0.123, 0.041 * Real.sqrt 3, 0] := by
        rw [skVec, gs_site e4 e2 e3 _ _ (by omega), gs_site e4 e2 e3 _ _ (by omega)]
        funext x
        fin_cases x <;> simp [gsPos] <;> ring
      have hnm : norm3 (skVec s (0, 0, 0) 0 4) = Real.sqrt (0.123 ^ 2 + (0.041 * Real.sqrt 3) ^ 2) := by
        rw [hv]
        simp [norm3]
      rw [gs_skBond e4 e2 e3 _ _ _ (by omega) (by omega), hnm]
      refine ⟨rfl, Real.sqrt_pos.2 (by positivity), ?_⟩
      rw [Real.sqrt_le_left (by norm_num), mul_pow, sq (Real.sqrt 3), h3]
      norm_num
  obtain ⟨b1, b2, b3, b4, b5, b6, b7⟩ := synced_ham hw hO hP e5 e6 hne e7 e8 _ _ _ hg
  have b0 : (syncArray H s).origin = 0 := by
    rw [← e3, ← (sync_orb_same H s false).2.2.1]
    unfold syncArray syncHop
    dsimp only
    split_ifs <;> rfl
  have hn' : (syncArray H s).numOrb = s.numOrb := by rw [numOrb, numOrb, b3]
  have hop : ∀ R (i j : ℕ), i < (syncArray H s).numOrb → j < (syncArray H s).numOrb → (syncArray H s).hops.get R i j =
      if SkBond (syncArray H s) 5 5 0 0.25 R i j then some (skHop skLabel graphenePar (syncArray H s) R i j) else none := by
    intro R i j hi hj
    rw [b4, e10 R i j (by omega) (by omega)]
    simp only [skBond_congr 5 5 0 0.25 b3 b5 (b0.trans e3.symm), skHop_congr skLabel graphenePar b3 b5 (b0.trans e3.symm)]
  obtain ⟨a1, a2, a3, a4⟩ := gs_sym (b3.trans e4) (b5.trans e2) b0
  obtain ⟨ham, hh⟩ := b6 k conv hcv
  obtain ⟨ham', hh'⟩ := b6 k' conv hcv
  refine ⟨s, ham, ham', e1, hh, hh', ?_⟩
  rw [← hn']
  symm
  rcases hk with rfl | rfl | rfl | rfl
  · exact C101_unitary b1 b2 (C111_symmetric a1 hop).2 k conv ham' ham (by
      rw [← hh']; congr 1; funext y; fin_cases y <;> simp [kMul, Fin.sum_univ_three]; ring) hh
  · exact C101_unitary b1 b2 (C111_symmetric a2 hop).2 k conv ham' ham (by
      rw [← hh']; congr 1; funext y; fin_cases y <;> simp [kMul, Fin.sum_univ_three, Matrix.one_apply]) hh
  · exact C101_unitary b1 b2 (C111_symmetric a3 hop).2 k conv ham' ham (by
      rw [← hh']; congr 1; funext y; fin_cases y <;> simp [kMul, Fin.sum_univ_three]) hh
  · exact C101_unitary b1 b2 (C111_symmetric a4 hop).2 k conv ham' ham (by
      rw [← hh']; congr 1; funext y; fin_cases y <;> simp [kMul, Fin.sum_univ_three]) hh

/-- The hypotheses can be met. -/
example : ∃ (H : HashFns ℝ ℂ String) (tree : DistMatrix), (∀ l, l ≠ [] → H.orb l ≠ H.orb []) ∧ (∀ l, l ≠ [] → H.hop l ≠ H.hop []) ∧
    IsDistMatrix tree := by
  obtain ⟨tree, ht⟩ := distMatrix_exists
  refine ⟨⟨fun l => l.length, fun l => l.length⟩, tree, ?_, ?_, ht⟩ <;> intro l hl <;> simpa using hl

end Verif.Props

import Verif.Proof.TmdcSym
import Verif.Props.Antimonene
import Verif.Spec.Tmdc

/-! # Property C110: transition metal dichalcogenides -/

namespace Verif.Props

open PrimCell Materials HopDict Tmdc

/-- The operations on the orbitals of the cell. -/
def rotLab : Sparse :=
  [((0, 0), 2, 0), ((1, 1), -1, 0), ((2, 1), 0, 1), ((1, 2), 0, -1), ((2, 2), -1, 0), ((3, 3), -1, 0), ((4, 3), 0, 1), ((3, 4), 0, -1),
   ((4, 4), -1, 0), ((5, 5), -1, 0), ((6, 5), 0, 1), ((5, 6), 0, -1), ((6, 6), -1, 0), ((7, 7), 2, 0), ((8, 8), -1, 0), ((9, 8), 0, 1),
   ((8, 9), 0, -1), ((9, 9), -1, 0), ((10, 10), 2, 0)]
@[inherit_doc rotLab] def mirHLab : Sparse :=
  [((0, 0), 2, 0), ((1, 1), 2, 0), ((2, 2), 2, 0), ((3, 3), -2, 0), ((4, 4), -2, 0), ((8, 5), 2, 0), ((9, 6), 2, 0), ((10, 7), -2, 0),
   ((5, 8), 2, 0), ((6, 9), 2, 0), ((7, 10), -2, 0)]
@[inherit_doc rotLab] def mirVLab : Sparse :=
  [((0, 0), 2, 0), ((1, 1), -2, 0), ((2, 2), 2, 0), ((3, 3), -2, 0), ((4, 4), 2, 0), ((5, 5), -2, 0), ((6, 6), 2, 0), ((7, 7), 2, 0),
   ((8, 8), -2, 0), ((9, 9), 2, 0), ((10, 10), 2, 0)]

theorem tmFull_neg (t : ℕ → ℝ) (R : Cell) (l m : ℕ) (hl : l < 11) (hm : m < 11) : tmFull t (-R) m l = tmFull t R l m := by
  have h0 : ∀ i < 11, ∀ j < 11, rowGet tmRows000 j i = rowGet tmRows000 i j := by decide +kernel
  by_cases h : -1 ≤ R.1 ∧ R.1 ≤ 1 ∧ -1 ≤ R.2.1 ∧ R.2.1 ≤ 1 ∧ R.2.2 = 0
  · obtain ⟨x, y, z⟩ := R
    obtain ⟨h1, h2, h3, h4, h5⟩ := h
    simp only at h1 h2 h3 h4 h5
    subst h5
    rw [tmFull_eq t _ _ _ hm hl, tmFull_eq t _ _ _ hl hm]
    congr 1
    interval_cases x <;> interval_cases y <;> first | rfl | exact h0 _ hl _ hm
  · have e1 : tmFull t R l m = 0 := by
      by_contra hne
      exact h (tmFull_support hne)
    have e2 : tmFull t (-R) m l = 0 := by
      by_contra hne
      have := tmFull_support hne
      simp only [Prod.fst_neg, Prod.snd_neg] at this
      exact h (by omega)
    rw [e1, e2]

theorem tmG_neg (t : ℕ → ℝ) (R : Cell) (i j : ℕ) : tmG t (-R) j i = tmG t R i j := by
  unfold tmG tmConj
  simp only [Finset.sum_mul]
  rw [Finset.sum_comm]
  refine Finset.sum_congr rfl fun m hm => Finset.sum_congr rfl fun l hl => ?_
  rw [tmFull_neg t R _ _ (Finset.mem_range.1 hl) (Finset.mem_range.1 hm)]
  ring

theorem tmG_support {t : ℕ → ℝ} {R : Cell} {i j : ℕ} (h : tmG t R i j ≠ 0) : -1 ≤ R.1 ∧ R.1 ≤ 1 ∧ -1 ≤ R.2.1 ∧ R.2.1 ≤ 1 ∧ R.2.2 = 0 := by
  by_contra hn
  apply h
  unfold tmG tmConj
  have : ∀ l m, tmFull t R l m = 0 := fun l m => by
    by_contra hne
    exact hn (tmFull_support hne)
  simp [this]

/-- The hopping table. -/
noncomputable def tmTable (t : ℕ → ℝ) (R : Cell) (i j : ℕ) : ℂ := if R = 0 ∧ i = j then 0 else (tmG t R i j : ℂ)

/-- The dictionary of `gen_hop_dict`. -/
theorem tm_dict (t : ℕ → ℝ) : ∃ d, seqItems (HopDict.init 11) (tmItems t) = (d, .ok ()) ∧ DictOk 11 d ∧
    (∀ R, ∀ i < 11, ∀ j < 11, elem d R i j ≠ 0 → elem d R i j = tmTable t R i j) ∧
    (∀ R, ∀ i < 11, ∀ j < 11, tmTable t R i j ≠ 0 → elem d R i j ≠ 0 ∨ elem d (-R) j i ≠ 0) := by
  obtain ⟨d, h1, h2, h3, h4⟩ := seqItems_get (n := 11) (tmItems t) (HopDict.init 11) rfl (by simp [HopDict.init, PyDict.WF, PyDict.keys])
    (by simp [tmItems, PyDict.WF, PyDict.keys])
    (by intro q hq; simp only [tmItems, List.mem_cons, List.not_mem_nil, or_false] at hq; rcases hq with rfl | rfl | rfl | rfl | rfl <;> exact ⟨rfl, rfl⟩)
    (by
      intro q hq h0 i _
      simp only [tmItems, List.mem_cons, List.not_mem_nil, or_false] at hq
      rcases hq with rfl | rfl | rfl | rfl | rfl
      · simp
      all_goals simp at h0)
  have e0 : tmFull t (0, 0, 0) = tmA000 t := by funext l m; unfold tmFull; simp
  have e1 : tmFull t (1, 0, 0) = tmA100 t := by funext l m; unfold tmFull; simp
  have e2 : tmFull t (1, 1, 0) = tmA110 t := by funext l m; unfold tmFull; simp
  have e3 : tmFull t (0, 1, 0) = tmA010 t := by funext l m; unfold tmFull; simp
  have e4 : tmFull t (-1, 1, 0) = tmAm110 t := by funext l m; unfold tmFull; simp
  have hg : ∀ R, PyDict.get? d.mats R = (PyDict.get? (tmItems t) R).map fun M => (⟨11, M.val, false⟩ : HopMat) := by
    intro R
    rw [h4]
    simp [HopDict.init, PyDict.get?]
  have hel : ∀ R i j, elem d R i j = (PyDict.get? (tmItems t) R).elim 0 fun M => M.val i j := by
    intro R i j
    simp only [elem, hg]
    cases PyDict.get? (tmItems t) R <;> rfl
  have hit : ∀ R i j, elem d R i j = if R ∈ [((0, 0, 0) : Cell), (1, 0, 0), (1, 1, 0), (0, 1, 0), (-1, 1, 0)] then tmTable t R i j else 0 := by
    intro R i j
    rw [hel]
    by_cases hR : R ∈ [((0, 0, 0) : Cell), (1, 0, 0), (1, 1, 0), (0, 1, 0), (-1, 1, 0)]
    · rw [if_pos hR]
      simp only [List.mem_cons, List.not_mem_nil, or_false] at hR
      rcases hR with rfl | rfl | rfl | rfl | rfl
      · rw [show PyDict.get? (tmItems t) (0, 0, 0) = some ⟨11, 11, fun i j => if i = j then 0 else (tmConj (tmA000 t) i j : ℂ)⟩ from rfl,
          Option.elim_some, tmTable, tmG, e0]
        simp
      · rw [show PyDict.get? (tmItems t) (1, 0, 0) = some ⟨11, 11, fun i j => (tmConj (tmA100 t) i j : ℂ)⟩ from rfl,
          Option.elim_some, tmTable, tmG, e1]
        simp
      · rw [show PyDict.get? (tmItems t) (1, 1, 0) = some ⟨11, 11, fun i j => (tmConj (tmA110 t) i j : ℂ)⟩ from rfl,
          Option.elim_some, tmTable, tmG, e2]
        simp
      · rw [show PyDict.get? (tmItems t) (0, 1, 0) = some ⟨11, 11, fun i j => (tmConj (tmA010 t) i j : ℂ)⟩ from rfl,
          Option.elim_some, tmTable, tmG, e3]
        simp
      · rw [show PyDict.get? (tmItems t) (-1, 1, 0) = some ⟨11, 11, fun i j => (tmConj (tmAm110 t) i j : ℂ)⟩ from rfl,
          Option.elim_some, tmTable, tmG, e4]
        simp
    · rw [if_neg hR]
      have : PyDict.get? (tmItems t) R = none := by
        simp only [List.mem_cons, List.not_mem_nil, or_false, not_or] at hR
        obtain ⟨a, b, c, d, e⟩ := hR
        simp only [tmItems, PyDict.get?, if_neg (Ne.symm a), if_neg (Ne.symm b), if_neg (Ne.symm c), if_neg (Ne.symm d), if_neg (Ne.symm e)]
      rw [this]; rfl
  refine ⟨d, h1, ⟨h2, h3, fun p hp => ?_⟩, ?_, ?_⟩
  · have := (PyDict.mem_iff_get? h3 p.1 p.2).1 hp
    rw [hg] at this
    obtain ⟨M, -, he⟩ := Option.map_eq_some_iff.1 this
    rw [← he]
    exact ⟨rfl, rfl⟩
  · intro R i _ j _ hne
    rw [hit] at hne ⊢
    split_ifs at hne ⊢ with h
    · rfl
    · exact absurd rfl hne
  · intro R i _ j _ hne
    have hs : -1 ≤ R.1 ∧ R.1 ≤ 1 ∧ -1 ≤ R.2.1 ∧ R.2.1 ≤ 1 ∧ R.2.2 = 0 := by
      apply tmG_support (t := t) (i := i) (j := j)
      intro h
      simp [tmTable, h] at hne
    have hne' : tmTable t (-R) j i ≠ 0 := by
      unfold tmTable at hne ⊢
      rw [tmG_neg]
      simpa [eq_comm] using hne
    have : R ∈ [((0, 0, 0) : Cell), (1, 0, 0), (1, 1, 0), (0, 1, 0), (-1, 1, 0)] ∨ -R ∈ [((0, 0, 0) : Cell), (1, 0, 0), (1, 1, 0), (0, 1, 0), (-1, 1, 0)] := by
      obtain ⟨x, y, z⟩ := R
      obtain ⟨h1, h2, h3, h4, h5⟩ := hs
      simp only at h1 h2 h3 h4 h5
      subst h5
      interval_cases x <;> interval_cases y <;> decide
    rcases this with h | h
    · left; rw [hit, if_pos h]; exact hne
    · right; rw [hit, if_pos h]; exact hne'

theorem tm_data (m : String) (hm : m ∈ materials) : (∃ z, PyDict.get? tmStruct m = some ((latConst m).1, (latConst m).2, z)) ∧
    PyDict.get? tmHop m = some (params m) ∧ tmLabels m = .ok (labels m) := by
  simp only [materials, List.mem_cons, List.not_mem_nil, or_false] at hm
  rcases hm with rfl | rfl | rfl | rfl
  · exact ⟨⟨1.229 / 2, by simp [tmStruct, PyDict.get?, latConst]⟩, by simp [tmHop, PyDict.get?, params], by simp [tmLabels, PyDict.get?, labels, names]⟩
  · exact ⟨⟨1.290 / 2, by simp [tmStruct, PyDict.get?, latConst]⟩, by simp [tmHop, PyDict.get?, params], by simp [tmLabels, PyDict.get?, labels, names]⟩
  · exact ⟨⟨1.232 / 2, by simp [tmStruct, PyDict.get?, latConst]⟩, by simp [tmHop, PyDict.get?, params], by simp [tmLabels, PyDict.get?, labels, names]⟩
  · exact ⟨⟨1.296 / 2, by simp [tmStruct, PyDict.get?, latConst]⟩, by simp [tmHop, PyDict.get?, params], by simp [tmLabels, PyDict.get?, labels, names]⟩

/-- The parameters of a material as a function. -/
noncomputable def tmPar (m : String) (n : ℕ) : ℝ := (params m).getD n 0

theorem tm_class (m : String) (hm : m ∈ materials) (p : ℕ) : tmPar m (tmClass p) = tmPar m p := by
  simp only [materials, List.mem_cons, List.not_mem_nil, or_false] at hm
  unfold tmClass tmPar
  split_ifs <;> first | (subst p; rcases hm with rfl | rfl | rfl | rfl <;> simp [params]; done) | rfl

theorem tm_const (m : String) (hm : m ∈ materials) : (latConst m).1 ≠ 0 := by
  simp only [materials, List.mem_cons, List.not_mem_nil, or_false] at hm
  have : (latConst "WSe2").1 = 0.328 := rfl
  rcases hm with rfl | rfl | rfl | rfl
  all_goals first | (rw [this]; norm_num; done) | norm_num [latConst]

theorem one_lit : (1.0 : ℝ) = 1 := by norm_num

theorem tm_det {a : ℝ} (ha : a ≠ 0) : (tmLat a 1.0).det ≠ 0 := by
  have h3 : Real.sqrt 3 ≠ 0 := by positivity
  have : (tmLat a 1.0).det = a * a * Real.sqrt 3 / 2 := by
    rw [one_lit]
    simp [tmLat, Matrix.det_fin_three]
    ring
  rw [this]
  positivity

/-- What `make_tmdc` builds. -/
theorem tm_spec (H : HashFns ℝ ℂ String) (m : String) (hm : m ∈ materials) :
    ∃ s, tmdc H m = .ok s ∧ s.lat = tmLat (latConst m).1 1.0 ∧ s.origin = 0 ∧
      s.orbs = ((tmCoords (latConst m).1 (latConst m).2).map (cart2fracRow (tmLat (latConst m).1 1.0) 0)).zipIdx.map
        (fun q => ⟨q.1, tmG (tmPar m) 0 q.2 q.2, (labels m).getD q.2 ""⟩) ∧
      (∀ R (i j : ℤ), s.hops.get R i j = open Classical in
        if (0 ≤ i ∧ i < (11 : ℕ) ∧ 0 ≤ j ∧ j < (11 : ℕ)) ∧ tmTable (tmPar m) R i.toNat j.toNat ≠ 0 then some (tmTable (tmPar m) R i.toNat j.toNat)
        else none) ∧
      WF s ∧ s.hashOrb = H.orb [] ∧ s.hashHop = H.hop [] := by
  obtain ⟨⟨z, d1⟩, d2, d3⟩ := tm_data m hm
  obtain ⟨d, e1, e2, e3, e4⟩ := tm_dict (tmPar m)
  obtain ⟨s0, s, d', h1, h2, h3, h4, h5, h6, h7⟩ := dict_herm e2 H (tmLat (latConst m).1 1.0) 0
    (((tmCoords (latConst m).1 (latConst m).2).map (cart2fracRow (tmLat (latConst m).1 1.0) 0)).zipIdx.map
        fun q => ([q.1 0, q.1 1, q.1 2], tmG (tmPar m) 0 q.2 q.2, (labels m).getD q.2 ""))
    (by intro q hq; obtain ⟨x, -, rfl⟩ := List.mem_map.1 hq; simp [checkLen])
    (by simp [tmCoords]) (tmTable (tmPar m))
    (by intro i _; simp [tmTable])
    (by
      intro R i _ j _
      unfold tmTable
      rw [tmG_neg]
      by_cases h : R = 0 ∧ i = j
      · rw [if_pos h, if_pos ⟨by rw [h.1, neg_zero], h.2.symm⟩, star_zero]
      · rw [if_neg h, if_neg (fun h' => h ⟨neg_eq_zero.1 h'.1, h'.2.symm⟩)]
        exact (Complex.conj_ofReal _).symm) e3 e4
  refine ⟨s, ?_, h3, h4, ?_, h6, h7⟩
  · unfold tmdc
    rw [tmLattice, d1]
    simp only
    rw [tmDict, d2]
    simp only
    rw [show (fun n => (params m).getD n 0) = tmPar m from rfl, e1]
    simp only
    rw [cart2frac, if_neg (by rw [Matrix.det_transpose]; exact tm_det (tm_const m hm)), d3]
    simp only
    rw [List.map_map] at h1
    have : runOk H (PrimCell.init H (tmLat (latConst m).1 1.0) 0)
        (((tmCoords (latConst m).1 (latConst m).2).map (cart2fracRow (tmLat (latConst m).1 1.0) 0)).zipIdx.map
          fun q => .addOrbital [q.1 0, q.1 1, q.1 2] (tmOnSite (tmPar m) q.2) ((labels m).getD q.2 "")) = .ok s0 := by
      rw [← h1]
      congr 2
    rw [this]
    simp only
    rw [h2]
  · rw [h5, List.map_map]
    apply List.map_congr_left
    intro x _
    simp only [Function.comp, checkLen, Option.getD_some, vec3]
    congr 1
    funext y
    fin_cases y <;> rfl

theorem tm_orb {m : String} {s : PrimCell ℝ ℂ String} (h : s.orbs = ((tmCoords (latConst m).1 (latConst m).2).map
    (cart2fracRow (tmLat (latConst m).1 1.0) 0)).zipIdx.map (fun q => ⟨q.1, tmG (tmPar m) 0 q.2 q.2, (labels m).getD q.2 ""⟩)) (i : ℕ) (hi : i < 11) :
    s.orbs[i]? = some ⟨cart2fracRow (tmLat (latConst m).1 1.0) 0 (if i < 5 then ![0, (latConst m).1 / Real.sqrt 3, (latConst m).2 / 2]
      else if i < 8 then ![0, 0, (latConst m).2] else ![0, 0, 0]), tmG (tmPar m) 0 i i, (labels m).getD i ""⟩ := by
  rw [h]
  interval_cases i <;> rfl

/-- The matrix elements. -/
theorem tm_full {m : String} {s : PrimCell ℝ ℂ String} (h : s.orbs = ((tmCoords (latConst m).1 (latConst m).2).map
    (cart2fracRow (tmLat (latConst m).1 1.0) 0)).zipIdx.map (fun q => ⟨q.1, tmG (tmPar m) 0 q.2 q.2, (labels m).getD q.2 ""⟩))
    (hg : ∀ R (i j : ℤ), s.hops.get R i j = open Classical in
        if (0 ≤ i ∧ i < (11 : ℕ) ∧ 0 ≤ j ∧ j < (11 : ℕ)) ∧ tmTable (tmPar m) R i.toNat j.toNat ≠ 0 then some (tmTable (tmPar m) R i.toNat j.toNat)
        else none) (R : Cell) (i j : ℕ) (hi : i < 11) (hj : j < 11) : fullAmp s R i j = (tmG (tmPar m) R i j : ℂ) := by
  have ha : amp s R i j = tmTable (tmPar m) R i j := by
    rw [amp, hg]
    simp only [Int.toNat_natCast]
    by_cases hz : tmTable (tmPar m) R i j = 0
    · rw [if_neg (fun h => h.2 hz), hz]; rfl
    · rw [if_pos ⟨by omega, hz⟩]; rfl
  rw [fullAmp, ha, tm_orb h i hi, tmTable]
  by_cases hR : R = 0 ∧ i = j
  · obtain ⟨rfl, rfl⟩ := hR
    simp
  · rw [if_neg hR, if_neg hR, zero_add]

/-- Positions of the sites. -/
theorem tm_site {m : String} (hm : m ∈ materials) {s : PrimCell ℝ ℂ String} (h2 : s.lat = tmLat (latConst m).1 1.0) (h3 : s.origin = 0)
    (h : s.orbs = ((tmCoords (latConst m).1 (latConst m).2).map
    (cart2fracRow (tmLat (latConst m).1 1.0) 0)).zipIdx.map (fun q => ⟨q.1, tmG (tmPar m) 0 q.2 q.2, (labels m).getD q.2 ""⟩)) (R : Cell)
    (i : ℕ) (hi : i < 11) : sitePos s R i =
      ![(R.1 - R.2.1) * ((latConst m).1 / 2), (R.1 + R.2.1) * ((latConst m).1 * Real.sqrt 3 / 2) + (if i < 5 then (latConst m).1 / Real.sqrt 3 else 0),
        R.2.2 + (if i < 5 then (latConst m).2 / 2 else if i < 8 then (latConst m).2 else 0)] := by
  have key : ∀ v : Vec3 ℝ, frac2cartRow (tmLat (latConst m).1 1.0) 0 (cart2fracRow (tmLat (latConst m).1 1.0) 0 v) = v := by
    intro v
    have hu : IsUnit (tmLat (latConst m).1 1.0).transpose.det := by rw [Matrix.det_transpose]; exact (tm_det (tm_const m hm)).isUnit
    simp only [frac2cartRow, cart2fracRow, sub_zero, add_zero, Matrix.mulVec_mulVec, Matrix.mul_nonsing_inv _ hu, Matrix.one_mulVec]
  funext y
  rw [sitePos_apply s R i _ (tm_orb h i hi), h2, h3, key, one_lit]
  split_ifs <;> fin_cases y <;> simp [tmLat, cellAt, Fin.sum_univ_three] <;> ring

/-- **C110 (the crystal).** For each of the four materials `make_tmdc` returns a crystal with eleven orbitals: the five d orbitals of the
metal at the height of the middle plane, and the p orbitals of two chalcogen atoms on top of each other.  The lattice is hexagonal with the lattice
constant of the material.  Hopping terms lead to the eight neighbouring cells only. -/
theorem C110_crystal (H : HashFns ℝ ℂ String) (m : String) (hm : m ∈ materials) :
    ∃ s, tmdc H m = .ok s ∧ s.numOrb = 11 ∧ s.orbs.map Orbital.label = labels m ∧
      (∀ R : Cell, ∀ i < 11, sitePos s R i =
        ![(R.1 - R.2.1) * ((latConst m).1 / 2),
          (R.1 + R.2.1) * ((latConst m).1 * Real.sqrt 3 / 2) + (if i < 5 then (latConst m).1 / Real.sqrt 3 else 0),
          R.2.2 + (if i < 5 then (latConst m).2 / 2 else if i < 8 then (latConst m).2 else 0)]) ∧
      (∀ R (i j : ℤ), s.hops.get R i j ≠ none → |R.1| ≤ 1 ∧ |R.2.1| ≤ 1 ∧ R.2.2 = 0) := by
  obtain ⟨s, h1, h2, h3, h4, h5, hw, h8, h9⟩ := tm_spec H m hm
  refine ⟨s, h1, ?_, ?_, fun R i hi => tm_site hm h2 h3 h4 R i hi, ?_⟩
  · rw [numOrb, h4]; simp [tmCoords]
  · rw [h4]
    simp [tmCoords, labels]
  · intro R i j hne
    rw [h5] at hne
    split_ifs at hne with hc
    · have := tmG_support (t := tmPar m) (R := R) (i := i.toNat) (j := j.toNat) (by
        intro h
        apply hc.2
        simp [tmTable, h])
      exact ⟨abs_le.2 ⟨this.1, this.2.1⟩, abs_le.2 ⟨this.2.2.1, this.2.2.2.1⟩, this.2.2.2.2⟩
    · exact absurd rfl hne

/-- **C110 (other materials).** Any other name raises `NotImplementedError`. -/
theorem C110_unknown (H : HashFns ℝ ℂ String) (m : String) (hm : m ∉ materials) : tmdc H m = .error .notImplemented := by
  simp only [materials, List.mem_cons, List.not_mem_nil, or_false, not_or] at hm
  obtain ⟨a, b, c, d⟩ := hm
  have : PyDict.get? tmStruct m = none := by
    simp only [tmStruct, PyDict.get?, if_neg (Ne.symm a), if_neg (Ne.symm b), if_neg (Ne.symm c), if_neg (Ne.symm d)]
  rw [tmdc, tmLattice, this]

theorem symm_trans : ∀ l < 11, ∀ a < 11, symm l a = tmTrans a l := by
  intro l hl a ha
  interval_cases l <;> interval_cases a <;> simp [Tmdc.symm, tmTrans, tmOnes, tmPlus, tmMinus]

theorem symm_sum (t : ℕ → ℝ) (R : Cell) (l m : ℕ) (hl : l < 11) (hm : m < 11) :
    ∑ a ∈ Finset.range 11, ∑ b ∈ Finset.range 11, symm l a * symm m b * tmG t R a b = tmFull t R l m := by
  have hT : tmMat.transpose * tmMat = 1 := mul_eq_one_comm.1 tmMat_orth
  let g : Matrix (Fin 11) (Fin 11) ℝ := Matrix.of fun l m => tmFull t R l m
  have key : tmMat.transpose * (tmMat * g * tmMat.transpose) * tmMat = g := by
    rw [Matrix.mul_assoc tmMat, ← Matrix.mul_assoc, hT, Matrix.one_mul, Matrix.mul_assoc, hT, Matrix.mul_one]
  have k2 := congrFun (congrFun key ⟨l, hl⟩) ⟨m, hm⟩
  rw [Matrix.mul_apply] at k2
  have k3 : ∀ b : Fin 11, (tmMat.transpose * (tmMat * g * tmMat.transpose)) ⟨l, hl⟩ b = ∑ a : Fin 11, tmTrans a l * tmG t R a b := by
    intro b
    rw [Matrix.mul_apply]
    refine Finset.sum_congr rfl fun a _ => ?_
    rw [Matrix.transpose_apply]
    congr 1
  simp only [k3] at k2
  refine Eq.trans ?_ k2
  rw [Finset.sum_comm, Finset.sum_range]
  refine Finset.sum_congr rfl fun b _ => ?_
  rw [Finset.sum_range, Finset.sum_mul]
  refine Finset.sum_congr rfl fun a _ => ?_
  rw [symm_trans l hl a a.2, symm_trans m hm b b.2]
  change _ = _ * tmTrans b m
  ring

/-- **C110 (parameters).** Each of the 44 parameters of the material is the matrix element between the symmetrised orbitals to which the
reference assigns it. -/
theorem C110_parameters (H : HashFns ℝ ℂ String) (m : String) (hm : m ∈ materials) :
    ∃ s, tmdc H m = .ok s ∧ ∀ q ∈ elements.zip (params m),
      ∑ a ∈ Finset.range 11, ∑ b ∈ Finset.range 11, (symm q.1.2.1 a : ℂ) * symm q.1.2.2 b * fullAmp s q.1.1 a b = (q.2 : ℂ) := by
  obtain ⟨s, h1, h2, h3, h4, h5, hw, h8, h9⟩ := tm_spec H m hm
  refine ⟨s, h1, fun q hq => ?_⟩
  have hlen : (params m).length = 44 := by
    simp only [materials, List.mem_cons, List.not_mem_nil, or_false] at hm
    rcases hm with rfl | rfl | rfl | rfl <;> rfl
  obtain ⟨n, hn, he⟩ := List.getElem_of_mem hq
  have hn' : n < 44 := by
    rw [List.length_zip] at hn
    omega
  have hv : q.2 = tmPar m n := by
    rw [← he, List.getElem_zip, tmPar, List.getD_eq_getElem?_getD, List.getElem?_eq_getElem (by omega), Option.getD_some]
  have hx : q.1 = elements.getD n (0, 0, 0) := by
    rw [← he, List.getElem_zip, List.getD_eq_getElem?_getD, List.getElem?_eq_getElem (by rw [List.length_zip] at hn; omega), Option.getD_some]
  have hb : ∀ x ∈ elements, x.2.1 < 11 ∧ x.2.2 < 11 := by decide
  have hq1 : q.1 ∈ elements := (List.of_mem_zip (a := q.1) (b := q.2) hq).1
  obtain ⟨b1, b2⟩ := hb _ hq1
  have e : ∑ a ∈ Finset.range 11, ∑ b ∈ Finset.range 11, (symm q.1.2.1 a : ℂ) * symm q.1.2.2 b * fullAmp s q.1.1 a b =
      ((∑ a ∈ Finset.range 11, ∑ b ∈ Finset.range 11, symm q.1.2.1 a * symm q.1.2.2 b * tmG (tmPar m) q.1.1 a b : ℝ) : ℂ) := by
    push_cast
    refine Finset.sum_congr rfl fun a ha => Finset.sum_congr rfl fun b hb => ?_
    rw [tm_full h4 h5 _ _ _ (Finset.mem_range.1 ha) (Finset.mem_range.1 hb)]
  rw [e, symm_sum _ _ _ _ b1 b2, tmFull_eq _ _ _ _ b1 b2, hv, hx]
  have hf : ∀ n < 44, tmForms (elements.getD n (0, 0, 0)).1 (elements.getD n (0, 0, 0)).2.1 (elements.getD n (0, 0, 0)).2.2 = [(n, 8, 0)] := by
    decide +kernel
  rw [hf n hn']
  simp [ev]

/-- A symmetry of the table is one of the crystal. -/
theorem tm_unitary {t : ℕ → ℝ} {s : PrimCell ℝ ℂ String} (hn : s.numOrb = 11) (ha : ∀ R (i j : ℕ), i < 11 → j < 11 → fullAmp s R i j = (tmG t R i j : ℂ))
    (ht : ∀ p, t (tmClass p) = t p) {U U' : Sparse} {τ τ' : ℕ → Cell} {B : Cell → Cell} (A A' : Matrix (Fin 3) (Fin 3) ℤ) (hA : A * A' = 1)
    (hAB : ∀ R, cellMul A' R = B R)
    (hU : ∀ q ∈ U, (q.1.1 < 11 ∧ q.1.2 < 11) ∧ tmMetal q.1.1 = tmMetal q.1.2) (hU' : ∀ q ∈ U', q.1.1 < 11 ∧ q.1.2 < 11)
    (h1 : commOk B U τ = true) (h2 : transOk U' U = true) (h3 : orthOk U' = true)
    (hτ : ∀ i < 11, ∀ l < 11, tmSign i l ≠ 0 → τ' i = τ l)
    (hB : ∀ (T : Cell) (i j : ℕ) (S : Cell), S = B (T - τ j + τ i) →
      -1 ≤ S.1 ∧ S.1 ≤ 1 ∧ -1 ≤ S.2.1 ∧ S.2.1 ≤ 1 ∧ S.2.2 = 0 → -3 ≤ T.1 ∧ T.1 ≤ 3 ∧ -1 ≤ T.2.1 ∧ T.2.1 ≤ 1 ∧ T.2.2 = 0) :
    UnitarySym s A (Matrix.of fun a i => (spVal U' a i : ℂ)) τ' := by
  have hdet : A.det * A'.det = 1 := by rw [← Matrix.det_mul, hA, Matrix.det_one]
  have hinv : A⁻¹ = A' := Matrix.inv_eq_right_inv hA
  refine ⟨IsUnit.of_mul_eq_one _ hdet, ?_, ?_⟩
  · have ho := orth_of_ok h3 (fun q hq => (hU' q hq).1)
    rw [← Matrix.isUnit_iff_isUnit_det]
    have key : (Matrix.of fun i a : Fin s.numOrb => (spVal U' a i : ℂ)) * (Matrix.of fun a i : Fin s.numOrb => (spVal U' a i : ℂ)) = 1 := by
      generalize s.numOrb = n at hn
      subst hn
      ext i j
      have := congrFun (congrFun ho i) j
      simp only [Matrix.mul_apply, Matrix.transpose_apply, spMat, Matrix.of_apply, Matrix.one_apply] at this ⊢
      have := congrArg (fun x : ℝ => (x : ℂ)) this
      push_cast at this
      rw [this]
      split_ifs <;> simp
    exact IsUnit.of_mul_eq_one_right _ key
  · intro T a j
    have hlt : ∀ i : Fin s.numOrb, (i : ℕ) < 11 := fun i => hn ▸ i.2
    have := conj_comm (t := t) (comm_of_ok ht (fun q hq => (hU q hq).1) h1 hB) (trans_of_ok h2 hU fun q hq => (hU' q hq).2) hτ T a j (hlt a) (hlt j)
    have e1 : ∑ b : Fin s.numOrb, fullAmp s T a b * (Matrix.of fun a i : Fin s.numOrb => (spVal U' a i : ℂ)) b j =
        ((∑ b ∈ Finset.range 11, tmG t T a b * spVal U' b j : ℝ) : ℂ) := by
      rw [← hn, Finset.sum_range]
      push_cast
      exact Finset.sum_congr rfl fun b _ => by rw [ha _ _ _ (hlt a) (hlt b)]; rfl
    have e2 : ∑ i : Fin s.numOrb, (Matrix.of fun a i : Fin s.numOrb => (spVal U' a i : ℂ)) a i * fullAmp s (cellMul A⁻¹ (T - τ' j + τ' i)) i j =
        ((∑ i ∈ Finset.range 11, spVal U' a i * tmG t (B (T - τ' j + τ' i)) i j : ℝ) : ℂ) := by
      rw [← hn, Finset.sum_range]
      push_cast
      refine Finset.sum_congr rfl fun i _ => ?_
      rw [ha _ _ _ (hlt i) (hlt j), hinv, hAB]
      rfl
    rw [e1, e2, this]

theorem spVal_mem {U : Sparse} {a i : ℕ} (h : spVal U a i ≠ 0) : ∃ q ∈ U, q.1 = (a, i) := by
  by_contra hn
  push Not at hn
  apply h
  rw [spVal]
  apply List.sum_eq_zero
  intro x hx
  obtain ⟨q, hq, rfl⟩ := List.mem_map.1 hx
  rw [if_neg (hn q hq)]

theorem shape_sum (U : Sparse) (hU : ∀ q ∈ U, q.1.1 < 11) (i : ℕ) (r : Fin 3 → ℝ) :
    ∑ a ∈ Finset.range 11, spVal U a i * shape a r = ((U.filter fun q => q.1.2 = i).map fun q => val2 q.2 * shape q.1.1 r).sum := by
  rw [← spVal_col U 11 hU (fun a => shape a r) i]
  exact Finset.sum_congr rfl fun a _ => mul_comm _ _

/-- Symmetries of the crystal and of its image under `syncArray`. -/
theorem tm_rot {m : String} (hm : m ∈ materials) {s : PrimCell ℝ ℂ String} (hn : s.numOrb = 11)
    (ha : ∀ R (i j : ℕ), i < 11 → j < 11 → fullAmp s R i j = (tmG (tmPar m) R i j : ℂ)) :
    UnitarySym s !![-1, -1, 0; 1, 0, 0; 0, 0, 1] (Matrix.of fun a i => (spVal rotLab a i : ℂ)) (fun i => if i < 5 then (-1, 0, 0) else 0) := by
  refine tm_unitary hn ha (tm_class m hm) _ !![0, 1, 0; -1, -1, 0; 0, 0, 1] ?_ (B := fun R => (R.2.1, -R.1 - R.2.1, R.2.2)) ?_
    (U := rotLit) (τ := fun l => if tmMetal l then (-1, 0, 0) else 0) (by decide) (by decide) rot_ok (by decide +kernel) (by decide +kernel) (by decide) ?_
  · ext x y; fin_cases x <;> fin_cases y <;> simp [Matrix.mul_apply, Fin.sum_univ_three]
  · intro R
    refine Prod.ext ?_ (Prod.ext ?_ ?_) <;> simp [cellMul]; ring
  · rintro T i j S rfl h
    dsimp only at h
    split_ifs at h <;> simp at h <;> omega

theorem tm_mirH {m : String} (hm : m ∈ materials) {s : PrimCell ℝ ℂ String} (hn : s.numOrb = 11)
    (ha : ∀ R (i j : ℕ), i < 11 → j < 11 → fullAmp s R i j = (tmG (tmPar m) R i j : ℂ)) :
    UnitarySym s !![1, 0, 0; 0, 1, 0; 0, 0, -1] (Matrix.of fun a i => (spVal mirHLab a i : ℂ)) (fun _ => 0) := by
  refine tm_unitary hn ha (tm_class m hm) _ !![1, 0, 0; 0, 1, 0; 0, 0, -1] ?_ (B := fun R => (R.1, R.2.1, -R.2.2)) ?_
    (U := mirHLit) (τ := fun _ => 0) (by decide) (by decide) mirH_ok (by decide +kernel) (by decide +kernel) (by decide) ?_
  · ext x y; fin_cases x <;> fin_cases y <;> simp [Matrix.mul_apply, Fin.sum_univ_three]
  · intro R
    refine Prod.ext ?_ (Prod.ext ?_ ?_) <;> simp [cellMul]
  · rintro T i j S rfl h
    simp at h
    omega

theorem tm_mirV {m : String} (hm : m ∈ materials) {s : PrimCell ℝ ℂ String} (hn : s.numOrb = 11)
    (ha : ∀ R (i j : ℕ), i < 11 → j < 11 → fullAmp s R i j = (tmG (tmPar m) R i j : ℂ)) :
    UnitarySym s !![0, 1, 0; 1, 0, 0; 0, 0, 1] (Matrix.of fun a i => (spVal mirVLab a i : ℂ)) (fun _ => 0) := by
  refine tm_unitary hn ha (tm_class m hm) _ !![0, 1, 0; 1, 0, 0; 0, 0, 1] ?_ (B := fun R => (R.2.1, R.1, R.2.2)) ?_
    (U := mirVLit) (τ := fun _ => 0) (by decide) (by decide) mirV_ok (by decide +kernel) (by decide +kernel) (by decide) ?_
  · ext x y; fin_cases x <;> fin_cases y <;> simp [Matrix.mul_apply, Fin.sum_univ_three]
  · intro R
    refine Prod.ext ?_ (Prod.ext ?_ ?_) <;> simp [cellMul]
  · rintro T i j S rfl h
    simp at h
    omega

/-- **C110 (symmetry).** The crystal of `make_tmdc` has the symmetry D3h of a monolayer: it is invariant under the rotation by 120
degrees about the axis of a chalcogen pair, under the reflection at the plane of the metal atoms, and under the reflection `x → -x`.  The orbitals
transform as their names say. -/
theorem C110_symmetric (H : HashFns ℝ ℂ String) (m : String) (hm : m ∈ materials) :
    ∃ s, tmdc H m = .ok s ∧ Invariant s rot3 0 !![-1, -1, 0; 1, 0, 0; 0, 0, 1] ∧
      Invariant s (Matrix.diagonal ![1, 1, -1]) ![0, 0, (latConst m).2] !![1, 0, 0; 0, 1, 0; 0, 0, -1] ∧
      Invariant s (Matrix.diagonal ![-1, 1, 1]) 0 !![0, 1, 0; 1, 0, 0; 0, 0, 1] := by
  obtain ⟨s, h1, h2, h3, h4, h5, hw, h8, h9⟩ := tm_spec H m hm
  have hn : s.numOrb = 11 := by rw [numOrb, h4]; simp [tmCoords]
  have ha := tm_full h4 h5
  have hsite := tm_site hm h2 h3 h4
  have h33 : Real.sqrt 3 * Real.sqrt 3 = 3 := Real.mul_self_sqrt (by norm_num)
  have h32 : Real.sqrt 3 ^ 2 = 3 := by rw [sq, h33]
  have h3p : Real.sqrt 3 ≠ 0 := by positivity
  have h3i : (Real.sqrt 3)⁻¹ = Real.sqrt 3 / 3 := by field_simp; linarith
  refine ⟨s, h1, ⟨spVal rotLab, _, tm_rot hm hn ha, ?_, ?_⟩, ⟨spVal mirHLab, _, tm_mirH hm hn ha, ?_, ?_⟩, ⟨spVal mirVLab, _, tm_mirV hm hn ha, ?_, ?_⟩⟩
  · intro R i hi a hai hne
    obtain ⟨q, hq, hqe⟩ := spVal_mem hne
    have : ∀ q ∈ rotLab, (q.1.1 < 5 ↔ q.1.2 < 5) ∧ (q.1.1 < 8 ↔ q.1.2 < 8) := by decide
    obtain ⟨g1, g2⟩ := this q hq
    rw [hqe] at g1 g2
    simp only at g1 g2
    rw [hsite _ _ hi, hsite _ _ hai]
    simp only [g1, g2]
    funext y
    split_ifs <;> fin_cases y <;> simp [cellMul, rot3, Matrix.mulVec, dotProduct, Fin.sum_univ_three, div_eq_mul_inv, h3i] <;>
      first | ring1 | (ring_nf; simp only [h32]; ring1)
  · intro i hi r
    rw [shape_sum _ (by decide)]
    interval_cases i <;> simp [shape, rotLab, val2, rot3, Matrix.mulVec, dotProduct, Fin.sum_univ_three, Matrix.transpose] <;>
      first | done | ring1 | (ring_nf; done) | (ring_nf; simp only [h32]; ring1)
  · intro R i hi a hai hne
    obtain ⟨q, hq, hqe⟩ := spVal_mem hne
    have : ∀ q ∈ mirHLab, (q.1.1 < 5 ↔ q.1.2 < 5) ∧ (5 ≤ q.1.1 → (q.1.1 < 8 ↔ ¬ q.1.2 < 8)) := by decide
    obtain ⟨g1, g2⟩ := this q hq
    rw [hqe] at g1 g2
    simp only at g1 g2
    rw [hsite _ _ hi, hsite _ _ hai]
    funext y
    split_ifs <;> fin_cases y <;> simp [cellMul, Matrix.mulVec, dotProduct, Fin.sum_univ_three, Matrix.one_apply] <;>
      first | (exfalso; omega) | ring1
  · intro i hi r
    rw [shape_sum _ (by decide)]
    interval_cases i <;> simp [shape, mirHLab, val2, Matrix.mulVec, dotProduct, Fin.sum_univ_three, Matrix.transpose] <;>
      first | done | ring1 | (ring_nf; done) | (ring_nf; simp only [h32]; ring1)
  · intro R i hi a hai hne
    obtain ⟨q, hq, hqe⟩ := spVal_mem hne
    have : ∀ q ∈ mirVLab, (q.1.1 < 5 ↔ q.1.2 < 5) ∧ (q.1.1 < 8 ↔ q.1.2 < 8) := by decide
    obtain ⟨g1, g2⟩ := this q hq
    rw [hqe] at g1 g2
    simp only at g1 g2
    rw [hsite _ _ hi, hsite _ _ hai]
    simp only [g1, g2]
    funext y
    split_ifs <;> fin_cases y <;> simp [cellMul, Matrix.mulVec, dotProduct, Fin.sum_univ_three] <;>
      first | ring1 | (left; ring1)
  · intro i hi r
    rw [shape_sum _ (by decide)]
    interval_cases i <;> simp [shape, mirVLab, val2, Matrix.mulVec, dotProduct, Fin.sum_univ_three, Matrix.transpose] <;>
      first | done | ring1 | (ring_nf; done) | (ring_nf; simp only [h32]; ring1)

/-- **C110 (bands).** The bands of `make_tmdc` are invariant under the threefold rotation, the mirrors and the inversion of reciprocal
space, for both conventions (Bloch vectors in reduced coordinates). -/
theorem C110_bands (H : HashFns ℝ ℂ String) (hO : ∀ l, l ≠ [] → H.orb l ≠ H.orb []) (hP : ∀ l, l ≠ [] → H.hop l ≠ H.hop [])
    (m : String) (hm : m ∈ materials) (k k' : Vec3 ℝ) (hk : k' = ![k 1 - k 0, -k 0, k 2] ∨ k' = ![k 1, k 0, k 2] ∨ k' = ![k 0, k 1, -k 2] ∨ k' = -k)
    (conv : ℤ) (hcv : conv = 1 ∨ conv = 2) :
    ∃ s ham ham', tmdc H m = .ok s ∧ setHamDense (syncArray H s) k conv = .ok ham ∧
      setHamDense (syncArray H s) k' conv = .ok ham' ∧
      (toMatrix s.numOrb ham').charpoly = (toMatrix s.numOrb ham).charpoly := by
  obtain ⟨s, h1, h2, h3, h4, h5, hw, h8, h9⟩ := tm_spec H m hm
  have hn : s.numOrb = 11 := by rw [numOrb, h4]; simp [tmCoords]
  have hpar : tmPar m 16 ≠ 0 := by
    simp only [materials, List.mem_cons, List.not_mem_nil, or_false] at hm
    have hw : tmPar "WSe2" 16 = -0.3330 := rfl
    rcases hm with rfl | rfl | rfl | rfl
    all_goals first | (rw [hw]; norm_num; done) | norm_num [tmPar, params]
  have hg : s.hops.get (-1, 1, 0) 0 0 ≠ none := by
    have h0 : tmG (tmPar m) (-1, 1, 0) 0 0 = tmPar m 16 := by
      have e := symm_sum (tmPar m) (-1, 1, 0) 5 5 (by omega) (by omega)
      rw [tmFull_eq _ _ _ _ (by omega) (by omega), show tmForms (-1, 1, 0) 5 5 = [(16, 8, 0)] by decide +kernel] at e
      simpa [Finset.sum_range_succ, Tmdc.symm, ev] using e
    rw [h5, if_pos]
    · simp
    · refine ⟨by simp, ?_⟩
      simp only [tmTable, Int.toNat_zero, h0]
      rw [if_neg (by decide)]
      exact_mod_cast hpar
  obtain ⟨b1, b2, b3, b4, b5, b6, b7⟩ := build_ham hw hO hP h8 h9 (by rw [h4]; simp [tmCoords]) (-1, 1, 0) 0 0 hg
  have hn' : (syncArray H s).numOrb = 11 := by rw [numOrb, b3]; exact hn
  have ha : ∀ R (i j : ℕ), i < 11 → j < 11 → fullAmp (syncArray H s) R i j = (tmG (tmPar m) R i j : ℂ) := by
    intro R i j hi hj
    rw [← tm_full h4 h5 R i j hi hj, fullAmp, fullAmp, amp, amp, b4, b3]
  obtain ⟨ham, hh⟩ := b6 k conv hcv
  obtain ⟨ham', hh'⟩ := b6 k' conv hcv
  refine ⟨s, ham, ham', h1, hh, hh', ?_⟩
  have e : (syncArray H s).numOrb = s.numOrb := by rw [hn']; exact hn.symm
  rcases hk with rfl | rfl | rfl | rfl
  · have := C101_unitary b1 b2 (tm_rot hm hn' ha) k conv ham' ham (by
      rw [← hh']; congr 1; funext y; fin_cases y <;> simp [kMul, Fin.sum_univ_three]; ring) hh
    rw [e] at this
    exact this.symm
  · have := C101_unitary b1 b2 (tm_mirV hm hn' ha) k conv ham' ham (by
      rw [← hh']; congr 1; funext y; fin_cases y <;> simp [kMul, Fin.sum_univ_three]) hh
    rw [e] at this
    exact this.symm
  · have := C101_unitary b1 b2 (tm_mirH hm hn' ha) k conv ham' ham (by
      rw [← hh']; congr 1; funext y; fin_cases y <;> simp [kMul, Fin.sum_univ_three]) hh
    rw [e] at this
    exact this.symm
  · have := C101_real b1 b2 (fun R i j e he => by
      rw [b4, h5] at he
      split_ifs at he with hc
      · rw [← Option.some.inj he, tmTable]
        split_ifs <;> simp) k conv ham' ham hh' hh
    rw [e] at this
    exact this.symm

/-- The hypotheses of C110 can be met. -/
example : "MoS2" ∈ materials ∧ "WSe2" ∈ materials ∧ "graphene" ∉ materials := by decide

end Verif.Props

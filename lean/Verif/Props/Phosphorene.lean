import Verif.Model.Phosphorene
import Verif.Props.Symmetry
import Verif.Props.SameCrystal
import Verif.Spec.Phosphorene

/-! # Property C100: black phosphorus -/

namespace Verif.Props

open PrimCell Materials

/-- Offsets of the four sites in units of `a/2` and `b/2`, `p`, `q`. -/
def bpHalf : ℕ → ℤ := fun i => if i = 2 ∨ i = 3 then 1 else 0
@[inherit_doc bpHalf] def bpPz : ℕ → ℤ := fun i => if i = 1 ∨ i = 3 then 1 else 0
@[inherit_doc bpHalf] def bpQz : ℕ → ℤ := fun i => if i = 1 ∨ i = 2 then 1 else 0

/-- The displacements of the hopping terms in these units. -/
def bpRows : List (ℕ × ℤ × ℤ × ℤ × ℤ) :=
  [(1, 1, 1, -1, 0), (2, 0, 0, 1, 1), (3, 2, 0, 0, 0), (4, 1, 1, 1, 0), (5, 1, 1, 0, 1), (6, 0, 2, -1, 1), (7, 0, 2, 0, 0),
   (8, 3, 1, -1, 0), (9, 2, 2, -1, 1), (10, 2, 2, 0, 0)]

/-- The bond from orbital `i` of cell 0 to orbital `j` of cell `(x, y, 0)` belongs to the row. -/
def bpMatch (x y : ℤ) (i j : ℕ) (r : ℕ × ℤ × ℤ × ℤ × ℤ) : Prop :=
  (2 * x + bpHalf j - bpHalf i = r.2.1 ∨ 2 * x + bpHalf j - bpHalf i = -r.2.1) ∧
  ((2 * y + bpHalf j - bpHalf i = r.2.2.1 ∧ bpPz j - bpPz i = r.2.2.2.1) ∨
    (2 * y + bpHalf j - bpHalf i = -r.2.2.1 ∧ bpPz j - bpPz i = -r.2.2.2.1)) ∧
  (bpQz j - bpQz i = r.2.2.2.2 ∨ bpQz j - bpQz i = -r.2.2.2.2)

instance (x y : ℤ) (i j : ℕ) (r : ℕ × ℤ × ℤ × ℤ × ℤ) : Decidable (bpMatch x y i j r) := by unfold bpMatch; infer_instance

/-- Number of the hopping parameter of a bond. -/
def bpIdx (R : Cell) (i j : ℕ) : Option ℕ :=
  if R.2.2 = 0 ∧ i < 4 ∧ j < 4 then (bpRows.find? fun r => bpMatch R.1 R.2.1 i j r).map Prod.fst else none

/-- The whole list of terms with cell indices of length three. -/
def bpTerms : List (Cell × ℤ × ℤ × ℕ) := bpHops.map fun q => (cellOf q.1, q.2)

theorem bp_terms_idx : ∀ q ∈ bpTerms, 0 ≤ q.2.1 ∧ 0 ≤ q.2.2.1 ∧ bpIdx q.1 q.2.1.toNat q.2.2.1.toNat = some q.2.2.2 ∧
    bpIdx (-q.1) q.2.2.1.toNat q.2.1.toNat = some q.2.2.2 := by
  decide +kernel

theorem bpMatch_bound {x y : ℤ} {i j : ℕ} {r : ℕ × ℤ × ℤ × ℤ × ℤ} (hr : r ∈ bpRows) (h : bpMatch x y i j r) :
    -2 ≤ x ∧ x ≤ 2 ∧ -2 ≤ y ∧ y ≤ 2 := by
  have hb : ∀ i, 0 ≤ bpHalf i ∧ bpHalf i ≤ 1 := by intro i; unfold bpHalf; split_ifs <;> simp
  obtain ⟨h1, h2, -⟩ := h
  have hi := hb i
  have hj := hb j
  fin_cases hr <;> simp at h1 h2 <;> omega

theorem bp_complete : ∀ x ∈ [-2, -1, 0, 1, (2 : ℤ)], ∀ y ∈ [-2, -1, 0, 1, (2 : ℤ)], ∀ i j : Fin 4, ∀ r ∈ bpRows,
    bpMatch x y i j r → ∃ q ∈ bpTerms, ((x, y, 0) = q.1 ∧ ((i : ℕ) : ℤ) = q.2.1 ∧ ((j : ℕ) : ℤ) = q.2.2.1) ∨
      ((x, y, 0) = -q.1 ∧ ((i : ℕ) : ℤ) = q.2.2.1 ∧ ((j : ℕ) : ℤ) = q.2.1) := by
  decide +kernel

theorem bp_unique : ∀ x ∈ [-2, -1, 0, 1, (2 : ℤ)], ∀ y ∈ [-2, -1, 0, 1, (2 : ℤ)], ∀ i j : Fin 4, ∀ r ∈ bpRows, ∀ r' ∈ bpRows,
    bpMatch x y i j r → bpMatch x y i j r' → r = r' := by
  decide +kernel

theorem bp_pos : 0 < bpA ∧ 0 < bpP ∧ 2 * bpP < bpB ∧ 0 < bpQ := by
  have hpi := Real.pi_pos
  have h1 : 0 < Real.sin (48.395 * Real.pi / 180) := Real.sin_pos_of_pos_of_lt_pi (by positivity) (by linarith)
  have h2 : 0 < Real.cos (48.395 * Real.pi / 180) := Real.cos_pos_of_mem_Ioo ⟨by linarith, by linarith⟩
  have h3 : 0 < Real.cos ((108.657 - 90) * Real.pi / 180) := Real.cos_pos_of_mem_Ioo ⟨by linarith, by linarith⟩
  refine ⟨by unfold bpA; positivity, by unfold bpP; norm_num, ?_, by unfold bpQ; positivity⟩
  unfold bpP bpB
  nlinarith

theorem bp_det {c : ℝ} (hc : c ≠ 0) : (bpLat c).det ≠ 0 := by
  obtain ⟨h1, h2, h3, -⟩ := bp_pos
  have : (bpLat c).det = bpA * bpB * c := by simp [bpLat, Matrix.det_fin_three]
  rw [this]
  exact mul_ne_zero (mul_ne_zero h1.ne' (by linarith)) hc

/-- The hopping term of a bond. -/
noncomputable def bpHop (R : Cell) (i j : ℤ) : Option ℂ :=
  if 0 ≤ i ∧ 0 ≤ j then (bpIdx R i.toNat j.toNat).map fun n => (bpT n : ℂ) else none

/-- What `make_black_phosphorus` builds. -/
theorem bp_spec (H : HashFns ℝ ℂ String) (c : ℝ) (hc : c ≠ 0) :
    ∃ s, blackPhosphorus H c = .ok s ∧ s.lat = bpLat c ∧ s.origin = 0 ∧
      s.orbs = (bpCoords.map fun x => ⟨cart2fracRow (bpLat c) 0 x, 0, "P_pz"⟩) ∧
      (∀ R i j, s.hops.get R i j = bpHop R i j) ∧ WF s ∧ s.hashOrb = H.orb [] ∧ s.hashHop = H.hop [] := by
  have hok : ∀ q ∈ bpHops, q.1 ∈ bpHops.map Prod.fst ∧ checkLen 0 q.1 ≠ none ∧ (0 ≤ q.2.1 ∧ q.2.1 < 4) ∧ (0 ≤ q.2.2.1 ∧ q.2.2.1 < 4) ∧
      ¬ (cellOf q.1 = 0 ∧ q.2.1 = q.2.2.1) := by decide +kernel
  obtain ⟨s, h1, h2, h3, h4, h5, h6, h7, -, h8, h9⟩ := build_spec H (bpLat c) 0
    ((bpCoords.map (cart2fracRow (bpLat c) 0)).map fun x => ([x 0, x 1, x 2], 0, "P_pz"))
    (bpHops.map fun q => (q.1, q.2.1, q.2.2.1, (bpT q.2.2.2 : ℂ)))
    (by intro q hq; obtain ⟨x, -, rfl⟩ := List.mem_map.1 hq; simp [checkLen])
    (by
      intro q hq
      obtain ⟨x, hx, rfl⟩ := List.mem_map.1 hq
      obtain ⟨-, g1, g2, g3, g4⟩ := hok x hx
      exact ⟨g1, g2, g3, g4⟩) _ rfl
  refine ⟨s, ?_, h2, h3, ?_, ?_, ?_, h8, h9⟩
  · rw [← h1]
    unfold blackPhosphorus
    rw [cart2frac, if_neg (by rw [Matrix.det_transpose]; exact bp_det hc)]
    simp only [List.map_map]
    rfl
  · rw [h4]
    simp only [List.map_map]
    apply List.map_congr_left
    intro x _
    simp only [Function.comp, checkLen, Option.getD_some, vec3]
    congr 1
    funext y
    fin_cases y <;> rfl
  · intro R i j
    rw [h5, List.foldl_map]
    have hT : ∀ q ∈ bpTerms.map fun q => (q.1, q.2.1, q.2.2.1, (bpT q.2.2.2 : ℂ)), bpHop q.1 q.2.1 q.2.2.1 = some q.2.2.2 ∧
        bpHop (-q.1) q.2.2.1 q.2.1 = some (star q.2.2.2) := by
      intro q hq
      obtain ⟨x, hx, rfl⟩ := List.mem_map.1 hq
      obtain ⟨g1, g2, g3, g4⟩ := bp_terms_idx x hx
      simp only [bpHop]
      rw [if_pos ⟨g1, g2⟩, if_pos ⟨g2, g1⟩, g3, g4, Complex.star_def, Complex.conj_ofReal]
      exact ⟨rfl, rfl⟩
    have e : bpHops.foldl (fun m q => HopMap.add m (cellOf q.1) q.2.1 q.2.2.1 (bpT q.2.2.2 : ℂ)) (fun _ _ _ => none) =
        (bpTerms.map fun q => (q.1, q.2.1, q.2.2.1, (bpT q.2.2.2 : ℂ))).foldl
          (fun m q => HopMap.add m q.1 q.2.1 q.2.2.1 q.2.2.2) (fun _ _ _ => none) := by
      rw [bpTerms, List.map_map, List.foldl_map]
      rfl
    rw [e]
    rcases fold_agree _ (fun _ _ _ => none) _ hT R i j with h | ⟨h, hne⟩
    · exact h
    · rw [h]
      symm
      unfold bpHop
      split_ifs with hp
      · rw [Option.map_eq_none_iff, bpIdx]
        split_ifs with hq
        · rw [Option.map_eq_none_iff, List.find?_eq_none]
          intro r hr hm
          replace hm : bpMatch R.1 R.2.1 i.toNat j.toNat r := by simpa using hm
          obtain ⟨b1, b2, b3, b4⟩ := bpMatch_bound hr hm
          obtain ⟨x, y, z⟩ := R
          simp only at hq hm b1 b2 b3 b4
          obtain ⟨rfl, hi, hj⟩ := hq
          obtain ⟨q, hq, hqq⟩ := bp_complete x (by simp; omega) y (by simp; omega) ⟨i.toNat, hi⟩ ⟨j.toNat, hj⟩ r hr hm
          have := hne (q.1, q.2.1, q.2.2.1, (bpT q.2.2.2 : ℂ)) (List.mem_map.2 ⟨q, hq, rfl⟩)
          simp only [Int.toNat_of_nonneg hp.1, Int.toNat_of_nonneg hp.2] at hqq
          rcases hqq with hqq | hqq
          · exact this.1 hqq
          · exact this.2 hqq
        · rfl
      · rfl
  · exact h6 ▸ WF_run H (WF_init H _ _) _ h7

theorem bp_site {s : PrimCell ℝ ℂ String} {c : ℝ} (hc : c ≠ 0) (h2 : s.lat = bpLat c) (h3 : s.origin = 0)
    (h4 : s.orbs = (bpCoords.map fun x => ⟨cart2fracRow (bpLat c) 0 x, 0, "P_pz"⟩)) (x y : ℤ) (i : ℕ) (hi : i < 4) :
    sitePos s (x, y, 0) i = ![(2 * x + bpHalf i) * (bpA / 2), (2 * y + bpHalf i) * (bpB / 2) + bpPz i * bpP, bpQz i * bpQ] := by
  have key : ∀ v : Vec3 ℝ, frac2cartRow (bpLat c) 0 (cart2fracRow (bpLat c) 0 v) = v := by
    intro v
    have hu : IsUnit (bpLat c).transpose.det := by rw [Matrix.det_transpose]; exact (bp_det hc).isUnit
    simp only [frac2cartRow, cart2fracRow, sub_zero, add_zero, Matrix.mulVec_mulVec, Matrix.mul_nonsing_inv _ hu, Matrix.one_mulVec]
  obtain ⟨v, hv⟩ : ∃ v, bpCoords[i]? = some v := ⟨bpCoords[i]'(by simpa [bpCoords] using hi), List.getElem?_eq_getElem _⟩
  funext z
  rw [sitePos_apply s _ i _ (by rw [h4, List.getElem?_map, hv]; rfl), h2, h3, key]
  interval_cases i <;> simp only [bpCoords, List.getElem?_cons_zero, List.getElem?_cons_succ, Option.some.injEq] at hv <;> subst hv <;>
    fin_cases z <;> simp [bpHalf, bpPz, bpQz, bpLat, cellAt, Fin.sum_univ_three] <;> ring

theorem bp_key (u m : ℤ) (hm : 0 ≤ m) (g : ℝ) (hg : 0 < g) : |(u : ℝ) * g| = m * g ↔ u = m ∨ u = -m := by
  rw [abs_mul, abs_of_pos hg, mul_left_inj' hg.ne']
  have : |(u : ℝ)| = ((|u| : ℤ) : ℝ) := by push_cast; rfl
  rw [this]
  norm_cast
  rw [abs_eq hm]

theorem bp_key2 (k m e f : ℤ) (he : -1 ≤ e ∧ e ≤ 1) (hf : -1 ≤ f ∧ f ≤ 1) (hpar : (k - m) % 2 = 0) (p b : ℝ) (hp : 0 < p)
    (hb : 2 * p < b) (hpos : 0 ≤ m * (b / 2) + e * p) :
    |k * (b / 2) + f * p| = m * (b / 2) + e * p ↔ (k = m ∧ f = e) ∨ (k = -m ∧ f = -e) := by
  have hz : ∀ n d : ℤ, n % 2 = 0 → -2 ≤ d → d ≤ 2 → (n : ℝ) * (b / 2) = d * p → n = 0 ∧ d = 0 := by
    intro n d hn h1 h2 h
    have h1' : (-2 : ℝ) ≤ d := by exact_mod_cast h1
    have h2' : (d : ℝ) ≤ 2 := by exact_mod_cast h2
    have hn0 : n = 0 := by
      by_contra hne
      rcases lt_or_gt_of_ne hne with hlt | hgt
      · have : n ≤ -2 := by omega
        have : (n : ℝ) ≤ -2 := by exact_mod_cast this
        nlinarith
      · have : 2 ≤ n := by omega
        have : (2 : ℝ) ≤ n := by exact_mod_cast this
        nlinarith
    subst hn0
    refine ⟨rfl, ?_⟩
    have : (d : ℝ) * p = 0 := by rw [← h]; simp
    have := (mul_eq_zero.1 this).resolve_right hp.ne'
    exact_mod_cast this
  rw [abs_eq hpos]
  constructor
  · rintro (h | h)
    · obtain ⟨e1, e2⟩ := hz (k - m) (e - f) hpar (by omega) (by omega) (by push_cast; linarith)
      exact .inl ⟨by omega, by omega⟩
    · obtain ⟨e1, e2⟩ := hz (k + m) (-e - f) (by omega) (by omega) (by omega) (by push_cast; linarith)
      exact .inr ⟨by omega, by omega⟩
  · rintro (⟨rfl, rfl⟩ | ⟨rfl, rfl⟩)
    · left; rfl
    · right; push_cast; ring

/-- A bond matches a row of the specification. -/
theorem bp_match_iff (x y : ℤ) (i j : ℕ) (r : ℕ × ℤ × ℤ × ℤ × ℤ) (hr : r ∈ bpRows) :
    (|(2 * x + bpHalf j - bpHalf i : ℤ) * (bpA / 2)| = r.2.1 * (bpA / 2) ∧
      |(2 * y + bpHalf j - bpHalf i : ℤ) * (bpB / 2) + (bpPz j - bpPz i : ℤ) * bpP| = r.2.2.1 * (bpB / 2) + r.2.2.2.1 * bpP ∧
      |(bpQz j - bpQz i : ℤ) * bpQ| = r.2.2.2.2 * bpQ) ↔ bpMatch x y i j r := by
  obtain ⟨h1, h2, h3, h4⟩ := bp_pos
  have hp : ∀ i, 0 ≤ bpPz i ∧ bpPz i ≤ 1 := by intro i; unfold bpPz; split_ifs <;> simp
  have hpi := hp i
  have hpj := hp j
  have hrow : 0 ≤ r.2.1 ∧ 0 ≤ r.2.2.2.2 ∧ (r.2.1 - r.2.2.1) % 2 = 0 ∧ -1 ≤ r.2.2.2.1 ∧ r.2.2.2.1 ≤ 1 ∧ 0 ≤ r.2.2.1 ∧
      0 ≤ 2 * r.2.2.1 + 2 * r.2.2.2.1 - 0 ∧ (r.2.2.1 = 0 → 0 ≤ r.2.2.2.1) := by
    revert hr r; decide
  obtain ⟨g1, g2, g3, g4, g5, g6, g7, g8⟩ := hrow
  have hpos : (0 : ℝ) ≤ r.2.2.1 * (bpB / 2) + r.2.2.2.1 * bpP := by
    rcases (show r.2.2.1 = 0 ∨ 1 ≤ r.2.2.1 by omega) with h | h
    · have : (0 : ℝ) ≤ r.2.2.2.1 := by exact_mod_cast g8 h
      rw [h]; simp; positivity
    · have e1 : (1 : ℝ) ≤ r.2.2.1 := by exact_mod_cast h
      have e2 : (-1 : ℝ) ≤ r.2.2.2.1 := by exact_mod_cast g4
      nlinarith
  rw [bp_key _ _ g1 _ (by linarith), bp_key _ _ g2 _ h4]
  unfold bpMatch
  constructor
  · rintro ⟨e1, e2, e3⟩
    rw [bp_key2 _ _ _ _ ⟨g4, g5⟩ ⟨by omega, by omega⟩ (by omega) _ _ h2 h3 hpos] at e2
    exact ⟨e1, e2, e3⟩
  · rintro ⟨e1, e2, e3⟩
    rw [bp_key2 _ _ _ _ ⟨g4, g5⟩ ⟨by omega, by omega⟩ (by omega) _ _ h2 h3 hpos]
    exact ⟨e1, e2, e3⟩

theorem bp_bonds : Phos.bonds = bpRows.map fun r => ((r.2.1 * (bpA / 2), r.2.2.1 * (bpB / 2) + r.2.2.2.1 * bpP, r.2.2.2.2 * bpQ), bpT r.1) := by
  have e1 : Phos.a = bpA := rfl
  have e2 : Phos.b = bpB := rfl
  have e3 : Phos.p = bpP := rfl
  have e4 : Phos.q = bpQ := rfl
  simp only [Phos.bonds, bpRows, List.map_cons, List.map_nil, e1, e2, e3, e4, bpT, List.cons.injEq, Prod.mk.injEq, and_true]
  norm_num
  refine ⟨?_, ?_, ?_, ?_⟩ <;> ring_nf
  simp

theorem bp_amp {s : PrimCell ℝ ℂ String} (h5 : ∀ R i j, s.hops.get R i j = bpHop R i j) (R : Cell) (i j : ℕ) :
    amp s R i j = ((bpIdx R i j).elim 0 bpT : ℝ) := by
  unfold amp
  rw [h5, bpHop, if_pos ⟨by omega, by omega⟩]
  simp only [Int.toNat_natCast]
  cases bpIdx R i j <;> simp

theorem bpIdx_eq {x y : ℤ} {i j : ℕ} (hi : i < 4) (hj : j < 4) {r : ℕ × ℤ × ℤ × ℤ × ℤ} (hr : r ∈ bpRows) (hm : bpMatch x y i j r) :
    bpIdx (x, y, 0) i j = some r.1 := by
  obtain ⟨b1, b2, b3, b4⟩ := bpMatch_bound hr hm
  rw [bpIdx, if_pos ⟨rfl, hi, hj⟩]
  cases hf : bpRows.find? fun r => bpMatch x y i j r with
  | none =>
    rw [List.find?_eq_none] at hf
    exact absurd (by simpa using hm) (hf r hr)
  | some r' =>
    have h1 : bpMatch x y i j r' := by simpa using List.find?_some hf
    have := bp_unique x (by simp; omega) y (by simp; omega) ⟨i, hi⟩ ⟨j, hj⟩ r hr r' (List.mem_of_find?_eq_some hf) hm h1
    simp [this]

/-- **C100 (black phosphorus).** For every non-zero `c`, `make_black_phosphorus` builds the ten-parameter model: four orbitals of zero
energy; two sites whose displacement has the components of a bond of the published table, up to signs, are coupled by the parameter of
that bond; all other sites are not coupled. -/
theorem C100_black_phosphorus (H : HashFns ℝ ℂ String) (c : ℝ) (hc : c ≠ 0) :
    ∃ s, blackPhosphorus H c = .ok s ∧ s.numOrb = 4 ∧ (∀ o ∈ s.orbs, o.energy = 0) ∧
      (sitePos s 0 0 = ![0, 0, 0] ∧ sitePos s 0 1 = ![0, Phos.p, Phos.q] ∧ sitePos s 0 2 = ![Phos.a / 2, Phos.b / 2, Phos.q] ∧
        sitePos s 0 3 = ![Phos.a / 2, Phos.b / 2 + Phos.p, 0]) ∧
      (∀ R : Cell, ∀ i j : ℕ, i < 4 → j < 4 → R.2.2 = 0 →
        (∀ r ∈ Phos.bonds, (|sitePos s R j 0 - sitePos s 0 i 0|, |sitePos s R j 1 - sitePos s 0 i 1|,
          |sitePos s R j 2 - sitePos s 0 i 2|) = r.1 → amp s R i j = r.2) ∧
        ((∀ r ∈ Phos.bonds, (|sitePos s R j 0 - sitePos s 0 i 0|, |sitePos s R j 1 - sitePos s 0 i 1|,
          |sitePos s R j 2 - sitePos s 0 i 2|) ≠ r.1) → s.hops.get R i j = none)) ∧
      (∀ R i j, R.2.2 ≠ 0 → s.hops.get R i j = none) := by
  obtain ⟨s, h1, h2, h3, h4, h5, -⟩ := bp_spec H c hc
  have hsite := bp_site hc h2 h3 h4
  refine ⟨s, h1, by simp [numOrb, h4, bpCoords], ?_, ⟨?_, ?_, ?_, ?_⟩, ?_, ?_⟩
  · intro o ho
    rw [h4] at ho
    obtain ⟨x, -, rfl⟩ := List.mem_map.1 ho
    rfl
  · rw [show (0 : Cell) = (0, 0, 0) from rfl, hsite 0 0 0 (by omega)]; simp [bpHalf, bpPz, bpQz]
  · rw [show (0 : Cell) = (0, 0, 0) from rfl, hsite 0 0 1 (by omega)]; simp [bpHalf, bpPz, bpQz, Phos.p, Phos.q, bpP, bpQ]
  · rw [show (0 : Cell) = (0, 0, 0) from rfl, hsite 0 0 2 (by omega)]; simp [bpHalf, bpPz, bpQz, Phos.a, Phos.b, Phos.q, bpA, bpB, bpQ]
  · rw [show (0 : Cell) = (0, 0, 0) from rfl, hsite 0 0 3 (by omega)]; simp [bpHalf, bpPz, bpQz, Phos.a, Phos.b, Phos.p, bpA, bpB, bpP]
  · rintro ⟨x, y, z⟩ i j hi hj rfl
    have hd : (|sitePos s (x, y, 0) j 0 - sitePos s 0 i 0|, |sitePos s (x, y, 0) j 1 - sitePos s 0 i 1|,
          |sitePos s (x, y, 0) j 2 - sitePos s 0 i 2|) =
        (|(2 * x + bpHalf j - bpHalf i : ℤ) * (bpA / 2)|,
          |(2 * y + bpHalf j - bpHalf i : ℤ) * (bpB / 2) + (bpPz j - bpPz i : ℤ) * bpP|, |(bpQz j - bpQz i : ℤ) * bpQ|) := by
      rw [show (0 : Cell) = (0, 0, 0) from rfl, hsite x y j hj, hsite 0 0 i hi]
      simp only [Matrix.cons_val_zero, Matrix.cons_val_one, Matrix.cons_val, Prod.mk.injEq]
      push_cast
      refine ⟨?_, ?_, ?_⟩ <;> congr 1 <;> ring
    simp only [hd, bp_bonds, List.mem_map]
    constructor
    · rintro _ ⟨r, hr, rfl⟩ h
      simp only [Prod.mk.injEq] at h
      rw [bp_amp h5, bpIdx_eq hi hj hr ((bp_match_iff x y i j r hr).1 h)]
      rfl
    · intro h
      rw [h5, bpHop, if_pos ⟨by omega, by omega⟩]
      simp only [Int.toNat_natCast]
      rw [Option.map_eq_none_iff, bpIdx, if_pos ⟨rfl, hi, hj⟩, Option.map_eq_none_iff, List.find?_eq_none]
      intro r hr hm
      replace hm : bpMatch x y i j r := by simpa using hm
      refine h _ ⟨r, hr, rfl⟩ ?_
      simp only [Prod.mk.injEq]
      exact (bp_match_iff x y i j r hr).2 hm
  · intro R i j hz
    rw [h5, bpHop]
    split_ifs
    · rw [bpIdx, if_neg (fun h => hz h.1)]; rfl
    · rfl

/-- The reflections: `x → -x`; `(y, z) → (p - y, q - z)`; `z → -z`. -/
theorem bp_syms {s : PrimCell ℝ ℂ String} (hn : s.numOrb = 4) (hE : ∀ o ∈ s.orbs, o.energy = 0)
    (h5 : ∀ R i j, s.hops.get R i j = bpHop R i j) (ε : Fin 3 → ℤ) (hε : ∀ x, ε x = 1 ∨ ε x = -1) :
    ∃ σ τ, CrystalSym s (Matrix.diagonal ε) σ τ := by
  let f : ℕ → ℕ := fun i => if ε 1 = 1 then i else if i = 0 then 1 else if i = 1 then 0 else if i = 2 then 3 else 2
  have hff : ∀ i < 4, f (f i) = i := by
    intro i hi
    simp only [f]
    interval_cases i <;> split_ifs <;> simp_all
  have hf4 : ∀ i < 4, f i < 4 := by
    intro i hi
    simp only [f]
    interval_cases i <;> split_ifs <;> simp_all
  let σ : Equiv.Perm (Fin s.numOrb) :=
    { toFun := fun i => ⟨f i, by have := hf4 i (by have := i.2; omega); omega⟩
      invFun := fun i => ⟨f i, by have := hf4 i (by have := i.2; omega); omega⟩
      left_inv := fun i => Fin.ext (hff i (by have := i.2; omega))
      right_inv := fun i => Fin.ext (hff i (by have := i.2; omega)) }
  let τ : ℕ → Cell := fun i => (if ε 0 = 1 then 0 else -bpHalf i, if ε 1 = 1 then 0 else -bpHalf i, 0)
  refine ⟨σ, τ, ⟨?_, ?_, ?_⟩⟩
  · rw [Matrix.det_diagonal, Fin.prod_univ_three]
    rcases hε 0 with h | h <;> rcases hε 1 with h' | h' <;> rcases hε 2 with h'' | h'' <;> simp [h, h', h'']
  · have hen : ∀ i : Fin s.numOrb, s.orbs[(i : ℕ)]?.map Orbital.energy = some 0 := by
      intro i
      have hi : (i : ℕ) < s.orbs.length := i.2
      rw [List.getElem?_eq_getElem hi]
      simp [hE _ (List.getElem_mem hi)]
    intro i
    rw [hen, hen]
  · intro R i j
    rw [bp_amp h5, bp_amp h5]
    congr 2
    have hi : (i : ℕ) < 4 := by have := i.2; omega
    have hj : (j : ℕ) < 4 := by have := j.2; omega
    change bpIdx _ (f i) (f j) = _
    have hz : (cellMul (Matrix.diagonal ε) R + τ j - τ i).2.2 = 0 ↔ R.2.2 = 0 := by
      simp [cellMul, τ]
      rcases hε 2 with h | h <;> simp [h]
    unfold bpIdx
    by_cases h0 : R.2.2 = 0
    · rw [if_pos ⟨hz.2 h0, hf4 _ hi, hf4 _ hj⟩, if_pos ⟨h0, hi, hj⟩]
      congr 2
      funext r
      rw [decide_eq_decide]
      have hx : (cellMul (Matrix.diagonal ε) R + τ j - τ i).1 = ε 0 * R.1 + (τ j).1 - (τ i).1 := by simp [cellMul]
      have hy : (cellMul (Matrix.diagonal ε) R + τ j - τ i).2.1 = ε 1 * R.2.1 + (τ j).2.1 - (τ i).2.1 := by simp [cellMul]
      rw [hx, hy]
      have hfh : ∀ i < 4, bpHalf (f i) = bpHalf i ∧ (bpPz (f i) = if ε 1 = 1 then bpPz i else 1 - bpPz i) ∧
          (bpQz (f i) = if ε 1 = 1 then bpQz i else 1 - bpQz i) := by
        clear hx hy hz hff hf4 h5 hE hi hj i j τ σ
        intro i hi
        have h1 : ¬ ((-1 : ℤ) = 1) := by decide
        rcases hε 1 with h | h <;> interval_cases i <;> simp [f, h, h1, bpHalf, bpPz, bpQz]
      obtain ⟨a1, a2, a3⟩ := hfh i hi
      obtain ⟨b1, b2, b3⟩ := hfh j hj
      unfold bpMatch
      rw [a1, a2, a3, b1, b2, b3]
      simp only [τ]
      rcases hε 0 with h | h <;> rcases hε 1 with h' | h' <;> simp only [h, h', if_true, show ¬ ((-1 : ℤ) = 1) by decide, if_false] <;>
        constructor <;> rintro ⟨g1, g2, g3⟩ <;> exact ⟨by omega, by omega, by omega⟩
    · rw [if_neg (fun h => h0 (hz.1 h.1)), if_neg (fun h => h0 h.1)]

/-- **C100 (bands of black phosphorus).** The bands of the cell of `make_black_phosphorus` are even in each component of the Bloch vector,
for both conventions. -/
theorem C100_black_phosphorus_bands (H : HashFns ℝ ℂ String) (hO : ∀ l, l ≠ [] → H.orb l ≠ H.orb [])
    (hP : ∀ l, l ≠ [] → H.hop l ≠ H.hop []) (c : ℝ) (hc : c ≠ 0) (k : Vec3 ℝ) (ε : Fin 3 → ℤ) (hε : ∀ x, ε x = 1 ∨ ε x = -1) (conv : ℤ)
    (hcv : conv = 1 ∨ conv = 2) :
    ∃ s ham ham', blackPhosphorus H c = .ok s ∧ setHamDense (syncArray H s) k conv = .ok ham ∧
      setHamDense (syncArray H s) (fun x => ε x * k x) conv = .ok ham' ∧
      (toMatrix s.numOrb ham').charpoly = (toMatrix s.numOrb ham).charpoly := by
  obtain ⟨s, h1, h2, h3, h4, h5, hw, h8, h9⟩ := bp_spec H c hc
  obtain ⟨b1, b2, b3, b4, b5, b6, b7⟩ := build_ham hw hO hP h8 h9 (by rw [h4]; simp [bpCoords]) 0 0 1 (by
    rw [h5]; simp [bpHop, show bpIdx 0 0 1 = some 2 by decide +kernel])
  have hn : (syncArray H s).numOrb = 4 := by simp [numOrb, b3, h4, bpCoords]
  have hn' : s.numOrb = 4 := by simp [numOrb, h4, bpCoords]
  obtain ⟨σ, τ, hS⟩ := bp_syms (s := syncArray H s) hn (by
    intro o ho
    rw [b3, h4] at ho
    obtain ⟨x, -, rfl⟩ := List.mem_map.1 ho
    rfl) (by intro R i j; rw [b4, h5]) ε hε
  obtain ⟨ham, hh⟩ := b6 k conv hcv
  obtain ⟨ham', hh'⟩ := b6 (fun x => ε x * k x) conv hcv
  refine ⟨s, ham, ham', h1, hh, hh', ?_⟩
  have hk : kMul (Matrix.diagonal ε) k = fun x => ε x * k x := by
    funext y
    fin_cases y <;> simp [kMul, Fin.sum_univ_three, Matrix.diagonal] <;> ring
  have := C100_symmetry b1 b2 hS k conv ham' ham (by rw [hk]; exact hh') hh
  rw [hn] at this
  rw [hn']
  exact this.symm

end Verif.Props

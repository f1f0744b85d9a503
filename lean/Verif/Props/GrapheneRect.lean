import Verif.Props.Graphene
import Verif.Props.SameCrystal

/-! # Property C98: the rectangular graphene cells -/

namespace Verif.Props

open PrimCell Materials

/-- The site of the diamond-shaped cell at a site of the rectangular one. -/
def rectSite (q : Cell × Fin 4) : Cell × Fin 2 :=
  match q.2 with
  | 0 => ((q.1.1 - q.1.2.1, 2 * q.1.2.1, q.1.2.2), 0)
  | 1 => ((q.1.1 - q.1.2.1 - 1, 2 * q.1.2.1 + 1, q.1.2.2), 1)
  | 2 => ((q.1.1 - q.1.2.1, 2 * q.1.2.1, q.1.2.2), 1)
  | 3 => ((q.1.1 - q.1.2.1, 2 * q.1.2.1 + 1, q.1.2.2), 0)

theorem rectSite_bij : Function.Bijective rectSite := by
  constructor
  · rintro ⟨⟨x, y, z⟩, a⟩ ⟨⟨x', y', z'⟩, a'⟩ h
    fin_cases a <;> fin_cases a' <;> simp [rectSite] at h ⊢ <;> omega
  · rintro ⟨⟨x, y, z⟩, i⟩
    rcases Int.even_or_odd' y with ⟨n, rfl | rfl⟩ <;> fin_cases i
    · exact ⟨((x + n, n, z), 0), by simp [rectSite]⟩
    · exact ⟨((x + n, n, z), 2), by simp [rectSite]⟩
    · exact ⟨((x + n, n, z), 3), by simp [rectSite]⟩
    · exact ⟨((x + n + 1, n, z), 1), by simp [rectSite]; ring⟩

/-- **C98 (rectangular cell).** For every `c` and every real `t`, the rectangular cell built from scratch describes the same
infinite crystal as the diamond-shaped cell. -/
theorem C98_rect_crystal_partial (H : HashFns ℝ ℂ String) (c t : ℝ) :
    ∃ s r, grapheneDiamond H c t = .ok s ∧ grapheneRect H c t = .ok r ∧ r.numOrb = 4 ∧ SameCrystal r s := by
  obtain ⟨s, s1, s2, s3, s4, s5, -⟩ := diamond_spec H c t
  obtain ⟨r, r1, r2, r3, r4, r5, -⟩ := rect_spec H c t
  have hs : Real.sqrt 3 ^ 2 = 3 := Real.sq_sqrt (by norm_num)
  have hn : s.numOrb = 2 := by simp [numOrb, s4]
  have hm : r.numOrb = 4 := by simp [numOrb, r4]
  refine ⟨s, r, s1, r1, hm, ?_⟩
  unfold SameCrystal
  rw [hn, hm]
  refine ⟨Equiv.ofBijective _ rectSite_bij, ?_, ?_⟩
  · rintro ⟨⟨x, y, z⟩, a⟩
    rw [Equiv.ofBijective_apply]
    constructor
    · funext w
      fin_cases a <;> fin_cases w <;>
        simp [rectSite, sitePos, s2, s3, s4, r2, r3, r4, frac2cartRow, cellVec, Matrix.mulVec, dotProduct,
          Fin.sum_univ_three] <;> ring
    · fin_cases a <;> simp [rectSite, s4, r4]
  · rintro ⟨⟨x, y, z⟩, a⟩ ⟨⟨x', y', z'⟩, b⟩
    rw [Equiv.ofBijective_apply, Equiv.ofBijective_apply, r5, s5]
    have hst : star (t : ℂ) = t := Complex.conj_ofReal t
    have ite2 : ∀ (P Q : Prop) [Decidable P] [Decidable Q], (if P then some (t : ℂ) else if Q then some (t : ℂ) else none) =
        if P ∨ Q then some (t : ℂ) else none := by
      intro P Q _ _
      by_cases P <;> by_cases Q <;> simp [*]
    rw [hst, ite2, ite2]
    refine if_congr ?_ rfl rfl
    fin_cases a <;> fin_cases b <;> simp [rectSite] <;> omega

/-- Height of a site in a layer whose third lattice vector is `(0, 0, c)`. -/
theorem site_height {s : PrimCell ℝ ℂ String} {a b c d e : ℝ} (hl : s.lat = !![a, 0, 0; b, d, 0; 0, 0, e]) (ho : s.origin = 0)
    (hz : ∀ o ∈ s.orbs, o.position 2 = 0) (R : Cell) (i : ℕ) : sitePos s R i 2 = R.2.2 * e := by
  have : s.orbs[i]?.elim 0 Orbital.position 2 = 0 := by
    cases h : s.orbs[i]? with
    | none => rfl
    | some o => exact hz o (List.mem_of_getElem? h)
  unfold sitePos
  generalize s.orbs[i]?.elim 0 Orbital.position = p at this ⊢
  simp only [ hl, ho, frac2cartRow, Matrix.mulVec, dotProduct, Fin.sum_univ_three, cellVec, Pi.add_apply, this,
    Matrix.transpose_apply, Pi.zero_apply]
  simp [mul_comm]

/-- **C98 (complex hopping integral).** The signature admits a complex `t`.  The diamond-shaped cell then has the hopping energy
`t` from a site to one of its neighbours and the conjugate of `t` to the other two, and the rectangular cell built from scratch
does not describe the same crystal. -/
theorem C98_complex_t (H : HashFns ℝ ℂ String) (c : ℝ) (hc : 1e-15 ≤ |c|) (t : ℂ) (ht : star t ≠ t) :
    ∃ s r, grapheneDiamond H c t = .ok s ∧ grapheneRect H c t = .ok r ∧ s.hops.get 0 0 1 = some t ∧
      s.hops.get (-1, 0, 0) 0 1 = some (star t) ∧ s.hops.get (0, -1, 0) 0 1 = some (star t) ∧ ¬ SameCrystal r s := by
  obtain ⟨s, s1, s2, s3, s4, s5, -⟩ := diamond_spec H c t
  obtain ⟨r, r1, r2, r3, r4, r5, -⟩ := rect_spec H c t
  have hn : s.numOrb = 2 := by simp [numOrb, s4]
  have hm : r.numOrb = 4 := by simp [numOrb, r4]
  refine ⟨s, r, s1, r1, by rw [s5]; simp, by rw [s5]; simp, by rw [s5]; simp, ?_⟩
  unfold SameCrystal
  rw [hn, hm]
  rintro ⟨φ, h1, h2⟩
  have hs3 : 0 < Real.sqrt 3 := by positivity
  have hcc : cleanEntry c = c := by
    unfold cleanEntry
    rw [if_neg (not_lt.2 hc)]
  have hc0 : c ≠ 0 := by
    rintro rfl
    rw [abs_zero] at hc
    norm_num at hc
  -- the sites `3` and `1` of the home cell
  have p3 : φ (0, 3) = ((0, 1, 0), 0) := by
    have h := (h1 (0, 3)).1
    obtain ⟨⟨⟨x, y, z⟩, i⟩, hq⟩ : ∃ q, φ (0, 3) = q := ⟨_, rfl⟩
    rw [hq] at h ⊢
    have e0 := congrFun h 0
    have e1 := congrFun h 1
    have e2 := congrFun h 2
    fin_cases i <;>
      simp [sitePos, s2, s3, s4, r2, r3, r4, frac2cartRow, cellVec, Matrix.mulVec, dotProduct, Fin.sum_univ_three, hcc, hc0] at e0 e1 e2 ⊢
    · have e3 : (0.123 * Real.sqrt 3) * ((y : ℝ) - 1) = 0 := by linear_combination -e1
      have e4 : (y : ℝ) = 1 := by
        have := (mul_eq_zero.1 e3).resolve_left (by positivity)
        linarith
      have e5 : (x : ℝ) = 0 := by rw [e4] at e0; linarith
      exact ⟨by exact_mod_cast e5, by exact_mod_cast e4, e2⟩
    · have e3 : (0.123 * Real.sqrt 3) * (3 * (y : ℝ) - 2) = 0 := by linear_combination -3 * e1
      have e4 : 3 * (y : ℝ) = 2 := by
        have := (mul_eq_zero.1 e3).resolve_left (by positivity)
        linarith
      have e5 : 3 * y = 2 := by exact_mod_cast e4
      omega
  have p1 : φ (0, 1) = ((-1, 1, 0), 1) := by
    have h := (h1 (0, 1)).1
    obtain ⟨⟨⟨x, y, z⟩, i⟩, hq⟩ : ∃ q, φ (0, 1) = q := ⟨_, rfl⟩
    rw [hq] at h ⊢
    have e0 := congrFun h 0
    have e1 := congrFun h 1
    have e2 := congrFun h 2
    fin_cases i <;>
      simp [sitePos, s2, s3, s4, r2, r3, r4, frac2cartRow, cellVec, Matrix.mulVec, dotProduct, Fin.sum_univ_three, hcc, hc0] at e0 e1 e2 ⊢
    · have e3 : (0.123 * Real.sqrt 3) * (3 * (y : ℝ) - 4) = 0 := by linear_combination -3 * e1
      have e4 : 3 * (y : ℝ) = 4 := by
        have := (mul_eq_zero.1 e3).resolve_left (by positivity)
        linarith
      have e5 : 3 * y = 4 := by exact_mod_cast e4
      omega
    · have e3 : (0.123 * Real.sqrt 3) * ((y : ℝ) - 1) = 0 := by linear_combination -e1
      have e4 : (y : ℝ) = 1 := by
        have := (mul_eq_zero.1 e3).resolve_left (by positivity)
        linarith
      have e5 : (x : ℝ) = -1 := by rw [e4] at e0; linarith
      exact ⟨by exact_mod_cast e5, by exact_mod_cast e4, e2⟩
  have := h2 (0, 3) (0, 1)
  rw [p3, p1, r5, s5] at this
  simp at this
  exact ht this.2.symm

/-- The reshaped cell of `make_graphene_rect(from_scratch=False)`. -/
theorem reshaped_spec (H : HashFns ℝ ℂ String) (hO : ∀ l, l ≠ [] → H.orb l ≠ H.orb []) (hP : ∀ l, l ≠ [] → H.hop l ≠ H.hop [])
    (query : BallQuery ℝ) (hq : IsBallQuery query) (c : ℝ) (t : ℂ) :
    ∃ s u, grapheneDiamond H 1 t = .ok s ∧ grapheneRectReshaped H query c t = .ok u ∧ u.numOrb = 4 ∧ SameCrystal u s ∧
      u.lat = !![1, 0, 0; -1, 2, 0; 0, 0, 1] * s.lat := by
  obtain ⟨s, s1, s2, s3, s4, s5, s6, s7, s8, s9⟩ := diamond_spec H 1 t
  have hw : WF s := s6 ▸ WF_run H (WF_init H _ _) _ s7
  obtain ⟨-, -, -, -, -, -, b7⟩ := build_ham hw hO hP s8 s9 (by rw [s4]; simp) 0 0 1 (by rw [s5]; simp)
  have hdet : (!![1, 0, 0; -1, 2, 0; 0, 0, 1] : Matrix (Fin 3) (Fin 3) ℤ).det = 2 := by
    rw [Matrix.det_fin_three]; simp
  have hmap : (!![1, 0, 0; -1, 2, 0; 0, 0, 1] : Matrix (Fin 3) (Fin 3) ℤ).map (fun z : ℤ => (z : ℝ)) =
      !![1, 0, 0; -1, 2, 0; 0, 0, 1] := by
    ext i j
    fin_cases i <;> fin_cases j <;> simp
  obtain ⟨u, u1, u2, u3, u4⟩ := C95_same_crystal_partial H hO query hq s.lat 0 _ s7 s s6 b7 (by
      rw [s2, Matrix.det_fin_three]
      simp [cleanEntry]
      norm_num) 1 !![1, 0, 0; -1, 2, 0; 0, 0, 1] (by rw [hdet]; decide) 1e-2 1e-5
    (tolSep_of_det (by rw [hdet]; decide) (by norm_num) (by rw [hdet]; norm_num))
    (by
      rw [s4]
      intro ob hob x
      simp only [List.mem_cons, List.not_mem_nil, or_false] at hob
      rcases hob with rfl | rfl <;> fin_cases x <;> norm_num)
    (by decide) (by
      intro j
      have hsum : ∀ j, ∑ i, (!![1, 0, 0; -1, 2, 0; 0, 0, 1] : Matrix (Fin 3) (Fin 3) ℤ) i j = ![0, 2, 1] j := by decide
      rw [hsum]
      fin_cases j <;> norm_num [abs_of_pos])
  rw [hmap] at u1 u2
  refine ⟨s, u.cell, s1, ?_, ?_, u4, u2⟩
  · unfold grapheneRectReshaped
    rw [s1]
    simp only [u1]
  · rw [u3, hdet]
    simp [numOrb, s4]

/-- **C98 (the two methods).** For every real `t`, whatever `c` is given, `from_scratch=False` builds the crystal that
`from_scratch=True` builds with `c = 1`. -/
theorem C98_methods_partial (H : HashFns ℝ ℂ String) (hO : ∀ l, l ≠ [] → H.orb l ≠ H.orb [])
    (hP : ∀ l, l ≠ [] → H.hop l ≠ H.hop []) (query : BallQuery ℝ) (hq : IsBallQuery query) (c t : ℝ) :
    ∃ r u, grapheneRect H 1 t = .ok r ∧ grapheneRectReshaped H query c t = .ok u ∧ SameCrystal u r := by
  obtain ⟨s, u, h1, h2, -, h3, -⟩ := reshaped_spec H hO hP query hq c t
  obtain ⟨s', r, h4, h5, -, h6⟩ := C98_rect_crystal_partial H 1 t
  obtain rfl : s = s' := by rw [h1] at h4; exact Except.ok.inj h4
  exact ⟨r, u, h5, h2, SameCrystal.trans h3 (SameCrystal.symm h6)⟩

/-- **C98 (the length of the c-axis).** `make_graphene_rect(from_scratch=False, c=...)` ignores `c`: for every `c` other than
`1` and `-1`, and every `t`, the two methods describe different crystals. -/
theorem C98_c_ignored (H : HashFns ℝ ℂ String) (hO : ∀ l, l ≠ [] → H.orb l ≠ H.orb [])
    (hP : ∀ l, l ≠ [] → H.hop l ≠ H.hop []) (query : BallQuery ℝ) (hq : IsBallQuery query) (c : ℝ) (hc : c ≠ 1) (hc' : c ≠ -1)
    (t : ℂ) :
    ∃ r u, grapheneRect H c t = .ok r ∧ grapheneRectReshaped H query c t = .ok u ∧ u.lat 2 = ![0, 0, 1] ∧ ¬ SameCrystal u r := by
  obtain ⟨s, u, h1, h2, hn, h3, h4⟩ := reshaped_spec H hO hP query hq c t
  obtain ⟨s', s1, s2, s3, s4, s5, -⟩ := diamond_spec H 1 t
  obtain rfl : s = s' := by rw [h1] at s1; exact Except.ok.inj s1
  obtain ⟨r, r1, r2, r3, r4, r5, -⟩ := rect_spec H c t
  have hm : r.numOrb = 4 := by simp [numOrb, r4]
  have hs : s.numOrb = 2 := by simp [numOrb, s4]
  have hc1 : cleanEntry 1 = 1 := by unfold cleanEntry; norm_num
  refine ⟨r, u, r1, h2, ?_, ?_⟩
  · rw [h4, s2, hc1]
    funext y
    fin_cases y <;> simp [Matrix.mul_apply, Fin.sum_univ_three]
  · intro hcon
    obtain ⟨φ, hφ, -⟩ := SameCrystal.trans (SameCrystal.symm h3) hcon
    have hgtS : ∀ R i, sitePos s R i 2 = R.2.2 * 1 := by
      intro R i
      rw [← hc1]
      refine site_height (c := 0) s2 s3 ?_ R i
      rw [s4]; simp
    have hgtR : ∀ R i, sitePos r R i 2 = R.2.2 * cleanEntry c := by
      intro R i
      refine site_height (c := 0) r2 r3 ?_ R i
      rw [r4]; simp
    -- heights of sites agree
    have hh : ∀ q : Cell × Fin s.numOrb, (q.1.2.2 : ℝ) = (φ q).1.2.2 * cleanEntry c := by
      intro q
      have := congrFun (hφ q).1 2
      rw [hgtS, hgtR, mul_one] at this
      exact this
    have e1 := hh ((0, 0, 1), ⟨0, by omega⟩)
    have e2 := hh (φ.symm ((0, 0, 1), ⟨0, by omega⟩))
    rw [Equiv.apply_symm_apply] at e2
    generalize (φ ((0, 0, 1), ⟨0, by omega⟩)).1.2.2 = a at e1
    generalize (φ.symm ((0, 0, 1), ⟨0, by omega⟩)).1.2.2 = b at e2
    simp only [Int.cast_one, one_mul] at e1 e2
    rw [← e2] at e1
    have e3 : a * b = 1 := by exact_mod_cast e1.symm
    have hcl : cleanEntry c = c := by
      unfold cleanEntry
      rw [if_neg]
      intro hlt
      rw [cleanEntry, if_pos hlt] at e2
      rw [e2] at e1
      simp at e1
    rcases Int.eq_one_or_neg_one_of_mul_eq_one (by rw [mul_comm]; exact e3 : b * a = 1) with rfl | rfl
    · apply hc; rw [← hcl, ← e2]; simp
    · apply hc'; rw [← hcl, ← e2]; simp

/-- Hash functions and a search that meet the hypotheses. -/
example : ∃ H : HashFns ℝ ℂ String, (∀ l, l ≠ [] → H.orb l ≠ H.orb []) ∧ (∀ l, l ≠ [] → H.hop l ≠ H.hop []) ∧
    ∃ query : BallQuery ℝ, IsBallQuery query := by
  classical
  refine ⟨⟨fun l => l.length, fun l => l.length⟩, fun l hl => by simpa using hl, fun l hl => by simpa using hl,
    fun pts x r => (List.range pts.length).filter fun k => decide (∃ p, pts[k]? = some p ∧ ∑ i, (p i - x i) ^ 2 ≤ r ^ 2), ?_⟩
  intro pts x r _ k
  simp only [List.mem_filter, List.mem_range, decide_eq_true_eq, and_iff_right_iff_imp]
  rintro ⟨p, hp, -⟩
  exact (List.getElem?_eq_some_iff.1 hp).1

end Verif.Props

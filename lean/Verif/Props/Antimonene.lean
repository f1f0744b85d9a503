import Verif.Proof.Antimonene
import Verif.Props.HopDict
import Verif.Props.UnitarySym
import Verif.Props.SameCrystal

/-! # Property C103: antimonene -/

namespace Verif.Props

open PrimCell Materials HopDict Anti

/-- A dictionary given by a Hermitian table `F`, of which it contains each element or its conjugate. -/
theorem dict_herm {Λ : Type*} {n : ℕ} {d : HopDict} (hd : DictOk n d) (H : HashFns ℝ ℂ Λ) (lat : Mat3 ℝ) (o : Vec3 ℝ)
    (orbs : List (List ℝ × ℝ × Λ)) (ho : ∀ q ∈ orbs, checkLen 0 q.1 ≠ none) (hn : orbs.length = n) (F : Cell → ℕ → ℕ → ℂ)
    (h0 : ∀ i < n, F 0 i i = 0) (hF : ∀ R, ∀ i < n, ∀ j < n, F (-R) j i = star (F R i j))
    (h1 : ∀ R, ∀ i < n, ∀ j < n, elem d R i j ≠ 0 → elem d R i j = F R i j)
    (h2 : ∀ R, ∀ i < n, ∀ j < n, F R i j ≠ 0 → elem d R i j ≠ 0 ∨ elem d (-R) j i ≠ 0) :
    ∃ s0 s d', runOk H (PrimCell.init H lat o) (orbs.map fun q => .addOrbital q.1 q.2.1 q.2.2) = .ok s0 ∧
      addHopDict s0 d = (s, d', .ok ()) ∧ s.lat = lat ∧ s.origin = o ∧
      s.orbs = (orbs.map fun q => ⟨vec3 ((checkLen 0 q.1).getD 0), q.2.1, q.2.2⟩) ∧
      (∀ R (i j : ℤ), s.hops.get R i j = open Classical in
        if (0 ≤ i ∧ i < n ∧ 0 ≤ j ∧ j < n) ∧ F R i.toNat j.toNat ≠ 0 then some (F R i.toNat j.toNat) else none) ∧
      WF s ∧ s.hashOrb = H.orb [] ∧ s.hashHop = H.hop [] := by
  classical
  obtain ⟨s0, s, d', g1, g2, g3, g4, g5, g6, g7, g8, g9, g10⟩ := dict_build hd H lat o orbs ho hn
    (fun i hi => by by_contra hne; exact hne ((h1 0 i hi i hi hne).trans (h0 i hi)))
    (fun R i hi j hj a b => by rw [h1 R i hi j hj a, h1 (-R) j hj i hi b, hF R i hi j hj])
  refine ⟨s0, s, d', g1, g2, g3, g4, g5, ?_, g8, g9, g10⟩
  intro R i j
  by_cases hij : 0 ≤ i ∧ i < n ∧ 0 ≤ j ∧ j < n
  · obtain ⟨i, rfl⟩ := Int.eq_ofNat_of_zero_le hij.1
    obtain ⟨j, rfl⟩ := Int.eq_ofNat_of_zero_le hij.2.2.1
    have hi : i < n := by omega
    have hj : j < n := by omega
    rw [g6 R i hi j hj]
    simp only [Int.toNat_natCast]
    by_cases e1 : elem d R i j = 0
    · rw [if_neg (not_not.2 e1)]
      by_cases e2 : elem d (-R) j i = 0
      · rw [if_neg (not_not.2 e2), if_neg]
        rintro ⟨-, hne⟩
        exact (h2 R i hi j hj hne).elim (fun h => h e1) (fun h => h e2)
      · have e3 := h1 (-R) j hj i hi e2
        have e4 : star (elem d (-R) j i) = F R i j := by rw [e3, hF R i hi j hj, star_star]
        have e5 : F R i j ≠ 0 := by rw [← e4]; exact fun h => e2 (by simpa using h)
        rw [if_pos e2, e4, if_pos ⟨hij, e5⟩]
    · have e5 : F R i j ≠ 0 := by rw [← h1 R i hi j hj e1]; exact e1
      rw [if_pos e1, h1 R i hi j hj e1, if_pos ⟨hij, e5⟩]
  · rw [g7 R i j hij, if_neg (fun h => hij h.1)]

/-- Legal assignments of elements do not fail. -/
theorem seqEntries_run {n : ℕ} {d : HopDict} (hd : DictOk n d) (l : List (Cell × ℕ × ℕ × ℂ)) (hl : ∀ q ∈ l, q.2.1 < n ∧ q.2.2.1 < n) :
    seqEntries d l = (d.run (l.map fun q => .setEntry [q.1.1, q.1.2.1, q.1.2.2] q.2.1 q.2.2.1 q.2.2.2), .ok ()) := by
  induction l generalizing d with
  | nil => rfl
  | cons q l ih =>
    obtain ⟨h1, h2⟩ := hl q List.mem_cons_self
    have hs : d.setEntry [q.1.1, q.1.2.1, q.1.2.2] q.2.1 q.2.2.1 q.2.2.2 =
        (d.step (.setEntry [q.1.1, q.1.2.1, q.1.2.2] q.2.1 q.2.2.1 q.2.2.2), .ok ()) := by
      simp only [HopDict.step, HopDict.setEntry, checkLen]
      obtain ⟨-, g2, g3, -, -⟩ := dictOk_getItem hd (q.1.1, q.1.2.1, q.1.2.2)
      rw [if_neg (by simp [g3]), g2]
      simp [pyIndex, h1, h2]
    rw [seqEntries, hs]
    simp only
    rw [ih (dictOk_step hd _).1 (fun q hq => hl q (List.mem_cons_of_mem _ hq))]
    rfl

/-- The elements after assignments with different keys. -/
theorem lastWrite_entries (n : ℕ) (l : List (Cell × ℕ × ℕ × ℂ)) (hl : ∀ q ∈ l, q.2.1 < n ∧ q.2.2.1 < n) (R : Cell) (i j : ℕ) :
    (lastWrite n (l.map fun q => .setEntry [q.1.1, q.1.2.1, q.1.2.2] q.2.1 q.2.2.1 q.2.2.2) R i j = 0 ∧ ∀ v, (R, i, j, v) ∉ l) ∨
      (R, i, j, lastWrite n (l.map fun q => .setEntry [q.1.1, q.1.2.1, q.1.2.2] q.2.1 q.2.2.1 q.2.2.2) R i j) ∈ l := by
  unfold lastWrite
  have hw : ∀ q ∈ l, ∀ v, writeOf n R i j (.setEntry [q.1.1, q.1.2.1, q.1.2.2] q.2.1 q.2.2.1 q.2.2.2) = some v ↔ q = (R, i, j, v) := by
    intro q hq v
    obtain ⟨h1, h2⟩ := hl q hq
    obtain ⟨⟨x, y, z⟩, a, b, w⟩ := q
    simp only at h1 h2
    simp only [writeOf, checkLen, pyIndex]
    simp [h1, h2]
    tauto
  cases hf : List.findSome? (writeOf n R i j) (l.map fun q => HDOp.setEntry [q.1.1, q.1.2.1, q.1.2.2] q.2.1 q.2.2.1 q.2.2.2).reverse with
  | none =>
    left
    refine ⟨rfl, fun v hv => ?_⟩
    rw [List.findSome?_eq_none_iff] at hf
    have := hf _ (List.mem_reverse.2 (List.mem_map.2 ⟨_, hv, rfl⟩))
    rw [(hw _ hv v).2 rfl] at this
    simp at this
  | some v =>
    right
    obtain ⟨op, hop, he⟩ := List.exists_of_findSome?_eq_some hf
    obtain ⟨q, hq, rfl⟩ := List.mem_map.1 (List.mem_reverse.1 hop)
    rw [Option.getD_some, ← (hw q hq v).1 he]
    exact hq

/-- The dictionary after the assignments of antimonene.py:99-305. -/
theorem an_dict0 : ∃ d, seqEntries (HopDict.init 6) (anHops.map fun q => (q.1, q.2.1, q.2.2.1, (anT q.2.2.2 : ℂ))) = (d, .ok ()) ∧
    DictOk 6 d ∧ ∀ R i j, (elem d R i j = 0 ∧ ∀ n, (R, i, j, n) ∉ anHops) ∨ ∃ n, (R, i, j, n) ∈ anHops ∧ elem d R i j = (anT n : ℂ) := by
  have hl : ∀ q ∈ anHops.map fun q => (q.1, q.2.1, q.2.2.1, (anT q.2.2.2 : ℂ)), q.2.1 < 6 ∧ q.2.2.1 < 6 := by
    intro q hq
    obtain ⟨r, hr, rfl⟩ := List.mem_map.1 hq
    have := an_bounds _ ((anIdx_iff _ _ _ _).1 (an_hops r hr))
    exact ⟨this.1, this.2.1⟩
  refine ⟨_, seqEntries_run (dictOk_init 6) _ hl, (dictOk_run (dictOk_init 6) _).1, fun R i j => ?_⟩
  rw [C102_last_write]
  rcases lastWrite_entries 6 _ hl R i j with ⟨h1, h2⟩ | h
  · left
    exact ⟨h1, fun n hn => h2 _ (List.mem_map.2 ⟨_, hn, rfl⟩)⟩
  · right
    obtain ⟨q, hq, he⟩ := List.mem_map.1 h
    obtain ⟨R', i', j', n⟩ := q
    simp only [Prod.mk.injEq] at he
    obtain ⟨rfl, rfl, rfl, he⟩ := he
    exact ⟨n, hq, he.symm⟩

/-- The amplitude without spin. -/
noncomputable def anAmp (R : Cell) (i j : ℕ) : ℝ := (anIdx R i j).elim 0 anT

theorem anAmp_rev (R : Cell) (i j : ℕ) : anAmp (-R) j i = anAmp R i j := by rw [anAmp, anIdx_rev, anAmp]

theorem anAmp_of_elem {d : HopDict} (h : ∀ R i j, (elem d R i j = 0 ∧ ∀ n, (R, i, j, n) ∉ anHops) ∨
    ∃ n, (R, i, j, n) ∈ anHops ∧ elem d R i j = (anT n : ℂ)) (R : Cell) (i j : ℕ) :
    (elem d R i j ≠ 0 → elem d R i j = (anAmp R i j : ℂ)) ∧ (anAmp R i j ≠ 0 → elem d R i j ≠ 0 ∨ elem d (-R) j i ≠ 0) := by
  constructor
  · intro hne
    rcases h R i j with h1 | ⟨n, hn, he⟩
    · exact absurd h1.1 hne
    · rw [he, anAmp, an_hops _ hn]; rfl
  · intro hne
    cases hi : anIdx R i j with
    | none => simp [anAmp, hi] at hne
    | some n =>
      have hm := (anIdx_iff _ _ _ _).1 hi
      have hT : ∀ R i j, (R, i, j, n) ∈ anHops → elem d R i j ≠ 0 := by
        intro R i j hq
        rcases h R i j with h1 | ⟨m, hm', he⟩
        · exact absurd hq (h1.2 n)
        · obtain ⟨-, -, b1, b2, -⟩ := an_bounds _ ((anIdx_iff _ _ _ _).1 (an_hops _ hm'))
          rw [he]
          exact_mod_cast anT_ne b1 b2
      exact (an_complete _ hm).imp (hT _ _ _) (hT _ _ _)

theorem an_det {c : ℝ} (hc : c ≠ 0) : (anLat c).det ≠ 0 := by
  have h3 : (0 : ℝ) < Real.sqrt 3 := by positivity
  have hA : 0 < anA := by unfold anA; norm_num
  have hB : 0 < anB := by unfold anB; positivity
  have : (anLat c).det = 1.5 * anB * anA * c := by simp [anLat, Matrix.det_fin_three]; ring
  rw [this]
  positivity

/-- Spin and orbital of the expanded matrices. -/
theorem anExpand_eq (hop : ℕ → ℕ → ℂ) (i j : ℕ) (hi : i < 12) (hj : j < 12) :
    anExpand hop i j = if i / 3 % 2 = j / 3 % 2 then hop (3 * (i / 6) + i % 3) (3 * (j / 6) + j % 3) else 0 := by
  interval_cases i <;> interval_cases j <;> rfl

theorem anSoc_diag (lam : ℝ) (i : ℕ) (hi : i < 6) : anSoc lam i i = 0 := by
  interval_cases i <;> simp [anSoc, anSocEntry, Complex.ext_iff]

theorem anSoc_herm (lam : ℝ) (i j : ℕ) (hi : i < 6) (hj : j < 6) : anSoc lam j i = star (anSoc lam i j) := by
  interval_cases i <;> interval_cases j <;> simp [anSoc, anSocEntry, Complex.ext_iff]

theorem anSoc_flip (lam : ℝ) (i j : ℕ) (hi : i < 6) (hj : j < 6) :
    anSoc lam ((i + 3) % 6) ((j + 3) % 6) * (if j < 3 then 1 else -1) = (if i < 3 then 1 else -1) * star (anSoc lam i j) := by
  interval_cases i <;> interval_cases j <;> simp [anSoc, anSocEntry, Complex.ext_iff]

theorem anSoc_spec (lam : ℝ) (σ σ' : Fin 2) (m m' : Fin 3) :
    anSoc lam (3 * σ + m) (3 * σ' + m') = Anti.soc lam σ m σ' m' := by
  fin_cases σ <;> fin_cases σ' <;> fin_cases m <;> fin_cases m' <;>
    simp [anSoc, anSocEntry, Anti.soc, Fin.sum_univ_three, sigma, angMom, dir, Complex.ext_iff] <;> norm_num <;> ring_nf

/-- A series of legal assignments of matrices. -/
theorem seqItems_get {n : ℕ} (l : PyDict Cell HopArg) (d : HopDict) (hn : d.num = n) (hw : PyDict.WF d.mats) (hk : PyDict.WF l)
    (hl : ∀ q ∈ l, q.2.rows = n ∧ q.2.cols = n) (h0 : ∀ q ∈ l, q.1 = 0 → ∀ i < n, q.2.val i i = 0) :
    ∃ d', seqItems d l = (d', .ok ()) ∧ d'.num = n ∧ PyDict.WF d'.mats ∧
      ∀ R, PyDict.get? d'.mats R = ((PyDict.get? l R).map fun M => ⟨n, M.val, false⟩).or (PyDict.get? d.mats R) := by
  classical
  induction l generalizing d with
  | nil => exact ⟨d, rfl, hn, hw, fun R => by simp⟩
  | cons q l ih =>
    have hk' : q.1 ∉ PyDict.keys l ∧ PyDict.WF l := by simpa [PyDict.WF] using hk
    let d1 : HopDict := { d with mats := PyDict.set d.mats q.1 ⟨n, q.2.val, false⟩ }
    have hs : d.setItem [q.1.1, q.1.2.1, q.1.2.2] q.2 = (d1, .ok ()) := by
      unfold HopDict.setItem
      simp only [checkLen, hn]
      rw [if_neg (not_not.2 (hl q List.mem_cons_self))]
      split_ifs with hz
      · have : d1.checkDiag = none := by
          unfold checkDiag
          have e : PyDict.get? d1.mats (0, 0, 0) = some ⟨n, q.2.val, false⟩ := by
            have := PyDict.get?_set_self d.mats q.1 (⟨n, q.2.val, false⟩ : HopMat)
            exact (congrArg (PyDict.get? d1.mats) (show q.1 = (0, 0, 0) from hz)).symm.trans this
          rw [e]
          simp only [Bool.false_eq_true, if_false]
          rw [if_neg]
          rintro ⟨i, hi, h⟩
          rw [h0 q List.mem_cons_self hz i hi, norm_zero] at h
          norm_num at h
        have e : (⟨n, PyDict.set d.mats (q.1.1, q.1.2.1, q.1.2.2) ⟨n, q.2.val, false⟩⟩ : HopDict) = d1 := by
          simp only [d1, ← hn]
        rw [e, this]
      · simp only [d1, ← hn]
    obtain ⟨d', g1, g2, g3, g4⟩ := ih d1 hn (PyDict.WF_set hw _ _) hk'.2 (fun q hq => hl q (List.mem_cons_of_mem _ hq))
      (fun q hq => h0 q (List.mem_cons_of_mem _ hq))
    refine ⟨d', ?_, g2, g3, fun R => ?_⟩
    · rw [seqItems, hs]
      exact g1
    · rw [g4, PyDict.get?_cons]
      simp only [d1, PyDict.get?_set]
      by_cases hR : q.1 = R
      · subst hR
        rw [(PyDict.get?_eq_none_iff l q.1).2 hk'.1]
        simp
      · rw [if_neg hR, if_neg (fun h => hR h.symm)]

/-- The amplitudes with spin. -/
noncomputable def anF (soc : Bool) (lam : ℝ) (R : Cell) (i j : ℕ) : ℂ :=
  if soc then (if i / 3 % 2 = j / 3 % 2 then (anAmp R (3 * (i / 6) + i % 3) (3 * (j / 6) + j % 3) : ℂ) else 0) +
    if R = 0 then anKron lam i j else 0
  else (anAmp R i j : ℂ)

theorem anAmp_site (i j : ℕ) (h : i / 3 = j / 3) : anAmp 0 i j = 0 := by
  unfold anAmp
  cases hi : anIdx 0 i j with
  | none => rfl
  | some n => exact absurd h ((an_bounds _ ((anIdx_iff _ _ _ _).1 hi)).2.2.2.2.2 rfl)

theorem anKron_herm (lam : ℝ) (i j : ℕ) (hi : i < 12) (hj : j < 12) : anKron lam j i = star (anKron lam i j) := by
  unfold anKron
  rw [anSoc_herm lam (i % 6) (j % 6) (by omega) (by omega)]
  by_cases h : i / 6 = j / 6
  · rw [if_pos h, if_pos h.symm]; simp
  · rw [if_neg h, if_neg (fun h' => h h'.symm)]; simp

theorem anF_herm (soc : Bool) (lam : ℝ) (R : Cell) (i j : ℕ) (hi : i < 12) (hj : j < 12) : anF soc lam (-R) j i = star (anF soc lam R i j) := by
  unfold anF
  cases soc
  · simp [anAmp_rev]
  · simp only [if_true, neg_eq_zero, star_add, anAmp_rev]
    congr 1
    · by_cases h : i / 3 % 2 = j / 3 % 2
      · rw [if_pos h, if_pos h.symm]; simp
      · rw [if_neg h, if_neg (fun h' => h h'.symm)]; simp
    · split_ifs
      · exact anKron_herm lam i j hi hj
      · simp

/-- Number of orbitals. -/
def anNum (soc : Bool) : ℕ := if soc then 12 else 6

/-- The dictionary. -/
theorem an_dict (soc : Bool) (lam : ℝ) : ∃ d, anDict soc lam = (d, .ok ()) ∧ DictOk (anNum soc) d ∧
    (∀ R, ∀ i < anNum soc, ∀ j < anNum soc, elem d R i j ≠ 0 → elem d R i j = anF soc lam R i j) ∧
    (∀ R, ∀ i < anNum soc, ∀ j < anNum soc, anF soc lam R i j ≠ 0 → elem d R i j ≠ 0 ∨ elem d (-R) j i ≠ 0) := by
  classical
  obtain ⟨d, h1, h2, h3⟩ := an_dict0
  have hT := anAmp_of_elem h3
  cases soc
  · refine ⟨d, ?_, h2, fun R i _ j _ => (hT R i j).1, fun R i _ j _ h => (hT R i j).2 ?_⟩
    · rw [anDict, h1]; rfl
    · simpa [anF] using h
  · have hmem : ∀ R (M : HopMat), PyDict.get? d.mats R = some M → ∀ i j, M.val i j = elem d R i j := by
      intro R M h i j
      simp [elem, h]
    have hdia : ∀ i, elem d 0 i i = 0 := by
      intro i
      by_contra hne
      have e1 := (hT 0 i i).1 hne
      rw [anAmp_site i i rfl] at e1
      exact hne (by simpa using e1)
    have hget : ∀ (m : PyDict Cell HopMat) R, PyDict.get? (m.map fun p => (p.1, (⟨12, 12, anExpand p.2.val⟩ : HopArg))) R =
        (PyDict.get? m R).map fun M => ⟨12, 12, anExpand M.val⟩ := by
      intro m R
      induction m with
      | nil => rfl
      | cons p l ih =>
        rw [List.map_cons, PyDict.get?_cons, PyDict.get?_cons]
        simp only
        split_ifs
        · rfl
        · exact ih
    obtain ⟨d1, g1, g2, g3, g4⟩ := seqItems_get (n := 12) (d.mats.map fun p => (p.1, ⟨12, 12, anExpand p.2.val⟩)) (d.setNum 12) rfl h2.wf
      (by have := h2.wf; simpa [PyDict.WF, PyDict.keys, Function.comp_def] using this)
      (by intro q hq; obtain ⟨p, -, rfl⟩ := List.mem_map.1 hq; exact ⟨rfl, rfl⟩)
      (by
        intro q hq hz i hi
        obtain ⟨p, hp, rfl⟩ := List.mem_map.1 hq
        have := (PyDict.mem_iff_get? h2.wf p.1 p.2).1 hp
        dsimp only
        rw [anExpand_eq _ _ _ hi hi, if_pos rfl, hmem _ _ this]
        have hz : p.1 = 0 := hz
        rw [hz]
        exact hdia _)
    have g5 : ∀ R, PyDict.get? d1.mats R = (PyDict.get? d.mats R).map fun M => ⟨12, anExpand M.val, false⟩ := by
      intro R
      rw [g4, hget]
      simp only [HopDict.setNum]
      cases PyDict.get? d.mats R <;> rfl
    -- the matrix of the home cell
    obtain ⟨M0, hM0⟩ : ∃ M, PyDict.get? d.mats 0 = some M := by
      cases hm : PyDict.get? d.mats 0 with
      | some M => exact ⟨M, rfl⟩
      | none =>
        exfalso
        rcases h3 0 1 4 with ⟨-, h⟩ | ⟨n, hn, he⟩
        · exact h 1 (by decide +kernel)
        · simp only [elem, hm, Option.elim_none] at he
          obtain ⟨-, -, b1, b2, -⟩ := an_bounds _ ((anIdx_iff _ _ _ _).1 (an_hops _ hn))
          exact anT_ne b1 b2 (by exact_mod_cast he.symm)
    have hg0 : PyDict.get? d1.mats (0, 0, 0) = some ⟨12, anExpand M0.val, false⟩ := by
      rw [show ((0, 0, 0) : Cell) = 0 from rfl, g5, hM0]; rfl
    let d2 : HopDict := ⟨12, PyDict.set d1.mats (0, 0, 0) ⟨12, fun i j => anExpand M0.val i j + anKron lam i j, false⟩⟩
    have hd2 : DictOk 12 d2 := by
      have hok1 : DictOk 12 d1 := by
        refine ⟨g2, g3, fun p hp => ?_⟩
        have := (PyDict.mem_iff_get? g3 p.1 p.2).1 hp
        rw [g5] at this
        obtain ⟨M, -, he⟩ := Option.map_eq_some_iff.1 this
        rw [← he]
        exact ⟨rfl, rfl⟩
      have := dictOk_set hok1 (0, 0, 0) ⟨12, fun i j => anExpand M0.val i j + anKron lam i j, false⟩ rfl rfl
      rwa [g2] at this
    have helem : ∀ R, ∀ i < 12, ∀ j < 12, elem d2 R i j =
        (if i / 3 % 2 = j / 3 % 2 then elem d R (3 * (i / 6) + i % 3) (3 * (j / 6) + j % 3) else 0) + if R = 0 then anKron lam i j else 0 := by
      intro R i hi j hj
      simp only [elem, d2, PyDict.get?_set]
      by_cases hR : R = 0
      · subst hR
        rw [if_pos (show (0 : Cell) = (0, 0, 0) from rfl), if_pos rfl, hM0]
        simp only [Option.elim_some]
        rw [anExpand_eq _ _ _ hi hj]
      · rw [if_neg (show ¬ R = (0, 0, 0) from hR), if_neg hR, g5, add_zero]
        cases PyDict.get? d.mats R with
        | none => simp
        | some M =>
          simp only [Option.map_some, Option.elim_some]
          rw [anExpand_eq _ _ _ hi hj]
    have hkd : ∀ i < 12, anKron lam i i = 0 := fun i hi => by rw [anKron, anSoc_diag _ _ (by omega), mul_zero]
    have hrun : anDict true lam = (d2, .ok ()) := by
      rw [anDict, h1]
      simp only [if_true]
      rw [anWithSoc, g1]
      simp only [getItem, hg0]
      unfold HopDict.setItem
      simp only [checkLen, g2]
      rw [if_neg (by simp), if_pos trivial]
      have : d2.checkDiag = none := by
        rw [checkDiag_ok hd2, if_neg]
        rintro ⟨i, hi, h⟩
        rw [helem 0 i hi i hi, if_pos rfl, if_pos rfl, hkd i hi, hdia] at h
        norm_num at h
      change (match d2.checkDiag with
        | some e => (d2, (Except.error e : Except HDErr Unit))
        | none => (d2, Except.ok ())) = _
      rw [this]
    refine ⟨d2, hrun, hd2, ?_, ?_⟩
    · intro R i hi j hj hne
      simp only [anNum, if_true] at hi hj
      rw [helem R i hi j hj] at hne ⊢
      simp only [anF, if_true]
      refine congrArg₂ (· + ·) ?_ rfl
      split_ifs with hs
      · by_cases hz : elem d R (3 * (i / 6) + i % 3) (3 * (j / 6) + j % 3) = 0
        · rw [hz]
          rw [if_pos hs, hz, zero_add] at hne
          have hR : R = 0 := by by_contra hR; rw [if_neg hR] at hne; exact hne rfl
          subst hR
          rw [if_pos rfl] at hne
          have h6 : i / 6 = j / 6 := by by_contra h6; simp [anKron, h6] at hne
          rw [anAmp_site _ _ (by omega)]
          simp
        · exact (hT _ _ _).1 hz
      · rfl
    · intro R i hi j hj hne
      simp only [anNum, if_true] at hi hj
      rw [helem R i hi j hj, helem (-R) j hj i hi]
      simp only [anF, if_true] at hne
      by_cases hk : R = 0 ∧ i / 6 = j / 6
      · obtain ⟨rfl, h6⟩ := hk
        left
        have e : elem d 0 (3 * (i / 6) + i % 3) (3 * (j / 6) + j % 3) = 0 := by
          by_contra hz
          have e1 := (hT _ _ _).1 hz
          rw [anAmp_site _ _ (by omega)] at e1
          exact hz (by simpa using e1)
        rw [anAmp_site _ _ (by omega)] at hne
        rw [e]
        simpa using hne
      · have e1 : ∀ i j : ℕ, ¬ i / 6 = j / 6 → anKron lam i j = 0 := fun i j h => by simp [anKron, h]
        have z1 : (if R = 0 then anKron lam i j else 0) = 0 := by
          split_ifs with hR
          · exact e1 i j fun h => hk ⟨hR, h⟩
          · rfl
        have z2 : (if -R = 0 then anKron lam j i else 0) = 0 := by
          split_ifs with hR
          · exact e1 j i fun h => hk ⟨by simpa using hR, h.symm⟩
          · rfl
        rw [z1, add_zero] at hne
        rw [z1, z2, add_zero, add_zero]
        by_cases hs : i / 3 % 2 = j / 3 % 2
        · rw [if_pos hs] at hne
          rw [if_pos hs, if_pos hs.symm]
          exact (hT _ _ _).2 (by exact_mod_cast hne)
        · rw [if_neg hs] at hne
          exact absurd rfl hne

/-- What `make_antimonene` builds. -/
theorem an_spec (H : HashFns ℝ ℂ String) (soc : Bool) (lam c : ℝ) (hc : c ≠ 0) :
    ∃ s, antimonene H soc lam c = .ok s ∧ s.lat = anLat c ∧ s.origin = 0 ∧
      s.orbs = (((anCoords soc).map (cart2fracRow (anLat c) 0)).zip (anLabels soc)).map (fun q => ⟨q.1, 0, q.2⟩) ∧
      (∀ R (i j : ℤ), s.hops.get R i j = open Classical in
        if (0 ≤ i ∧ i < anNum soc ∧ 0 ≤ j ∧ j < anNum soc) ∧ anF soc lam R i.toNat j.toNat ≠ 0 then some (anF soc lam R i.toNat j.toNat)
        else none) ∧
      WF s ∧ s.hashOrb = H.orb [] ∧ s.hashHop = H.hop [] := by
  obtain ⟨d, e1, e2, e3, e4⟩ := an_dict soc lam
  have hle : anNum soc ≤ 12 := by cases soc <;> simp [anNum]
  obtain ⟨s0, s, d', h1, h2, h3, h4, h5, h6, h7⟩ := dict_herm e2 H (anLat c) 0
    ((((anCoords soc).map (cart2fracRow (anLat c) 0)).zip (anLabels soc)).map fun q => ([q.1 0, q.1 1, q.1 2], 0, q.2))
    (by intro q hq; obtain ⟨x, -, rfl⟩ := List.mem_map.1 hq; simp [checkLen])
    (by cases soc <;> simp [anCoords, anLabels, anNum]) (anF soc lam)
    (by
      intro i hi
      cases soc
      · simp [anF, anAmp_site i i rfl]
      · simp [anF, anAmp_site _ _ rfl, anKron, anSoc_diag lam (i % 6) (by omega)])
    (fun R i hi j hj => anF_herm soc lam R i j (by omega) (by omega)) e3 e4
  refine ⟨s, ?_, h3, h4, ?_, h6, h7⟩
  · unfold antimonene
    rw [cart2frac, if_neg (by rw [Matrix.det_transpose]; exact an_det hc)]
    rw [List.map_map] at h1
    simp only
    have : runOk H (PrimCell.init H (anLat c) 0) ((((anCoords soc).map (cart2fracRow (anLat c) 0)).zip (anLabels soc)).map
        fun q => .addOrbital [q.1 0, q.1 1, q.1 2] 0 q.2) = .ok s0 := h1
    rw [this, e1]
    simp only
    rw [h2]
  · rw [h5, List.map_map]
    apply List.map_congr_left
    intro x _
    simp only [Function.comp, checkLen, Option.getD_some, vec3]
    congr 1
    funext y
    fin_cases y <;> rfl

theorem an_numOrb (soc : Bool) (c : ℝ) {s : PrimCell ℝ ℂ String}
    (h : s.orbs = (((anCoords soc).map (cart2fracRow (anLat c) 0)).zip (anLabels soc)).map (fun q => ⟨q.1, 0, q.2⟩)) :
    s.numOrb = anNum soc ∧ ∀ o ∈ s.orbs, o.energy = 0 := by
  constructor
  · rw [numOrb, h]
    cases soc <;> simp [anCoords, anLabels, anNum]
  · intro o ho
    rw [h] at ho
    obtain ⟨x, -, rfl⟩ := List.mem_map.1 ho
    rfl

/-- The matrix elements. -/
theorem an_amp {soc : Bool} {lam : ℝ} {s : PrimCell ℝ ℂ String} (h : ∀ R (i j : ℤ), s.hops.get R i j = open Classical in
    if (0 ≤ i ∧ i < anNum soc ∧ 0 ≤ j ∧ j < anNum soc) ∧ anF soc lam R i.toNat j.toNat ≠ 0 then some (anF soc lam R i.toNat j.toNat)
    else none) (R : Cell) (i j : ℕ) (hi : i < anNum soc) (hj : j < anNum soc) : amp s R i j = anF soc lam R i j := by
  rw [amp, h]
  simp only [Int.toNat_natCast]
  by_cases hz : anF soc lam R i j = 0
  · rw [if_neg (fun h => h.2 hz), hz]; rfl
  · rw [if_pos ⟨by omega, hz⟩]; rfl

/-- Positions of the sites. -/
theorem an_site {s : PrimCell ℝ ℂ String} {c : ℝ} (hc : c ≠ 0) (h2 : s.lat = anLat c) (h3 : s.origin = 0)
    (h4 : s.orbs = (((anCoords false).map (cart2fracRow (anLat c) 0)).zip (anLabels false)).map (fun q => ⟨q.1, 0, q.2⟩)) (R : Cell)
    (i : ℕ) (hi : i < 6) :
    sitePos s R i = ![(R.1 + R.2.1) * (1.5 * anB) + (if i < 3 then -(anB / 2) else anB / 2), (R.2.1 - R.1) * (anA / 2),
      R.2.2 * c + (if i < 3 then -(anZ / 2) else anZ / 2)] := by
  have key : ∀ v : Vec3 ℝ, frac2cartRow (anLat c) 0 (cart2fracRow (anLat c) 0 v) = v := by
    intro v
    have hu : IsUnit (anLat c).transpose.det := by rw [Matrix.det_transpose]; exact (an_det hc).isUnit
    simp only [frac2cartRow, cart2fracRow, sub_zero, add_zero, Matrix.mulVec_mulVec, Matrix.mul_nonsing_inv _ hu, Matrix.one_mulVec]
  have ho : ∃ l, s.orbs[i]? = some ⟨cart2fracRow (anLat c) 0 (if i < 3 then ![-anB / 2, 0, -anZ / 2] else ![anB / 2, 0, anZ / 2]), 0, l⟩ := by
    rw [h4]
    interval_cases i <;> exact ⟨_, rfl⟩
  obtain ⟨l, ho⟩ := ho
  funext y
  rw [sitePos_apply s R i _ ho, h2, h3, key]
  split_ifs <;> fin_cases y <;> simp [anLat, cellAt, Fin.sum_univ_three] <;> ring

theorem an_param {n : ℕ} (h1 : 1 ≤ n) (h2 : n ≤ 15) : anT n = param n := by
  interval_cases n <;> simp [anT, param]

/-- **C103 (antimonene).** For every height `c ≠ 0` of the cell, `make_antimonene` without spin-orbit coupling returns a crystal with six
orbitals of energy zero at the sites of a buckled honeycomb lattice.  Every bond of `Anti.table`, the images of fifteen bonds under
the symmetries of the crystal, has the amplitude of its parameter, and there are no other hopping terms. -/
theorem C103_antimonene (H : HashFns ℝ ℂ String) (lam c : ℝ) (hc : c ≠ 0) :
    ∃ s, antimonene H false lam c = .ok s ∧ s.numOrb = 6 ∧ (∀ o ∈ s.orbs, o.energy = 0) ∧
      (∀ R : Cell, ∀ i < 6, sitePos s R i =
        ![(R.1 + R.2.1) * (Real.sqrt 3 / 2 * Anti.a) + (if i < 3 then -1 else 1) * (Anti.a / (2 * Real.sqrt 3)),
          (R.2.1 - R.1) * (Anti.a / 2), R.2.2 * c + (if i < 3 then -1 else 1) * (Anti.z / 2)]) ∧
      (∀ q ∈ Anti.table, amp s q.1.1 q.1.2.1 q.1.2.2 = param q.2) ∧
      (∀ R (i j : ℕ), (∀ n, ((R, i, j), n) ∉ Anti.table) → s.hops.get R i j = none) := by
  obtain ⟨s, h1, h2, h3, h4, h5, hw, h8, h9⟩ := an_spec H false lam c hc
  obtain ⟨hn, hE⟩ := an_numOrb false c h4
  have h33 : Real.sqrt 3 * Real.sqrt 3 = 3 := Real.mul_self_sqrt (by norm_num)
  have h3p : Real.sqrt 3 ≠ 0 := by positivity
  have hb : anB = Anti.a / Real.sqrt 3 := rfl
  have hb' : 1.5 * anB = Real.sqrt 3 / 2 * Anti.a := by
    rw [hb]; field_simp; rw [pow_two, h33]; ring
  refine ⟨s, h1, hn, hE, ?_, ?_, ?_⟩
  · intro R i hi
    rw [an_site hc h2 h3 h4 R i hi, hb', hb, show anA = Anti.a from rfl, show anZ = Anti.z from rfl]
    funext y
    split_ifs <;> fin_cases y <;> simp <;> ring
  · intro q hq
    have hm := an_tab.1 q hq
    obtain ⟨b1, b2, b3, b4, -⟩ := an_bounds _ hm
    rw [an_amp h5 _ _ _ b1 b2]
    simp only [anF, Bool.false_eq_true, if_false]
    rw [anAmp, an_idx _ hm, Option.elim_some, an_param b3 b4]
  · intro R i j hq
    rw [h5, if_neg]
    rintro ⟨-, h⟩
    apply h
    simp only [anF, Bool.false_eq_true, if_false, Int.toNat_natCast]
    cases hi : anIdx R i j with
    | none => simp [anAmp, hi]
    | some n => exact absurd (an_tab.2 _ ((anIdx_iff _ _ _ _).1 hi)) (hq n)

/-- **C103 (the symmetries are geometric).** In the same crystal the maps `Anti.rot`, `Anti.mir` and `Anti.inv` of sites are the rotation by
120 degrees about the site of orbital 0, the reflection `y → -y`, and the inversion at the origin. -/
theorem C103_site_maps (H : HashFns ℝ ℂ String) (lam c : ℝ) (hc : c ≠ 0) :
    ∃ s, antimonene H false lam c = .ok s ∧ ∀ R : Cell, ∀ i < 6,
      (∀ u, u = sitePos s R i - sitePos s 0 0 → sitePos s (rot (R, i)).1 (rot (R, i)).2 - sitePos s 0 0 =
        ![-(1 / 2) * u 0 - Real.sqrt 3 / 2 * u 1, Real.sqrt 3 / 2 * u 0 - 1 / 2 * u 1, u 2]) ∧
      sitePos s (mir (R, i)).1 (mir (R, i)).2 = ![sitePos s R i 0, -sitePos s R i 1, sitePos s R i 2] ∧
      sitePos s (Anti.inv (R, i)).1 (Anti.inv (R, i)).2 = -sitePos s R i := by
  obtain ⟨s, h1, h2, h3, h4, h5, hw, h8, h9⟩ := an_spec H false lam c hc
  have h33 : Real.sqrt 3 * Real.sqrt 3 = 3 := Real.mul_self_sqrt (by norm_num)
  have h3p : Real.sqrt 3 ≠ 0 := by positivity
  have ha : anA = anB * Real.sqrt 3 := by rw [anB]; field_simp
  refine ⟨s, h1, fun R i hi => ⟨?_, ?_, ?_⟩⟩
  · rintro u rfl
    have hr : (rot (R, i)).2 < 6 := by simp only [rot]; split_ifs <;> omega
    have hr' : (rot (R, i)).2 < 3 ↔ i < 3 := by simp only [rot]; split_ifs <;> omega
    rw [an_site hc h2 h3 h4 _ _ hr, an_site hc h2 h3 h4 R i hi, an_site hc h2 h3 h4 0 0 (by omega)]
    simp only [hr', ha]
    simp only [rot]
    have h03 : (0 : ℕ) < 3 := by omega
    funext y
    by_cases hi3 : i < 3 <;> simp only [hi3, h03, if_true, if_false] <;> fin_cases y <;> simp <;>
      first
        | linear_combination (0 : ℝ)
        | linear_combination ((R.2.1 - R.1) * anB / 4) * h33
        | linear_combination (-(R.2.1 - R.1) * anB / 4) * h33
  · have hr : (mir (R, i)).2 < 6 := by simp only [mir]; split_ifs <;> omega
    have hr' : (mir (R, i)).2 < 3 ↔ i < 3 := by simp only [mir]; split_ifs <;> omega
    rw [an_site hc h2 h3 h4 _ _ hr, an_site hc h2 h3 h4 R i hi]
    simp only [hr']
    simp only [mir]
    funext y
    split_ifs <;> fin_cases y <;> simp [add_comm] <;> ring
  · have hr : (Anti.inv (R, i)).2 < 6 := by simp only [Anti.inv]; split_ifs <;> omega
    have hr' : (Anti.inv (R, i)).2 < 3 ↔ ¬ i < 3 := by simp only [Anti.inv]; split_ifs <;> omega
    rw [an_site hc h2 h3 h4 _ _ hr, an_site hc h2 h3 h4 R i hi]
    simp only [hr']
    simp only [Anti.inv]
    funext y
    split_ifs <;> fin_cases y <;> simp <;> ring

theorem rot_rot (R : Cell) (i j : ℕ) (hi : i < 6) (hj : j < 6) : image rot (image rot (image rot (R, i, j))) = (R, i, j) := by
  obtain ⟨x, y, z⟩ := R
  interval_cases i <;> interval_cases j <;> simp [image, rot] <;> omega

theorem mir_mir (R : Cell) (i j : ℕ) (hi : i < 6) (hj : j < 6) : image mir (image mir (R, i, j)) = (R, i, j) := by
  obtain ⟨x, y, z⟩ := R
  interval_cases i <;> interval_cases j <;> simp [image, mir]

theorem inv_inv' (R : Cell) (i j : ℕ) (hi : i < 6) (hj : j < 6) : image Anti.inv (image Anti.inv (R, i, j)) = (R, i, j) := by
  obtain ⟨x, y, z⟩ := R
  interval_cases i <;> interval_cases j <;> simp [image, Anti.inv]

/-- A map of sites that keeps the table is a symmetry of the crystal. -/
theorem an_sym {s : PrimCell ℝ ℂ String} {lam : ℝ} (hn : s.numOrb = 6) (hE : ∀ o ∈ s.orbs, o.energy = 0)
    (ham : ∀ R (i j : ℕ), i < 6 → j < 6 → amp s R i j = anF false lam R i j) (G : Cell × ℕ → Cell × ℕ)
    (A : Matrix (Fin 3) (Fin 3) ℤ) (f g : ℕ → ℕ) (τ : ℕ → Cell) (hA : IsUnit A.det) (hG : ∀ R i, G (R, i) = (cellMul A R + τ i, f i))
    (hf : ∀ i < 6, f i < 6 ∧ g i < 6 ∧ g (f i) = i ∧ f (g i) = i) (g' : Cell × ℕ × ℕ → Cell × ℕ × ℕ)
    (hc : ∀ q ∈ anTab, (image G q.1, q.2) ∈ anTab) (hg' : ∀ q ∈ anTab, (g' q.1, q.2) ∈ anTab)
    (hgf : ∀ R, ∀ i < 6, ∀ j < 6, g' (image G (R, i, j)) = (R, i, j)) :
    ∃ σ τ, CrystalSym s A σ τ := by
  let σ : Equiv.Perm (Fin s.numOrb) :=
    { toFun := fun i => ⟨f i, by have := (hf i (by have := i.2; omega)).1; omega⟩
      invFun := fun i => ⟨g i, by have := (hf i (by have := i.2; omega)).2.1; omega⟩
      left_inv := fun i => Fin.ext (hf i (by have := i.2; omega)).2.2.1
      right_inv := fun i => Fin.ext (hf i (by have := i.2; omega)).2.2.2 }
  refine ⟨σ, τ, hA, ?_, ?_⟩
  · have hen : ∀ i : Fin s.numOrb, s.orbs[(i : ℕ)]?.map Orbital.energy = some 0 := by
      intro i
      have hi : (i : ℕ) < s.orbs.length := i.2
      rw [List.getElem?_eq_getElem hi]
      simp [hE _ (List.getElem_mem hi)]
    intro i
    rw [hen, hen]
  · intro R i j
    have hi : (i : ℕ) < 6 := by have := i.2; omega
    have hj : (j : ℕ) < 6 := by have := j.2; omega
    change amp s _ (f i) (f j) = _
    rw [ham _ _ _ (hf _ hi).1 (hf _ hj).1, ham _ _ _ hi hj]
    simp only [anF, Bool.false_eq_true, if_false, anAmp]
    have h1 := anIdx_map (image G) g' hc hg' R i j (hgf R i hi j hj)
    have h2 : image G (R, (i : ℕ), (j : ℕ)) = (cellMul A R + τ j - τ i, f i, f j) := by
      simp only [image, hG]
      have : cellMul A 0 = 0 := by simp [cellMul]
      rw [this, zero_add]
    rw [h2] at h1
    simp only at h1
    rw [h1]

/-- **C103 (bands of antimonene).** The bands of `make_antimonene` without spin-orbit coupling are invariant under the threefold
rotation, the mirror and the inversion of reciprocal space, for both conventions (Bloch vectors in reduced coordinates). -/
theorem C103_bands (H : HashFns ℝ ℂ String) (hO : ∀ l, l ≠ [] → H.orb l ≠ H.orb []) (hP : ∀ l, l ≠ [] → H.hop l ≠ H.hop [])
    (lam c : ℝ) (hc : c ≠ 0) (k k' : Vec3 ℝ) (hk : k' = ![k 1 - k 0, -k 0, k 2] ∨ k' = ![k 1, k 0, k 2] ∨ k' = -k) (conv : ℤ)
    (hcv : conv = 1 ∨ conv = 2) :
    ∃ s ham ham', antimonene H false lam c = .ok s ∧ setHamDense (syncArray H s) k conv = .ok ham ∧
      setHamDense (syncArray H s) k' conv = .ok ham' ∧
      (toMatrix s.numOrb ham').charpoly = (toMatrix s.numOrb ham).charpoly := by
  obtain ⟨s, h1, h2, h3, h4, h5, hw, h8, h9⟩ := an_spec H false lam c hc
  obtain ⟨hn, hE⟩ := an_numOrb false c h4
  obtain ⟨b1, b2, b3, b4, b5, b6, b7⟩ := build_ham hw hO hP h8 h9 (by rw [h4]; simp [anCoords, anLabels]) 0 1 4 (by
    rw [h5, if_pos]
    · simp
    · refine ⟨by simp [anNum], ?_⟩
      simp only [anF, Bool.false_eq_true, if_false, anAmp, Int.toNat_one, show (4 : ℤ).toNat = 4 from rfl, show anIdx 0 1 4 = some 1 by decide +kernel,
        Option.elim_some]
      exact_mod_cast anT_ne (n := 1) (by omega) (by omega))
  have hn' : (syncArray H s).numOrb = 6 := by rw [numOrb, b3]; exact hn
  have hE' : ∀ o ∈ (syncArray H s).orbs, o.energy = 0 := by rw [b3]; exact hE
  have ha : ∀ R (i j : ℕ), i < 6 → j < 6 → amp (syncArray H s) R i j = anF false lam R i j := by
    intro R i j hi hj
    rw [← an_amp h5 R i j hi hj, amp, amp, b4]
  obtain ⟨ham, hh⟩ := b6 k conv hcv
  obtain ⟨ham', hh'⟩ := b6 k' conv hcv
  refine ⟨s, ham, ham', h1, hh, hh', ?_⟩
  have fin : ∀ A : Matrix (Fin 3) (Fin 3) ℤ, kMul A k = k' → (∃ σ τ, CrystalSym (syncArray H s) A σ τ) →
      (toMatrix s.numOrb ham').charpoly = (toMatrix s.numOrb ham).charpoly := by
    rintro A hkA ⟨σ, τ, hS⟩
    have := C100_symmetry b1 b2 hS k conv ham' ham (by rw [hkA]; exact hh') hh
    have e : (syncArray H s).numOrb = s.numOrb := by rw [hn']; exact hn.symm
    rw [e] at this
    exact this.symm
  rcases hk with rfl | rfl | rfl
  · refine fin !![-1, -1, 0; 1, 0, 0; 0, 0, 1] ?_ (an_sym hn' hE' ha rot _ (fun i => if i % 3 = 2 then i - 2 else i + 1)
      (fun i => if i % 3 = 0 then i + 2 else i - 1) (fun i => (if i < 3 then 0 else -1, 0, 0)) ?_ ?_ ?_ (fun b => image rot (image rot b))
      (fun q hq => (an_closed q hq).1) (fun q hq => (an_closed _ (an_closed q hq).1).1) ?_)
    · funext y; fin_cases y <;> simp [kMul, Fin.sum_univ_three]; ring
    · simp [Matrix.det_fin_three]
    · intro R i
      refine Prod.ext (Prod.ext ?_ (Prod.ext ?_ ?_)) ?_ <;> simp [rot, cellMul]; ring
    · decide
    · exact fun R i hi j hj => rot_rot R i j hi hj
  · refine fin !![0, 1, 0; 1, 0, 0; 0, 0, 1] ?_ (an_sym hn' hE' ha mir _ (fun i => if i % 3 = 0 then i + 2 else if i % 3 = 2 then i - 2 else i)
      (fun i => if i % 3 = 0 then i + 2 else if i % 3 = 2 then i - 2 else i) (fun i => 0) ?_ ?_ ?_ (image mir)
      (fun q hq => (an_closed q hq).2.1) (fun q hq => (an_closed q hq).2.1) ?_)
    · funext y; fin_cases y <;> simp [kMul, Fin.sum_univ_three]
    · simp [Matrix.det_fin_three]
    · intro R i
      refine Prod.ext (Prod.ext ?_ (Prod.ext ?_ ?_)) ?_ <;> simp [mir, cellMul]
    · decide
    · exact fun R i hi j hj => mir_mir R i j hi hj
  · refine fin (-1) ?_ (an_sym hn' hE' ha Anti.inv _ (fun i => if i < 3 then i + 3 else i - 3)
      (fun i => if i < 3 then i + 3 else i - 3) (fun i => 0) ?_ ?_ ?_ (image Anti.inv)
      (fun q hq => (an_closed q hq).2.2.1) (fun q hq => (an_closed q hq).2.2.1) ?_)
    · funext y; fin_cases y <;> simp [kMul, Fin.sum_univ_three, Matrix.one_apply]
    · simp [Matrix.det_neg]
    · intro R i
      refine Prod.ext (Prod.ext ?_ (Prod.ext ?_ ?_)) ?_ <;> simp [Anti.inv, cellMul, Matrix.one_apply]
    · decide
    · exact fun R i hi j hj => inv_inv' R i j hi hj

/-- **C103 (spin-orbit coupling).** With spin-orbit coupling of any strength `make_antimonene` returns a crystal with twelve orbitals of
energy zero.  Orbital `6 S + 3 σ + m` is orbital `m` of sublattice `S` with spin `σ`.  The hopping terms are those without coupling,
diagonal in the spin, and the on-site elements of `lam L·S`. -/
theorem C103_soc (H : HashFns ℝ ℂ String) (lam c : ℝ) (hc : c ≠ 0) :
    ∃ s s0, antimonene H true lam c = .ok s ∧ antimonene H false lam c = .ok s0 ∧ s.numOrb = 12 ∧ (∀ o ∈ s.orbs, o.energy = 0) ∧
      ∀ R (S σ S' σ' : Fin 2) (m m' : Fin 3), amp s R (6 * S + 3 * σ + m) (6 * S' + 3 * σ' + m') =
        (if σ = σ' then amp s0 R (3 * S + m) (3 * S' + m') else 0) + if R = 0 ∧ S = S' then Anti.soc lam σ m σ' m' else 0 := by
  obtain ⟨s, h1, h2, h3, h4, h5, hw, h8, h9⟩ := an_spec H true lam c hc
  obtain ⟨hn, hE⟩ := an_numOrb true c h4
  obtain ⟨s0, g1, g2, g3, g4, g5, -⟩ := an_spec H false lam c hc
  refine ⟨s, s0, h1, g1, hn, hE, fun R S σ S' σ' m m' => ?_⟩
  have e := an_amp h5 R (6 * S + 3 * σ + m) (6 * S' + 3 * σ' + m') (by simp only [anNum, if_true]; omega) (by simp only [anNum, if_true]; omega)
  have e' := an_amp g5 R (3 * S + m) (3 * S' + m') (by simp [anNum]; omega) (by simp [anNum]; omega)
  push_cast at e e' ⊢
  rw [e, e']
  have a1 : ∀ S σ : Fin 2, ∀ m : Fin 3, (6 * (S : ℕ) + 3 * σ + m) / 3 % 2 = σ := by intro S σ m; omega
  have a2 : ∀ S σ : Fin 2, ∀ m : Fin 3, (6 * (S : ℕ) + 3 * σ + m) / 6 = S := by intro S σ m; omega
  have a3 : ∀ S σ : Fin 2, ∀ m : Fin 3, (6 * (S : ℕ) + 3 * σ + m) % 3 = m := by intro S σ m; omega
  have a4 : ∀ S σ : Fin 2, ∀ m : Fin 3, (6 * (S : ℕ) + 3 * σ + m) % 6 = 3 * σ + m := by intro S σ m; omega
  simp only [anF, if_true, Bool.false_eq_true, if_false, anKron, a1, a2, a3, a4, anSoc_spec, Fin.val_inj]
  congr 1
  by_cases hR : R = 0 <;> by_cases hS : S = S' <;> simp [hR, hS]

/-- **C103 (degeneracy).** With spin-orbit coupling of any strength every state of `make_antimonene`, at every Bloch vector and in both
conventions, has an orthogonal partner of the same energy: the crystal is invariant under inversion with time reversal. -/
theorem C103_degenerate (H : HashFns ℝ ℂ String) (hO : ∀ l, l ≠ [] → H.orb l ≠ H.orb []) (hP : ∀ l, l ≠ [] → H.hop l ≠ H.hop [])
    (lam c : ℝ) (hc : c ≠ 0) (k : Vec3 ℝ) (conv : ℤ) (hcv : conv = 1 ∨ conv = 2) :
    ∃ s ham, antimonene H true lam c = .ok s ∧ setHamDense (syncArray H s) k conv = .ok ham ∧
      ∀ (μ : ℝ) (v : Fin 12 → ℂ), (toMatrix 12 ham).mulVec v = (μ : ℂ) • v →
        ∃ w, (toMatrix 12 ham).mulVec w = (μ : ℂ) • w ∧ star v ⬝ᵥ w = 0 ∧ star w ⬝ᵥ w = star v ⬝ᵥ v := by
  obtain ⟨s, h1, h2, h3, h4, h5, hw, h8, h9⟩ := an_spec H true lam c hc
  obtain ⟨hn, hE⟩ := an_numOrb true c h4
  have hamp : ∀ R (i j : ℕ), i < 12 → j < 12 → amp s R i j = anF true lam R i j := fun R i j hi hj => an_amp h5 R i j hi hj
  obtain ⟨b1, b2, b3, b4, b5, b6, b7⟩ := build_ham hw hO hP h8 h9 (by rw [h4]; simp [anCoords, anLabels]) 0 1 7 (by
    intro h
    have := hamp 0 1 7 (by omega) (by omega)
    rw [amp] at this
    push_cast at this
    rw [h] at this
    simp only [anF, if_true, anAmp, anKron, show anIdx 0 (3 * (1 / 6) + 1 % 3) (3 * (7 / 6) + 7 % 3) = some 1 by decide +kernel] at this
    norm_num [anT] at this)
  have hn' : (syncArray H s).numOrb = 12 := by rw [numOrb, b3]; exact hn
  obtain ⟨ham, hh⟩ := b6 k conv hcv
  refine ⟨s, ham, h1, hh, ?_⟩
  have hE' : ∀ o ∈ (syncArray H s).orbs, o.energy = 0 := by rw [b3]; exact hE
  have hfull : ∀ R (i j : ℕ), i < 12 → j < 12 → fullAmp (syncArray H s) R i j = anF true lam R i j := by
    intro R i j hi hj
    rw [← hamp R i j hi hj, fullAmp, amp, amp, b4]
    have hi' : i < (syncArray H s).orbs.length := by have := hn'; rw [numOrb] at this; omega
    rw [List.getElem?_eq_getElem hi']
    simp [hE' _ (List.getElem_mem hi')]
  generalize syncArray H s = s' at *
  clear h1 h2 h3 h4 h5 hw h8 h9 hn hE hamp b3 b4 b5 b6 b7
  let f : ℕ → ℕ := fun i => if i < 3 then i + 9 else if i < 6 then i + 3 else if i < 9 then i - 3 else i - 9
  have hf : ∀ i < 12, f i < 12 ∧ f (f i) = i ∧ f i ≠ i := by decide
  let π : Equiv.Perm (Fin s'.numOrb) :=
    { toFun := fun i => ⟨f i, by have := (hf i (by have := i.2; omega)).1; omega⟩
      invFun := fun i => ⟨f i, by have := (hf i (by have := i.2; omega)).1; omega⟩
      left_inv := fun i => Fin.ext (hf i (by have := i.2; omega)).2.1
      right_inv := fun i => Fin.ext (hf i (by have := i.2; omega)).2.1 }
  let u : ℕ → ℂ := fun i => if i % 6 < 3 then 1 else -1
  have hu : ∀ i < 12, u (f i) = -u i := by
    intro i hi
    simp only [u, f]
    interval_cases i <;> simp
  have hu1 : ∀ i, star (u i) * u i = 1 := by intro i; simp only [u]; split_ifs <;> simp
  have hsym : AntiSym s' (-1) (Matrix.of fun a i => if a = π i then u i else 0) (fun _ => 0) := by
    refine antiSym_of_perm (by simp [Matrix.det_neg]) π (fun i => u i) _ fun R i j => ?_
    have hi : (i : ℕ) < 12 := by have := i.2; omega
    have hj : (j : ℕ) < 12 := by have := j.2; omega
    have hcell : cellMul (-1) R + 0 - 0 = -R := by
      refine Prod.ext ?_ (Prod.ext ?_ ?_) <;> simp [cellMul, Matrix.one_apply]
    change fullAmp s' (cellMul (-1) R + 0 - 0) (f i) (f j) * u j = u i * star (fullAmp s' R i j)
    rw [hcell, hfull _ _ _ (hf _ hi).1 (hf _ hj).1, hfull _ _ _ hi hj]
    generalize (i : ℕ) = i at *
    generalize (j : ℕ) = j at *
    simp only [anF, if_true, add_mul, star_add, mul_add, neg_eq_zero]
    congr 1
    · have c1 : ∀ i < 12, f i / 3 % 2 = 1 - i / 3 % 2 := by decide
      have c2 : ∀ i < 12, 3 * (f i / 6) + f i % 3 = if 3 * (i / 6) + i % 3 < 3 then 3 * (i / 6) + i % 3 + 3 else 3 * (i / 6) + i % 3 - 3 := by decide
      rw [c1 i hi, c1 j hj]
      by_cases hs : i / 3 % 2 = j / 3 % 2
      · have hs' : (1 - i / 3 % 2 : ℕ) = 1 - j / 3 % 2 := by omega
        have hij : u i = u j := by
          simp only [u]
          have : i % 6 < 3 ↔ j % 6 < 3 := by omega
          simp only [this]
        rw [if_pos hs', if_pos hs, hij, c2 i hi, c2 j hj]
        have hx : 3 * (i / 6) + i % 3 < 6 := by omega
        have hy : 3 * (j / 6) + j % 3 < 6 := by omega
        generalize 3 * (i / 6) + i % 3 = x at *
        generalize 3 * (j / 6) + j % 3 = y at *
        have key : anAmp (-R) (if x < 3 then x + 3 else x - 3) (if y < 3 then y + 3 else y - 3) = anAmp R x y := by
          have e1 := anIdx_map (image Anti.inv) (image Anti.inv) (fun q hq => (an_closed q hq).2.2.1) (fun q hq => (an_closed q hq).2.2.1) R x y
            (inv_inv' R x y hx hy)
          have e2 : image Anti.inv (R, x, y) = (-R, if x < 3 then x + 3 else x - 3, if y < 3 then y + 3 else y - 3) := by
            simp [image, Anti.inv]
          rw [e2] at e1
          simp only at e1
          rw [anAmp, e1, anAmp]
        rw [key]
        simp [mul_comm]
      · rw [if_neg (by omega), if_neg hs]
        simp
    · by_cases hR : R = 0
      · rw [if_pos hR, if_pos hR]
        have c1 : ∀ i < 12, f i / 6 = 1 - i / 6 := by decide
        have c2 : ∀ i < 12, f i % 6 = (i % 6 + 3) % 6 := by decide
        unfold anKron
        rw [c1 i hi, c1 j hj, c2 i hi, c2 j hj]
        by_cases h6 : i / 6 = j / 6
        · rw [if_pos h6, if_pos (by omega), one_mul, one_mul]
          exact anSoc_flip lam (i % 6) (j % 6) (by omega) (by omega)
        · rw [if_neg h6, if_neg (by omega)]
          simp
      · rw [if_neg hR, if_neg hR]
        simp
  have hdeg := C101_degenerate b1 b2 hsym (by
      ext a i
      have ha : (a : ℕ) < 12 := by have := a.2; omega
      have hi : (i : ℕ) < 12 := by have := i.2; omega
      have h : i = π a ↔ a = π i := by
        constructor <;> rintro rfl
        · exact (π.left_inv a).symm
        · exact (π.left_inv i).symm
      simp only [Matrix.transpose_apply, Matrix.of_apply, Matrix.neg_apply]
      by_cases hx : a = π i
      · rw [if_pos (h.2 hx), if_pos hx, hx]
        exact hu i hi
      · rw [if_neg hx, if_neg (fun h' => hx (h.1 h'))]; simp) (by
      ext i j
      rw [Matrix.mul_apply]
      simp only [Matrix.conjTranspose_apply, Matrix.of_apply, mul_ite, mul_zero, Finset.sum_ite_eq', Finset.mem_univ, if_true,
        π.injective.eq_iff, Matrix.one_apply]
      by_cases hij : i = j
      · subst hij; simpa using hu1 i
      · rw [if_neg (fun h => hij h.symm), if_neg hij]; simp) (by intro a i _; simp [cellMul]) k (by
      intro x
      refine ⟨0, ?_⟩
      fin_cases x <;> simp [kMul, Fin.sum_univ_three, Matrix.one_apply]) conv ham hh
  rw [hn'] at hdeg
  exact hdeg

end Verif.Props

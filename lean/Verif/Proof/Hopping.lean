import Verif.Spec.HopMap
import Mathlib.Tactic.Linarith
import Mathlib.Tactic.SplitIfs
import Mathlib.Tactic.Ring
import Mathlib.Order.Interval.Finset.Basic
import Mathlib.Data.Int.Interval

/-! Helper lemmas for the hopping container. -/

set_option linter.unusedSectionVars false

namespace Verif

theorem cell_neg (R : Cell) : ((-R.1, -R.2.1, -R.2.2) : Cell) = -R := rfl

theorem checkConj_diag (i : ℤ) : checkConj 0 i i = false := by
  simp [checkConj]

theorem checkConj_swap {R : Cell} {i j : ℤ} (h : ¬ (R = 0 ∧ i = j)) :
    checkConj (-R) j i = !checkConj R i j := by
  obtain ⟨a, b, c⟩ := R
  simp only [checkConj, Prod.fst_neg, Prod.snd_neg]
  rcases lt_trichotomy a 0 with ha | ha | ha
  · have h1 : ¬ a > 0 := by omega
    have h2 : -a > 0 := by omega
    simp [ha, h1, h2]
  · subst ha
    rcases lt_trichotomy b 0 with hb | hb | hb
    · have h1 : ¬ b > 0 := by omega
      have h2 : -b > 0 := by omega
      simp [hb, h1, h2]
    · subst hb
      rcases lt_trichotomy c 0 with hc | hc | hc
      · have h1 : ¬ c > 0 := by omega
        have h2 : -c > 0 := by omega
        simp [hc, h1, h2]
      · subst hc
        have hij : i ≠ j := by
          intro e; exact h ⟨rfl, e⟩
        simp only [gt_iff_lt, lt_self_iff_false, if_false, neg_zero]
        by_cases hlt : i < j
        · have : ¬ j < i := by omega
          simp [hlt, this]
        · have : j < i := by omega
          simp [hlt, this]
      · have h1 : ¬ c < 0 := by omega
        have h2 : -c < 0 := by omega
        have h3 : ¬ -c > 0 := by omega
        simp [hc, h1, h2, h3]
    · have h1 : ¬ b < 0 := by omega
      have h2 : -b < 0 := by omega
      have h3 : ¬ -b > 0 := by omega
      simp [hb, h1, h2, h3]
  · have h1 : ¬ a < 0 := by omega
    have h2 : -a < 0 := by omega
    have h3 : ¬ -a > 0 := by omega
    simp [ha, h1, h2, h3]

theorem not_diag_of_checkConj {R : Cell} {i j : ℤ} (h : checkConj R i j = true) :
    ¬ (R = 0 ∧ i = j) := by
  rintro ⟨rfl, rfl⟩
  simp [checkConj_diag] at h

theorem checkConj_swap_of_true {R : Cell} {i j : ℤ} (h : checkConj R i j = true) :
    checkConj (-R) j i = false := by
  rw [checkConj_swap (not_diag_of_checkConj h), h]; rfl

/-- The conjugation decision depends on the orbital pair only through `i > j`. -/
theorem checkConj_congr {R : Cell} {i j i' j' : ℤ} (h : i > j ↔ i' > j') :
    checkConj R i j = checkConj R i' j' := by
  simp only [checkConj, decide_eq_decide.2 h]

namespace IntraHop

variable {E : Type*} [InvolutiveStar E]

/-- Flat lookup in the stored dictionaries. -/
def look (h : IntraHop E) (R : Cell) (p : Pair) : Option E :=
  (PyDict.get? h R).bind (fun d => PyDict.get? d p)

/-- Representation invariant. -/
structure Inv (h : IntraHop E) : Prop where
  wf : PyDict.WF h
  wfd : ∀ R d, (R, d) ∈ h → PyDict.WF d
  norm : ∀ R d, (R, d) ∈ h → ∀ p ∈ PyDict.keys d, checkConj R p.1 p.2 = false

theorem normKeys_eq (R : Cell) (i j : ℤ) :
    normKeys R i j = if checkConj R i j then (-R, (j, i), true) else (R, (i, j), false) := by
  unfold normKeys
  cases h : checkConj R i j <;> simp <;> rfl

theorem get_eq_look (h : IntraHop E) (R : Cell) (i j : ℤ) :
    get h R i j = if checkConj R i j then (look h (-R) (j, i)).map star else look h R (i, j) := by
  unfold get look
  rw [normKeys_eq]
  cases hc : checkConj R i j
  · simp only [Bool.false_eq_true, if_false]
    cases PyDict.get? h R with
    | none => rfl
    | some d => cases hd : PyDict.get? d (i, j) <;> simp [hd]
  · simp only [if_true]
    cases PyDict.get? h (-R) with
    | none => rfl
    | some d => cases hd : PyDict.get? d (j, i) <;> simp [hd]

theorem look_norm {h : IntraHop E} (hi : Inv h) {R : Cell} {p : Pair} {e : E}
    (hl : look h R p = some e) : checkConj R p.1 p.2 = false := by
  unfold look at hl
  cases hd : PyDict.get? h R with
  | none => simp [hd] at hl
  | some d =>
    simp only [hd, Option.bind_some] at hl
    exact hi.norm R d (PyDict.mem_of_get? hd) p ((PyDict.get?_isSome_iff d p).1 ⟨e, hl⟩)

/-- Normalised key. -/
def nkey (R : Cell) (i j : ℤ) : Cell × Pair :=
  if checkConj R i j then (-R, (j, i)) else (R, (i, j))

theorem nkey_norm (R : Cell) (i j : ℤ) :
    checkConj (nkey R i j).1 (nkey R i j).2.1 (nkey R i j).2.2 = false := by
  unfold nkey
  cases h : checkConj R i j
  · simpa using h
  · simpa using checkConj_swap_of_true h

theorem nkey_eq_iff (R R' : Cell) (i j i' j' : ℤ) :
    nkey R i j = nkey R' i' j' ↔
      (R' = R ∧ i' = i ∧ j' = j) ∨ (R' = -R ∧ i' = j ∧ j' = i) := by
  constructor
  · intro h
    unfold nkey at h
    cases h1 : checkConj R i j <;> cases h2 : checkConj R' i' j' <;>
      simp only [h1, h2, Bool.false_eq_true, if_false, if_true, Prod.mk.injEq] at h
    · exact Or.inl ⟨h.1.symm, h.2.1.symm, h.2.2.symm⟩
    · exact Or.inr ⟨by rw [h.1, neg_neg], h.2.2.symm, h.2.1.symm⟩
    · exact Or.inr ⟨h.1.symm, h.2.1.symm, h.2.2.symm⟩
    · exact Or.inl ⟨(neg_injective h.1).symm, h.2.2.symm, h.2.1.symm⟩
  · rintro (⟨rfl, rfl, rfl⟩ | ⟨rfl, rfl, rfl⟩)
    · rfl
    · unfold nkey
      by_cases hd : R = 0 ∧ j' = i'
      · obtain ⟨rfl, rfl⟩ := hd
        simp
      · rw [checkConj_swap hd]
        cases checkConj R j' i' <;> simp

theorem get_eq_look' (h : IntraHop E) (R : Cell) (i j : ℤ) :
    get h R i j = (look h (nkey R i j).1 (nkey R i j).2).map
      (fun e => if checkConj R i j then star e else e) := by
  rw [get_eq_look]
  unfold nkey
  cases checkConj R i j <;> simp

theorem look_add (h : IntraHop E) (R : Cell) (i j : ℤ) (e : E) (R' : Cell) (p : Pair) :
    look (add h R i j e) R' p =
      if (R', p) = nkey R i j then some (if checkConj R i j then star e else e)
      else look h R' p := by
  unfold add look
  rw [normKeys_eq]
  have hk : ((if checkConj R i j then (-R, (j, i), true) else (R, (i, j), false)) :
      Cell × Pair × Bool).1 = (nkey R i j).1 := by
    unfold nkey; cases checkConj R i j <;> rfl
  have hk2 : ((if checkConj R i j then (-R, (j, i), true) else (R, (i, j), false)) :
      Cell × Pair × Bool).2.1 = (nkey R i j).2 := by
    unfold nkey; cases checkConj R i j <;> rfl
  have hk3 : ((if checkConj R i j then (-R, (j, i), true) else (R, (i, j), false)) :
      Cell × Pair × Bool).2.2 = checkConj R i j := by
    cases checkConj R i j <;> rfl
  simp only [hk, hk2, hk3]
  rw [PyDict.get?_set]
  by_cases h1 : R' = (nkey R i j).1
  · simp only [h1, if_true, Option.bind_some, PyDict.get?_set]
    by_cases h2 : p = (nkey R i j).2
    · simp [h2]
    · have : ¬ ((nkey R i j).1, p) = nkey R i j := by
        intro hh; exact h2 (by rw [← hh])
      simp only [h2, this, if_false]
      cases PyDict.get? h (nkey R i j).1 <;> simp
  · have : ¬ (R', p) = nkey R i j := by
      intro hh; exact h1 (by rw [← hh])
    simp [h1, this]

theorem mem_set_iff {K V : Type*} [DecidableEq K] {d : PyDict K V} (hd : PyDict.WF d)
    (k : K) (v : V) (k₂ : K) (v₂ : V) :
    (k₂, v₂) ∈ PyDict.set d k v ↔ (k₂ = k ∧ v₂ = v) ∨ (k₂ ≠ k ∧ (k₂, v₂) ∈ d) := by
  rw [PyDict.mem_iff_get? (PyDict.WF_set hd k v), PyDict.get?_set, PyDict.mem_iff_get? hd]
  by_cases h : k₂ = k <;> simp [h, eq_comm]

theorem Inv_empty : Inv (empty : IntraHop E) :=
  ⟨PyDict.WF_nil, by simp [empty], by simp [empty]⟩

theorem Inv_add {h : IntraHop E} (hi : Inv h) (R : Cell) (i j : ℤ) (e : E) :
    Inv (add h R i j e) := by
  have hd : PyDict.WF ((PyDict.get? h (normKeys R i j).1).getD []) := by
    cases hg : PyDict.get? h (normKeys R i j).1 with
    | none => exact PyDict.WF_nil
    | some d => exact hi.wfd _ _ (PyDict.mem_of_get? hg)
  refine ⟨PyDict.WF_set hi.wf _ _, ?_, ?_⟩
  · intro R' d hm
    rw [add, mem_set_iff hi.wf] at hm
    rcases hm with ⟨_, rfl⟩ | ⟨_, hm⟩
    · exact PyDict.WF_set hd _ _
    · exact hi.wfd _ _ hm
  · intro R' d hm p hp
    rw [add, mem_set_iff hi.wf] at hm
    rcases hm with ⟨rfl, rfl⟩ | ⟨_, hm⟩
    · rw [PyDict.mem_keys_set] at hp
      rcases hp with rfl | hp
      · have := nkey_norm R i j
        rw [normKeys_eq]
        unfold nkey at this
        cases hc : checkConj R i j <;> simpa [hc] using this
      · cases hg : PyDict.get? h (normKeys R i j).1 with
        | none => simp [hg] at hp
        | some d =>
          simp only [hg, Option.getD_some] at hp
          exact hi.norm _ _ (PyDict.mem_of_get? hg) p hp
    · exact hi.norm _ _ hm p hp

theorem get_add {h : IntraHop E} (R : Cell) (i j : ℤ) (e : E) (hnd : ¬ (R = 0 ∧ i = j)) :
    get (add h R i j e) = HopMap.add (get h) R i j e := by
  funext R' i' j'
  rw [get_eq_look', look_add, HopMap.add, get_eq_look']
  have hiff := nkey_eq_iff R R' i j i' j'
  by_cases h1 : R' = R ∧ i' = i ∧ j' = j
  · obtain ⟨rfl, rfl, rfl⟩ := h1
    cases checkConj R' i' j' <;> simp
  · by_cases h2 : R' = -R ∧ i' = j ∧ j' = i
    · have he : nkey R' i' j' = nkey R i j := (hiff.2 (Or.inr h2)).symm
      rw [if_neg h1, if_pos h2, he, if_pos rfl]
      obtain ⟨rfl, rfl, rfl⟩ := h2
      simp only [checkConj_swap hnd]
      cases checkConj R j' i' <;> simp
    · have he : ¬ ((nkey R' i' j').1, (nkey R' i' j').2) = nkey R i j := by
        intro hh
        rcases hiff.1 hh.symm with h | h
        · exact h1 h
        · exact h2 h
      simp only [h1, h2, he, if_false]

theorem get_add_diag {h : IntraHop E} (i : ℤ) (e : E) :
    get (add h 0 i i e) = HopMap.add (get h) 0 i i e := by
  funext R' i' j'
  rw [get_eq_look', look_add, HopMap.add, get_eq_look']
  have hiff := nkey_eq_iff 0 R' i i i' j'
  by_cases h1 : R' = 0 ∧ i' = i ∧ j' = i
  · obtain ⟨rfl, rfl, rfl⟩ := h1
    simp [checkConj_diag]
  · have h2 : ¬ (R' = -0 ∧ i' = i ∧ j' = i) := by simpa using h1
    have he : ¬ ((nkey R' i' j').1, (nkey R' i' j').2) = nkey 0 i i := by
      intro hh
      rcases hiff.1 hh.symm with h | h
      · exact h1 h
      · exact h2 h
    simp only [h1, h2, he, if_false]

theorem look_remove {h : IntraHop E} (hi : Inv h) (R : Cell) (i j : ℤ) (R' : Cell) (p : Pair) :
    look (remove h R i j).1 R' p = if (R', p) = nkey R i j then none else look h R' p := by
  have hk1 : (normKeys R i j).1 = (nkey R i j).1 := by
    rw [normKeys_eq]; unfold nkey; cases checkConj R i j <;> rfl
  have hk2 : (normKeys R i j).2.1 = (nkey R i j).2 := by
    rw [normKeys_eq]; unfold nkey; cases checkConj R i j <;> rfl
  unfold remove
  simp only [hk1, hk2]
  cases hg : PyDict.get? h (nkey R i j).1 with
  | none =>
    by_cases h1 : (R', p) = nkey R i j
    · simp only [h1, if_true]
      rw [look, show R' = (nkey R i j).1 by rw [← h1], hg]; rfl
    · simp [h1]
  | some d =>
    cases hp : PyDict.get? d (nkey R i j).2 with
    | none =>
      simp only [hp]
      by_cases h1 : (R', p) = nkey R i j
      · simp only [h1, if_true]
        rw [look, show R' = (nkey R i j).1 by rw [← h1], hg,
          show p = (nkey R i j).2 by rw [← h1]]
        simpa using hp
      · simp [h1]
    | some e =>
      simp only [hp, look, PyDict.get?_set]
      have hwd := hi.wfd _ _ (PyDict.mem_of_get? hg)
      by_cases h1 : R' = (nkey R i j).1
      · simp only [h1, if_true, Option.bind_some, PyDict.get?_erase hwd, hg]
        by_cases h2 : p = (nkey R i j).2
        · simp [h2]
        · have : ¬ ((nkey R i j).1, p) = nkey R i j := by
            intro hh; exact h2 (by rw [← hh])
          simp [h2, this]
      · have : ¬ (R', p) = nkey R i j := by
          intro hh; exact h1 (by rw [← hh])
        simp [h1, this]

theorem Inv_remove {h : IntraHop E} (hi : Inv h) (R : Cell) (i j : ℤ) :
    Inv (remove h R i j).1 := by
  unfold remove
  cases hg : PyDict.get? h (normKeys R i j).1 with
  | none => simpa [hg] using hi
  | some d =>
    cases hp : PyDict.get? d (normKeys R i j).2.1 with
    | none => simpa [hg, hp] using hi
    | some e =>
      simp only [hg, hp]
      refine ⟨PyDict.WF_set hi.wf _ _, ?_, ?_⟩
      · intro R' d' hm
        rw [mem_set_iff hi.wf] at hm
        rcases hm with ⟨_, rfl⟩ | ⟨_, hm⟩
        · exact PyDict.WF_erase (hi.wfd _ _ (PyDict.mem_of_get? hg)) _
        · exact hi.wfd _ _ hm
      · intro R' d' hm p hp'
        rw [mem_set_iff hi.wf] at hm
        rcases hm with ⟨rfl, rfl⟩ | ⟨_, hm⟩
        · refine hi.norm _ _ (PyDict.mem_of_get? hg) p ?_
          obtain ⟨q, hq, rfl⟩ := List.mem_map.1 hp'
          exact List.mem_map.2 ⟨q, PyDict.mem_of_mem_erase hq, rfl⟩
        · exact hi.norm _ _ hm p hp'

theorem get_remove {h : IntraHop E} (hi : Inv h) (R : Cell) (i j : ℤ) :
    get (remove h R i j).1 = HopMap.remove (get h) R i j := by
  funext R' i' j'
  rw [get_eq_look', look_remove hi, HopMap.remove, get_eq_look']
  have hiff := nkey_eq_iff R R' i j i' j'
  by_cases h1 : (R' = R ∧ i' = i ∧ j' = j) ∨ (R' = -R ∧ i' = j ∧ j' = i)
  · have he : nkey R' i' j' = nkey R i j := (hiff.2 h1).symm
    simp [h1, he]
  · have he : ¬ ((nkey R' i' j').1, (nkey R' i' j').2) = nkey R i j :=
      fun hh => h1 (hiff.1 hh.symm)
    simp [h1, he]

/-- Outer key under which terms to cell `R` are stored. -/
theorem normKeys_fst_rn (R : Cell) :
    (normKeys R 0 0).1 = R ∨ (normKeys R 0 0).1 = -R := by
  rw [normKeys_eq]; cases checkConj R 0 0 <;> simp

theorem nkey_fst_eq_iff (R R' : Cell) (i j : ℤ) :
    (nkey R' i j).1 = (normKeys R 0 0).1 ↔ (R' = R ∨ R' = -R) := by
  have key : ∀ (S : Cell) (i j : ℤ), S ≠ 0 → checkConj S i j = checkConj S 0 0 := by
    rintro ⟨a, b, c⟩ i j hS
    simp only [checkConj]
    split_ifs <;> try rfl
    exfalso
    apply hS
    have ha : a = 0 := by omega
    have hb : b = 0 := by omega
    have hc : c = 0 := by omega
    simp [ha, hb, hc]
  by_cases h0 : R' = 0
  · subst h0
    have : (nkey 0 i j).1 = 0 := by
      unfold nkey; cases checkConj 0 i j <;> simp
    rw [this, normKeys_eq]
    constructor
    · intro h
      cases hc : checkConj R 0 0 <;> simp [hc] at h
      · exact Or.inl h
      · exact Or.inr (by rw [h]; simp)
    · rintro (h | h)
      · subst h; simp [checkConj_diag]
      · have : R = 0 := by rw [← neg_neg R, ← h, neg_zero]
        subst this; simp [checkConj_diag]
  · have e1 : (nkey R' i j).1 = (nkey R' 0 0).1 := by
      unfold nkey; rw [key R' i j h0]; cases checkConj R' 0 0 <;> rfl
    have e2 : (normKeys R 0 0).1 = (nkey R 0 0).1 := by
      rw [normKeys_eq]; unfold nkey; cases checkConj R 0 0 <;> rfl
    have e3 : ∀ S : Cell, (nkey S 0 0).2 = (0, 0) := by
      intro S; unfold nkey; cases checkConj S 0 0 <;> rfl
    rw [e1, e2]
    have := nkey_eq_iff R R' 0 0 0 0
    simp only [and_true] at this
    rw [← this, eq_comm]
    constructor
    · intro h; exact Prod.ext h (by rw [e3, e3])
    · intro h; rw [h]

theorem look_removeRn {h : IntraHop E} (hi : Inv h) (R R' : Cell) (p : Pair) :
    look (removeRn h R).1 R' p = if R' = (normKeys R 0 0).1 then none else look h R' p := by
  unfold removeRn
  simp only
  cases hg : PyDict.get? h (normKeys R 0 0).1 with
  | none =>
    by_cases h1 : R' = (normKeys R 0 0).1
    · simp [h1, look, hg]
    · simp [h1]
  | some d =>
    simp only [look, PyDict.get?_erase hi.wf]
    by_cases h1 : R' = (normKeys R 0 0).1 <;> simp [h1]

theorem Inv_removeRn {h : IntraHop E} (hi : Inv h) (R : Cell) : Inv (removeRn h R).1 := by
  unfold removeRn
  simp only
  cases hg : PyDict.get? h (normKeys R 0 0).1 with
  | none => exact hi
  | some d =>
    exact ⟨PyDict.WF_erase hi.wf _, fun R' d' hm => hi.wfd _ _ (PyDict.mem_of_mem_erase hm),
      fun R' d' hm => hi.norm _ _ (PyDict.mem_of_mem_erase hm)⟩

theorem get_removeRn {h : IntraHop E} (hi : Inv h) (R : Cell) :
    get (removeRn h R).1 = HopMap.removeRn (get h) R := by
  funext R' i' j'
  rw [get_eq_look', look_removeRn hi, HopMap.removeRn, get_eq_look']
  have hiff := nkey_fst_eq_iff R R' i' j'
  by_cases h1 : R' = R ∨ R' = -R
  · simp [h1, hiff.2 h1]
  · have : ¬ (nkey R' i' j').1 = (normKeys R 0 0).1 := fun hh => h1 (hiff.1 hh)
    simp [h1, this]

theorem Inv_purge {h : IntraHop E} (hi : Inv h) : Inv (purge h) :=
  ⟨PyDict.WF_filter hi.wf _, fun R d hm => hi.wfd R d (List.mem_of_mem_filter hm),
    fun R d hm => hi.norm R d (List.mem_of_mem_filter hm)⟩

theorem look_iff_mem {h : IntraHop E} (hi : Inv h) (R : Cell) (p : Pair) (e : E) :
    look h R p = some e ↔ ∃ d, (R, d) ∈ h ∧ (p, e) ∈ d := by
  unfold look
  constructor
  · intro hl
    cases hd : PyDict.get? h R with
    | none => simp [hd] at hl
    | some d =>
      simp only [hd, Option.bind_some] at hl
      exact ⟨d, PyDict.mem_of_get? hd, PyDict.mem_of_get? hl⟩
  · rintro ⟨d, hd, hp⟩
    rw [(PyDict.mem_iff_get? hi.wf R d).1 hd]
    simpa using (PyDict.mem_iff_get? (hi.wfd R d hd) p e).1 hp

theorem look_purge {h : IntraHop E} (hi : Inv h) (R : Cell) (p : Pair) :
    look (purge h) R p = look h R p := by
  apply Option.ext
  intro e
  rw [look_iff_mem (Inv_purge hi), look_iff_mem hi]
  constructor
  · rintro ⟨d, hd, hp⟩; exact ⟨d, List.mem_of_mem_filter hd, hp⟩
  · rintro ⟨d, hd, hp⟩
    refine ⟨d, List.mem_filter.2 ⟨hd, ?_⟩, hp⟩
    cases d with
    | nil => simp at hp
    | cons a d => rfl

theorem get_purge {h : IntraHop E} (hi : Inv h) : get (purge h) = get h := by
  funext R i j
  rw [get_eq_look', look_purge hi, ← get_eq_look']

/-! ### Renumbering -/

theorem mem_sortedSet (L : List ℤ) (x : ℤ) : x ∈ sortedSet L ↔ x ∈ L := by
  unfold sortedSet
  rw [List.mem_insertionSort, List.mem_dedup]

theorem nodup_sortedSet (L : List ℤ) : (sortedSet L).Nodup := by
  unfold sortedSet
  exact (List.perm_insertionSort _ _).nodup_iff.2 (List.nodup_dedup L)

theorem remapIndex_eq_rank (L : List ℤ) (x : ℤ) :
    remapIndex (sortedSet L) x = HopMap.rank L x := by
  have gen : ∀ (l : List ℤ) (acc : ℤ), l.foldl (fun result j => if j < x then result - 1 else result) acc
      = acc - (l.filter (· < x)).length := by
    intro l
    induction l with
    | nil => intro acc; simp
    | cons a l ih =>
      intro acc
      rw [List.foldl_cons, ih]
      by_cases h : a < x
      · simp [h]; ring
      · simp [h]
  unfold remapIndex HopMap.rank
  rw [gen]
  congr 2
  have hnd : ((sortedSet L).filter (· < x)).Nodup := (nodup_sortedSet L).filter _
  rw [← List.toFinset_card_of_nodup hnd]
  congr 1
  ext y
  simp [mem_sortedSet]

end IntraHop

namespace HopMap

theorem rank_lt_rank {L : List ℤ} {x y : ℤ} (hx : x ∉ L) (hxy : x < y) :
    rank L x < rank L y := by
  unfold rank
  have hsub : L.toFinset.filter (· < y) ⊆ L.toFinset.filter (· < x) ∪ Finset.Ioo x y := by
    intro r hr
    simp only [Finset.mem_filter, List.mem_toFinset, Finset.mem_union, Finset.mem_Ioo] at hr ⊢
    by_cases h : r < x
    · exact Or.inl ⟨hr.1, h⟩
    · refine Or.inr ⟨lt_of_le_of_ne (not_lt.1 h) ?_, hr.2⟩
      rintro rfl; exact hx hr.1
  have h1 := Finset.card_le_card hsub
  have h2 := Finset.card_union_le (L.toFinset.filter (· < x)) (Finset.Ioo x y)
  have h3 : (Finset.Ioo x y).card = (y - x - 1).toNat := Int.card_Ioo x y
  omega

theorem rank_lt_rank_iff {L : List ℤ} {x y : ℤ} (hx : x ∉ L) (hy : y ∉ L) :
    rank L x < rank L y ↔ x < y := by
  constructor
  · intro h
    by_contra hn
    rcases eq_or_lt_of_le (not_lt.1 hn) with he | hlt
    · subst he; exact lt_irrefl _ h
    · exact lt_asymm h (rank_lt_rank hy hlt)
  · exact rank_lt_rank hx

theorem rank_inj {L : List ℤ} {x y : ℤ} (hx : x ∉ L) (hy : y ∉ L) (h : rank L x = rank L y) :
    x = y := by
  rcases lt_trichotomy x y with hlt | he | hlt
  · exact absurd h (ne_of_lt (rank_lt_rank hx hlt))
  · exact he
  · exact absurd h.symm (ne_of_lt (rank_lt_rank hy hlt))

theorem rank_nonneg {L : List ℤ} (hL : ∀ r ∈ L, 0 ≤ r) {x : ℤ} (hx : 0 ≤ x) : 0 ≤ rank L x := by
  unfold rank
  have hsub : L.toFinset.filter (· < x) ⊆ Finset.Ico 0 x := by
    intro r hr
    simp only [Finset.mem_filter, List.mem_toFinset, Finset.mem_Ico] at hr ⊢
    exact ⟨hL r hr.1, hr.2⟩
  have h1 := Finset.card_le_card hsub
  have h3 : (Finset.Ico (0:ℤ) x).card = (x - 0).toNat := Int.card_Ico 0 x
  omega

/-- Surviving indices below `n` are renumbered below `n` minus the number of removed ones. -/
theorem rank_lt {L : List ℤ} {x n : ℤ} (hx : x ∉ L) (hxn : x < n) (hL : ∀ r ∈ L, r < n) :
    rank L x < n - (L.toFinset.card : ℤ) := by
  have h := rank_lt_rank (L := L) hx hxn
  have : rank L n = n - (L.toFinset.card : ℤ) := by
    unfold rank
    rw [Finset.filter_true_of_mem]
    intro r hr
    exact hL r (List.mem_toFinset.1 hr)
  omega

end HopMap

namespace IntraHop

variable {E : Type*} [InvolutiveStar E]

theorem remapPair_eq (L : List ℤ) (p : Pair) :
    remapPair (sortedSet L) p =
      if p.1 ∈ L ∨ p.2 ∈ L then none else some (HopMap.rank L p.1, HopMap.rank L p.2) := by
  unfold remapPair
  simp only [mem_sortedSet, remapIndex_eq_rank]

theorem remapPair_inj (L : List ℤ) {p q a : Pair} (hp : remapPair (sortedSet L) p = some a)
    (hq : remapPair (sortedSet L) q = some a) : p = q := by
  rw [remapPair_eq] at hp hq
  by_cases h1 : p.1 ∈ L ∨ p.2 ∈ L
  · simp [h1] at hp
  · by_cases h2 : q.1 ∈ L ∨ q.2 ∈ L
    · simp [h2] at hq
    · simp only [h1, h2, if_false, Option.some.injEq] at hp hq
      rw [← hq] at hp
      simp only [Prod.mk.injEq] at hp
      push Not at h1 h2
      exact Prod.ext (HopMap.rank_inj h1.1 h2.1 hp.1) (HopMap.rank_inj h1.2 h2.2 hp.2)

theorem mem_removeOrbitals (h : IntraHop E) (L : List ℤ) (R : Cell) (d : PyDict Pair E) :
    (R, d) ∈ removeOrbitals h L ↔
      ∃ d₀, (R, d₀) ∈ h ∧ d = PyDict.remap (remapPair (sortedSet L)) d₀ := by
  unfold removeOrbitals
  rw [List.mem_map]
  constructor
  · rintro ⟨⟨R', d₀⟩, hm, he⟩
    obtain ⟨h1, h2⟩ := Prod.mk.inj he
    exact ⟨d₀, by rw [← h1]; exact hm, h2.symm⟩
  · rintro ⟨d₀, hm, rfl⟩; exact ⟨(R, d₀), hm, rfl⟩

theorem rank_checkConj {L : List ℤ} (R : Cell) {i j : ℤ} (hi : i ∉ L) (hj : j ∉ L) :
    checkConj R (HopMap.rank L i) (HopMap.rank L j) = checkConj R i j :=
  checkConj_congr (HopMap.rank_lt_rank_iff hj hi)

theorem Inv_removeOrbitals {h : IntraHop E} (hi : Inv h) (L : List ℤ) :
    Inv (removeOrbitals h L) := by
  refine ⟨?_, ?_, ?_⟩
  · have : PyDict.keys (removeOrbitals h L) = PyDict.keys h := by
      unfold removeOrbitals PyDict.keys
      rw [List.map_map]; rfl
    rw [PyDict.WF, this]; exact hi.wf
  · intro R d hm
    obtain ⟨d₀, hd₀, rfl⟩ := (mem_removeOrbitals h L R d).1 hm
    exact PyDict.WF_remap _ (hi.wfd R d₀ hd₀) (fun p _ q _ a => remapPair_inj L)
  · intro R d hm p hp
    obtain ⟨d₀, hd₀, rfl⟩ := (mem_removeOrbitals h L R d).1 hm
    obtain ⟨⟨q, e⟩, hq, rfl⟩ := List.mem_map.1 hp
    obtain ⟨k, hk, hkm⟩ := (PyDict.mem_remap _ (hi.wfd R d₀ hd₀)
      (fun p _ q _ a => remapPair_inj L) q e).1 hq
    rw [remapPair_eq] at hk
    by_cases h1 : k.1 ∈ L ∨ k.2 ∈ L
    · simp [h1] at hk
    · simp only [h1, if_false, Option.some.injEq] at hk
      push Not at h1
      subst hk
      simp only
      rw [rank_checkConj R h1.1 h1.2]
      exact hi.norm R d₀ hd₀ k (PyDict.mem_keys_of_mem hkm)

theorem look_removeOrbitals {h : IntraHop E} (hi : Inv h) (L : List ℤ) (R : Cell) (q : Pair) (e : E) :
    look (removeOrbitals h L) R q = some e ↔
      ∃ i j, i ∉ L ∧ j ∉ L ∧ q = (HopMap.rank L i, HopMap.rank L j) ∧ look h R (i, j) = some e := by
  rw [look_iff_mem (Inv_removeOrbitals hi L)]
  constructor
  · rintro ⟨d, hd, hp⟩
    obtain ⟨d₀, hd₀, rfl⟩ := (mem_removeOrbitals h L R d).1 hd
    obtain ⟨k, hk, hkm⟩ := (PyDict.mem_remap _ (hi.wfd R d₀ hd₀)
      (fun p _ q _ a => remapPair_inj L) q e).1 hp
    rw [remapPair_eq] at hk
    by_cases h1 : k.1 ∈ L ∨ k.2 ∈ L
    · simp [h1] at hk
    · simp only [h1, if_false, Option.some.injEq] at hk
      push Not at h1
      exact ⟨k.1, k.2, h1.1, h1.2, hk.symm, (look_iff_mem hi R k e).2 ⟨d₀, hd₀, hkm⟩⟩
  · rintro ⟨i, j, hiL, hjL, rfl, hl⟩
    obtain ⟨d₀, hd₀, hkm⟩ := (look_iff_mem hi R (i, j) e).1 hl
    refine ⟨_, (mem_removeOrbitals h L R _).2 ⟨d₀, hd₀, rfl⟩, ?_⟩
    refine (PyDict.mem_remap _ (hi.wfd R d₀ hd₀)
      (fun p _ q _ a => remapPair_inj L) _ e).2 ⟨(i, j), ?_, hkm⟩
    rw [remapPair_eq]; simp [hiL, hjL]

theorem look_removeOrbitals_rank {h : IntraHop E} (hi : Inv h) (L : List ℤ) (R : Cell) {i j : ℤ}
    (hiL : i ∉ L) (hjL : j ∉ L) :
    look (removeOrbitals h L) R (HopMap.rank L i, HopMap.rank L j) = look h R (i, j) := by
  apply Option.ext
  intro e
  rw [look_removeOrbitals hi]
  constructor
  · rintro ⟨i', j', hi', hj', hq, hl⟩
    simp only [Prod.mk.injEq] at hq
    rw [HopMap.rank_inj hiL hi' hq.1, HopMap.rank_inj hjL hj' hq.2]
    exact hl
  · intro hl; exact ⟨i, j, hiL, hjL, rfl, hl⟩

theorem get_removeOrbitals {h : IntraHop E} (hi : Inv h) (L : List ℤ) :
    HopMap.IsRemoval (get h) L (get (removeOrbitals h L)) := by
  constructor
  · intro R i j hiL hjL
    rw [get_eq_look, get_eq_look, rank_checkConj R hiL hjL,
      look_removeOrbitals_rank hi L R hiL hjL, look_removeOrbitals_rank hi L (-R) hjL hiL]
  · intro R a b hne
    rw [get_eq_look] at hne
    cases hc : checkConj R a b
    · simp only [hc, Bool.false_eq_true, if_false] at hne
      obtain ⟨e, he⟩ := Option.ne_none_iff_exists'.1 hne
      obtain ⟨i, j, hiL, hjL, hq, -⟩ := (look_removeOrbitals hi L R (a, b) e).1 he
      simp only [Prod.mk.injEq] at hq
      exact ⟨i, j, hiL, hjL, hq.1, hq.2⟩
    · simp only [hc, if_true] at hne
      have hne' : look (removeOrbitals h L) (-R) (b, a) ≠ none := by
        intro hh; rw [hh] at hne; exact hne rfl
      obtain ⟨e, he⟩ := Option.ne_none_iff_exists'.1 hne'
      obtain ⟨i, j, hiL, hjL, hq, -⟩ := (look_removeOrbitals hi L (-R) (b, a) e).1 he
      simp only [Prod.mk.injEq] at hq
      exact ⟨j, i, hjL, hiL, hq.2, hq.1⟩

theorem Inv_step {h : IntraHop E} (hi : Inv h) (op : Op E) : Inv (step h op) := by
  cases op with
  | add R i j e => exact Inv_add hi R i j e
  | remove R i j => exact Inv_remove hi R i j
  | removeOrbitals L => exact Inv_removeOrbitals hi L
  | removeRn R => exact Inv_removeRn hi R
  | purge => exact Inv_purge hi

theorem Inv_foldl {h : IntraHop E} (hi : Inv h) (ops : List (Op E)) : Inv (ops.foldl step h) := by
  induction ops generalizing h with
  | nil => exact hi
  | cons op ops ih => exact ih (Inv_step hi op)

theorem Inv_run (ops : List (Op E)) : Inv (run ops) := Inv_foldl Inv_empty ops

theorem get_step {h : IntraHop E} (hi : Inv h) (op : Op E) :
    HopMap.Step (get h) op (get (step h op)) := by
  cases op with
  | add R i j e =>
    by_cases hd : R = 0 ∧ i = j
    · obtain ⟨rfl, rfl⟩ := hd
      exact get_add_diag i e
    · exact get_add R i j e hd
  | remove R i j => exact get_remove hi R i j
  | removeOrbitals L => exact get_removeOrbitals hi L
  | removeRn R => exact get_removeRn hi R
  | purge => exact get_purge hi

theorem get_conjSymm (h : IntraHop E) : HopMap.ConjSymm (get h) := by
  intro R i j hnd
  rw [get_eq_look, get_eq_look, checkConj_swap hnd, neg_neg]
  cases checkConj R i j
  · simp
  · simp only [Bool.not_true, Bool.false_eq_true, if_false, if_true, Option.map_map]
    cases look h (-R) (j, i) <;> simp

/-! ### Exported list -/

theorem mem_toList {h : IntraHop E} (hi : Inv h) (R : Cell) (p : Pair) (e : E) :
    (R, p, e) ∈ toList h ↔ look h R p = some e := by
  rw [← look_purge hi, look_iff_mem (Inv_purge hi)]
  unfold toList
  rw [List.mem_flatMap]
  constructor
  · rintro ⟨⟨R', d⟩, hd, hm⟩
    obtain ⟨⟨p', e'⟩, hp, he⟩ := List.mem_map.1 hm
    simp only [Prod.mk.injEq] at he
    obtain ⟨rfl, rfl, rfl⟩ := he
    exact ⟨d, hd, hp⟩
  · rintro ⟨d, hd, hp⟩
    exact ⟨(R, d), hd, List.mem_map.2 ⟨(p, e), hp, rfl⟩⟩

theorem toList_keys_nodup {h : IntraHop E} (hi : Inv h) :
    ((toList h).map (fun t => (t.1, t.2.1))).Nodup := by
  have hp := Inv_purge hi
  unfold toList
  generalize purge h = g at hp
  rw [List.map_flatMap]
  have hw := hp.wf
  have hd := hp.wfd
  clear hp hi
  induction g with
  | nil => simp
  | cons q g ih =>
    rw [List.flatMap_cons, List.nodup_append]
    simp only [PyDict.WF, PyDict.keys_cons, List.nodup_cons] at hw
    refine ⟨?_, ih hw.2 (fun R d hm => hd R d (List.mem_cons_of_mem _ hm)), ?_⟩
    · have h1 : PyDict.WF q.2 := hd q.1 q.2 (by simp)
      rw [List.map_map]
      have : (fun x : Pair × E => ((q.1, x.1) : Cell × Pair)) =
          (fun t : Cell × Pair × E => (t.1, t.2.1)) ∘ (fun pe : Pair × E => (q.1, pe.1, pe.2)) := rfl
      rw [← this]
      have h2 : (q.2.map (fun x : Pair × E => ((q.1, x.1) : Cell × Pair)))
          = (PyDict.keys q.2).map (fun p => (q.1, p)) := by
        rw [PyDict.keys, List.map_map]; rfl
      rw [h2]
      exact List.Nodup.map (fun a b hab => (Prod.mk.inj hab).2) h1
    · intro x hx y hy hxy
      subst hxy
      simp only [List.map_map, List.mem_map, Function.comp_apply, List.mem_flatMap] at hx hy
      obtain ⟨pe, -, rfl⟩ := hx
      obtain ⟨q', hq', pe', -, he⟩ := hy
      simp only [Prod.mk.injEq] at he
      exact hw.1 (by rw [← he.1]; exact List.mem_map.2 ⟨q', hq', rfl⟩)

theorem length_toList (h : IntraHop E) : (toList h).length = numHop h := by
  have gen : ∀ (h : IntraHop E) (n : ℕ), h.foldl (fun n q => n + q.2.length) n
      = n + ((h.filter (fun q => !q.2.isEmpty)).flatMap
        (fun q => q.2.map (fun pe => (q.1, pe.1, pe.2)))).length := by
    intro h
    induction h with
    | nil => simp
    | cons q h ih =>
      intro n
      rw [List.foldl_cons, ih]
      cases hq : q.2 with
      | nil => simp [hq]
      | cons a d => simp [hq]; omega
  unfold toList numHop purge
  rw [gen]; simp

end IntraHop
end Verif

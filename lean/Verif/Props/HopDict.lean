import Verif.Proof.HopDict
import Verif.Spec.HopDict
import Verif.Props.Symmetry

/-! # Property C102: dictionaries of hopping matrices -/

namespace Verif.Props

open PrimCell Materials HopDict

variable {Λ : Type*}

/-- Invariant of a dictionary for `n` orbitals that has not been converted to sparse matrices. -/
structure DictOk (n : ℕ) (d : HopDict) : Prop where
  num : d.num = n
  wf : PyDict.WF d.mats
  mats : ∀ p ∈ d.mats, p.2.dim = n ∧ p.2.sparse = false

theorem dictOk_set {n : ℕ} {d : HopDict} (h : DictOk n d) (R : Cell) (M : HopMat) (h1 : M.dim = n) (h2 : M.sparse = false) :
    DictOk n { d with mats := PyDict.set d.mats R M } := by
  have hw := PyDict.WF_set h.wf R M
  refine ⟨h.num, hw, fun p hp => ?_⟩
  have := (PyDict.mem_iff_get? hw p.1 p.2).1 hp
  rw [PyDict.get?_set] at this
  split_ifs at this with he
  · obtain rfl := Option.some.inj this
    exact ⟨h1, h2⟩
  · exact h.mats _ ((PyDict.mem_iff_get? h.wf p.1 p.2).2 this)

theorem dictOk_getItem {n : ℕ} {d : HopDict} (h : DictOk n d) (R : Cell) :
    DictOk n (d.getItem R).1 ∧ (d.getItem R).2.dim = n ∧ (d.getItem R).2.sparse = false ∧
      (∀ R' i j, elem (d.getItem R).1 R' i j = elem d R' i j) ∧ ∀ i j, (d.getItem R).2.val i j = elem d R i j := by
  unfold getItem
  cases hg : PyDict.get? d.mats R with
  | some M =>
    obtain ⟨h1, h2⟩ := h.mats _ (PyDict.mem_of_get? hg)
    exact ⟨h, h1, h2, fun _ _ _ => rfl, fun i j => by simp [elem, hg]⟩
  | none =>
    refine ⟨dictOk_set h _ _ h.num rfl, h.num, rfl, fun R' i j => ?_, fun i j => by simp [elem, hg, zeros]⟩
    simp only [elem, PyDict.get?_set]
    split_ifs with he
    · subst he; simp [hg, zeros]
    · rfl

/-- One call: the invariant, and the elements. -/
theorem dictOk_step {n : ℕ} {d : HopDict} (h : DictOk n d) (op : HDOp) :
    DictOk n (d.step op) ∧ ∀ R i j, elem (d.step op) R i j = (writeOf n R i j op).getD (elem d R i j) := by
  cases op with
  | read rn =>
    simp only [HopDict.step, writeOf]
    cases hc : checkLen 0 rn with
    | none => exact ⟨h, fun _ _ _ => rfl⟩
    | some R => exact ⟨(dictOk_getItem h R).1, (dictOk_getItem h R).2.2.2.1⟩
  | setItem rn M =>
    simp only [HopDict.step, HopDict.setItem, writeOf]
    cases hc : checkLen 0 rn with
    | none => exact ⟨h, fun _ _ _ => by simp⟩
    | some R =>
      simp only
      rw [h.num]
      by_cases hs : M.rows = n ∧ M.cols = n
      · rw [if_neg (not_not.2 hs)]
        have key : DictOk n ⟨n, PyDict.set d.mats R ⟨n, M.val, false⟩⟩ ∧
            ∀ R' i j, elem ⟨n, PyDict.set d.mats R ⟨n, M.val, false⟩⟩ R' i j =
              (if some R = some R' ∧ M.rows = n ∧ M.cols = n then some (M.val i j) else none).getD (elem d R' i j) := by
          have := dictOk_set h R ⟨n, M.val, false⟩ rfl rfl
          rw [h.num] at this
          refine ⟨this, fun R' i j => ?_⟩
          simp only [elem, PyDict.get?_set, hs, and_self, and_true, Option.some.injEq]
          by_cases he : R' = R
          · subst he; simp
          · rw [if_neg he, if_neg (fun h => he h.symm)]; rfl
        split_ifs
        · split
          · exact key
          · exact key
        · exact key
      · rw [if_pos hs]
        refine ⟨h, fun R' i j => ?_⟩
        rw [if_neg (fun h => hs h.2)]
        rfl
  | setEntry rn a b v =>
    simp only [HopDict.step, HopDict.setEntry, writeOf]
    cases hc : checkLen 0 rn with
    | none => exact ⟨h, fun _ _ _ => by simp⟩
    | some R =>
      obtain ⟨g1, g2, g3, g4, g5⟩ := dictOk_getItem h R
      simp only
      rw [if_neg (by simp [g3]), g2]
      cases ha : pyIndex n a with
      | none => exact ⟨g1, fun R' i j => by simp [g4]⟩
      | some a' =>
        cases hb : pyIndex n b with
        | none => exact ⟨g1, fun R' i j => by simp [g4]⟩
        | some b' =>
          refine ⟨dictOk_set g1 _ _ rfl rfl, fun R' i j => ?_⟩
          have e := g4 R' i j
          simp only [elem, PyDict.get?_set, Option.some.injEq] at e ⊢
          by_cases he : R' = R
          · subst he
            by_cases hij : i = a' ∧ j = b'
            · simp [hij]
            · have : ¬ (a' = i ∧ b' = j) := fun h => hij ⟨h.1.symm, h.2.symm⟩
              simp only [if_true, Option.elim_some, hij, if_false, true_and, this, Option.getD_none, g5]
              rfl
          · rw [if_neg he, if_neg (fun h => he h.1.symm)]
            simpa using e

theorem dictOk_run {n : ℕ} {d : HopDict} (h : DictOk n d) (ops : List HDOp) :
    DictOk n (d.run ops) ∧ ∀ R i j, elem (d.run ops) R i j = (ops.reverse.findSome? (writeOf n R i j)).getD (elem d R i j) := by
  induction ops using List.reverseRecOn with
  | nil => exact ⟨h, fun _ _ _ => rfl⟩
  | append_singleton ops op ih =>
    have e : d.run (ops ++ [op]) = (d.run ops).step op := by simp [HopDict.run]
    obtain ⟨h1, h2⟩ := dictOk_step ih.1 op
    rw [e]
    refine ⟨h1, fun R i j => ?_⟩
    rw [h2, ih.2, List.reverse_append, List.reverse_singleton, List.singleton_append, List.findSome?_cons]
    cases writeOf n R i j op <;> rfl

theorem dictOk_init (n : ℕ) : DictOk n (HopDict.init n) := ⟨rfl, PyDict.WF_nil, by simp [HopDict.init]⟩

/-- **C102 (reading a dictionary).** After any history of assignments of matrices and of elements, failing ones included, every element
of the dictionary has the value written last, and 0 if there was no write. -/
theorem C102_last_write (n : ℕ) (ops : List HDOp) (R : Cell) (i j : ℕ) : elem ((HopDict.init n).run ops) R i j = lastWrite n ops R i j := by
  rw [(dictOk_run (dictOk_init n) ops).2, lastWrite]
  rfl

theorem mem_entries {n : ℕ} {d : HopDict} (h : DictOk n d) (q : Cell × ℤ × ℤ × ℂ) :
    q ∈ d.entries ↔ ∃ i j : ℕ, i < n ∧ j < n ∧ elem d q.1 i j ≠ 0 ∧ q = (q.1, (i : ℤ), (j : ℤ), elem d q.1 i j) := by
  simp only [entries, List.mem_flatMap]
  constructor
  · rintro ⟨p, hp, hq⟩
    obtain ⟨i, j, hi, hj, hv, rfl⟩ := mem_cooEntries.1 hq
    have hg := (PyDict.mem_iff_get? h.wf p.1 p.2).1 hp
    have := (h.mats p hp).1
    refine ⟨i, j, by omega, by omega, by simpa [elem, hg] using hv, by simp [elem, hg]⟩
  · rintro ⟨i, j, hi, hj, hv, he⟩
    cases hg : PyDict.get? d.mats q.1 with
    | none => simp [elem, hg] at hv
    | some M =>
      have hp := (PyDict.mem_iff_get? h.wf _ _).2 hg
      have := (h.mats _ hp).1
      refine ⟨_, hp, mem_cooEntries.2 ⟨i, j, by simp only at this ⊢; omega, by simp only at this ⊢; omega, by simpa [elem, hg] using hv, ?_⟩⟩
      rw [he]
      simp [elem, hg]

theorem checkDiag_ok {n : ℕ} {d : HopDict} (h : DictOk n d) :
    d.checkDiag = open Classical in if ∃ i < n, 1e-5 ≤ ‖elem d 0 i i‖ then some .pcHopDiagonal else none := by
  classical
  unfold checkDiag
  rw [show ((0, 0, 0) : Cell) = 0 from rfl]
  cases hg : PyDict.get? d.mats 0 with
  | none =>
    have : ¬ ∃ i < n, (1e-5 : ℝ) ≤ ‖elem d 0 i i‖ := by
      rintro ⟨i, -, hi⟩
      simp only [elem, hg, Option.elim_none, norm_zero] at hi
      norm_num at hi
    simp only
    rw [if_neg this]
  | some M =>
    obtain ⟨h1, h2⟩ := h.mats _ (PyDict.mem_of_get? hg)
    simp only at h1 h2 ⊢
    rw [if_neg (by simp [h2]), h1]
    simp only [elem, hg, Option.elim_some]

theorem entries_spare (d : HopDict) : HopDict.entries { d with mats := d.mats.map fun p => (p.1, { p.2 with sparse := true }) } = d.entries := by
  simp [entries, List.flatMap_map]

theorem addHoppings_legal (l : List (Cell × ℤ × ℤ × ℂ)) (s : PrimCell ℝ ℂ Λ) (hl : s.locked = false)
    (hd : ∀ q ∈ l, HopOk s.numOrb ([q.1.1, q.1.2.1, q.1.2.2], q.2)) :
    addHoppings s l = ({ s with hops := l.foldl (fun h q => h.add q.1 q.2.1 q.2.2.1 q.2.2.2) s.hops }, .ok ()) := by
  induction l generalizing s with
  | nil => rfl
  | cons q l ih =>
    obtain ⟨R, i, j, v⟩ := q
    obtain ⟨-, h2, h3, h4⟩ := hd _ List.mem_cons_self
    have hci : checkHopIndex s [R.1, R.2.1, R.2.2] i j = .ok R := by
      unfold checkHopIndex
      simp only [checkLen]
      rw [if_neg (not_not.2 h2), if_neg (not_not.2 h3), if_neg (show ¬ (R = (0, 0, 0) ∧ i = j) from h4)]
    rw [addHoppings, addHopping, if_neg (by simp [hl]), hci]
    simp only
    rw [ih { s with hops := s.hops.add R i j v } hl (fun q hq => hd q (List.mem_cons_of_mem _ hq))]
    rfl

theorem fold_untouched (l : List (Cell × ℤ × ℤ × ℂ)) (m : Cell → ℤ → ℤ → Option ℂ) (R : Cell) (i j : ℤ)
    (h : ∀ q ∈ l, ¬ (R = q.1 ∧ i = q.2.1 ∧ j = q.2.2.1) ∧ ¬ (R = -q.1 ∧ i = q.2.2.1 ∧ j = q.2.1)) :
    l.foldl (fun m q => HopMap.add m q.1 q.2.1 q.2.2.1 q.2.2.2) m R i j = m R i j := by
  induction l generalizing m with
  | nil => rfl
  | cons q l ih =>
    rw [List.foldl_cons, ih _ (fun q hq => h q (List.mem_cons_of_mem _ hq)), HopMap.add]
    obtain ⟨t1, t2⟩ := h q List.mem_cons_self
    rw [if_neg t1, if_neg t2]

/-- Adding a dictionary that satisfies the invariant. -/
theorem add_of_ok {n : ℕ} {d : HopDict} (hd : DictOk n d) (s : PrimCell ℝ ℂ Λ) (hl : s.locked = false) (hn : s.numOrb = n)
    (hdiag : ∀ i < n, elem d 0 i i = 0)
    (hherm : ∀ R, ∀ i < n, ∀ j < n, elem d R i j ≠ 0 → elem d (-R) j i ≠ 0 → elem d (-R) j i = star (elem d R i j)) :
    (∀ q ∈ d.entries, HopOk n ([q.1.1, q.1.2.1, q.1.2.2], q.2)) ∧
    addHopDict s d = ({ s with hops := d.entries.foldl (fun h q => h.add q.1 q.2.1 q.2.2.1 q.2.2.2) s.hops },
      { d with mats := d.mats.map fun p => (p.1, { p.2 with sparse := true }) }, .ok ()) ∧
      (∀ R, ∀ i < n, ∀ j < n, (d.entries.foldl (fun h q => h.add q.1 q.2.1 q.2.2.1 q.2.2.2) s.hops).get R i j = open Classical in
        if elem d R i j ≠ 0 then some (elem d R i j)
        else if elem d (-R) j i ≠ 0 then some (star (elem d (-R) j i)) else s.hops.get R i j) ∧
      ∀ R (i j : ℤ), ¬ (0 ≤ i ∧ i < n ∧ 0 ≤ j ∧ j < n) →
        (d.entries.foldl (fun h q => h.add q.1 q.2.1 q.2.2.1 q.2.2.2) s.hops).get R i j = s.hops.get R i j := by
  classical
  have hcd : d.checkDiag = none := by
    rw [checkDiag_ok hd, if_neg]
    rintro ⟨i, hi, h⟩
    rw [hdiag i hi, norm_zero] at h
    norm_num at h
  have hok : ∀ q ∈ d.entries, HopOk s.numOrb ([q.1.1, q.1.2.1, q.1.2.2], q.2) := by
    intro q hq
    obtain ⟨i, j, hi, hj, hv, he⟩ := (mem_entries hd q).1 hq
    rw [he]
    refine ⟨by simp [checkLen], ⟨by simp, by simp; omega⟩, ⟨by simp, by simp; omega⟩, ?_⟩
    rintro ⟨h0, hij⟩
    have hij : i = j := by simpa using hij
    subst hij
    have h0 : q.1 = 0 := by simpa [cellOf, checkLen] using h0
    rw [h0] at hv
    exact hv (hdiag i hi)
  have hrun : addHopDict s d = ({ s with hops := d.entries.foldl (fun h q => h.add q.1 q.2.1 q.2.2.1 q.2.2.2) s.hops },
      { d with mats := d.mats.map fun p => (p.1, { p.2 with sparse := true }) }, .ok ()) := by
    rw [addHopDict, if_neg (by simp [hl]), toSpare, hcd]
    simp only
    rw [entries_spare, addHoppings_legal _ s hl hok]
  refine ⟨hn ▸ hok, hrun, ?_⟩
  have hget : (d.entries.foldl (fun h q => h.add q.1 q.2.1 q.2.2.1 q.2.2.2) s.hops).get =
      d.entries.foldl (fun m q => HopMap.add m q.1 q.2.1 q.2.2.1 q.2.2.2) s.hops.get := by
    have := get_foldl_add (d.entries.map fun q => ([q.1.1, q.1.2.1, q.1.2.2], q.2)) s.numOrb
      (by intro q hq; obtain ⟨r, hr, rfl⟩ := List.mem_map.1 hq; exact hok r hr) s.hops
    simpa [List.foldl_map, cellOf, checkLen] using this
  let T : Cell → ℤ → ℤ → Option ℂ := fun R i j =>
    if elem d R i.toNat j.toNat ≠ 0 then some (elem d R i.toNat j.toNat) else some (star (elem d (-R) j.toNat i.toNat))
  have hT : ∀ q ∈ d.entries, T q.1 q.2.1 q.2.2.1 = some q.2.2.2 ∧ T (-q.1) q.2.2.1 q.2.1 = some (star q.2.2.2) := by
    intro q hq
    obtain ⟨i, j, hi, hj, hv, he⟩ := (mem_entries hd q).1 hq
    generalize q.1 = R at *
    subst he
    simp only [T, Int.toNat_natCast, neg_neg]
    refine ⟨if_pos hv, ?_⟩
    split_ifs with h
    · rw [hherm R i hi j hj hv h]
    · rfl
  have hfold := fold_agree d.entries s.hops.get T hT
  simp only [hget]
  have hmem : ∀ R (i j : ℕ), i < n → j < n → elem d R i j ≠ 0 → (R, (i : ℤ), (j : ℤ), elem d R i j) ∈ d.entries :=
    fun R i j hi hj hv => (mem_entries hd _).2 ⟨i, j, hi, hj, hv, rfl⟩
  constructor
  · intro R i hi j hj
    rcases hfold R i j with h | ⟨h, hne⟩
    · by_cases h1 : elem d R i j = 0
      · by_cases h2 : elem d (-R) j i = 0
        · -- no entry touches this element
          rw [if_neg (not_not.2 h1), if_neg (not_not.2 h2)]
          have : ∀ q ∈ d.entries, ¬ (R = q.1 ∧ (i : ℤ) = q.2.1 ∧ (j : ℤ) = q.2.2.1) ∧ ¬ (R = -q.1 ∧ (i : ℤ) = q.2.2.1 ∧ (j : ℤ) = q.2.1) := by
            intro q hq
            obtain ⟨a, b, ha, hb, hv, he⟩ := (mem_entries hd q).1 hq
            generalize q.1 = R' at *
            subst he
            simp only [Nat.cast_inj]
            refine ⟨?_, ?_⟩
            · rintro ⟨rfl, rfl, rfl⟩; exact hv h1
            · rintro ⟨rfl, rfl, rfl⟩; rw [neg_neg] at h2; exact hv h2
          exact fold_untouched _ _ _ _ _ this
        · rw [if_neg (not_not.2 h1), if_pos h2, h]
          simp only [T, Int.toNat_natCast]
          rw [if_neg (not_not.2 h1)]
      · rw [if_pos h1, h]
        simp only [T, Int.toNat_natCast]
        rw [if_pos h1]
    · rw [h, if_neg, if_neg]
      · intro h2; exact (hne _ (hmem (-R) j i hj hi h2)).2 ⟨(neg_neg R).symm, rfl, rfl⟩
      · intro h1; exact (hne _ (hmem R i j hi hj h1)).1 ⟨rfl, rfl, rfl⟩
  · intro R i j hij
    have : ∀ q ∈ d.entries, ¬ (R = q.1 ∧ i = q.2.1 ∧ j = q.2.2.1) ∧ ¬ (R = -q.1 ∧ i = q.2.2.1 ∧ j = q.2.1) := by
      intro q hq
      obtain ⟨a, b, ha, hb, hv, he⟩ := (mem_entries hd q).1 hq
      generalize q.1 = R' at *
      subst he
      constructor
      · rintro ⟨-, h1, h2⟩; simp only at h1 h2; exact hij ⟨by omega, by omega, by omega, by omega⟩
      · rintro ⟨-, h1, h2⟩; simp only at h1 h2; exact hij ⟨by omega, by omega, by omega, by omega⟩
    exact fold_untouched _ _ _ _ _ this

/-- **C102 (adding a dictionary).** Take an unlocked cell and any dictionary built for its number of orbitals whose on-site
elements vanish and in which `(R, i, j)` and `(-R, j, i)`, if both are non-zero, are conjugate.  `add_hopping_dict` succeeds; the hopping
terms of the new cell are the non-zero elements of the dictionary and their conjugates, all others stay as they were - also those for
which the dictionary holds a zero. -/
theorem C102_add (n : ℕ) (ops : List HDOp) (s : PrimCell ℝ ℂ Λ) (hl : s.locked = false) (hn : s.numOrb = n)
    (hdiag : ∀ i < n, lastWrite n ops 0 i i = 0)
    (hherm : ∀ R, ∀ i < n, ∀ j < n, lastWrite n ops R i j ≠ 0 → lastWrite n ops (-R) j i ≠ 0 →
      lastWrite n ops (-R) j i = star (lastWrite n ops R i j)) :
    ∃ hops d', addHopDict s ((HopDict.init n).run ops) = ({ s with hops := hops }, d', .ok ()) ∧
      (∀ R, ∀ i < n, ∀ j < n, hops.get R i j = open Classical in
        if lastWrite n ops R i j ≠ 0 then some (lastWrite n ops R i j)
        else if lastWrite n ops (-R) j i ≠ 0 then some (star (lastWrite n ops (-R) j i)) else s.hops.get R i j) ∧
      ∀ R (i j : ℤ), ¬ (0 ≤ i ∧ i < n ∧ 0 ≤ j ∧ j < n) → hops.get R i j = s.hops.get R i j := by
  simp only [← C102_last_write] at *
  obtain ⟨hd, -⟩ := dictOk_run (dictOk_init n) ops
  obtain ⟨-, h1, h2⟩ := add_of_ok hd s hl hn hdiag hherm
  exact ⟨_, _, h1, h2⟩

/-- **C102 (refusals).** A locked cell, and a dictionary with an on-site element of at least 1e-5, are refused; the cell and the
dictionary stay as they were. -/
theorem C102_refused_partial (n : ℕ) (ops : List HDOp) (s : PrimCell ℝ ℂ Λ)
    (h : s.locked = true ∨ ∃ i < n, 1e-5 ≤ ‖lastWrite n ops 0 i i‖) :
    ∃ e, addHopDict s ((HopDict.init n).run ops) = (s, (HopDict.init n).run ops, .error e) := by
  classical
  simp only [← C102_last_write] at *
  obtain ⟨hd, -⟩ := dictOk_run (dictOk_init n) ops
  unfold addHopDict
  split_ifs with hl
  · exact ⟨_, rfl⟩
  · rw [toSpare, checkDiag_ok hd, if_pos (h.resolve_left hl)]
    exact ⟨_, rfl⟩

/-- **C102 (used once).** A dictionary with a matrix for the home cell is refused when it is added a second time. -/
theorem C102_once (n : ℕ) (ops : List HDOp) (s s1 s2 : PrimCell ℝ ℂ Λ) (d' : HopDict) (i j : ℕ)
    (h : addHopDict s ((HopDict.init n).run ops) = (s1, d', .ok ())) (h0 : lastWrite n ops 0 i j ≠ 0) (hl : s2.locked = false) :
    addHopDict s2 d' = (s2, d', .error .value) := by
  rw [← C102_last_write] at h0
  generalize (HopDict.init n).run ops = d at *
  rw [addHopDict] at h
  split at h
  · simp at h
  · rw [toSpare] at h
    cases hc : d.checkDiag with
    | some e => rw [hc] at h; simp at h
    | none =>
      rw [hc] at h
      simp only at h
      have hd' : d' = { d with mats := d.mats.map fun p => (p.1, { p.2 with sparse := true }) } := by
        split at h
        · simp only [Prod.mk.injEq] at h; exact h.2.1.symm
        · simp at h
      have hg : ∀ R, PyDict.get? d'.mats R = (PyDict.get? d.mats R).map fun M => { M with sparse := true } := by
        intro R
        rw [hd']
        simp only
        induction d.mats with
        | nil => rfl
        | cons p l ih =>
          rw [List.map_cons, PyDict.get?_cons, PyDict.get?_cons]
          simp only
          split_ifs
          · rfl
          · exact ih
      cases hm : PyDict.get? d.mats 0 with
      | none => simp [elem, hm] at h0
      | some M =>
        have : d'.checkDiag = some .value := by
          unfold checkDiag
          rw [show ((0, 0, 0) : Cell) = 0 from rfl, hg, hm]
          rfl
        rw [addHopDict, if_neg (by simp [hl]), toSpare, this]

/-- A new cell with orbitals and a dictionary. -/
theorem dict_build {n : ℕ} {d : HopDict} (hd : DictOk n d) (H : HashFns ℝ ℂ Λ) (lat : Mat3 ℝ) (o : Vec3 ℝ) (orbs : List (List ℝ × ℝ × Λ))
    (ho : ∀ q ∈ orbs, checkLen 0 q.1 ≠ none) (hn : orbs.length = n) (hdiag : ∀ i < n, elem d 0 i i = 0)
    (hherm : ∀ R, ∀ i < n, ∀ j < n, elem d R i j ≠ 0 → elem d (-R) j i ≠ 0 → elem d (-R) j i = star (elem d R i j)) :
    ∃ s0 s d', runOk H (PrimCell.init H lat o) (orbs.map fun q => .addOrbital q.1 q.2.1 q.2.2) = .ok s0 ∧
      addHopDict s0 d = (s, d', .ok ()) ∧ s.lat = lat ∧ s.origin = o ∧
      s.orbs = (orbs.map fun q => ⟨vec3 ((checkLen 0 q.1).getD 0), q.2.1, q.2.2⟩) ∧
      (∀ R, ∀ i < n, ∀ j < n, s.hops.get R i j = open Classical in
        if elem d R i j ≠ 0 then some (elem d R i j)
        else if elem d (-R) j i ≠ 0 then some (star (elem d (-R) j i)) else none) ∧
      (∀ R (i j : ℤ), ¬ (0 ≤ i ∧ i < n ∧ 0 ≤ j ∧ j < n) → s.hops.get R i j = none) ∧
      WF s ∧ s.hashOrb = H.orb [] ∧ s.hashHop = H.hop [] := by
  have h1 := runOk_orbs H orbs (PrimCell.init H lat o) rfl ho
  obtain ⟨h0, h2, h3, h4⟩ := add_of_ok hd { PrimCell.init H lat o with orbs := (PrimCell.init H lat o).orbs ++ orbs.map fun q =>
    ⟨vec3 ((checkLen 0 q.1).getD 0), q.2.1, q.2.2⟩ } rfl (by simp [numOrb, PrimCell.init, hn]) hdiag hherm
  refine ⟨_, _, _, h1, h2, rfl, rfl, by simp [PrimCell.init], ?_, ?_, ?_, rfl, rfl⟩
  · intro R i hi j hj
    exact h3 R i hi j hj
  · intro R i j hij
    exact h4 R i j hij
  · obtain ⟨s', g1, g2, g3, g4, -, g6, g7, -⟩ := build_spec H lat o orbs (d.entries.map fun q => ([q.1.1, q.1.2.1, q.1.2.2], q.2)) ho
      (by intro q hq; obtain ⟨r, hr, rfl⟩ := List.mem_map.1 hq; rw [hn]; exact h0 r hr) _ rfl
    have h5 := runOk_hops H (d.entries.map fun q => ([q.1.1, q.1.2.1, q.1.2.2], q.2)) { PrimCell.init H lat o with
      orbs := (PrimCell.init H lat o).orbs ++ orbs.map fun q => ⟨vec3 ((checkLen 0 q.1).getD 0), q.2.1, q.2.2⟩ } rfl
      (by intro q hq; obtain ⟨r, hr, rfl⟩ := List.mem_map.1 hq; simpa [numOrb, PrimCell.init, hn] using h0 r hr)
    have h6 := runOk_append H (PrimCell.init H lat o) _ ((d.entries.map fun q => ([q.1.1, q.1.2.1, q.1.2.2], q.2)).map
      fun q => .addHopping q.1 q.2.1 q.2.2.1 q.2.2.2) _ h1
    rw [h5, g1] at h6
    have h7 := Except.ok.inj h6
    have := WF_run H (WF_init H lat o) _ g7
    rw [← g6, h7] at this
    simpa [List.foldl_map, cellOf, checkLen] using this

/-- The history `d[0, 0][0, 1] = 1; d[0, 0][1, 1] = 1e-6`. -/
noncomputable def tinyOps : List HDOp := [.setEntry [0, 0] 0 1 1, .setEntry [0, 0] 1 1 1e-6]

theorem tiny_mats : ((HopDict.init 2).run tinyOps).mats =
    [((0, 0, 0), ⟨2, fun i' j' => if i' = 1 ∧ j' = 1 then 1e-6 else if i' = 0 ∧ j' = 1 then 1 else 0, false⟩)] := by
  simp [HopDict.run, tinyOps, HopDict.step, setEntry, checkLen, getItem, HopDict.init, PyDict.get?, zeros, PyDict.set, pyIndex]

/-- **C102 (not atomic).** A refused call may change the cell: with the on-site element 1e-6 the check passes, the first hopping
term is added, and the call fails afterwards.  A refused assignment of a matrix with on-site energies stays in the dictionary. -/
theorem C102_not_atomic :
    (∃ s s' : PrimCell ℝ ℂ Unit, ∃ d' e, s.hops.get 0 0 1 = none ∧ s'.hops.get 0 0 1 = some 1 ∧
      addHopDict s ((HopDict.init 2).run tinyOps) = (s', d', .error e)) ∧
    ∃ M : HopArg, ((HopDict.init 1).setItem [0, 0] M).2 = .error .pcHopDiagonal ∧ elem ((HopDict.init 1).setItem [0, 0] M).1 0 0 0 = 1 := by
  constructor
  · let s : PrimCell ℝ ℂ Unit := { (PrimCell.init (⟨fun _ => 0, fun _ => 0⟩ : HashFns ℝ ℂ Unit) 1 0 : PrimCell ℝ ℂ Unit) with orbs := [⟨0, 0, ()⟩, ⟨0, 0, ()⟩] }
    have hcd : ((HopDict.init 2).run tinyOps).checkDiag = none := by
      rw [checkDiag_ok (dictOk_run (dictOk_init 2) _).1, if_neg]
      rintro ⟨i, hi, h⟩
      rw [elem, tiny_mats] at h
      interval_cases i <;> norm_num [PyDict.get?] at h
    have hent : ((HopDict.init 2).run tinyOps).entries = [((0, 0, 0), 0, 1, 1), ((0, 0, 0), 1, 1, 1e-6)] := by
      rw [entries, tiny_mats]
      simp [cooEntries, List.range_succ]
      norm_num
    refine ⟨s, { s with hops := s.hops.add 0 0 1 1 }, ?_, .cell .pcHopDiagonal, ?_, ?_, ?_⟩
    · exact (addHopDict s ((HopDict.init 2).run tinyOps)).2.1
    · rfl
    · simp [s, PrimCell.init, IntraHop.get_add, HopMap.add]
    · rw [addHopDict, if_neg (by simp [s, PrimCell.init]), toSpare, hcd]
      simp only
      rw [entries_spare, hent]
      simp [addHoppings, addHopping, s, PrimCell.init, checkHopIndex, checkLen, numOrb]
      try rfl
  · refine ⟨⟨1, 1, fun _ _ => 1⟩, ?_, ?_⟩
    · simp [HopDict.setItem, HopDict.init, checkLen, checkDiag, PyDict.set, PyDict.get?]
      norm_num
    · simp [HopDict.setItem, HopDict.init, checkLen, checkDiag, PyDict.set, PyDict.get?, elem]
      norm_num
      rfl

end Verif.Props

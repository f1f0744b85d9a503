import Verif.Model.Z2
import Mathlib.Tactic.Linarith
import Mathlib.Tactic.Ring
import Mathlib.Tactic.FieldSimp
import Mathlib.Algebra.Ring.Parity
import Mathlib.Data.List.GetD

/-! # Counting crossings and reordering of phases: lemmas -/

namespace Verif.Z2

/-! ## Crossings -/

theorem count_inner (nocc : ℕ) (p : ℕ → Prop) [DecidablePred p] (c : ℕ) :
    (List.range nocc).foldl (fun c ib => if p ib then c + 1 else c) c = c + ∑ ib ∈ Finset.range nocc, if p ib then 1 else 0 := by
  induction nocc with
  | zero => simp
  | succ n ih =>
    rw [List.range_succ, List.foldl_append, ih, Finset.sum_range_succ]
    simp only [List.foldl_cons, List.foldl_nil]
    split <;> omega

theorem countCrossing_sum (nk nocc : ℕ) (ph : ℕ → ℕ → ℝ) (ref : ℝ) :
    countCrossing nk nocc ph ref = ∑ ib ∈ Finset.range nocc, ∑ ik ∈ Finset.range (nk - 1),
      if (ph ik ib - ref) * (ph (ik + 1) ib - ref) < 0 then 1 else 0 := by
  rw [Finset.sum_comm]
  unfold countCrossing
  simp only [count_inner]
  generalize nk - 1 = m
  induction m with
  | zero => simp
  | succ n ih => rw [List.range_succ, List.foldl_append, ih, Finset.sum_range_succ]; rfl

/-- Parity of the sign changes of a sequence that avoids zero. -/
theorem signs_parity (x : ℕ → ℝ) (m : ℕ) (h : ∀ i ≤ m, x i ≠ 0) :
    Odd (∑ i ∈ Finset.range m, if x i * x (i + 1) < 0 then 1 else 0) ↔ x 0 * x m < 0 := by
  induction m with
  | zero => simp [mul_self_nonneg]
  | succ m ih =>
    rw [Finset.sum_range_succ]
    replace ih := ih fun i hi => h i (by omega)
    have h0 := h 0 (by omega)
    have h1 := h m (by omega)
    have h2 := h (m + 1) (by omega)
    have key : (x 0 * x (m + 1) < 0) ↔ ¬(x 0 * x m < 0 ↔ x m * x (m + 1) < 0) := by
      rcases lt_or_gt_of_ne h0 with a | a <;> rcases lt_or_gt_of_ne h1 with b | b <;> rcases lt_or_gt_of_ne h2 with c | c <;>
        simp [mul_neg_iff, a, b, c, not_lt.2 a.le, not_lt.2 b.le, not_lt.2 c.le]
    rw [key, ← ih]
    split
    · rename_i hc
      simp only [hc, iff_true, Nat.odd_add_one]
    · rename_i hc
      simp only [hc, iff_false, add_zero, not_not]

/-! ## Reordering -/

theorem minKey_mem {K : Type*} (d : List (K × ℝ)) (k : K) (h : minKey d = some k) : ∃ v, (k, v) ∈ d := by
  unfold minKey at h
  cases hm : (d.map Prod.snd).min? with
  | none => simp [hm] at h
  | some mv =>
    simp only [hm, Option.map_eq_some_iff] at h
    obtain ⟨⟨a, v⟩, h1, rfl⟩ := h
    exact ⟨v, List.mem_of_find?_eq_some h1⟩

theorem candidates_mem (th p0 : ℝ) (cp : List ℝ) (m : ℕ) (n : ℤ) (v : ℝ) (h : ((m, n), v) ∈ candidates th p0 cp) :
    m < cp.length ∧ (∃ z : ℤ, n = 2 * z) ∧ |p0 - (cp.getD m 0 + n * Real.pi)| < th := by
  simp only [candidates, List.mem_flatMap, List.mem_filterMap] at h
  obtain ⟨⟨x, i⟩, hx, n', hn, h⟩ := h
  simp only [Option.ite_none_right_eq_some, Option.some.injEq, Prod.mk.injEq] at h
  obtain ⟨hlt, ⟨rfl, rfl⟩, rfl⟩ := h
  have hx' := List.mk_mem_zipIdx_iff_getElem?.1 hx
  rw [List.getElem?_eq_some_iff] at hx'
  obtain ⟨hi, rfl⟩ := hx'
  refine ⟨hi, ?_, ?_⟩
  · simp only [List.mem_cons, List.not_mem_nil, or_false] at hn
    rcases hn with rfl | rfl | rfl
    · exact ⟨-1, rfl⟩
    · exact ⟨0, rfl⟩
    · exact ⟨1, rfl⟩
  · rw [List.getD_eq_getElem _ _ hi]
    exact hlt

/-- What a correction of one band does. -/
theorem fixBand_cases (th : ℝ) (row0 : ℕ → ℝ) (st : (ℕ → ℝ) × List ℝ) (j : ℕ) :
    fixBand th row0 st j = st ∨ ∃ (m : ℕ) (z : ℤ), m < st.2.length ∧ th < |row0 j - st.1 j| ∧
      |row0 j - (st.2.getD m 0 + z * (2 * Real.pi))| < th ∧
      fixBand th row0 st j = (Function.update st.1 j (st.2.getD m 0 + z * (2 * Real.pi)), st.2.eraseIdx m) := by
  unfold fixBand
  split
  · rename_i hgt
    cases hk : minKey (candidates th (row0 j) st.2) with
    | none => exact .inl rfl
    | some mn =>
      obtain ⟨m, n⟩ := mn
      obtain ⟨v, hv⟩ := minKey_mem _ _ hk
      obtain ⟨h1, ⟨z, rfl⟩, h3⟩ := candidates_mem th _ _ m n v hv
      have e : st.2.getD m 0 + ((2 * z : ℤ) : ℝ) * Real.pi = st.2.getD m 0 + z * (2 * Real.pi) := by push_cast; ring
      rw [e] at h3
      refine .inr ⟨m, z, h1, hgt, h3, ?_⟩
      simp only [e]
  · exact .inl rfl

theorem smoothBand_cases (th : ℝ) (row0 row1 : ℕ → ℝ) (st : (ℕ → ℝ) × List ℝ) (j : ℕ) :
    smoothBand th row0 row1 st j = st ∨ ∃ m, m < st.2.length ∧ |row1 j - st.2.getD m 0| < th ∧
      smoothBand th row0 row1 st j = (Function.update st.1 j (st.2.getD m 0), st.2.eraseIdx m) := by
  unfold smoothBand
  cases hk : minKey (st.2.zipIdx.filterMap fun pm =>
    if |row1 j - pm.1| < th then some (pm.2, |pm.1 - 2 * row1 j + row0 j|) else none) with
  | none => exact .inl rfl
  | some m =>
    right
    obtain ⟨v, hv⟩ := minKey_mem _ _ hk
    simp only [List.mem_filterMap] at hv
    obtain ⟨⟨x, i⟩, hx, h⟩ := hv
    simp only [Option.ite_none_right_eq_some, Option.some.injEq, Prod.mk.injEq] at h
    obtain ⟨hlt, rfl, rfl⟩ := h
    have hx' := List.mk_mem_zipIdx_iff_getElem?.1 hx
    rw [List.getElem?_eq_some_iff] at hx'
    obtain ⟨hi, rfl⟩ := hx'
    exact ⟨i, hi, by rw [List.getD_eq_getElem _ _ hi]; exact hlt, rfl⟩

/-- `x` is one of the phases of the row, up to a multiple of 2π. -/
def InRow (nocc : ℕ) (row : ℕ → ℝ) (x : ℝ) : Prop := ∃ j < nocc, ∃ z : ℤ, x = row j + z * (2 * Real.pi)

theorem InRow.trans {nocc : ℕ} {row row' : ℕ → ℝ} (h : ∀ j < nocc, InRow nocc row (row' j)) {x : ℝ} (hx : InRow nocc row' x) :
    InRow nocc row x := by
  obtain ⟨j, hj, z, rfl⟩ := hx
  obtain ⟨j', hj', z', e⟩ := h j hj
  exact ⟨j', hj', z' + z, by rw [e]; push_cast; ring⟩

/-- A step that keeps the values of the row or takes one of the remaining candidates. -/
def Takes (step : (ℕ → ℝ) × List ℝ → ℕ → (ℕ → ℝ) × List ℝ) : Prop :=
  ∀ st j, step st j = st ∨ ∃ (m : ℕ) (z : ℤ), m < st.2.length ∧
    step st j = (Function.update st.1 j (st.2.getD m 0 + z * (2 * Real.pi)), st.2.eraseIdx m)

theorem takes_fix (th : ℝ) (row0 : ℕ → ℝ) : Takes (fixBand th row0) := fun st j =>
  (fixBand_cases th row0 st j).imp id fun ⟨m, z, h1, _, _, h4⟩ => ⟨m, z, h1, h4⟩

theorem takes_smooth (th : ℝ) (row0 row1 : ℕ → ℝ) : Takes (smoothBand th row0 row1) := fun st j =>
  (smoothBand_cases th row0 row1 st j).imp id fun ⟨m, h1, _, h4⟩ => ⟨m, 0, h1, by rw [h4]; simp⟩

theorem takes_inRow (step : (ℕ → ℝ) × List ℝ → ℕ → (ℕ → ℝ) × List ℝ) (hs : Takes step) (nocc : ℕ) (row : ℕ → ℝ)
    (L : List ℕ) (st : (ℕ → ℝ) × List ℝ) (h1 : ∀ j < nocc, InRow nocc row (st.1 j)) (h2 : ∀ x ∈ st.2, InRow nocc row x) :
    ∀ j < nocc, InRow nocc row ((L.foldl step st).1 j) := by
  induction L generalizing st with
  | nil => exact h1
  | cons a L ih =>
    rw [List.foldl_cons]
    rcases hs st a with h | ⟨m, z, hm, h⟩
    · rw [h]; exact ih st h1 h2
    · rw [h]
      apply ih
      · intro j hj
        by_cases hja : j = a
        · subst hja
          simp only [Function.update_self]
          obtain ⟨j', hj', z', e⟩ := h2 (st.2.getD m 0) (by rw [List.getD_eq_getElem _ _ hm]; exact List.getElem_mem hm)
          exact ⟨j', hj', z' + z, by rw [e]; push_cast; ring⟩
        · simp only [Function.update_of_ne hja]
          exact h1 j hj
      · exact fun x hx => h2 x (List.mem_of_mem_eraseIdx hx)

theorem self_inRow (nocc : ℕ) (row : ℕ → ℝ) (j : ℕ) (hj : j < nocc) : InRow nocc row (row j) := ⟨j, hj, 0, by simp⟩

theorem list_inRow (nocc : ℕ) (row : ℕ → ℝ) : ∀ x ∈ (List.range nocc).map row, InRow nocc row x := by
  intro x hx
  obtain ⟨j, hj, rfl⟩ := List.mem_map.1 hx
  exact self_inRow nocc row j (List.mem_range.1 hj)

theorem rows_inRow (nocc : ℕ) (ph : ℕ → ℕ → ℝ) (step : (ℕ → ℕ → ℝ) → ℕ → ℕ → ℕ → ℝ)
    (hs : ∀ p ib ik, ∀ j < nocc, InRow nocc (p ik) (step p ib ik j)) (L : List ℕ) (p : ℕ → ℕ → ℝ)
    (hp : ∀ ik, ∀ j < nocc, InRow nocc (ph ik) (p ik j)) : ∀ ik, ∀ j < nocc, InRow nocc (ph ik) (L.foldl step p ik j) := by
  induction L generalizing p with
  | nil => exact hp
  | cons a L ih =>
    rw [List.foldl_cons]
    exact ih _ fun ik j hj => (hs p a ik j hj).trans (hp ik)

theorem reorder_inRow (nk nocc : ℕ) (ph : ℕ → ℕ → ℝ) (th : ℝ) (smooth : Bool) :
    ∀ ik, ∀ j < nocc, InRow nocc (ph ik) (reorderPhases nk nocc ph th smooth ik j) := by
  have h1 := rows_inRow nocc ph (fixRow th nocc) (fun p ib ik j hj => by
    unfold fixRow
    by_cases h : ik = ib + 1
    · subst h
      rw [Function.update_self]
      exact takes_inRow _ (takes_fix th _) nocc _ _ _ (self_inRow nocc _) (list_inRow nocc _) j hj
    · rw [Function.update_of_ne h]
      exact self_inRow nocc _ j hj) (List.range (nk - 1)) ph (fun ik j hj => self_inRow nocc _ j hj)
  unfold reorderPhases
  cases smooth with
  | false => exact h1
  | true =>
    exact rows_inRow nocc ph (smoothRow th nocc) (fun p ib ik j hj => by
      unfold smoothRow
      by_cases h : ik = ib + 2
      · subst h
        rw [Function.update_self]
        exact takes_inRow _ (takes_smooth th _ _) nocc _ _ _ (self_inRow nocc _) (list_inRow nocc _) j hj
      · rw [Function.update_of_ne h]
        exact self_inRow nocc _ j hj) (List.range (nk - 2)) _ h1

/-- Rows that no loop body touches. -/
theorem fold_untouched (d : ℕ) (step : (ℕ → ℕ → ℝ) → ℕ → ℕ → ℕ → ℝ)
    (hs : ∀ p ib ik, ik ≠ ib + d → step p ib ik = p ik) (n : ℕ) (p : ℕ → ℕ → ℝ) (ik : ℕ) (h : ik < d ∨ n + d ≤ ik) :
    (List.range n).foldl step p ik = p ik := by
  induction n with
  | zero => rfl
  | succ n ih =>
    rw [List.range_succ, List.foldl_append]
    simp only [List.foldl_cons, List.foldl_nil]
    rw [hs _ _ _ (by omega), ih (by omega)]

theorem fixRow_other (th : ℝ) (nocc : ℕ) (p : ℕ → ℕ → ℝ) (ib ik : ℕ) (h : ik ≠ ib + 1) : fixRow th nocc p ib ik = p ik :=
  Function.update_of_ne h _ _

theorem smoothRow_other (th : ℝ) (nocc : ℕ) (p : ℕ → ℕ → ℝ) (ib ik : ℕ) (h : ik ≠ ib + 2) : smoothRow th nocc p ib ik = p ik :=
  Function.update_of_ne h _ _

/-- The rows of the first loop: row `i + 1` is computed from the final row `i` and the given row `i + 1`. -/
theorem fix_rows (th : ℝ) (nocc : ℕ) (ph : ℕ → ℕ → ℝ) (n i : ℕ) (hi : i < n) :
    (List.range n).foldl (fixRow th nocc) ph (i + 1) = ((List.range nocc).foldl
      (fixBand th ((List.range n).foldl (fixRow th nocc) ph i)) (ph (i + 1), (List.range nocc).map (ph (i + 1)))).1 := by
  induction n with
  | zero => omega
  | succ n ih =>
    rw [List.range_succ, List.foldl_append]
    simp only [List.foldl_cons, List.foldl_nil]
    by_cases h : i = n
    · subst h
      rw [fixRow_other th nocc _ i i (by omega)]
      rw [fixRow, Function.update_self, fold_untouched 1 _ (fixRow_other th nocc) i ph (i + 1) (by omega)]
    · rw [fixRow_other th nocc _ n (i + 1) (by omega), fixRow_other th nocc _ n i (by omega)]
      exact ih (by omega)

/-- After the loop over the bands every entry is the old one or close to the previous row. -/
theorem fixBand_close (th : ℝ) (row0 : ℕ → ℝ) (n : ℕ) (st : (ℕ → ℝ) × List ℝ) (j : ℕ) :
    ((List.range n).foldl (fixBand th row0) st).1 j = st.1 j ∨
      (|row0 j - ((List.range n).foldl (fixBand th row0) st).1 j| < th ∧ th < |row0 j - st.1 j|) := by
  induction n with
  | zero => exact .inl rfl
  | succ n ih =>
    rw [List.range_succ, List.foldl_append]
    simp only [List.foldl_cons, List.foldl_nil]
    rcases fixBand_cases th row0 ((List.range n).foldl (fixBand th row0) st) n with h | ⟨m, z, h1, h2, h3, h4⟩
    · rw [h]; exact ih
    · rw [h4]
      by_cases hj : j = n
      · subst hj
        simp only [Function.update_self]
        right
        refine ⟨h3, ?_⟩
        rcases ih with e | ⟨e1, _⟩
        · rw [← e]; exact h2
        · exact absurd e1 (not_lt.2 h2.le)
      · simp only [Function.update_of_ne hj]
        exact ih

theorem fixBand_later (th : ℝ) (row0 : ℕ → ℝ) (n : ℕ) (st : (ℕ → ℝ) × List ℝ) (j : ℕ) (hj : n ≤ j) :
    ((List.range n).foldl (fixBand th row0) st).1 j = st.1 j := by
  induction n with
  | zero => rfl
  | succ n ih =>
    rw [List.range_succ, List.foldl_append]
    simp only [List.foldl_cons, List.foldl_nil]
    rcases fixBand_cases th row0 ((List.range n).foldl (fixBand th row0) st) n with h | ⟨m, z, h1, h2, h3, h4⟩
    · rw [h]; exact ih (by omega)
    · rw [h4]
      simp only
      rw [Function.update_of_ne (by omega)]; exact ih (by omega)

/-- If every entry has changed, the new entries are the old ones in another order, up to multiples of 2π. -/
theorem fixBand_perm (th : ℝ) (row0 : ℕ → ℝ) (st : (ℕ → ℝ) × List ℝ) (n : ℕ)
    (h : ∀ j < n, ((List.range n).foldl (fixBand th row0) st).1 j ≠ st.1 j) :
    ∃ S : List ℝ, S.length = n ∧ (S ++ ((List.range n).foldl (fixBand th row0) st).2).Perm st.2 ∧
      ∀ j < n, ∃ z : ℤ, ((List.range n).foldl (fixBand th row0) st).1 j = S.getD j 0 + z * (2 * Real.pi) := by
  induction n with
  | zero => exact ⟨[], rfl, List.Perm.refl _, fun j hj => by omega⟩
  | succ n ih =>
    rw [List.range_succ, List.foldl_append] at h ⊢
    simp only [List.foldl_cons, List.foldl_nil] at h ⊢
    have hlater := fixBand_later th row0 n st n le_rfl
    rcases fixBand_cases th row0 ((List.range n).foldl (fixBand th row0) st) n with h0 | ⟨m, z, h1, h2, h3, h4⟩
    · exact absurd hlater (by have := h n (by omega); rwa [h0] at this)
    · obtain ⟨S, hl, hp, hS⟩ := ih (fun j hj => by
        have := h j (by omega)
        rw [h4] at this
        simp only at this
        rwa [Function.update_of_ne (by omega)] at this)
      rw [h4]
      generalize hst : (List.range n).foldl (fixBand th row0) st = s at *
      refine ⟨S ++ [s.2.getD m 0], by simp [hl], ?_, ?_⟩
      · refine List.Perm.trans ?_ hp
        rw [List.append_assoc]
        apply List.Perm.append_left
        rw [List.getD_eq_getElem _ _ h1]
        simp only [List.singleton_append]
        exact List.getElem_cons_eraseIdx_perm h1
      · intro j hj
        by_cases hjn : j = n
        · subst hjn
          simp only [Function.update_self]
          refine ⟨z, ?_⟩
          rw [List.getD_append_right _ _ _ _ (by omega), hl]
          simp
        · simp only
          rw [Function.update_of_ne hjn, List.getD_append _ _ _ _ (by omega)]
          exact hS j (by omega)

end Verif.Z2

import Verif.Model.Antimonene
import Verif.Spec.Antimonene
import Mathlib.Tactic.IntervalCases
import Mathlib.Tactic.NormNum

/-! # The hopping terms of antimonene as a symmetric table -/

namespace Verif.Props

open PrimCell Materials Anti

/-- `Anti.table` without repetitions. -/
def anTab : List ((Cell × ℕ × ℕ) × ℕ) :=
  [(((0, -1, 0), 0, 3), 1), (((0, 1, 0), 3, 0), 1), (((0, 0, 0), 1, 4), 1), (((0, 0, 0), 4, 1), 1), (((-1, 0, 0), 2, 5), 1), (((1, 0,
   0), 5, 2), 1), (((0, 0, 0), 0, 3), 2), (((0, 0, 0), 3, 0), 2), (((-1, 0, 0), 0, 3), 2), (((1, 0, 0), 3, 0), 2), (((-1, 0, 0), 1,
   4), 2), (((1, 0, 0), 4, 1), 2), (((0, -1, 0), 1, 4), 2), (((0, 1, 0), 4, 1), 2), (((0, -1, 0), 2, 5), 2), (((0, 1, 0), 5, 2), 2),
   (((0, 0, 0), 2, 5), 2), (((0, 0, 0), 5, 2), 2), (((0, 0, 0), 0, 4), 7), (((0, 0, 0), 4, 0), 7), (((-1, 0, 0), 0, 5), 7), (((1, 0,
   0), 5, 0), 7), (((-1, 0, 0), 1, 5), 7), (((1, 0, 0), 5, 1), 7), (((0, -1, 0), 1, 3), 7), (((0, 1, 0), 3, 1), 7), (((0, -1, 0), 2,
   3), 7), (((0, 1, 0), 3, 2), 7), (((0, 0, 0), 2, 4), 7), (((0, 0, 0), 4, 2), 7), (((0, 0, 0), 3, 1), 7), (((0, 0, 0), 1, 3), 7),
   (((1, 0, 0), 3, 2), 7), (((-1, 0, 0), 2, 3), 7), (((1, 0, 0), 4, 2), 7), (((-1, 0, 0), 2, 4), 7), (((0, 1, 0), 4, 0), 7), (((0,
   -1, 0), 0, 4), 7), (((0, 1, 0), 5, 0), 7), (((0, -1, 0), 0, 5), 7), (((0, 0, 0), 5, 1), 7), (((0, 0, 0), 1, 5), 7), (((-1, 1, 0),
   0, 0), 3), (((1, -1, 0), 0, 0), 3), (((0, 1, 0), 0, 0), 3), (((0, -1, 0), 0, 0), 3), (((0, -1, 0), 1, 1), 3), (((0, 1, 0), 1, 1),
   3), (((-1, 0, 0), 1, 1), 3), (((1, 0, 0), 1, 1), 3), (((-1, 0, 0), 2, 2), 3), (((1, 0, 0), 2, 2), 3), (((-1, 1, 0), 2, 2), 3),
   (((1, -1, 0), 2, 2), 3), (((-1, 1, 0), 3, 3), 3), (((1, -1, 0), 3, 3), 3), (((0, 1, 0), 3, 3), 3), (((0, -1, 0), 3, 3), 3), (((0,
   -1, 0), 4, 4), 3), (((0, 1, 0), 4, 4), 3), (((-1, 0, 0), 4, 4), 3), (((1, 0, 0), 4, 4), 3), (((-1, 0, 0), 5, 5), 3), (((1, 0, 0),
   5, 5), 3), (((-1, 1, 0), 5, 5), 3), (((1, -1, 0), 5, 5), 3), (((0, 1, 0), 0, 1), 4), (((0, -1, 0), 1, 0), 4), (((-1, 1, 0), 0, 2),
   4), (((1, -1, 0), 2, 0), 4), (((-1, 0, 0), 1, 2), 4), (((1, 0, 0), 2, 1), 4), (((0, -1, 0), 3, 4), 4), (((0, 1, 0), 4, 3), 4),
   (((1, -1, 0), 3, 5), 4), (((-1, 1, 0), 5, 3), 4), (((1, 0, 0), 4, 5), 4), (((-1, 0, 0), 5, 4), 4), (((0, -1, 0), 0, 1), 6), (((0,
   1, 0), 1, 0), 6), (((1, -1, 0), 0, 2), 6), (((-1, 1, 0), 2, 0), 6), (((1, 0, 0), 1, 2), 6), (((-1, 0, 0), 2, 1), 6), (((0, 1, 0),
   3, 4), 6), (((0, -1, 0), 4, 3), 6), (((-1, 1, 0), 3, 5), 6), (((1, -1, 0), 5, 3), 6), (((-1, 0, 0), 4, 5), 6), (((1, 0, 0), 5, 4),
   6), (((-1, 0, 0), 0, 0), 11), (((1, 0, 0), 0, 0), 11), (((-1, 1, 0), 1, 1), 11), (((1, -1, 0), 1, 1), 11), (((0, -1, 0), 2, 2),
   11), (((0, 1, 0), 2, 2), 11), (((-1, 0, 0), 3, 3), 11), (((1, 0, 0), 3, 3), 11), (((-1, 1, 0), 4, 4), 11), (((1, -1, 0), 4, 4),
   11), (((0, -1, 0), 5, 5), 11), (((0, 1, 0), 5, 5), 11), (((-1, 1, 0), 0, 4), 8), (((1, -1, 0), 4, 0), 8), (((-1, 1, 0), 0, 5), 8),
   (((1, -1, 0), 5, 0), 8), (((-1, -1, 0), 1, 5), 8), (((1, 1, 0), 5, 1), 8), (((-1, -1, 0), 1, 3), 8), (((1, 1, 0), 3, 1), 8), (((1,
   -1, 0), 2, 3), 8), (((-1, 1, 0), 3, 2), 8), (((1, -1, 0), 2, 4), 8), (((-1, 1, 0), 4, 2), 8), (((1, -1, 0), 3, 1), 8), (((-1, 1,
   0), 1, 3), 8), (((1, -1, 0), 3, 2), 8), (((-1, 1, 0), 2, 3), 8), (((1, 1, 0), 4, 2), 8), (((-1, -1, 0), 2, 4), 8), (((1, 1, 0), 4,
   0), 8), (((-1, -1, 0), 0, 4), 8), (((-1, 1, 0), 5, 0), 8), (((1, -1, 0), 0, 5), 8), (((-1, 1, 0), 5, 1), 8), (((1, -1, 0), 1, 5),
   8), (((1, -1, 0), 0, 4), 12), (((-1, 1, 0), 4, 0), 12), (((-1, -1, 0), 0, 5), 12), (((1, 1, 0), 5, 0), 12), (((-1, 1, 0), 1, 5),
   12), (((1, -1, 0), 5, 1), 12), (((1, -1, 0), 1, 3), 12), (((-1, 1, 0), 3, 1), 12), (((-1, -1, 0), 2, 3), 12), (((1, 1, 0), 3, 2),
   12), (((-1, 1, 0), 2, 4), 12), (((1, -1, 0), 4, 2), 12), (((1, -2, 0), 0, 3), 5), (((-1, 2, 0), 3, 0), 5), (((0, -2, 0), 0, 3),
   5), (((0, 2, 0), 3, 0), 5), (((0, 1, 0), 1, 4), 5), (((0, -1, 0), 4, 1), 5), (((1, 0, 0), 1, 4), 5), (((-1, 0, 0), 4, 1), 5),
   (((-2, 1, 0), 2, 5), 5), (((2, -1, 0), 5, 2), 5), (((-2, 0, 0), 2, 5), 5), (((2, 0, 0), 5, 2), 5), (((-2, 1, 0), 0, 3), 9), (((2,
   -1, 0), 3, 0), 9), (((0, 1, 0), 0, 3), 9), (((0, -1, 0), 3, 0), 9), (((0, -2, 0), 1, 4), 9), (((0, 2, 0), 4, 1), 9), (((-2, 0, 0),
   1, 4), 9), (((2, 0, 0), 4, 1), 9), (((1, 0, 0), 2, 5), 9), (((-1, 0, 0), 5, 2), 9), (((1, -2, 0), 2, 5), 9), (((-1, 2, 0), 5, 2),
   9), (((0, 1, 0), 0, 4), 10), (((0, -1, 0), 4, 0), 10), (((-2, 1, 0), 0, 5), 10), (((2, -1, 0), 5, 0), 10), (((-2, 0, 0), 1, 5),
   10), (((2, 0, 0), 5, 1), 10), (((0, -2, 0), 1, 3), 10), (((0, 2, 0), 3, 1), 10), (((1, -2, 0), 2, 3), 10), (((-1, 2, 0), 3, 2),
   10), (((1, 0, 0), 2, 4), 10), (((-1, 0, 0), 4, 2), 10), (((0, -1, 0), 3, 1), 10), (((0, 1, 0), 1, 3), 10), (((2, -1, 0), 3, 2),
   10), (((-2, 1, 0), 2, 3), 10), (((2, 0, 0), 4, 2), 10), (((-2, 0, 0), 2, 4), 10), (((0, 2, 0), 4, 0), 10), (((0, -2, 0), 0, 4),
   10), (((-1, 2, 0), 5, 0), 10), (((1, -2, 0), 0, 5), 10), (((-1, 0, 0), 5, 1), 10), (((1, 0, 0), 1, 5), 10), (((1, 0, 0), 0, 3),
   13), (((-1, 0, 0), 3, 0), 13), (((-2, 0, 0), 0, 3), 13), (((2, 0, 0), 3, 0), 13), (((-2, 1, 0), 1, 4), 13), (((2, -1, 0), 4, 1),
   13), (((1, -2, 0), 1, 4), 13), (((-1, 2, 0), 4, 1), 13), (((0, -2, 0), 2, 5), 13), (((0, 2, 0), 5, 2), 13), (((0, 1, 0), 2, 5),
   13), (((0, -1, 0), 5, 2), 13), (((0, -2, 0), 0, 1), 14), (((0, 2, 0), 1, 0), 14), (((2, -2, 0), 0, 2), 14), (((-2, 2, 0), 2, 0),
   14), (((2, 0, 0), 1, 2), 14), (((-2, 0, 0), 2, 1), 14), (((0, 2, 0), 3, 4), 14), (((0, -2, 0), 4, 3), 14), (((-2, 2, 0), 3, 5),
   14), (((2, -2, 0), 5, 3), 14), (((-2, 0, 0), 4, 5), 14), (((2, 0, 0), 5, 4), 14), (((0, -2, 0), 1, 0), 15), (((0, 2, 0), 0, 1),
   15), (((2, -2, 0), 2, 0), 15), (((-2, 2, 0), 0, 2), 15), (((2, 0, 0), 2, 1), 15), (((-2, 0, 0), 1, 2), 15), (((0, 2, 0), 4, 3),
   15), (((0, -2, 0), 3, 4), 15), (((-2, 2, 0), 5, 3), 15), (((2, -2, 0), 3, 5), 15), (((-2, 0, 0), 5, 4), 15), (((2, 0, 0), 4, 5),
   15)]

/-- The number of the parameter of a bond. -/
def anIdx (R : Cell) (i j : ℕ) : Option ℕ := (anTab.find? fun q => q.1 = (R, i, j)).map Prod.snd

set_option maxRecDepth 100000 in
theorem an_tab : (∀ q ∈ table, q ∈ anTab) ∧ ∀ q ∈ anTab, q ∈ table := ⟨by decide +kernel, by decide +kernel⟩

set_option maxRecDepth 100000 in
theorem an_idx : ∀ q ∈ anTab, anIdx q.1.1 q.1.2.1 q.1.2.2 = some q.2 := by decide +kernel

set_option maxRecDepth 100000 in
theorem an_hops : ∀ q ∈ anHops, anIdx q.1 q.2.1 q.2.2.1 = some q.2.2.2 := by decide +kernel

set_option maxRecDepth 100000 in
theorem an_complete : ∀ q ∈ anTab, (q.1.1, q.1.2.1, q.1.2.2, q.2) ∈ anHops ∨ (-q.1.1, q.1.2.2, q.1.2.1, q.2) ∈ anHops := by decide +kernel

set_option maxRecDepth 100000 in
theorem an_closed : ∀ q ∈ anTab, (image rot q.1, q.2) ∈ anTab ∧ (image mir q.1, q.2) ∈ anTab ∧ (image inv q.1, q.2) ∈ anTab ∧
    (rev q.1, q.2) ∈ anTab := by decide +kernel

set_option maxRecDepth 100000 in
theorem an_bounds : ∀ q ∈ anTab, q.1.2.1 < 6 ∧ q.1.2.2 < 6 ∧ 1 ≤ q.2 ∧ q.2 ≤ 15 ∧ q.1.1.2.2 = 0 ∧
    (q.1.1 = 0 → q.1.2.1 / 3 ≠ q.1.2.2 / 3) := by decide +kernel

theorem anIdx_iff (R : Cell) (i j n : ℕ) : anIdx R i j = some n ↔ ((R, i, j), n) ∈ anTab := by
  constructor
  · intro h
    unfold anIdx at h
    obtain ⟨q, hq, rfl⟩ := Option.map_eq_some_iff.1 h
    have h1 := List.mem_of_find?_eq_some hq
    have h2 : q.1 = (R, i, j) := by simpa using List.find?_some hq
    rw [← h2]
    exact h1
  · exact an_idx _

/-- Maps of bonds that keep the table, with an inverse that keeps it, keep the numbers. -/
theorem anIdx_map (f g : Cell × ℕ × ℕ → Cell × ℕ × ℕ) (hf : ∀ q ∈ anTab, (f q.1, q.2) ∈ anTab) (hg : ∀ q ∈ anTab, (g q.1, q.2) ∈ anTab)
    (R : Cell) (i j : ℕ) (h : g (f (R, i, j)) = (R, i, j)) :
    anIdx (f (R, i, j)).1 (f (R, i, j)).2.1 (f (R, i, j)).2.2 = anIdx R i j := by
  apply Option.ext
  intro n
  rw [anIdx_iff, anIdx_iff]
  constructor
  · intro hm
    have := hg _ hm
    simpa [h] using this
  · exact hf _

theorem anIdx_rev (R : Cell) (i j : ℕ) : anIdx (-R) j i = anIdx R i j :=
  anIdx_map rev rev (fun q hq => (an_closed q hq).2.2.2) (fun q hq => (an_closed q hq).2.2.2) R i j (by simp [rev])

theorem anT_ne {n : ℕ} (h1 : 1 ≤ n) (h2 : n ≤ 15) : anT n ≠ 0 := by
  interval_cases n <;> norm_num [anT]

end Verif.Props

import Mathlib.Tactic.IntervalCases
import Mathlib.Tactic.Linarith
import Verif.Model.Tmdc

/-!
# Proofs about the tables of `make_tmdc`

Every element of the matrices before the transformation is a linear form in the parameters with coefficients in `ℤ[√3] / 8`.  The
symmetries are identities between such forms, which are checked coefficient by coefficient.
-/

namespace Verif.Materials

/-- A linear form: the list of `(p, a, b)` is the sum of `(a + b √3) / 8 * t p`. -/
abbrev TmForm := List (ℕ × ℤ × ℤ)

/-- The form zero, the default of `matOf`. -/
instance formZero : Zero TmForm := ⟨[]⟩

/-- Value of a form. -/
noncomputable def ev (t : ℕ → ℝ) (f : TmForm) : ℝ := (List.map (fun q => ((q.2.1 : ℝ) + q.2.2 * Real.sqrt 3) / 8 * t q.1) f).sum

theorem matOf_map (t : ℕ → ℝ) (l : List ((ℕ × ℕ) × TmForm)) (i j : ℕ) :
    matOf (l.map fun q => (q.1, ev t q.2)) i j = ev t (matOf l i j) := by
  unfold matOf
  rw [← List.map_reverse, List.find?_map]
  simp only [Function.comp_def]
  cases l.reverse.find? (fun q => decide (q.1 = (i, j))) with
  | none => rfl
  | some q => rfl

/-- The forms of `tmA000`. -/
def tmF000 : List ((ℕ × ℕ) × TmForm) :=
  [((0, 0), [(0, 8, 0)]), ((1, 1), [(1, 8, 0)]), ((5, 5), [(5, 8, 0)]), ((6, 6), [(6, 8, 0)]), ((7, 7), [(7, 8, 0)]),
   ((0, 3), [(32, 8, 0)]), ((1, 2), [(33, 8, 0)]), ((1, 4), [(34, 8, 0)]), ((5, 8), [(35, 8, 0)]), ((5, 10), [(36, 8, 0)]),
   ((6, 9), [(37, 8, 0)]), ((7, 8), [(38, 8, 0)]), ((7, 10), [(39, 8, 0)]), ((2, 2), [(2, 8, 0)]), ((3, 3), [(3, 8, 0)]),
   ((4, 4), [(4, 8, 0)]), ((8, 8), [(8, 8, 0)]), ((9, 9), [(9, 8, 0)]), ((10, 10), [(10, 8, 0)]), ((2, 1), [(33, 8, 0)]),
   ((3, 0), [(32, 8, 0)]), ((4, 1), [(34, 8, 0)]), ((8, 5), [(35, 8, 0)]), ((8, 7), [(38, 8, 0)]), ((9, 6), [(37, 8, 0)]),
   ((10, 5), [(36, 8, 0)]), ((10, 7), [(39, 8, 0)])]

set_option maxRecDepth 10000 in
theorem tmA000_eq (t : ℕ → ℝ) (i j : ℕ) : tmA000 t i j = ev t (matOf tmF000 i j) := by
  rw [← matOf_map, show tmA000 t = matOf
     [((0, 0), t 0), ((1, 1), t 1), ((5, 5), t 5), ((6, 6), t 6), ((7, 7), t 7), ((0, 3), t 32), ((1, 2), t 33), ((1, 4), t 34),
      ((5, 8), t 35), ((5, 10), t 36), ((6, 9), t 37), ((7, 8), t 38), ((7, 10), t 39), ((2, 2), t 2), ((3, 3), t 3), ((4, 4), t 4),
      ((8, 8), t 8), ((9, 9), t 9), ((10, 10), t 10), ((2, 1), t 33), ((3, 0), t 32), ((4, 1), t 34), ((8, 5), t 35), ((8, 7), t 38),
      ((9, 6), t 37), ((10, 5), t 36), ((10, 7), t 39)] from rfl]
  refine congrArg (fun l => matOf l i j) ?_
  simp only [tmF000, List.map_cons, List.map_nil]
  repeat' refine congrArg₂ List.cons (Prod.ext rfl ?_) ?_
  all_goals first | rfl | (simp only [ev, List.map_cons, List.map_nil, List.sum_cons, List.sum_nil]; push_cast; ring)

/-- The forms of `tmA100`. -/
def tmF100 : List ((ℕ × ℕ) × TmForm) :=
  [((0, 0), [(11, 2, 0), (12, 6, 0)]), ((0, 1), [(11, 0, 2), (12, 0, -2), (25, 8, 0)]),
   ((1, 0), [(11, 0, 2), (12, 0, -2), (25, -8, 0)]), ((1, 1), [(11, 6, 0), (12, 2, 0)]), ((5, 5), [(16, 8, 0)]),
   ((5, 6), [(28, -4, 0), (23, 0, 4)]), ((6, 5), [(28, 4, 0), (23, 0, 4)]), ((5, 7), [(28, 0, -4), (23, -4, 0)]),
   ((7, 5), [(28, 0, 4), (23, -4, 0)]), ((6, 6), [(17, 2, 0), (18, 6, 0)]), ((6, 7), [(17, 0, 2), (18, 0, -2), (29, 8, 0)]),
   ((7, 6), [(17, 0, 2), (18, 0, -2), (29, -8, 0)]), ((7, 7), [(17, 6, 0), (18, 2, 0)]), ((0, 2), [(33, 0, -4)]),
   ((0, 3), [(32, 2, 0), (34, 6, 0)]), ((0, 4), [(32, 0, -2), (34, 0, 2)]), ((1, 2), [(33, -4, 0)]),
   ((1, 3), [(32, 0, -2), (34, 0, 2)]), ((1, 4), [(32, 6, 0), (34, 2, 0)]), ((5, 8), [(35, 8, 0)]), ((5, 9), [(36, 0, -4)]),
   ((5, 10), [(36, -4, 0)]), ((6, 8), [(38, 0, -4)]), ((6, 9), [(37, 2, 0), (39, 6, 0)]), ((6, 10), [(37, 0, -2), (39, 0, 2)]),
   ((7, 8), [(38, -4, 0)]), ((7, 9), [(37, 0, -2), (39, 0, 2)]), ((7, 10), [(37, 6, 0), (39, 2, 0)]), ((2, 2), [(13, 8, 0)]),
   ((2, 3), [(26, -4, 0), (22, 0, 4)]), ((3, 2), [(26, 4, 0), (22, 0, 4)]), ((2, 4), [(26, 0, -4), (22, -4, 0)]),
   ((4, 2), [(26, 0, 4), (22, -4, 0)]), ((3, 3), [(14, 2, 0), (15, 6, 0)]), ((3, 4), [(14, 0, 2), (15, 0, -2), (27, 8, 0)]),
   ((4, 3), [(14, 0, 2), (15, 0, -2), (27, -8, 0)]), ((4, 4), [(14, 6, 0), (15, 2, 0)]), ((8, 8), [(19, 8, 0)]),
   ((8, 9), [(30, -4, 0), (24, 0, 4)]), ((9, 8), [(30, 4, 0), (24, 0, 4)]), ((8, 10), [(30, 0, -4), (24, -4, 0)]),
   ((10, 8), [(30, 0, 4), (24, -4, 0)]), ((9, 9), [(20, 2, 0), (21, 6, 0)]), ((9, 10), [(20, 0, 2), (21, 0, -2), (31, 8, 0)]),
   ((10, 9), [(20, 0, 2), (21, 0, -2), (31, -8, 0)]), ((10, 10), [(20, 6, 0), (21, 2, 0)])]

set_option maxRecDepth 10000 in
theorem tmA100_eq (t : ℕ → ℝ) (i j : ℕ) : tmA100 t i j = ev t (matOf tmF100 i j) := by
  rw [← matOf_map, show tmA100 t = matOf
     [((0, 0), t 11 / 4 + 3 * t 12 / 4), ((0, 1), -(-Real.sqrt 3 * (t 11 - t 12) / 4 - t 25)),
      ((1, 0), Real.sqrt 3 * (t 11 - t 12) / 4 - t 25), ((1, 1), 3 * t 11 / 4 + t 12 / 4), ((5, 5), t 16),
      ((5, 6), -(t 28 / 2 - Real.sqrt 3 * t 23 / 2)), ((6, 5), t 28 / 2 + Real.sqrt 3 * t 23 / 2),
      ((5, 7), -Real.sqrt 3 * t 28 / 2 - t 23 / 2), ((7, 5), Real.sqrt 3 * t 28 / 2 - t 23 / 2), ((6, 6), t 17 / 4 + 3 * t 18 / 4),
      ((6, 7), -(-Real.sqrt 3 * (t 17 - t 18) / 4 - t 29)), ((7, 6), Real.sqrt 3 * (t 17 - t 18) / 4 - t 29),
      ((7, 7), 3 * t 17 / 4 + t 18 / 4), ((0, 2), -Real.sqrt 3 * t 33 / 2), ((0, 3), t 32 / 4 + 3 * t 34 / 4),
      ((0, 4), -Real.sqrt 3 * t 32 / 4 + Real.sqrt 3 * t 34 / 4), ((1, 2), -t 33 / 2),
      ((1, 3), -Real.sqrt 3 * t 32 / 4 + Real.sqrt 3 * t 34 / 4), ((1, 4), 3 * t 32 / 4 + t 34 / 4), ((5, 8), t 35),
      ((5, 9), -Real.sqrt 3 * t 36 / 2), ((5, 10), -t 36 / 2), ((6, 8), -Real.sqrt 3 * t 38 / 2), ((6, 9), t 37 / 4 + 3 * t 39 / 4),
      ((6, 10), -Real.sqrt 3 * t 37 / 4 + Real.sqrt 3 * t 39 / 4), ((7, 8), -t 38 / 2),
      ((7, 9), -Real.sqrt 3 * t 37 / 4 + Real.sqrt 3 * t 39 / 4), ((7, 10), 3 * t 37 / 4 + t 39 / 4), ((2, 2), t 13),
      ((2, 3), -(t 26 / 2 - Real.sqrt 3 * t 22 / 2)), ((3, 2), t 26 / 2 + Real.sqrt 3 * t 22 / 2),
      ((2, 4), -Real.sqrt 3 * t 26 / 2 - t 22 / 2), ((4, 2), Real.sqrt 3 * t 26 / 2 - t 22 / 2), ((3, 3), t 14 / 4 + 3 * t 15 / 4),
      ((3, 4), -(-Real.sqrt 3 * (t 14 - t 15) / 4 - t 27)), ((4, 3), Real.sqrt 3 * (t 14 - t 15) / 4 - t 27),
      ((4, 4), 3 * t 14 / 4 + t 15 / 4), ((8, 8), t 19), ((8, 9), -(t 30 / 2 - Real.sqrt 3 * t 24 / 2)),
      ((9, 8), t 30 / 2 + Real.sqrt 3 * t 24 / 2), ((8, 10), -Real.sqrt 3 * t 30 / 2 - t 24 / 2),
      ((10, 8), Real.sqrt 3 * t 30 / 2 - t 24 / 2), ((9, 9), t 20 / 4 + 3 * t 21 / 4),
      ((9, 10), -(-Real.sqrt 3 * (t 20 - t 21) / 4 - t 31)), ((10, 9), Real.sqrt 3 * (t 20 - t 21) / 4 - t 31),
      ((10, 10), 3 * t 20 / 4 + t 21 / 4)] from rfl]
  refine congrArg (fun l => matOf l i j) ?_
  simp only [tmF100, List.map_cons, List.map_nil]
  repeat' refine congrArg₂ List.cons (Prod.ext rfl ?_) ?_
  all_goals first | rfl | (simp only [ev, List.map_cons, List.map_nil, List.sum_cons, List.sum_nil]; push_cast; ring)

/-- The forms of `tmA110`. -/
def tmF110 : List ((ℕ × ℕ) × TmForm) :=
  [((5, 8), [(40, 8, 0)]), ((5, 10), [(41, 8, 0)]), ((7, 8), [(42, 8, 0)]), ((7, 10), [(43, 8, 0)])]

set_option maxRecDepth 10000 in
theorem tmA110_eq (t : ℕ → ℝ) (i j : ℕ) : tmA110 t i j = ev t (matOf tmF110 i j) := by
  rw [← matOf_map, show tmA110 t = matOf
     [((5, 8), t 40), ((5, 10), t 41), ((7, 8), t 42), ((7, 10), t 43)] from rfl]
  refine congrArg (fun l => matOf l i j) ?_
  simp only [tmF110, List.map_cons, List.map_nil]
  repeat' refine congrArg₂ List.cons (Prod.ext rfl ?_) ?_
  all_goals first | rfl | (simp only [ev, List.map_cons, List.map_nil, List.sum_cons, List.sum_nil]; push_cast; ring)

/-- The forms of `tmA010`. -/
def tmF010 : List ((ℕ × ℕ) × TmForm) :=
  [((0, 0), [(11, 2, 0), (12, 6, 0)]), ((0, 1), [(11, 0, -2), (12, 0, 2), (25, -8, 0)]),
   ((1, 0), [(11, 0, -2), (12, 0, 2), (25, 8, 0)]), ((1, 1), [(11, 6, 0), (12, 2, 0)]), ((5, 5), [(16, 8, 0)]),
   ((5, 6), [(28, 4, 0), (23, 0, -4)]), ((6, 5), [(28, -4, 0), (23, 0, -4)]), ((5, 7), [(28, 0, -4), (23, -4, 0)]),
   ((7, 5), [(28, 0, 4), (23, -4, 0)]), ((6, 6), [(17, 2, 0), (18, 6, 0)]), ((6, 7), [(17, 0, -2), (18, 0, 2), (29, -8, 0)]),
   ((7, 6), [(17, 0, -2), (18, 0, 2), (29, 8, 0)]), ((7, 7), [(17, 6, 0), (18, 2, 0)]), ((0, 2), [(33, 0, 4)]),
   ((0, 3), [(32, 2, 0), (34, 6, 0)]), ((0, 4), [(32, 0, 2), (34, 0, -2)]), ((1, 2), [(33, -4, 0)]),
   ((1, 3), [(32, 0, 2), (34, 0, -2)]), ((1, 4), [(32, 6, 0), (34, 2, 0)]), ((5, 8), [(35, 8, 0)]), ((5, 9), [(36, 0, 4)]),
   ((5, 10), [(36, -4, 0)]), ((6, 8), [(38, 0, 4)]), ((6, 9), [(37, 2, 0), (39, 6, 0)]), ((6, 10), [(37, 0, 2), (39, 0, -2)]),
   ((7, 8), [(38, -4, 0)]), ((7, 9), [(37, 0, 2), (39, 0, -2)]), ((7, 10), [(37, 6, 0), (39, 2, 0)]), ((2, 2), [(13, 8, 0)]),
   ((2, 3), [(26, 4, 0), (22, 0, -4)]), ((3, 2), [(26, -4, 0), (22, 0, -4)]), ((2, 4), [(26, 0, -4), (22, -4, 0)]),
   ((4, 2), [(26, 0, 4), (22, -4, 0)]), ((3, 3), [(14, 2, 0), (15, 6, 0)]), ((3, 4), [(14, 0, -2), (15, 0, 2), (27, -8, 0)]),
   ((4, 3), [(14, 0, -2), (15, 0, 2), (27, 8, 0)]), ((4, 4), [(14, 6, 0), (15, 2, 0)]), ((8, 8), [(19, 8, 0)]),
   ((8, 9), [(30, 4, 0), (24, 0, -4)]), ((9, 8), [(30, -4, 0), (24, 0, -4)]), ((8, 10), [(30, 0, -4), (24, -4, 0)]),
   ((10, 8), [(30, 0, 4), (24, -4, 0)]), ((9, 9), [(20, 2, 0), (21, 6, 0)]), ((9, 10), [(20, 0, -2), (21, 0, 2), (31, -8, 0)]),
   ((10, 9), [(20, 0, -2), (21, 0, 2), (31, 8, 0)]), ((10, 10), [(20, 6, 0), (21, 2, 0)])]

set_option maxRecDepth 10000 in
theorem tmA010_eq (t : ℕ → ℝ) (i j : ℕ) : tmA010 t i j = ev t (matOf tmF010 i j) := by
  rw [← matOf_map, show tmA010 t = matOf
     [((0, 0), t 11 / 4 + 3 * t 12 / 4), ((0, 1), -Real.sqrt 3 * (t 11 - t 12) / 4 - t 25),
      ((1, 0), -(Real.sqrt 3 * (t 11 - t 12) / 4 - t 25)), ((1, 1), 3 * t 11 / 4 + t 12 / 4), ((5, 5), t 16),
      ((5, 6), t 28 / 2 - Real.sqrt 3 * t 23 / 2), ((6, 5), -(t 28 / 2 + Real.sqrt 3 * t 23 / 2)),
      ((5, 7), -Real.sqrt 3 * t 28 / 2 - t 23 / 2), ((7, 5), Real.sqrt 3 * t 28 / 2 - t 23 / 2), ((6, 6), t 17 / 4 + 3 * t 18 / 4),
      ((6, 7), -Real.sqrt 3 * (t 17 - t 18) / 4 - t 29), ((7, 6), -(Real.sqrt 3 * (t 17 - t 18) / 4 - t 29)),
      ((7, 7), 3 * t 17 / 4 + t 18 / 4), ((0, 2), -(-Real.sqrt 3 * t 33 / 2)), ((0, 3), t 32 / 4 + 3 * t 34 / 4),
      ((0, 4), -(-Real.sqrt 3 * t 32 / 4 + Real.sqrt 3 * t 34 / 4)), ((1, 2), -t 33 / 2),
      ((1, 3), -(-Real.sqrt 3 * t 32 / 4 + Real.sqrt 3 * t 34 / 4)), ((1, 4), 3 * t 32 / 4 + t 34 / 4), ((5, 8), t 35),
      ((5, 9), -(-Real.sqrt 3 * t 36 / 2)), ((5, 10), -t 36 / 2), ((6, 8), -(-Real.sqrt 3 * t 38 / 2)),
      ((6, 9), t 37 / 4 + 3 * t 39 / 4), ((6, 10), -(-Real.sqrt 3 * t 37 / 4 + Real.sqrt 3 * t 39 / 4)), ((7, 8), -t 38 / 2),
      ((7, 9), -(-Real.sqrt 3 * t 37 / 4 + Real.sqrt 3 * t 39 / 4)), ((7, 10), 3 * t 37 / 4 + t 39 / 4), ((2, 2), t 13),
      ((2, 3), t 26 / 2 - Real.sqrt 3 * t 22 / 2), ((3, 2), -(t 26 / 2 + Real.sqrt 3 * t 22 / 2)),
      ((2, 4), -Real.sqrt 3 * t 26 / 2 - t 22 / 2), ((4, 2), Real.sqrt 3 * t 26 / 2 - t 22 / 2), ((3, 3), t 14 / 4 + 3 * t 15 / 4),
      ((3, 4), -Real.sqrt 3 * (t 14 - t 15) / 4 - t 27), ((4, 3), -(Real.sqrt 3 * (t 14 - t 15) / 4 - t 27)),
      ((4, 4), 3 * t 14 / 4 + t 15 / 4), ((8, 8), t 19), ((8, 9), t 30 / 2 - Real.sqrt 3 * t 24 / 2),
      ((9, 8), -(t 30 / 2 + Real.sqrt 3 * t 24 / 2)), ((8, 10), -Real.sqrt 3 * t 30 / 2 - t 24 / 2),
      ((10, 8), Real.sqrt 3 * t 30 / 2 - t 24 / 2), ((9, 9), t 20 / 4 + 3 * t 21 / 4),
      ((9, 10), -Real.sqrt 3 * (t 20 - t 21) / 4 - t 31), ((10, 9), -(Real.sqrt 3 * (t 20 - t 21) / 4 - t 31)),
      ((10, 10), 3 * t 20 / 4 + t 21 / 4)] from rfl]
  refine congrArg (fun l => matOf l i j) ?_
  simp only [tmF010, List.map_cons, List.map_nil]
  repeat' refine congrArg₂ List.cons (Prod.ext rfl ?_) ?_
  all_goals first | rfl | (simp only [ev, List.map_cons, List.map_nil, List.sum_cons, List.sum_nil]; push_cast; ring)

/-- The forms of `tmAm110`. -/
def tmFm110 : List ((ℕ × ℕ) × TmForm) :=
  [((0, 0), [(11, 8, 0)]), ((0, 1), [(25, 8, 0)]), ((1, 0), [(25, -8, 0)]), ((1, 1), [(12, 8, 0)]), ((5, 5), [(16, 8, 0)]),
   ((5, 6), [(28, 8, 0)]), ((6, 5), [(28, -8, 0)]), ((5, 7), [(23, 8, 0)]), ((7, 5), [(23, 8, 0)]), ((6, 6), [(17, 8, 0)]),
   ((6, 7), [(29, 8, 0)]), ((7, 6), [(29, -8, 0)]), ((7, 7), [(18, 8, 0)]), ((5, 8), [(40, 8, 0)]), ((5, 10), [(41, -4, 0)]),
   ((5, 9), [(41, 0, -4)]), ((7, 8), [(42, -4, 0)]), ((6, 8), [(42, 0, -4)]), ((6, 9), [(43, 6, 0)]), ((6, 10), [(43, 0, 2)]),
   ((7, 9), [(43, 0, 2)]), ((7, 10), [(43, 2, 0)]), ((8, 5), [(40, 8, 0)]), ((8, 7), [(42, -4, 0)]), ((8, 6), [(42, 0, 4)]),
   ((10, 5), [(41, -4, 0)]), ((9, 5), [(41, 0, 4)]), ((9, 6), [(43, 6, 0)]), ((10, 6), [(43, 0, -2)]), ((9, 7), [(43, 0, -2)]),
   ((10, 7), [(43, 2, 0)]), ((2, 2), [(13, 8, 0)]), ((2, 3), [(26, 8, 0)]), ((3, 2), [(26, -8, 0)]), ((2, 4), [(22, 8, 0)]),
   ((4, 2), [(22, 8, 0)]), ((3, 3), [(14, 8, 0)]), ((3, 4), [(27, 8, 0)]), ((4, 3), [(27, -8, 0)]), ((4, 4), [(15, 8, 0)]),
   ((8, 8), [(19, 8, 0)]), ((8, 9), [(30, 8, 0)]), ((9, 8), [(30, -8, 0)]), ((8, 10), [(24, 8, 0)]), ((10, 8), [(24, 8, 0)]),
   ((9, 9), [(20, 8, 0)]), ((9, 10), [(31, 8, 0)]), ((10, 9), [(31, -8, 0)]), ((10, 10), [(21, 8, 0)])]

set_option maxRecDepth 10000 in
theorem tmAm110_eq (t : ℕ → ℝ) (i j : ℕ) : tmAm110 t i j = ev t (matOf tmFm110 i j) := by
  rw [← matOf_map, show tmAm110 t = matOf
     [((0, 0), t 11), ((0, 1), t 25), ((1, 0), -t 25), ((1, 1), t 12), ((5, 5), t 16), ((5, 6), t 28), ((6, 5), -t 28),
      ((5, 7), t 23), ((7, 5), t 23), ((6, 6), t 17), ((6, 7), t 29), ((7, 6), -t 29), ((7, 7), t 18), ((5, 8), t 40),
      ((5, 10), -0.5 * t 41), ((5, 9), -Real.sqrt 3 * t 41 / 2), ((7, 8), -0.5 * t 42), ((6, 8), -Real.sqrt 3 * t 42 / 2),
      ((6, 9), 3 * t 43 / 4), ((6, 10), Real.sqrt 3 * t 43 / 4), ((7, 9), Real.sqrt 3 * t 43 / 4), ((7, 10), t 43 / 4),
      ((8, 5), t 40), ((8, 7), -0.5 * t 42), ((8, 6), Real.sqrt 3 * t 42 / 2), ((10, 5), -0.5 * t 41),
      ((9, 5), Real.sqrt 3 * t 41 / 2), ((9, 6), 3 * t 43 / 4), ((10, 6), -Real.sqrt 3 * t 43 / 4),
      ((9, 7), -Real.sqrt 3 * t 43 / 4), ((10, 7), t 43 / 4), ((2, 2), t 13), ((2, 3), t 26), ((3, 2), -t 26), ((2, 4), t 22),
      ((4, 2), t 22), ((3, 3), t 14), ((3, 4), t 27), ((4, 3), -t 27), ((4, 4), t 15), ((8, 8), t 19), ((8, 9), t 30),
      ((9, 8), -t 30), ((8, 10), t 24), ((10, 8), t 24), ((9, 9), t 20), ((9, 10), t 31), ((10, 9), -t 31), ((10, 10), t 21)] from rfl]
  refine congrArg (fun l => matOf l i j) ?_
  simp only [tmFm110, List.map_cons, List.map_nil]
  repeat' refine congrArg₂ List.cons (Prod.ext rfl ?_) ?_
  all_goals first | rfl | (simp only [ev, List.map_cons, List.map_nil, List.sum_cons, List.sum_nil]; push_cast; ring)

/-- The matrix of the cell `R` before the transformation, with the conjugates of the matrices that are not in the dictionary. -/
noncomputable def tmFull (t : ℕ → ℝ) (R : Cell) (l m : ℕ) : ℝ :=
  if R = (0, 0, 0) then tmA000 t l m else if R = (1, 0, 0) then tmA100 t l m else if R = (1, 1, 0) then tmA110 t l m
  else if R = (0, 1, 0) then tmA010 t l m else if R = (-1, 1, 0) then tmAm110 t l m
  else if R = (-1, 0, 0) then tmA100 t m l else if R = (-1, -1, 0) then tmA110 t m l
  else if R = (0, -1, 0) then tmA010 t m l else if R = (1, -1, 0) then tmAm110 t m l else 0

/-- An element of a table by rows. -/
def rowGet (l : List (List (ℕ × TmForm))) (i j : ℕ) : TmForm := ((l.getD i []).find? fun q => q.1 == j).elim [] Prod.snd

/-- The same by rows. -/
def tmRows000 : List (List (ℕ × TmForm)) :=
  [[(0, [(0, 8, 0)]), (3, [(32, 8, 0)])], [(1, [(1, 8, 0)]), (2, [(33, 8, 0)]), (4, [(34, 8, 0)])],
   [(1, [(33, 8, 0)]), (2, [(2, 8, 0)])], [(0, [(32, 8, 0)]), (3, [(3, 8, 0)])], [(1, [(34, 8, 0)]), (4, [(4, 8, 0)])],
   [(5, [(5, 8, 0)]), (8, [(35, 8, 0)]), (10, [(36, 8, 0)])], [(6, [(6, 8, 0)]), (9, [(37, 8, 0)])],
   [(7, [(7, 8, 0)]), (8, [(38, 8, 0)]), (10, [(39, 8, 0)])], [(5, [(35, 8, 0)]), (7, [(38, 8, 0)]), (8, [(8, 8, 0)])],
   [(6, [(37, 8, 0)]), (9, [(9, 8, 0)])], [(5, [(36, 8, 0)]), (7, [(39, 8, 0)]), (10, [(10, 8, 0)])]]

theorem tmRows000_eq : ∀ i < 11, ∀ j < 11, matOf tmF000 i j = rowGet tmRows000 i j := by decide +kernel

/-- The same by rows. -/
def tmRows100 : List (List (ℕ × TmForm)) :=
  [
   [(0, [(11, 2, 0), (12, 6, 0)]), (1, [(11, 0, 2), (12, 0, -2), (25, 8, 0)]), (2, [(33, 0, -4)]), (3, [(32, 2, 0), (34, 6, 0)]), (4, [(32, 0, -2), (34, 0, 2)])],
   [(0, [(11, 0, 2), (12, 0, -2), (25, -8, 0)]), (1, [(11, 6, 0), (12, 2, 0)]), (2, [(33, -4, 0)]), (3, [(32, 0, -2), (34, 0, 2)]), (4, [(32, 6, 0), (34, 2, 0)])],
   [(2, [(13, 8, 0)]), (3, [(26, -4, 0), (22, 0, 4)]), (4, [(26, 0, -4), (22, -4, 0)])],
   [(2, [(26, 4, 0), (22, 0, 4)]), (3, [(14, 2, 0), (15, 6, 0)]), (4, [(14, 0, 2), (15, 0, -2), (27, 8, 0)])],
   [(2, [(26, 0, 4), (22, -4, 0)]), (3, [(14, 0, 2), (15, 0, -2), (27, -8, 0)]), (4, [(14, 6, 0), (15, 2, 0)])],
   [(5, [(16, 8, 0)]), (6, [(28, -4, 0), (23, 0, 4)]), (7, [(28, 0, -4), (23, -4, 0)]), (8, [(35, 8, 0)]), (9, [(36, 0, -4)]), (10, [(36, -4, 0)])],
   [(5, [(28, 4, 0), (23, 0, 4)]), (6, [(17, 2, 0), (18, 6, 0)]), (7, [(17, 0, 2), (18, 0, -2), (29, 8, 0)]), (8, [(38, 0, -4)]), (9, [(37, 2, 0), (39, 6, 0)]), (10, [(37, 0, -2), (39, 0, 2)])],
   [(5, [(28, 0, 4), (23, -4, 0)]), (6, [(17, 0, 2), (18, 0, -2), (29, -8, 0)]), (7, [(17, 6, 0), (18, 2, 0)]), (8, [(38, -4, 0)]), (9, [(37, 0, -2), (39, 0, 2)]), (10, [(37, 6, 0), (39, 2, 0)])],
   [(8, [(19, 8, 0)]), (9, [(30, -4, 0), (24, 0, 4)]), (10, [(30, 0, -4), (24, -4, 0)])],
   [(8, [(30, 4, 0), (24, 0, 4)]), (9, [(20, 2, 0), (21, 6, 0)]), (10, [(20, 0, 2), (21, 0, -2), (31, 8, 0)])],
   [(8, [(30, 0, 4), (24, -4, 0)]), (9, [(20, 0, 2), (21, 0, -2), (31, -8, 0)]), (10, [(20, 6, 0), (21, 2, 0)])]]

theorem tmRows100_eq : ∀ i < 11, ∀ j < 11, matOf tmF100 i j = rowGet tmRows100 i j := by decide +kernel

/-- The same by rows. -/
def tmRows110 : List (List (ℕ × TmForm)) :=
  [[], [], [], [], [], [(8, [(40, 8, 0)]), (10, [(41, 8, 0)])], [], [(8, [(42, 8, 0)]), (10, [(43, 8, 0)])], [], [], []]

theorem tmRows110_eq : ∀ i < 11, ∀ j < 11, matOf tmF110 i j = rowGet tmRows110 i j := by decide +kernel

/-- The same by rows. -/
def tmRows010 : List (List (ℕ × TmForm)) :=
  [
   [(0, [(11, 2, 0), (12, 6, 0)]), (1, [(11, 0, -2), (12, 0, 2), (25, -8, 0)]), (2, [(33, 0, 4)]), (3, [(32, 2, 0), (34, 6, 0)]), (4, [(32, 0, 2), (34, 0, -2)])],
   [(0, [(11, 0, -2), (12, 0, 2), (25, 8, 0)]), (1, [(11, 6, 0), (12, 2, 0)]), (2, [(33, -4, 0)]), (3, [(32, 0, 2), (34, 0, -2)]), (4, [(32, 6, 0), (34, 2, 0)])],
   [(2, [(13, 8, 0)]), (3, [(26, 4, 0), (22, 0, -4)]), (4, [(26, 0, -4), (22, -4, 0)])],
   [(2, [(26, -4, 0), (22, 0, -4)]), (3, [(14, 2, 0), (15, 6, 0)]), (4, [(14, 0, -2), (15, 0, 2), (27, -8, 0)])],
   [(2, [(26, 0, 4), (22, -4, 0)]), (3, [(14, 0, -2), (15, 0, 2), (27, 8, 0)]), (4, [(14, 6, 0), (15, 2, 0)])],
   [(5, [(16, 8, 0)]), (6, [(28, 4, 0), (23, 0, -4)]), (7, [(28, 0, -4), (23, -4, 0)]), (8, [(35, 8, 0)]), (9, [(36, 0, 4)]), (10, [(36, -4, 0)])],
   [(5, [(28, -4, 0), (23, 0, -4)]), (6, [(17, 2, 0), (18, 6, 0)]), (7, [(17, 0, -2), (18, 0, 2), (29, -8, 0)]), (8, [(38, 0, 4)]), (9, [(37, 2, 0), (39, 6, 0)]), (10, [(37, 0, 2), (39, 0, -2)])],
   [(5, [(28, 0, 4), (23, -4, 0)]), (6, [(17, 0, -2), (18, 0, 2), (29, 8, 0)]), (7, [(17, 6, 0), (18, 2, 0)]), (8, [(38, -4, 0)]), (9, [(37, 0, 2), (39, 0, -2)]), (10, [(37, 6, 0), (39, 2, 0)])],
   [(8, [(19, 8, 0)]), (9, [(30, 4, 0), (24, 0, -4)]), (10, [(30, 0, -4), (24, -4, 0)])],
   [(8, [(30, -4, 0), (24, 0, -4)]), (9, [(20, 2, 0), (21, 6, 0)]), (10, [(20, 0, -2), (21, 0, 2), (31, -8, 0)])],
   [(8, [(30, 0, 4), (24, -4, 0)]), (9, [(20, 0, -2), (21, 0, 2), (31, 8, 0)]), (10, [(20, 6, 0), (21, 2, 0)])]]

theorem tmRows010_eq : ∀ i < 11, ∀ j < 11, matOf tmF010 i j = rowGet tmRows010 i j := by decide +kernel

/-- The same by rows. -/
def tmRowsm110 : List (List (ℕ × TmForm)) :=
  [[(0, [(11, 8, 0)]), (1, [(25, 8, 0)])], [(0, [(25, -8, 0)]), (1, [(12, 8, 0)])],
   [(2, [(13, 8, 0)]), (3, [(26, 8, 0)]), (4, [(22, 8, 0)])], [(2, [(26, -8, 0)]), (3, [(14, 8, 0)]), (4, [(27, 8, 0)])],
   [(2, [(22, 8, 0)]), (3, [(27, -8, 0)]), (4, [(15, 8, 0)])],
   [(5, [(16, 8, 0)]), (6, [(28, 8, 0)]), (7, [(23, 8, 0)]), (8, [(40, 8, 0)]), (9, [(41, 0, -4)]), (10, [(41, -4, 0)])],
   [(5, [(28, -8, 0)]), (6, [(17, 8, 0)]), (7, [(29, 8, 0)]), (8, [(42, 0, -4)]), (9, [(43, 6, 0)]), (10, [(43, 0, 2)])],
   [(5, [(23, 8, 0)]), (6, [(29, -8, 0)]), (7, [(18, 8, 0)]), (8, [(42, -4, 0)]), (9, [(43, 0, 2)]), (10, [(43, 2, 0)])],
   [(5, [(40, 8, 0)]), (6, [(42, 0, 4)]), (7, [(42, -4, 0)]), (8, [(19, 8, 0)]), (9, [(30, 8, 0)]), (10, [(24, 8, 0)])],
   [(5, [(41, 0, 4)]), (6, [(43, 6, 0)]), (7, [(43, 0, -2)]), (8, [(30, -8, 0)]), (9, [(20, 8, 0)]), (10, [(31, 8, 0)])],
   [(5, [(41, -4, 0)]), (6, [(43, 0, -2)]), (7, [(43, 2, 0)]), (8, [(24, 8, 0)]), (9, [(31, -8, 0)]), (10, [(21, 8, 0)])]]

theorem tmRowsm110_eq : ∀ i < 11, ∀ j < 11, matOf tmFm110 i j = rowGet tmRowsm110 i j := by decide +kernel

/-- The forms of `tmFull`. -/
def tmForms (R : Cell) (l m : ℕ) : TmForm :=
  match R with
  | (0, 0, 0) => rowGet tmRows000 l m
  | (1, 0, 0) => rowGet tmRows100 l m
  | (1, 1, 0) => rowGet tmRows110 l m
  | (0, 1, 0) => rowGet tmRows010 l m
  | (-1, 1, 0) => rowGet tmRowsm110 l m
  | (-1, 0, 0) => rowGet tmRows100 m l
  | (-1, -1, 0) => rowGet tmRows110 m l
  | (0, -1, 0) => rowGet tmRows010 m l
  | (1, -1, 0) => rowGet tmRowsm110 m l
  | _ => []

theorem tmFull_eq (t : ℕ → ℝ) (R : Cell) (l m : ℕ) (hl : l < 11) (hm : m < 11) : tmFull t R l m = ev t (tmForms R l m) := by
  unfold tmFull
  simp only [tmA000_eq, tmA100_eq, tmA110_eq, tmA010_eq, tmAm110_eq, tmRows000_eq _ hl _ hm, tmRows100_eq _ hl _ hm, tmRows110_eq _ hl _ hm,
    tmRows010_eq _ hl _ hm, tmRowsm110_eq _ hl _ hm, tmRows100_eq _ hm _ hl, tmRows110_eq _ hm _ hl, tmRows010_eq _ hm _ hl, tmRowsm110_eq _ hm _ hl]
  split_ifs
  all_goals first | (subst R; rfl) | skip
  unfold tmForms
  split <;> first | contradiction | simp [ev]

theorem tmFull_support {t : ℕ → ℝ} {R : Cell} {l m : ℕ} (h : tmFull t R l m ≠ 0) :
    -1 ≤ R.1 ∧ R.1 ≤ 1 ∧ -1 ≤ R.2.1 ∧ R.2.1 ≤ 1 ∧ R.2.2 = 0 := by
  unfold tmFull at h
  split_ifs at h <;> first | (subst R; decide) | exact absurd rfl h

/-- `(u + v √3) f`. -/
def scaleForm (u : ℤ × ℤ) (f : TmForm) : TmForm := List.map (fun q => (q.1, u.1 * q.2.1 + 3 * u.2 * q.2.2, u.1 * q.2.2 + u.2 * q.2.1)) f

/-- `(u + v √3) / 2`. -/
noncomputable def val2 (u : ℤ × ℤ) : ℝ := ((u.1 : ℝ) + u.2 * Real.sqrt 3) / 2

theorem ev_append (t : ℕ → ℝ) (f g : TmForm) : ev t (List.append f g) = ev t f + ev t g := by
  simp only [ev, List.append_eq, List.map_append, List.sum_append]

theorem ev_scale (t : ℕ → ℝ) (u : ℤ × ℤ) (f : TmForm) : ev t (scaleForm u f) = 2 * val2 u * ev t f := by
  have h33 : Real.sqrt 3 * Real.sqrt 3 = 3 := Real.mul_self_sqrt (by norm_num)
  simp only [ev, scaleForm, List.map_map, ← List.sum_map_mul_left]
  congr 1
  apply List.map_congr_left
  intro q _
  simp only [Function.comp, val2]
  push_cast
  linear_combination (-(u.2 : ℝ) * q.2.2 * t q.1 / 8) * h33

/-- Parameters which are equal in every material: the energies of the orbitals of one representation. -/
def tmClass (p : ℕ) : ℕ := if p = 1 then 0 else if p = 4 then 3 else if p = 7 then 6 else if p = 10 then 9 else p

/-- The coefficients of a parameter. -/
def coefA (p : ℕ) (f : List (ℕ × ℤ × ℤ)) : ℤ := (f.map fun q => if tmClass q.1 = p then q.2.1 else 0).sum
@[inherit_doc coefA] def coefB (p : ℕ) (f : List (ℕ × ℤ × ℤ)) : ℤ := (f.map fun q => if tmClass q.1 = p then q.2.2 else 0).sum

/-- All coefficients are zero. -/
def isNull (f : List (ℕ × ℤ × ℤ)) : Bool := f.all fun q => coefA (tmClass q.1) f = 0 && coefB (tmClass q.1) f = 0

theorem ev_coef {t : ℕ → ℝ} (ht : ∀ p, t (tmClass p) = t p) (K : Finset ℕ) (f : List (ℕ × ℤ × ℤ)) (hK : ∀ q ∈ f, tmClass q.1 ∈ K) :
    ev t f = ∑ p ∈ K, ((coefA p f : ℝ) + coefB p f * Real.sqrt 3) / 8 * t p := by
  induction f with
  | nil => simp [ev, coefA, coefB]
  | cons q f ih =>
    have e : ev t (q :: f) = ((q.2.1 : ℝ) + q.2.2 * Real.sqrt 3) / 8 * t q.1 + ev t f := by simp [ev]
    rw [e, ih fun q hq => hK q (List.mem_cons_of_mem _ hq)]
    have e2 : ∀ p, ((coefA p (q :: f) : ℝ) + coefB p (q :: f) * Real.sqrt 3) / 8 * t p =
        (if tmClass q.1 = p then ((q.2.1 : ℝ) + q.2.2 * Real.sqrt 3) / 8 * t q.1 else 0) +
          ((coefA p f : ℝ) + coefB p f * Real.sqrt 3) / 8 * t p := by
      intro p
      simp only [coefA, coefB, List.map_cons, List.sum_cons]
      split_ifs with h
      · rw [← ht q.1, h]; push_cast; ring
      · push_cast; ring
    simp only [e2, Finset.sum_add_distrib]
    rw [Finset.sum_ite_eq, if_pos (hK q List.mem_cons_self)]

theorem ev_null {t : ℕ → ℝ} (ht : ∀ p, t (tmClass p) = t p) {f : TmForm} (h : isNull f = true) : ev t f = 0 := by
  classical
  rw [ev_coef ht (List.map (fun q => tmClass q.1) f).toFinset f (fun q hq => by
    rw [List.mem_toFinset]; exact List.mem_map.2 ⟨q, hq, rfl⟩)]
  refine Finset.sum_eq_zero fun p hp => ?_
  rw [List.mem_toFinset] at hp
  obtain ⟨q, hq, rfl⟩ := List.mem_map.1 hp
  have := List.all_eq_true.1 h q hq
  simp only [Bool.and_eq_true, decide_eq_true_eq] at this
  rw [this.1, this.2]
  simp

/-- A matrix with elements in `ℤ[√3] / 2`, given by its non-zero elements. -/
abbrev Sparse := List ((ℕ × ℕ) × ℤ × ℤ)

/-- Value of an element. -/
noncomputable def spVal (U : Sparse) (i j : ℕ) : ℝ := (U.map fun q => if q.1 = (i, j) then val2 q.2 else 0).sum

theorem spVal_row (U : Sparse) (n : ℕ) (hU : ∀ q ∈ U, q.1.2 < n) (F : ℕ → ℝ) (a : ℕ) :
    ∑ i ∈ Finset.range n, spVal U a i * F i = ((U.filter fun q => q.1.1 = a).map fun q => val2 q.2 * F q.1.2).sum := by
  induction U with
  | nil => simp [spVal]
  | cons q U ih =>
    have e : ∀ i, spVal (q :: U) a i * F i = (if q.1.2 = i then if q.1.1 = a then val2 q.2 * F q.1.2 else 0 else 0) + spVal U a i * F i := by
      intro i
      simp only [spVal, List.map_cons, List.sum_cons, add_mul]
      congr 1
      by_cases h1 : q.1.1 = a <;> by_cases h2 : q.1.2 = i <;> simp [h1, h2, Prod.ext_iff]
    simp only [e, Finset.sum_add_distrib]
    rw [ih fun q hq => hU q (List.mem_cons_of_mem _ hq), Finset.sum_ite_eq, if_pos (Finset.mem_range.2 (hU q List.mem_cons_self)), List.filter_cons]
    by_cases h1 : q.1.1 = a <;> simp [h1]

theorem spVal_col (U : Sparse) (n : ℕ) (hU : ∀ q ∈ U, q.1.1 < n) (F : ℕ → ℝ) (j : ℕ) :
    ∑ b ∈ Finset.range n, F b * spVal U b j = ((U.filter fun q => q.1.2 = j).map fun q => val2 q.2 * F q.1.1).sum := by
  induction U with
  | nil => simp [spVal]
  | cons q U ih =>
    have e : ∀ b, F b * spVal (q :: U) b j = (if q.1.1 = b then if q.1.2 = j then val2 q.2 * F q.1.1 else 0 else 0) + F b * spVal U b j := by
      intro i
      simp only [spVal, List.map_cons, List.sum_cons, mul_add]
      congr 1
      by_cases h1 : q.1.1 = i <;> by_cases h2 : q.1.2 = j <;> simp [h1, h2, Prod.ext_iff, mul_comm]
    simp only [e, Finset.sum_add_distrib]
    rw [ih fun q hq => hU q (List.mem_cons_of_mem _ hq), Finset.sum_ite_eq, if_pos (Finset.mem_range.2 (hU q List.mem_cons_self)), List.filter_cons]
    by_cases h1 : q.1.2 = j <;> simp [h1]

/-- The difference of both sides of the condition for a symmetry, as a form. -/
def commForm (B : Cell → Cell) (U : Sparse) (τ : ℕ → Cell) (T : Cell) (a j : ℕ) : TmForm :=
  List.append ((U.filter fun q => q.1.2 = j).flatMap fun q => scaleForm q.2 (tmForms T a q.1.1))
    ((U.filter fun q => q.1.1 = a).flatMap fun q => scaleForm (-q.2.1, -q.2.2) (tmForms (B (T - τ j + τ q.1.2)) q.1.2 j))

theorem ev_flatMap {α : Type*} (t : ℕ → ℝ) (l : List α) (f : α → TmForm) : ev t (l.flatMap f) = (l.map fun x => ev t (f x)).sum := by
  induction l with
  | nil => simp [ev]
  | cons x l ih =>
    rw [List.flatMap_cons, List.map_cons, List.sum_cons, ← ih]
    exact ev_append t (f x) (l.flatMap f)

/-- The cells near the origin. -/
def tmBox : List Cell := [-3, -2, -1, 0, 1, 2, 3].flatMap fun x => [-1, 0, 1].map fun y => (x, y, 0)

/-- The condition for a symmetry holds for the cells of the box. -/
def commOk (B : Cell → Cell) (U : Sparse) (τ : ℕ → Cell) : Bool :=
  tmBox.all fun T => (List.range 11).all fun a => (List.range 11).all fun j => isNull (commForm B U τ T a j)

theorem comm_of_ok {t : ℕ → ℝ} (ht : ∀ p, t (tmClass p) = t p) {B : Cell → Cell} {U : Sparse} {τ : ℕ → Cell}
    (hU : ∀ q ∈ U, q.1.1 < 11 ∧ q.1.2 < 11) (h : commOk B U τ = true)
    (hB : ∀ (T : Cell) (i j : ℕ) (S : Cell), S = B (T - τ j + τ i) →
      -1 ≤ S.1 ∧ S.1 ≤ 1 ∧ -1 ≤ S.2.1 ∧ S.2.1 ≤ 1 ∧ S.2.2 = 0 → -3 ≤ T.1 ∧ T.1 ≤ 3 ∧ -1 ≤ T.2.1 ∧ T.2.1 ≤ 1 ∧ T.2.2 = 0)
    (T : Cell) (a j : ℕ) (ha : a < 11) (hj : j < 11) :
    ∑ b ∈ Finset.range 11, tmFull t T a b * spVal U b j = ∑ i ∈ Finset.range 11, spVal U a i * tmFull t (B (T - τ j + τ i)) i j := by
  by_cases hT : -3 ≤ T.1 ∧ T.1 ≤ 3 ∧ -1 ≤ T.2.1 ∧ T.2.1 ≤ 1 ∧ T.2.2 = 0
  · have hm : T ∈ tmBox := by
      obtain ⟨x, y, z⟩ := T
      obtain ⟨h1, h2, h3, h4, h5⟩ := hT
      simp only at h1 h2 h3 h4 h5
      subst h5
      interval_cases x <;> interval_cases y <;> decide
    have := List.all_eq_true.1 (List.all_eq_true.1 (List.all_eq_true.1 h T hm) a (List.mem_range.2 ha)) j (List.mem_range.2 hj)
    have := ev_null ht this
    rw [commForm, ev_append, ev_flatMap, ev_flatMap] at this
    simp only [ev_scale] at this
    rw [List.map_congr_left (l := U.filter fun q => q.1.2 = j) (g := fun q : (ℕ × ℕ) × ℤ × ℤ => 2 * val2 q.2 * tmFull t T a q.1.1) (fun q hq => by
        rw [tmFull_eq t T _ _ ha (hU q (List.mem_of_mem_filter hq)).1]),
      List.map_congr_left (l := U.filter fun q => q.1.1 = a) (g := fun q : (ℕ × ℕ) × ℤ × ℤ => 2 * val2 (-q.2.1, -q.2.2) * tmFull t (B (T - τ j + τ q.1.2)) q.1.2 j) (fun q hq => by
        rw [tmFull_eq t _ _ _ (hU q (List.mem_of_mem_filter hq)).2 hj])] at this
    rw [spVal_col U 11 (fun q hq => (hU q hq).1) (fun b => tmFull t T a b), spVal_row U 11 (fun q hq => (hU q hq).2)
      (fun i => tmFull t (B (T - τ j + τ i)) i j)]
    have e1 : ∀ l : Sparse, ∀ F : ((ℕ × ℕ) × ℤ × ℤ) → ℝ, (l.map fun q => 2 * val2 (-q.2.1, -q.2.2) * F q).sum = -2 * (l.map fun q => val2 q.2 * F q).sum := by
      intro l F
      rw [← List.sum_map_mul_left]
      congr 1
      apply List.map_congr_left
      intro q _
      simp only [val2]
      push_cast
      ring
    have e2 : ∀ l : Sparse, ∀ F : ((ℕ × ℕ) × ℤ × ℤ) → ℝ, (l.map fun q => 2 * val2 q.2 * F q).sum = 2 * (l.map fun q => val2 q.2 * F q).sum := by
      intro l F
      rw [← List.sum_map_mul_left]
      congr 1
      apply List.map_congr_left
      intro q _
      ring
    have f1 := e1 (U.filter fun q => q.1.1 = a) (fun q => tmFull t (B (T - τ j + τ q.1.2)) q.1.2 j)
    have f2 := e2 (U.filter fun q => q.1.2 = j) (fun q => tmFull t T a q.1.1)
    rw [f1, f2] at this
    linarith
  · rw [Finset.sum_eq_zero, Finset.sum_eq_zero]
    · intro i _
      by_contra hne
      exact hT (hB T i j _ rfl (tmFull_support (right_ne_zero_of_mul hne)))
    · intro b _
      by_contra hne
      have := tmFull_support (left_ne_zero_of_mul hne)
      exact hT (by omega)

/-- The rotation by 120 degrees in the basis before the transformation. -/
def rotLit : Sparse :=
  [((0, 0), -1, 0), ((1, 0), 0, 1), ((0, 1), 0, -1), ((1, 1), -1, 0), ((2, 2), 2, 0), ((3, 3), -1, 0), ((4, 3), 0, 1), ((3, 4), 0, -1),
   ((4, 4), -1, 0), ((5, 5), 2, 0), ((7, 7), -1, 0), ((6, 7), 0, -1), ((7, 6), 0, 1), ((6, 6), -1, 0), ((8, 8), 2, 0), ((9, 9), -1, 0),
   ((10, 9), 0, 1), ((9, 10), 0, -1), ((10, 10), -1, 0)]

/-- The reflection at the plane of the metal atoms. -/
def mirHLit : Sparse :=
  [((0, 0), -2, 0), ((1, 1), -2, 0), ((2, 2), -2, 0), ((3, 3), -2, 0), ((4, 4), -2, 0), ((5, 5), 2, 0), ((6, 6), 2, 0), ((7, 7), 2, 0),
   ((8, 8), 2, 0), ((9, 9), 2, 0), ((10, 10), 2, 0)]

/-- The reflection `x → -x`. -/
def mirVLit : Sparse :=
  [((0, 0), -2, 0), ((1, 1), 2, 0), ((2, 2), 2, 0), ((3, 3), -2, 0), ((4, 4), 2, 0), ((5, 5), 2, 0), ((6, 6), -2, 0), ((7, 7), 2, 0),
   ((8, 8), 2, 0), ((9, 9), -2, 0), ((10, 10), 2, 0)]

/-- The orbitals of the metal. -/
def tmMetal (l : ℕ) : Bool := l = 0 || l = 1 || l = 5 || l = 6 || l = 7


end Verif.Materials

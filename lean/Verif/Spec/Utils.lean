import Verif.Model.Utils
import Mathlib.Algebra.BigOperators.Group.Finset.Basic

/-!
# What a timer has measured

Independent of the tables of a timer: a history is the list of calls made, and the time
spent in a slot is read off the history itself.
-/

namespace Verif.Timing

open scoped Classical

variable {S : Type*}

/-- A call of the interface, with the reading of the clock for those which take one. -/
inductive Op (S : Type*) where
  | tic (slot : S) (now : ℝ)
  | toc (slot : S) (now : ℝ)
  | reportTime
  | reportTotal
  | reset

/-- Calls which start or end an interval of the slot. -/
def Op.Concerns (s : S) : Op S → Prop
  | .tic s' _ => s' = s
  | .toc s' _ => s' = s
  | .reset => True
  | _ => False

/-- The clock reading of a call (0 for calls which take none). -/
def Op.time : Op S → ℝ
  | .tic _ t => t
  | .toc _ t => t
  | _ => 0

/-- The clock reading of the `i`-th call. -/
noncomputable def timeAt (h : List (Op S)) (i : ℕ) : ℝ := (h[i]?.map Op.time).getD 0

/-- The `i`-th call is a `tic` of the slot. -/
def IsTic (h : List (Op S)) (s : S) (i : ℕ) : Prop := ∃ t, h[i]? = some (.tic s t)

/-- The `j`-th call is a `toc` of the slot. -/
def IsToc (h : List (Op S)) (s : S) (j : ℕ) : Prop := ∃ t, h[j]? = some (.toc s t)

/-- The calls strictly between `i` and `j` do not concern the slot. -/
def Quiet (h : List (Op S)) (s : S) (i j : ℕ) : Prop :=
  ∀ k, i < k → k < j → ∀ o, h[k]? = some o → ¬ o.Concerns s

/-- The `i`-th call is the `tic` which the `toc` at `j` ends. -/
def Interval (h : List (Op S)) (s : S) (i j : ℕ) : Prop :=
  i < j ∧ IsTic h s i ∧ IsToc h s j ∧ Quiet h s i j

/-- The `tic` at `i` has not been ended. -/
def Running (h : List (Op S)) (s : S) (i : ℕ) : Prop := IsTic h s i ∧ Quiet h s i h.length

/-- No `reset` after the `i`-th call. -/
def Live (h : List (Op S)) (i : ℕ) : Prop := ∀ k, i < k → h[k]? ≠ some .reset

/-- The time spent in a slot: the sum of the lengths of the intervals since the last
`reset`. -/
noncomputable def spent (h : List (Op S)) (s : S) : ℝ :=
  ∑ j ∈ Finset.range h.length, ∑ i ∈ Finset.range j,
    if Interval h s i j ∧ Live h j then timeAt h j - timeAt h i else 0

/-- `x` is the length of the last interval of the slot since the last `reset`. -/
def IsLast (h : List (Op S)) (s : S) (x : ℝ) : Prop :=
  ∃ i j, Interval h s i j ∧ Live h j ∧ x = timeAt h j - timeAt h i ∧
    ∀ i' j', j < j' → ¬ Interval h s i' j'

/-- The slot has been used since the last `reset`. -/
def Used (h : List (Op S)) (s : S) : Prop := ∃ i, IsTic h s i ∧ Live h i

/-- The call at which a slot was first used since the last `reset`. -/
def FirstUse (h : List (Op S)) (s : S) (i : ℕ) : Prop :=
  IsTic h s i ∧ Live h i ∧ ∀ k, k < i → IsTic h s k → ¬ Live h k

/-- The timer after a history of calls, failing calls included. -/
noncomputable def run [DecidableEq S] (h : List (Op S)) : Timer S :=
  h.foldl (fun T o => match o with
    | .tic s t => T.tic s t
    | .toc s t => (T.toc s t).1
    | .reportTime => T
    | .reportTotal => T.reportTotal.1
    | .reset => T.reset) Timer.init

/-- The lines a progress bar prints in the first `c` counts; `none` if a count raises. -/
noncomputable def barLines (b : ProgressBar) : ℕ → Option (ProgressBar × List (ℤ × ℤ × ℝ))
  | 0 => some (b, [])
  | c + 1 =>
    match barLines b c with
    | none => none
    | some (b', ls) =>
      match b'.count with
      | (_, .error _) => none
      | (b'', .ok none) => some (b'', ls)
      | (b'', .ok (some l)) => some (b'', ls ++ [l])

end Verif.Timing

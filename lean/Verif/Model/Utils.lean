import Mathlib.Data.Real.Basic
import Verif.Model.PyDict

/-!
# Timers and progress bars

`tbplas/utils.py`: the classes `Timer` and `ProgressBar`.
Clock readings are exact reals and are arguments of the calls which take them
(`time.time()` is the environment).  What a call prints is part of its result:
a line of a report is the pair of the slot and the number printed; the width of
the column and the rounding to five decimals (`:10.5f`) are not modelled.
-/

namespace Verif

/-- Exceptions of the calls of a timer. -/
inductive TimerErr (S : Type*) where
  | notStarted (slot : S)
  | notEnded (slot : S)
  | keyError (slot : S)

/-- `Timer` (utils.py:20-40). -/
structure Timer (S : Type*) where
  startTime : PyDict S ℝ
  trackStatus : PyDict S Bool
  timeUsage : PyDict S ℝ
  totalTimeUsage : PyDict S ℝ

namespace Timer

variable {S : Type*} [DecidableEq S]

/-- `Timer.__init__` (utils.py:34-38). -/
def init : Timer S := ⟨[], [], [], []⟩

/-- `Timer.tic` (utils.py:40-48). -/
def tic (T : Timer S) (slot : S) (now : ℝ) : Timer S :=
  { T with startTime := T.startTime.set slot now, trackStatus := T.trackStatus.set slot true }

/-- `Timer.toc` (utils.py:50-67).  `total[slot] += dt` on a `defaultdict(float)` starts
from 0. -/
noncomputable def toc (T : Timer S) (slot : S) (now : ℝ) : Timer S × Except (TimerErr S) Unit :=
  let status := (T.trackStatus.get? slot).getD false
  if !status then (T, .error (.notStarted slot))
  else
    match T.startTime.get? slot with
    | none => (T, .error (.keyError slot))
    | some t0 =>
      let dt := now - t0
      ({ T with trackStatus := T.trackStatus.set slot false
                timeUsage := T.timeUsage.set slot dt
                totalTimeUsage := T.totalTimeUsage.set slot ((T.totalTimeUsage.get? slot).getD 0 + dt) },
        .ok ())

/-- The loop of `report_time` over the slots (utils.py:78-83): the lines printed before the
loop ends or raises. -/
def reportLoop (T : Timer S) : List S → List (S × ℝ) × Except (TimerErr S) Unit
  | [] => ([], .ok ())
  | slot :: l =>
    match T.trackStatus.get? slot with
    | none => ([], .error (.keyError slot))
    | some true => ([], .error (.notEnded slot))
    | some false =>
      match T.timeUsage.get? slot with
      | none => ([], .error (.keyError slot))
      | some dt => let r := reportLoop T l; ((slot, dt) :: r.1, r.2)

/-- `Timer.report_time` (utils.py:69-83). -/
def reportTime (T : Timer S) : List (S × ℝ) × Except (TimerErr S) Unit :=
  if T.startTime.length ≠ 0 then reportLoop T T.startTime.keys else ([], .ok ())

/-- The loop of `report_total_time` (utils.py:94-99).  Reading a missing key of the
`defaultdict` would insert it with the value 0. -/
def totalLoop (T : Timer S) : List S → Timer S × List (S × ℝ) × Except (TimerErr S) Unit
  | [] => (T, [], .ok ())
  | slot :: l =>
    match T.trackStatus.get? slot with
    | none => (T, [], .error (.keyError slot))
    | some true => (T, [], .error (.notEnded slot))
    | some false =>
      match T.totalTimeUsage.get? slot with
      | none =>
        let r := totalLoop { T with totalTimeUsage := T.totalTimeUsage.set slot 0 } l
        (r.1, (slot, 0) :: r.2.1, r.2.2)
      | some dt => let r := totalLoop T l; (r.1, (slot, dt) :: r.2.1, r.2.2)

/-- `Timer.report_total_time` (utils.py:85-99). -/
def reportTotal (T : Timer S) : Timer S × List (S × ℝ) × Except (TimerErr S) Unit :=
  if T.startTime.length ≠ 0 then totalLoop T T.startTime.keys else (T, [], .ok ())

/-- `Timer.reset` (utils.py:101-110). -/
def reset (_T : Timer S) : Timer S := ⟨[], [], [], []⟩

end Timer

/-- Exceptions of a progress bar. -/
inductive BarErr where
  | zeroDivision
  deriving DecidableEq

/-- `ProgressBar` (utils.py:113-146). -/
structure ProgressBar where
  numTasks : ℤ
  numScales : ℤ
  scaleUnit : ℤ
  nextScale : ℤ
  counter : ℤ

namespace ProgressBar

/-- `ProgressBar.__init__` (utils.py:147-156); `//` is floor division and raises for 0. -/
def init (numTasks numScales : ℤ) : Except BarErr ProgressBar :=
  if numScales = 0 then .error .zeroDivision
  else .ok ⟨numTasks, numScales, numTasks.fdiv numScales, numTasks.fdiv numScales, 0⟩

/-- `ProgressBar.count` (utils.py:158-169): the bar afterwards and the line printed, if any
(counter, number of tasks, per cent).  Per cent is an exact real; the formatting `:6.2f` is
not modelled. -/
noncomputable def count (b : ProgressBar) : ProgressBar × Except BarErr (Option (ℤ × ℤ × ℝ)) :=
  let b := { b with counter := b.counter + 1 }
  if b.counter ≥ b.nextScale then
    let b := { b with nextScale := b.nextScale + b.scaleUnit }
    if b.numTasks = 0 then (b, .error .zeroDivision)
    else (b, .ok (some (b.counter, b.numTasks, 100 * (b.counter : ℝ) / (b.numTasks : ℝ))))
  else (b, .ok none)

end ProgressBar
end Verif

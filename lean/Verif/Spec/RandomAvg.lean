import Verif.Model.Kernel
import Mathlib.MeasureTheory.Constructions.Pi
import Mathlib.MeasureTheory.Measure.Lebesgue.Basic
import Mathlib.Probability.Independence.Basic

open MeasureTheory ProbabilityTheory Set

/-! # Specification of the random numbers

The numbers `RANDOM_NUMBER` delivers to `random_state` (random.f90:53-60), idealised as independent and uniform in `[0, 1)`. -/

namespace Verif.Tbpm

/-- The law of one number. -/
noncomputable def unif : Measure ℝ := volume.restrict (Ico 0 1)

/-- The law of the pairs of numbers drawn for one state. -/
noncomputable def drawLaw (n : ℕ) : Measure (Fin n → ℝ × ℝ) := Measure.pi fun _ => unif.prod unif

/-- The numbers drawn after every seed follow this law, and those drawn after different seeds are independent of each other. -/
structure IdealDraws {Ω : Type*} [MeasurableSpace Ω] (P : Measure Ω) {n : ℕ} (D : ℤ → Ω → Fin n → ℝ × ℝ) : Prop where
  meas : ∀ s, Measurable (D s)
  law : ∀ s, P.map (D s) = drawLaw n
  indep : Pairwise fun s t => IndepFun (D s) (D t) P

end Verif.Tbpm

import Verif.Spec.Sample
import Verif.Spec.Csr
import Mathlib.Data.Complex.Basic
import Mathlib.Analysis.Complex.Trigonometric
import Mathlib.LinearAlgebra.Matrix.Charpoly.Basic

/-! # Specification notions for gauges of the magnetic field -/

namespace Verif

/-- `B` is `A` after multiplying the wave function on orbital `a` by the phase `exp(-i θ a)`. -/
def GaugeBy {n : ℕ} (θ : Fin n → ℝ) (A B : Matrix (Fin n) (Fin n) ℂ) : Prop :=
  ∀ a b, B a b = Complex.exp (-(θ a) * Complex.I) * A a b * Complex.exp (θ b * Complex.I)

/-- `c` is the sparse matrix of a sample with energies `eng` and terms `hops`, by either builder, with or without sorted columns. -/
def BuiltFrom (f f' : List ℤ → List ℕ) (junk : CsrEnt ℝ ℂ) (cutoff : ℝ) (eng : List ℝ) (hops : List (SCHop ℝ ℂ)) (c : Csr ℝ ℂ) : Prop :=
  ∃ c0, (c0 = buildFast Complex.ofReal junk cutoff eng hops ∨ c0 = buildSafe f Complex.ofReal junk cutoff eng hops) ∧
    (c = c0 ∨ c = sortCol f' eng.length c0)

/-- No term leaves the sample: displacements are differences of positions. -/
def OpenTerms (pos : ℤ → Vec3 ℝ) (hops : List (SCHop ℝ ℂ)) : Prop :=
  ∀ h ∈ hops, ∀ x, h.dr x = pos h.j x - pos h.i x

/-- A walk from orbital `a` to orbital `b` along terms which may leave the sample; it moves from the point `p` of the plane to the
point `q` when every term followed forwards moves by its displacement. -/
def LiftedWalk (hops : List (SCHop ℝ ℂ)) : Walk → ℤ → ℤ → ℝ × ℝ → ℝ × ℝ → Prop
  | [], a, b, p, q => a = b ∧ p = q
  | (k, fwd) :: w, a, b, p, q => ∃ h, hops[k]? = some h ∧ a = (if fwd then h.i else h.j) ∧
      LiftedWalk hops w (if fwd then h.j else h.i) b
        (if fwd then (p.1 + h.dr 0, p.2 + h.dr 1) else (p.1 - h.dr 0, p.2 - h.dr 1)) q

/-- Twice the signed area swept by such a walk which starts at the point `p`, seen from the origin (shoelace formula). -/
noncomputable def liftedArea2 (hops : List (SCHop ℝ ℂ)) : Walk → ℝ × ℝ → ℝ
  | [], _ => 0
  | (k, fwd) :: w, p =>
      match hops[k]? with
      | none => 0
      | some h =>
        let r := if fwd then (p.1 + h.dr 0, p.2 + h.dr 1) else (p.1 - h.dr 0, p.2 - h.dr 1)
        (p.1 * r.2 - r.1 * p.2) + liftedArea2 hops w r

end Verif

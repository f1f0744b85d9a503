import Verif.Model.LindhardAC
import Verif.Spec.Parallel
import Mathlib.Analysis.Calculus.Deriv.Basic

/-! # Specification notions for the AC conductivity -/

namespace Verif

/-- The convention-1 Bloch Hamiltonian as a function of the Cartesian wave vector: the fractional coordinates are
`a_i · k / 2π`. -/
noncomputable def hamCart (lat : Mat3 ℝ) (pos : ℤ → Vec3 ℝ) (eng : List ℝ) (hops : List (Cell × Pair × ℂ))
    (k : Vec3 ℝ) : IMat :=
  setHam pos eng hops 1 (fun i => dotProduct (lat i) k / (2 * Real.pi)) (fun _ _ => 0)

/-- The velocity operator: the derivative of the Hamiltonian in the direction of the Cartesian axis `c`. -/
noncomputable def velocity (lat : Mat3 ℝ) (pos : ℤ → Vec3 ℝ) (eng : List ℝ) (hops : List (Cell × Pair × ℂ))
    (k : Vec3 ℝ) (c : Fin 3) : IMat := fun a b =>
  deriv (fun t : ℝ => hamCart lat pos eng hops (k + t • Pi.single c 1) a b) 0

/-- `⟨u| v |u'⟩`. -/
noncomputable def matEl (nb : ℕ) (v : IMat) (u u' : ℕ → ℂ) : ℂ :=
  ∑ a ∈ Finset.range nb, ∑ b ∈ Finset.range nb, star (u a) * v a b * u' b

open Classical in
/-- The Kubo-Greenwood sum over the pairs of states at k-point `k` with wave vector `kc k`; pairs of states closer than
1e-7 eV are left out. -/
noncomputable def kuboTerm (L : Lind) (pos : ℤ → Vec3 ℝ) (eng : List ℝ) (hops : List (Cell × Pair × ℂ))
    (comp : Fin 3 × Fin 3) (s : (ℕ → ℕ → ℝ) × Arr3 ℂ) (kc : ℕ → Vec3 ℝ) (omega : ℝ) (k : ℕ) : ℂ :=
  ∑ m ∈ Finset.range L.D.nb, ∑ n ∈ Finset.range L.D.nb,
    if (1e-7 : ℝ) ≤ |s.1 k m - s.1 k n| then
      matEl L.D.nb (velocity L.lat pos eng hops (kc k) comp.1) (s.2 k n) (s.2 k m) *
      matEl L.D.nb (velocity L.lat pos eng hops (kc k) comp.2) (s.2 k m) (s.2 k n) *
      (((1 / (1 + Real.exp (L.beta * (s.1 k m - L.mu))) - 1 / (1 + Real.exp (L.beta * (s.1 k n - L.mu)))) /
        (s.1 k m - s.1 k n) : ℝ) : ℂ) /
      (((s.1 k m - s.1 k n - omega : ℝ) : ℂ) - Complex.I * (L.delta : ℂ))
    else 0

/-- The Kubo-Greenwood sum over the whole mesh. -/
noncomputable def kuboSum (L : Lind) (pos : ℤ → Vec3 ℝ) (eng : List ℝ) (hops : List (Cell × Pair × ℂ))
    (comp : Fin 3 × Fin 3) (s : (ℕ → ℕ → ℝ) × Arr3 ℂ) (kc : ℕ → Vec3 ℝ) (omega : ℝ) : ℂ :=
  ∑ k ∈ Finset.range L.numKpt, kuboTerm L pos eng hops comp s kc omega k

/-- Area of the cell in two dimensions, volume in three. -/
noncomputable def cellSize (L : Lind) : ℝ :=
  if L.dim = 2 then norm3 (crossProduct (L.lat 0) (L.lat 1)) else |L.lat.det|

/-- What `calc_ac_cond` should return on every process. -/
noncomputable def acSpec (L : Lind) (pos : ℤ → Vec3 ℝ) (eng : List ℝ) (hops : List (Cell × Pair × ℂ))
    (comp : Option (Fin 3 × Fin 3)) : Except ParErr (ℕ → ℂ) := do
  let kmesh ← L.frac2cart ((buildKmeshGrid L.mesh).map L.grid2frac)
  let comp ← match comp with
    | none => .error .value
    | some c => .ok c
  let s ← statesSpec L.D L.numKpt L.kFrac 1
  .ok fun iw => match L.omegas[iw]? with
    | some om => (L.gs : ℂ) * Complex.I / ((cellSize L * L.numKpt : ℝ) : ℂ) *
        kuboSum L pos eng hops comp s (fun i => kmesh.getD i 0) om / (L.ext : ℂ)
    | none => 0

end Verif

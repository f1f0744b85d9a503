import Verif.Model.Lindhard
import Verif.Spec.Parallel

/-! # Specification notions for the Lindhard calculator -/

namespace Verif

/-- Squared overlap `|⟨u'| exp(i q·r) |u⟩|²` of two states given by their coefficients on `nb` orbitals. -/
noncomputable def overlapSq (nb : ℕ) (q : Vec3 ℝ) (pos : ℕ → Vec3 ℝ) (u' u : ℕ → ℂ) : ℝ :=
  ‖∑ b ∈ Finset.range nb, star (u' b) * u b * Complex.exp (Complex.I * ((∑ x, q x * pos b x : ℝ) : ℂ))‖ ^ 2

/-- The Lindhard sum over `n` k-points: `s` holds energies and states at `k`, `s'` those at `k + q`. -/
noncomputable def lindhardSum (L : Lind) (n : ℕ) (s s' : (ℕ → ℕ → ℝ) × Arr3 ℂ) (q : Vec3 ℝ) (omega : ℝ) : ℂ :=
  ∑ k ∈ Finset.range n, ∑ j ∈ Finset.range L.D.nb, ∑ l ∈ Finset.range L.D.nb,
    ((overlapSq L.D.nb q L.orbPos (s'.2 k l) (s.2 k j) *
        (1 / (1 + Real.exp (L.beta * (s.1 k j - L.mu))) - 1 / (1 + Real.exp (L.beta * (s'.1 k l - L.mu)))) : ℝ) : ℂ) /
      (((s.1 k j - s'.1 k l + omega : ℝ) : ℂ) + Complex.I * (L.delta : ℂ))

/-- `g_s / (V N)` in three dimensions; `g_s |c| / (V N)` in two, where `V / |c|` is the area of the cell if `c` is
perpendicular to the layer (C147). -/
noncomputable def lindhardFactor (L : Lind) : ℝ :=
  if L.dim = 2 then L.gs * norm3 (L.lat 2) / (|L.lat.det| * (L.mesh.1 * L.mesh.2.1))
  else L.gs / (|L.lat.det| * (L.mesh.1 * L.mesh.2.1 * L.mesh.2.2))

/-- The mesh point equal to `k + q` modulo the mesh. -/
def wrapSum (m : ℕ × ℕ × ℕ) (k q : Grid) : Grid :=
  ((k.1 + q.1) % (m.1 : ℤ), (k.2.1 + q.2.1) % (m.2.1 : ℤ), (k.2.2 + q.2.2) % (m.2.2 : ℤ))

/-- Energies and states at `k + q` for all mesh points `k`. -/
noncomputable def statesKq (L : Lind) (q : Grid) : Except ParErr ((ℕ → ℕ → ℝ) × Arr3 ℂ) :=
  statesSpec L.D L.numKpt (fun i => L.grid2frac (wrapSum L.mesh ((buildKmeshGrid L.mesh).getD i (0, 0, 0)) q)) 2

/-- Table of the results: q-point `iq`, frequency `iw`. -/
noncomputable def lindhardTable (L : Lind) (s : (ℕ → ℕ → ℝ) × Arr3 ℂ)
    (rows : List (Vec3 ℝ × ((ℕ → ℕ → ℝ) × Arr3 ℂ))) : ℕ → ℕ → ℂ := fun iq iw =>
  match rows[iq]?, L.omegas[iw]? with
  | some (q, s'), some om => lindhardSum L L.numKpt s s' q om * (lindhardFactor L : ℂ) / (L.ext : ℂ)
  | _, _ => 0

/-- What `calc_dyn_pol_regular` should return on every process. -/
noncomputable def regSpec (L : Lind) (qs : List Grid) : Except ParErr (ℕ → ℕ → ℂ) := do
  let qc ← L.frac2cart (qs.map L.grid2frac)
  let s ← statesSpec L.D L.numKpt L.kFrac 2
  let ss ← qs.mapM (statesKq L)
  .ok (lindhardTable L s (qc.zip ss))

/-- What `calc_dyn_pol_arbitrary` should return on every process. -/
noncomputable def arbSpec (L : Lind) (qs : List (Vec3 ℝ)) : Except ParErr (ℕ → ℕ → ℂ) := do
  let qf ← L.cart2frac qs
  let s ← statesSpec L.D L.numKpt L.kFrac 2
  let ss ← qf.mapM fun q => statesSpec L.D L.numKpt (fun i => L.kFrac i + q) 2
  .ok (lindhardTable L s (qs.zip ss))

end Verif

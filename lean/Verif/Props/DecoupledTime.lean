import Verif.Proof.Decoupled
import Verif.Props.OrderTime

/-! # C136: time evolution of parts which are not coupled -/

namespace Verif.Tbpm

variable {m m' : ℕ}

theorem uncoupled_U {e : Env (m + m')} {e₁ : Env m} {e₂ : Env m'} (hu : Uncoupled e.H e₁.H e₂.H) (hb₁ : e₁.bes = e.bes)
    (hn₁ : e₁.nbes = e.nbes) (hb₂ : e₂.bes = e.bes) (hn₂ : e₂.nbes = e.nbes) (fwd : Bool) (t : ℕ) :
    Uncoupled (e.U fwd ^ t) (e₁.U fwd ^ t) (e₂.U fwd ^ t) := by
  rw [U_pow_poly, U_pow_poly, U_pow_poly, hb₁, hn₁, hb₂, hn₂]
  exact uncoupled_poly hu _

/-- C136: the expected correlation function of the DOS is the mean of those of the parts, weighted with the numbers of their orbitals. -/
theorem C136_mean {Ω Ω₁ Ω₂ : Type*} [MeasurableSpace Ω] [MeasurableSpace Ω₁] [MeasurableSpace Ω₂] {P : MeasureTheory.Measure Ω}
    {P₁ : MeasureTheory.Measure Ω₁} {P₂ : MeasureTheory.Measure Ω₂} [MeasureTheory.IsProbabilityMeasure P]
    [MeasureTheory.IsProbabilityMeasure P₁] [MeasureTheory.IsProbabilityMeasure P₂]
    {D : ℤ → Ω → Fin (m + m') → ℝ × ℝ} {D₁ : ℤ → Ω₁ → Fin m → ℝ × ℝ} {D₂ : ℤ → Ω₂ → Fin m' → ℝ × ℝ} (hm : 0 < m) (hm' : 0 < m')
    (hD : IdealDraws P D) (hD₁ : IdealDraws P₁ D₁) (hD₂ : IdealDraws P₂ D₂) {e : Env (m + m')} {e₁ : Env m} {e₂ : Env m'} (g : e.Good)
    (g₁ : e₁.Good) (g₂ : e₂.Good) (hu : Uncoupled e.H e₁.H e₂.H) (hb₁ : e₁.bes = e.bes) (hn₁ : e₁.nbes = e.nbes) (hb₂ : e₂.bes = e.bes)
    (hn₂ : e₂.nbes = e.nbes) (w w₁ w₂ : World) {seed seed₁ seed₂ : ℤ} (hs : seed ≠ 0) (hs₁ : seed₁ ≠ 0) (hs₂ : seed₂ ≠ 0)
    (chk chk₁ chk₂ : ℤ) (thr : ℝ) (nt : ℕ) (hnt : 1 ≤ nt) (nsamp ns₁ ns₂ : ℕ) (h0 : 1 ≤ nsamp) (h1 : 1 ≤ ns₁) (h2 : 1 ≤ ns₂)
    {c : Ω → ℕ → ℕ → ℂ} {c₁ : Ω₁ → ℕ → ℕ → ℂ} {c₂ : Ω₂ → ℕ → ℕ → ℂ}
    (hc : ∀ ω, calcCorrDos w e (fun s => randomState (D s ω)) seed chk thr nt nsamp = .ok (c ω))
    (hc₁ : ∀ ω, calcCorrDos w₁ e₁ (fun s => randomState (D₁ s ω)) seed₁ chk₁ thr nt ns₁ = .ok (c₁ ω))
    (hc₂ : ∀ ω, calcCorrDos w₂ e₂ (fun s => randomState (D₂ s ω)) seed₂ chk₂ thr nt ns₂ = .ok (c₂ ω)) :
    ∀ r < w.size, ∀ r₁ < w₁.size, ∀ r₂ < w₂.size, ∀ t ≤ nt,
      ∫ ω, c ω r t ∂P = (m * ∫ ω, c₁ ω r₁ t ∂P₁ + m' * ∫ ω, c₂ ω r₂ t ∂P₂) / (m + m') := by
  intro r hr r₁ hr₁ r₂ hr₂ t ht
  obtain ⟨_, -, k⟩ := C124_dos (by omega) hD g w hs chk thr nt hnt nsamp h0 hc
  obtain ⟨_, -, k₁⟩ := C124_dos hm hD₁ g₁ w₁ hs₁ chk₁ thr nt hnt ns₁ h1 hc₁
  obtain ⟨_, -, k₂⟩ := C124_dos hm' hD₂ g₂ w₂ hs₂ chk₂ thr nt hnt ns₂ h2 hc₂
  rw [(k r hr t ht).1, (k₁ r₁ hr₁ t ht).1, (k₂ r₂ hr₂ t ht).1, uncoupled_trace (uncoupled_U hu hb₁ hn₁ hb₂ hn₂ true t)]
  have q : (m : ℂ) ≠ 0 := by exact_mod_cast hm.ne'
  have q' : (m' : ℂ) ≠ 0 := by exact_mod_cast hm'.ne'
  rw [mul_div_cancel₀ _ q, mul_div_cancel₀ _ q']
  push_cast
  rfl

/-- C136: the correlation function of the LDOS on orbitals of one part is that of the part, whatever the other part is. -/
theorem C136_ldos {e : Env (m + m')} {e₁ : Env m} {e₂ : Env m'} (g : e.Good) (hH : e.H.IsHermitian)
    (hu : Uncoupled e.H e₁.H e₂.H) (w : World) (rnd : ℤ → CVec (m + m')) (seed chk : ℤ) (thr : ℝ) (nt nsamp : ℕ) :
    (e₁.Good → e₁.H.IsHermitian → e.bes = e₁.bes → e.nbes = e₁.nbes → ∀ (rnd₁ : ℤ → CVec m) (sites : List (Fin m)),
      (∀ s, ∀ i ∈ sites, rnd s (Fin.castAdd m' i) = rnd₁ s i) →
      SameOutcome w (calcCorrLdos w e₁ sites rnd₁ seed chk thr nt nsamp)
        (calcCorrLdos w e (sites.map (Fin.castAdd m')) rnd seed chk thr nt nsamp)) ∧
    (e₂.Good → e₂.H.IsHermitian → e.bes = e₂.bes → e.nbes = e₂.nbes → ∀ (rnd₂ : ℤ → CVec m') (sites : List (Fin m')),
      (∀ s, ∀ i ∈ sites, rnd s (Fin.natAdd m i) = rnd₂ s i) →
      SameOutcome w (calcCorrLdos w e₂ sites rnd₂ seed chk thr nt nsamp)
        (calcCorrLdos w e (sites.map (Fin.natAdd m)) rnd seed chk thr nt nsamp)) := by
  refine ⟨fun g₁ hH₁ hb hn rnd₁ sites hr => ?_, fun g₂ hH₂ hb hn rnd₂ sites hr => ?_⟩
  · refine C133_ldos g₁ g hH₁ hH hb hn (f := Fin.castAdd m') (S := fun _ => Set.univ) (depth := nt * (e₁.nbes - 1)) ?_ w rnd₁ rnd hr seed chk
      thr nt nsamp (by omega) fun t _ _ ht => Nat.mul_le_mul_right _ (by omega)
    refine ⟨Fin.castAdd_injective m m', fun _ => subset_rfl, fun _ _ => trivial, fun _ _ _ _ _ _ => trivial, fun _ _ j _ i => hu.first i j,
      fun _ _ j _ i' hi' => ?_⟩
    induction i' using Fin.addCases with
    | left i => exact absurd ⟨i, rfl⟩ hi'
    | right i => exact hu.lower i j
  · refine C133_ldos g₂ g hH₂ hH hb hn (f := Fin.natAdd m) (S := fun _ => Set.univ) (depth := nt * (e₂.nbes - 1)) ?_ w rnd₂ rnd hr seed chk
      thr nt nsamp (by omega) fun t _ _ ht => Nat.mul_le_mul_right _ (by omega)
    refine ⟨Fin.natAdd_injective m' m, fun _ => subset_rfl, fun _ _ => trivial, fun _ _ _ _ _ _ => trivial, fun _ _ j _ i => hu.second i j,
      fun _ _ j _ i' hi' => ?_⟩
    induction i' using Fin.addCases with
    | left i => exact hu.upper i j
    | right i => exact absurd ⟨i, rfl⟩ hi'

/-! ### A concrete case: a pair of orbitals and a single one -/

example (t e : ℂ) : Uncoupled (m := 2) (m' := 1) !![0, t, 0; star t, 0, 0; 0, 0, e] !![0, t; star t, 0] !![e] := by
  constructor <;> intro i j <;> fin_cases i <;> fin_cases j <;> rfl

end Verif.Tbpm

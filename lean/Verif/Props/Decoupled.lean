import Verif.Proof.Decoupled
import Verif.Props.BipartiteBands
import Verif.Props.OrderTime
import Verif.Props.Merge

/-! # C136: parts which are not coupled -/

namespace Verif.Props

open PrimCell Verif.Tbpm

/-! ## Diagonalization -/

section

variable (D D₁ D₂ : Diag) (hnb : D.nb = D₁.nb + D₂.nb) (hov : D.setOvl = none) (hov₁ : D₁.setOvl = none) (hov₂ : D₂.setOvl = none)
  (hz : ZheevSpec D) (hz₁ : ZheevSpec D₁) (hz₂ : ZheevSpec D₂) (hs : SortSpec D.nb D.argsort) (hs₁ : SortSpec D₁.nb D₁.argsort)
  (hs₂ : SortSpec D₂.nb D₂.argsort) (n : ℕ) (kpts : ℕ → Vec3 ℝ) (conv : ℤ)
  (hu : ∀ i < n, ∀ M M₁ M₂, D.setHam (kpts i) conv (fun _ _ => 0) = .ok M → D₁.setHam (kpts i) conv (fun _ _ => 0) = .ok M₁ →
    D₂.setHam (kpts i) conv (fun _ _ => 0) = .ok M₂ → Uncoupled (toMatrix (D₁.nb + D₂.nb) M) (toMatrix D₁.nb M₁) (toMatrix D₂.nb M₂))

include hnb hov hov₁ hov₂ hz hz₁ hz₂ hs hs₁ hs₂ hu

/-- C136: the bands of two uncoupled parts are the bands of the parts. -/
theorem C136_bands (w w₁ w₂ : World) (buf buf₁ buf₂ : ℕ → Buf) (orbs orbs₁ orbs₂ : Option (List ℕ))
    (bd bd₁ bd₂ : ℕ → (ℕ → ℕ → ℝ) × (ℕ → ℕ → ℝ)) (hok : calcBands D w buf n kpts conv orbs = .ok bd)
    (hok₁ : calcBands D₁ w₁ buf₁ n kpts conv orbs₁ = .ok bd₁) (hok₂ : calcBands D₂ w₂ buf₂ n kpts conv orbs₂ = .ok bd₂)
    (r r₁ r₂ : ℕ) (hr : r < w.size) (hr₁ : r₁ < w₁.size) (hr₂ : r₂ < w₂.size) (i : ℕ) (hi : i < n) :
    ((List.range D.nb).map ((bd r).1 i)).Perm ((List.range D₁.nb).map ((bd₁ r₁).1 i) ++ (List.range D₂.nb).map ((bd₂ r₂).1 i)) := by
  obtain ⟨q, hq, hp, -⟩ := C44_bands_sorted D w buf n kpts conv orbs r hr (fun ev => (hs ev).1) (fun ev => (hs ev).2) bd hok i hi
  obtain ⟨q₁, hq₁, hp₁, -⟩ := C44_bands_sorted D₁ w₁ buf₁ n kpts conv orbs₁ r₁ hr₁ (fun ev => (hs₁ ev).1) (fun ev => (hs₁ ev).2) bd₁ hok₁ i hi
  obtain ⟨q₂, hq₂, hp₂, -⟩ := C44_bands_sorted D₂ w₂ buf₂ n kpts conv orbs₂ r₂ hr₂ (fun ev => (hs₂ ev).1) (fun ev => (hs₂ ev).2) bd₂ hok₂ i hi
  obtain ⟨M, hM, hzM⟩ := eigen_ok D hov _ _ q hq
  obtain ⟨M₁, hM₁, hzM₁⟩ := eigen_ok D₁ hov₁ _ _ q₁ hq₁
  obtain ⟨M₂, hM₂, hzM₂⟩ := eigen_ok D₂ hov₂ _ _ q₂ hq₂
  refine hp.trans (List.Perm.trans ?_ (hp₁.append hp₂).symm)
  rw [hnb]
  exact levels_union (hnb ▸ hz M q hzM) (hz₁ M₁ q₁ hzM₁) (hz₂ M₂ q₂ hzM₂) (hu i hi M M₁ M₂ hM hM₁ hM₂)

omit hnb hov₁ hov₂ hz hz₁ hz₂ hs₁ hs₂ hu hov in
theorem dos_eigen (w : World) (buf : ℕ → Buf) (orbs : Option (List ℕ)) (emin emax : Option ℝ) (step sigma gs : ℝ) (basis : ℝ → ℝ → ℝ → ℝ)
    (f : ℕ → List ℝ × (ℕ → ℝ)) (hf : calcDos D w buf n kpts conv orbs emin emax step sigma basis gs = .ok f) :
    ∃ q : ℕ → (ℕ → ℝ) × (ℕ → ℕ → ℂ), ∀ i < n, eigen D (kpts i) conv = .ok (q i) := by
  have hbd : ∃ bd, calcBands D w buf n kpts conv orbs = .ok bd := by
    unfold calcDos at hf
    cases h : calcBands D w buf n kpts conv orbs with
    | error e => rw [h] at hf; cases hf
    | ok bd => exact ⟨bd, rfl⟩
  obtain ⟨bd, hbd⟩ := hbd
  have hex : ∀ i, ∃ q, i < n → eigen D (kpts i) conv = .ok q := by
    intro i
    by_cases hi : i < n
    · obtain ⟨q, hq, -⟩ := C44_bands_sorted D w buf n kpts conv orbs 0 w.pos (fun ev => (hs ev).1) (fun ev => (hs ev).2) bd hbd i hi
      exact ⟨q, fun _ => hq⟩
    · exact ⟨(0, 0), fun h => absurd h hi⟩
  choose q hq using hex
  exact ⟨q, fun i hi => hq i hi⟩

/-- C136: the DOS, which is given per state, is the mean of the densities of the parts, weighted with the numbers of their orbitals; the
DOS on orbitals of one part is that of the part (up to the normalization, which counts all orbitals). -/
theorem C136_dos (w w₁ w₂ : World) (buf buf₁ buf₂ : ℕ → Buf) (orbs orbs₁ orbs₂ : Option (List ℕ))
    (ho : orbs = none ∧ orbs₁ = none ∧ orbs₂ = none ∨ ∃ os₁ os₂, (∀ o ∈ os₁, o < D₁.nb) ∧ (∀ o ∈ os₂, o < D₂.nb) ∧ orbs₁ = some os₁ ∧
      orbs₂ = some os₂ ∧ orbs = some (os₁ ++ os₂.map (D₁.nb + ·)))
    (a b step sigma gs : ℝ) (basis : ℝ → ℝ → ℝ → ℝ) (f f₁ f₂ : ℕ → List ℝ × (ℕ → ℝ))
    (hf : calcDos D w buf n kpts conv orbs (some a) (some b) step sigma basis gs = .ok f)
    (hf₁ : calcDos D₁ w₁ buf₁ n kpts conv orbs₁ (some a) (some b) step sigma basis gs = .ok f₁)
    (hf₂ : calcDos D₂ w₂ buf₂ n kpts conv orbs₂ (some a) (some b) step sigma basis gs = .ok f₂) (h1 : 0 < D₁.nb) (h2 : 0 < D₂.nb)
    (r r₁ r₂ : ℕ) (hr : r < w.size) (hr₁ : r₁ < w₁.size) (hr₂ : r₂ < w₂.size) (x : ℕ) :
    (f₁ r₁).1 = (f r).1 ∧ (f₂ r₂).1 = (f r).1 ∧ (f r).2 x = (D₁.nb * (f₁ r₁).2 x + D₂.nb * (f₂ r₂).2 x) / (D₁.nb + D₂.nb) := by
  obtain ⟨q, hq⟩ := dos_eigen D hs n kpts conv w buf orbs _ _ step sigma gs basis f hf
  obtain ⟨q₁, hq₁⟩ := dos_eigen D₁ hs₁ n kpts conv w₁ buf₁ orbs₁ _ _ step sigma gs basis f₁ hf₁
  obtain ⟨q₂, hq₂⟩ := dos_eigen D₂ hs₂ n kpts conv w₂ buf₂ orbs₂ _ _ step sigma gs basis f₂ hf₂
  have e := dos_grid_eq D n kpts conv _ w buf a b step sigma basis gs f hf r hr
  have e₁ := dos_grid_eq D₁ n kpts conv _ w₁ buf₁ a b step sigma basis gs f₁ hf₁ r₁ hr₁
  have e₂ := dos_grid_eq D₂ n kpts conv _ w₂ buf₂ a b step sigma basis gs f₂ hf₂ r₂ hr₂
  have g1 : (f₁ r₁).1 = (f r).1 := by
    unfold dosGrid at e e₁
    simp only at e e₁
    rw [e] at e₁
    exact (Except.ok.inj e₁).symm
  have g2 : (f₂ r₂).1 = (f r).1 := by
    unfold dosGrid at e e₂
    simp only at e e₂
    rw [e] at e₂
    exact (Except.ok.inj e₂).symm
  refine ⟨g1, g2, ?_⟩
  rw [dos_levels D (fun ev => (hs ev).1) n kpts conv q hq orbs w buf _ _ step sigma basis gs f hf r hr,
    dos_levels D₁ (fun ev => (hs₁ ev).1) n kpts conv q₁ hq₁ orbs₁ w₁ buf₁ _ _ step sigma basis gs f₁ hf₁ r₁ hr₁,
    dos_levels D₂ (fun ev => (hs₂ ev).1) n kpts conv q₂ hq₂ orbs₂ w₂ buf₂ _ _ step sigma basis gs f₂ hf₂ r₂ hr₂, g1, g2]
  set φ : ℝ → ℝ := fun y => basis ((f r).1.getD x 0) y sigma with hφ
  have key : ∀ k < n, ∑ j ∈ Finset.range D.nb, φ ((q k).1 j) * stateWeight q orbs k j =
      ∑ j ∈ Finset.range D₁.nb, φ ((q₁ k).1 j) * stateWeight q₁ orbs₁ k j + ∑ j ∈ Finset.range D₂.nb, φ ((q₂ k).1 j) * stateWeight q₂ orbs₂ k j := by
    intro k hk
    obtain ⟨M, hM, hzM⟩ := eigen_ok D hov _ _ _ (hq k hk)
    obtain ⟨M₁, hM₁, hzM₁⟩ := eigen_ok D₁ hov₁ _ _ _ (hq₁ k hk)
    obtain ⟨M₂, hM₂, hzM₂⟩ := eigen_ok D₂ hov₂ _ _ _ (hq₂ k hk)
    have p : Eigenpairs (D₁.nb + D₂.nb) (D₁.nb + D₂.nb) M (q k) := hnb ▸ hz M _ hzM
    have p₁ := hz₁ M₁ _ hzM₁
    have p₂ := hz₂ M₂ _ hzM₂
    have hU := hu k hk M M₁ M₂ hM hM₁ hM₂
    rw [hnb]
    rcases ho with ⟨rfl, rfl, rfl⟩ | ⟨os₁, os₂, b1, b2, rfl, rfl, rfl⟩
    · simp only [stateWeight, mul_one]
      exact levels_sum p p₁ p₂ hU φ
    · obtain ⟨c1, c2⟩ := level_parts p p₁ p₂ hU φ
      simp only [stateWeight, List.map_append, List.sum_append, mul_add, Finset.sum_add_distrib, List.map_map]
      congr 1
      · clear hf₁ hf
        induction os₁ with
        | nil => simp
        | cons o os ih =>
          simp only [List.map_cons, List.sum_cons, mul_add, Finset.sum_add_distrib]
          rw [ih fun x hx => b1 x (List.mem_cons_of_mem _ hx), c1 o (b1 o List.mem_cons_self)]
      · clear hf₂ hf
        induction os₂ with
        | nil => simp
        | cons o os ih =>
          simp only [List.map_cons, List.sum_cons, mul_add, Finset.sum_add_distrib]
          rw [ih fun x hx => b2 x (List.mem_cons_of_mem _ hx)]
          congr 1
          exact c2 o (b2 o List.mem_cons_self)
  rw [Finset.sum_congr rfl fun k hk => key k (Finset.mem_range.1 hk), Finset.sum_add_distrib, hnb]
  push_cast
  simp only [hφ]
  generalize ∑ k ∈ Finset.range n, ∑ j ∈ Finset.range D₁.nb, basis ((f r).1.getD x 0) ((q₁ k).1 j) sigma * stateWeight q₁ orbs₁ k j = X
  generalize ∑ k ∈ Finset.range n, ∑ j ∈ Finset.range D₂.nb, basis ((f r).1.getD x 0) ((q₂ k).1 j) sigma * stateWeight q₂ orbs₂ k j = Y
  have h1' : (D₁.nb : ℝ) ≠ 0 := by exact_mod_cast h1.ne'
  have h2' : (D₂.nb : ℝ) ≠ 0 := by exact_mod_cast h2.ne'
  have h3' : (D₁.nb : ℝ) + D₂.nb ≠ 0 := by positivity
  rcases Nat.eq_zero_or_pos n with h0 | h0
  · subst h0; simp
  · have h0' : (n : ℝ) ≠ 0 := by exact_mod_cast h0.ne'
    field_simp

end

end Verif.Props

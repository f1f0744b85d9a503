import Verif.Spec.Description
import Verif.Proof.TimeReversal
import Mathlib.Analysis.Calculus.Deriv.Comp
import Mathlib.Analysis.SpecialFunctions.ExpDeriv
import Mathlib.Analysis.SpecialFunctions.Complex.Analytic

/-! # States of two descriptions of the same crystal -/

namespace Verif.Props

open PrimCell

section Pairs

variable {N : ℕ} {π : Equiv.Perm ℕ}

theorem perm_sum {A : Type*} [AddCommMonoid A] (hπ : ∀ i, i < N → π i < N) (f : ℕ → A) :
    ∑ a ∈ Finset.range N, f (π a) = ∑ a ∈ Finset.range N, f a := by
  refine Finset.sum_bij (fun a _ => π a) (fun a ha => Finset.mem_range.2 (hπ a (Finset.mem_range.1 ha))) (fun a _ b _ h => π.injective h) ?_ (fun _ _ => rfl)
  have himg : (Finset.range N).image π = Finset.range N := by
    refine Finset.eq_of_subset_of_card_le (fun x hx => ?_) (by rw [Finset.card_image_of_injective _ π.injective])
    obtain ⟨a, ha, rfl⟩ := Finset.mem_image.1 hx
    exact Finset.mem_range.2 (hπ a (Finset.mem_range.1 ha))
  intro b hb
  rw [← himg] at hb
  obtain ⟨a, ha, rfl⟩ := Finset.mem_image.1 hb
  exact ⟨a, ha, rfl⟩

/-- The states in the second description. -/
noncomputable def descStates (π : Equiv.Perm ℕ) (φ : ℕ → ℂ) (q : (ℕ → ℝ) × (ℕ → ℕ → ℂ)) : (ℕ → ℝ) × (ℕ → ℕ → ℂ) :=
  (q.1, fun a j => φ (π.symm a) * q.2 (π.symm a) j)

theorem desc_pairs (hπ : ∀ i, i < N → π i < N) {φ : ℕ → ℂ} (hφ : ∀ a, star (φ a) * φ a = 1) {h h' : IMat}
    (hh : ∀ a < N, ∀ b < N, h' (π a : ℕ) (π b : ℕ) = φ a * h a b * star (φ b)) {q : (ℕ → ℝ) × (ℕ → ℕ → ℂ)} (hq : Eigenpairs N N h q) :
    Eigenpairs N N h' (descStates π φ q) := by
  refine ⟨fun j hj o ho => ?_, fun j hj j' hj' => ?_⟩
  · obtain ⟨a, ha, rfl⟩ : ∃ a < N, π a = o := by
      have := Finset.mem_range.2 ho
      have himg : (Finset.range N).image π = Finset.range N := by
        refine Finset.eq_of_subset_of_card_le (fun x hx => ?_) (by rw [Finset.card_image_of_injective _ π.injective])
        obtain ⟨a, ha, rfl⟩ := Finset.mem_image.1 hx
        exact Finset.mem_range.2 (hπ a (Finset.mem_range.1 ha))
      rw [← himg] at this
      obtain ⟨a, ha, rfl⟩ := Finset.mem_image.1 this
      exact ⟨a, Finset.mem_range.1 ha, rfl⟩
    rw [← perm_sum hπ]
    simp only [descStates, Equiv.symm_apply_apply]
    rw [show (q.1 j : ℂ) * (φ a * q.2 a j) = φ a * ((q.1 j : ℂ) * q.2 a j) by ring, ← hq.eigen j hj a ha, Finset.mul_sum]
    refine Finset.sum_congr rfl fun m hm => ?_
    rw [hh a ha m (Finset.mem_range.1 hm)]
    linear_combination (φ a * h a m * q.2 m j) * hφ m
  · rw [← perm_sum hπ, ← hq.orthonormal j hj j' hj']
    refine Finset.sum_congr rfl fun m _ => ?_
    simp only [descStates, Equiv.symm_apply_apply, star_mul']
    linear_combination (star (q.2 m j) * q.2 m j') * hφ m

theorem desc_bracket (hπ : ∀ i, i < N → π i < N) {φ χ : ℕ → ℂ} (hφ : ∀ a, star (φ a) * φ a = 1) (hχ : ∀ a, star (χ a) * χ a = 1)
    {A A' : ℕ → ℕ → ℂ} {g : ℂ} (hA : ∀ a < N, ∀ b < N, A' (π a) (π b) = g * (χ a * A a b * star (φ b))) (u q : (ℕ → ℝ) × (ℕ → ℕ → ℂ)) (l j : ℕ) :
    bracket N A' (descStates π χ u) (descStates π φ q) l j = g * bracket N A u q l j := by
  unfold bracket
  rw [← perm_sum hπ, Finset.mul_sum]
  refine Finset.sum_congr rfl fun a ha => ?_
  rw [← perm_sum hπ, Finset.mul_sum]
  refine Finset.sum_congr rfl fun b hb => ?_
  rw [hA a (Finset.mem_range.1 ha) b (Finset.mem_range.1 hb)]
  simp only [descStates, Equiv.symm_apply_apply, star_mul']
  linear_combination (g * star (u.2 a l) * A a b * q.2 b j) * (star (φ b) * φ b) * hχ a + (g * star (u.2 a l) * A a b * q.2 b j) * hφ b

end Pairs

section Cell

variable {Λ : Type} {s s' : PrimCell ℝ ℂ Λ} {O : Mat3 ℝ} {π : Equiv.Perm ℕ} {n : ℕ → Cell}

/-- The phases of the states in the second description. -/
noncomputable def descPhase (conv : ℤ) (n : ℕ → Cell) (k : Vec3 ℝ) (a : ℕ) : ℂ :=
  if conv = 1 then 1 else eiPhase (2 * Real.pi * ∑ x, k x * (cellAt (n a) x : ℝ))

theorem descPhase_unit (conv : ℤ) (n : ℕ → Cell) (k : Vec3 ℝ) (a : ℕ) : star (descPhase conv n k a) * descPhase conv n k a = 1 := by
  unfold descPhase
  split_ifs
  · simp
  · rw [mul_comm]; exact eiPhase_mul_star _

theorem cellAt_shift (R a b : Cell) (x : Fin 3) : cellAt (R + a - b) x = cellAt R x + cellAt a x - cellAt b x := by
  fin_cases x <;> simp [cellAt]

theorem ham_desc (hw : WF s) (hf : ArraysFresh s) (hw' : WF s') (hf' : ArraysFresh s') (hs : SameModel s s' O π n) {k : Vec3 ℝ} {conv : ℤ}
    {h h' : IMat} (hok : setHamDense s k conv = .ok h) (hok' : setHamDense s' k conv = .ok h') {a b : ℕ} (ha : a < s.numOrb) (hb : b < s.numOrb) :
    h' (π a : ℕ) (π b : ℕ) = descPhase conv n k a * h a b * star (descPhase conv n k b) := by
  obtain ⟨oa, ha1⟩ : ∃ o, s.orbs[a]? = some o := ⟨_, List.getElem?_eq_getElem ha⟩
  obtain ⟨ob, hb1⟩ : ∃ o, s.orbs[b]? = some o := ⟨_, List.getElem?_eq_getElem hb⟩
  obtain ⟨oa', ha2, ha3, ha4⟩ := hs.orb a oa ha1
  obtain ⟨ob', hb2, hb3, hb4⟩ := hs.orb b ob hb1
  have hS : ∀ R, s.hops.get R a b ≠ none → R ∈ ((C07_neighbours_finite s.hops (a : ℕ)).image Prod.fst).toFinset :=
    fun R hR => (Set.Finite.mem_toFinset _).2 ⟨(R, (b : ℕ)), hR, rfl⟩
  set S := ((C07_neighbours_finite s.hops (a : ℕ)).image Prod.fst).toFinset
  have hS' : ∀ R, s'.hops.get R (π a : ℕ) (π b : ℕ) ≠ none → R ∈ S.image fun R => R + n a - n b := by
    intro R hR
    have e : R = R - n a + n b + n a - n b := by abel
    rw [e, hs.hop _ a b ha hb] at hR
    exact Finset.mem_image.2 ⟨_, hS _ hR, e.symm⟩
  rw [ham_entry hw hf k conv h hok a b _ _ ha1 hb1 S hS, ham_entry hw' hf' k conv h' hok' (π a) (π b) _ _ ha2 hb2 _ hS', mul_add, add_mul,
    Finset.mul_sum, Finset.sum_mul, Finset.sum_image (by intro x _ y _ hxy; simpa using hxy)]
  congr 1
  · by_cases hab : a = b
    · subst hab
      simp only [if_true, ha3]
      linear_combination -((oa.energy : ℝ) : ℂ) * descPhase_unit conv n k a
    · simp [hab]
  · refine Finset.sum_congr rfl fun R _ => ?_
    rw [hs.hop R a b ha hb]
    unfold descPhase
    by_cases hc : conv = 1
    · simp only [hc, if_true, one_mul, star_one, mul_one, ha4, hb4, cellAt_shift]
      congr 4
      funext x
      push_cast
      ring
    · simp only [hc, if_false, add_zero]
      rw [← eiPhase_neg, show ∀ A B C D : ℂ, A * (B * C) * D = B * (A * C * D) by intros; ring, ← eiPhase_add, ← eiPhase_add]
      congr 2
      simp only [Fin.sum_univ_three, cellAt_shift]
      push_cast
      ring

theorem eigen_desc {D D' : Diag} (hw : WF s) (hf : ArraysFresh s) (hw' : WF s') (hf' : ArraysFresh s') (hs : SameModel s s' O π n)
    (hD : SolvesCell D s) (hD' : SolvesCell D' s') (hz : ZheevSpec D) (hz' : ZheevSpec D') {k : Vec3 ℝ} {conv : ℤ} {q q' : (ℕ → ℝ) × (ℕ → ℕ → ℂ)}
    (hq : eigen D k conv = .ok q) (hq' : eigen D' k conv = .ok q') :
    ∃ m, Eigenpairs D.nb D.nb m q' ∧ Eigenpairs D.nb D.nb m (descStates π (descPhase conv n k) q) := by
  obtain ⟨m, hm, hzm⟩ := eigen_ok D hD.plain _ _ q hq
  obtain ⟨m', hm', hzm'⟩ := eigen_ok D' hD'.plain _ _ q' hq'
  have h1 := hz' m' q' hzm'
  rw [hD'.nb, hs.num, ← hD.nb] at h1
  refine ⟨m', h1, desc_pairs (by rw [hD.nb]; exact hs.perm) (descPhase_unit conv n k) (fun a ha b hb => ?_) (hz m q hzm)⟩
  rw [hD.nb] at ha hb
  exact ham_desc hw hf hw' hf' hs (hD.ham _ _ _ hm) (hD'.ham _ _ _ hm') ha hb

/-- The Hamiltonian is a differentiable function of the wave vector. -/
theorem ham_diff (hw : WF s) (hf : ArraysFresh s) (h1 : s.numOrb ≠ 0) (h2 : s.hops.numHop ≠ 0) (A : Mat3 ℝ) {a b : ℕ} (ha : a < s.numOrb)
    (hb : b < s.numOrb) : Differentiable ℝ fun K : Vec3 ℝ => hamCart A s.posAt s.arrEng s.hopRows K a b := by
  obtain ⟨oa, ha1⟩ : ∃ o, s.orbs[a]? = some o := ⟨_, List.getElem?_eq_getElem ha⟩
  obtain ⟨ob, hb1⟩ : ∃ o, s.orbs[b]? = some o := ⟨_, List.getElem?_eq_getElem hb⟩
  have hS : ∀ R, s.hops.get R a b ≠ none → R ∈ ((C07_neighbours_finite s.hops (a : ℕ)).image Prod.fst).toFinset :=
    fun R hR => (Set.Finite.mem_toFinset _).2 ⟨(R, (b : ℕ)), hR, rfl⟩
  have e : (fun K : Vec3 ℝ => hamCart A s.posAt s.arrEng s.hopRows K a b) = fun K => (if a = b then (oa.energy : ℂ) else 0) +
      ∑ R ∈ ((C07_neighbours_finite s.hops (a : ℕ)).image Prod.fst).toFinset, (s.hops.get R a b).getD 0 * Complex.exp (((2 * Real.pi *
        ∑ x, (∑ y, A x y * K y) / (2 * Real.pi) * (cellAt R x + (ob.position x - oa.position x)) : ℝ) : ℂ) * Complex.I) := by
    funext K
    have := ham_entry hw hf _ 1 _ (dense_ok h1 h2 (fun i => dotProduct (A i) K / (2 * Real.pi))) a b _ _ ha1 hb1 _ hS
    simp only [if_true, eiPhase_eq_exp] at this
    exact this
  rw [e]
  have hc : Differentiable ℝ (fun x : ℝ => (x : ℂ)) := Complex.ofRealCLM.differentiable
  refine Differentiable.add (differentiable_const _) (Differentiable.fun_sum fun R _ => Differentiable.const_mul ?_ _)
  refine Differentiable.cexp (Differentiable.mul_const (hc.comp ?_) _)
  fun_prop

/-- The derivative in any direction. -/
theorem ham_dir (hw : WF s) (hf : ArraysFresh s) (h1 : s.numOrb ≠ 0) (h2 : s.hops.numHop ≠ 0) (A : Mat3 ℝ) {a b : ℕ} (ha : a < s.numOrb)
    (hb : b < s.numOrb) (K v : Vec3 ℝ) : HasDerivAt (fun t : ℝ => hamCart A s.posAt s.arrEng s.hopRows (K + t • v) a b)
      (∑ d, (v d : ℂ) * velocity A s.posAt s.arrEng s.hopRows K d a b) 0 := by
  have hF := (ham_diff hw hf h1 h2 A ha hb K).hasFDerivAt
  set F := fderiv ℝ (fun K : Vec3 ℝ => hamCart A s.posAt s.arrEng s.hopRows K a b) K
  have hline : ∀ v : Vec3 ℝ, HasDerivAt (fun t : ℝ => hamCart A s.posAt s.arrEng s.hopRows (K + t • v) a b) (F v) 0 := by
    intro v
    have hl : HasDerivAt (fun t : ℝ => K + t • v) v 0 := by
      have := ((hasDerivAt_id (0 : ℝ)).smul_const v).const_add K
      simpa using this
    have h0 : K = K + (0 : ℝ) • v := by simp
    have hF' : HasFDerivAt (fun K : Vec3 ℝ => hamCart A s.posAt s.arrEng s.hopRows K a b) F (K + (0 : ℝ) • v) := by rw [← h0]; exact hF
    exact hF'.comp_hasDerivAt (0 : ℝ) hl
  have hvel : ∀ d, velocity A s.posAt s.arrEng s.hopRows K d a b = F (Pi.single d 1) := fun d => (hline (Pi.single d 1)).deriv
  have hv : v = ∑ d, v d • (Pi.single d 1 : Vec3 ℝ) := by
    funext x
    simp [Finset.sum_apply, Pi.single_apply]
  have hFv : F v = ∑ d, (v d : ℂ) * velocity A s.posAt s.arrEng s.hopRows K d a b := by
    conv_lhs => rw [hv]
    rw [map_sum]
    refine Finset.sum_congr rfl fun d _ => ?_
    rw [map_smul, hvel]
    rfl
  rw [← hFv]
  exact hline v

/-- Velocities are vectors. -/
theorem vel_desc (hw : WF s) (hf : ArraysFresh s) (hw' : WF s') (hf' : ArraysFresh s') (hs : SameModel s s' O π n) (h1 : s.numOrb ≠ 0)
    (h2 : s.hops.numHop ≠ 0) (h1' : s'.numOrb ≠ 0) (h2' : s'.hops.numHop ≠ 0) (K : Vec3 ℝ) (c : Fin 3) {a b : ℕ} (ha : a < s.numOrb) (hb : b < s.numOrb) :
    velocity s'.lat s'.posAt s'.arrEng s'.hopRows (O.mulVec K) c (π a : ℕ) (π b : ℕ) = ∑ d, (O c d : ℂ) * velocity s.lat s.posAt s.arrEng s.hopRows K d a b := by
  have hO : O.transpose * O = 1 := mul_eq_one_comm.1 hs.rigid
  have hfun : (fun t : ℝ => hamCart s'.lat s'.posAt s'.arrEng s'.hopRows (O.mulVec K + t • (Pi.single c 1 : Vec3 ℝ)) (π a : ℕ) (π b : ℕ)) =
      fun t : ℝ => hamCart s.lat s.posAt s.arrEng s.hopRows (K + t • O c) a b := by
    funext t
    unfold hamCart
    have hk : ∀ i, dotProduct (s'.lat i) (O.mulVec K + t • (Pi.single c 1 : Vec3 ℝ)) = dotProduct (s.lat i) (K + t • O c) := by
      intro i
      have e1 : (Pi.single c 1 : Vec3 ℝ) = O.mulVec (O c) := by
        have : O c = O.transpose.mulVec (Pi.single c 1) := by
          funext x
          simp [Matrix.mulVec, dotProduct, Pi.single_apply]
        rw [this, Matrix.mulVec_mulVec, hs.rigid, Matrix.one_mulVec]
      rw [e1, ← Matrix.mulVec_smul, ← Matrix.mulVec_add, hs.lat, Matrix.dotProduct_mulVec, Matrix.vecMul_mulVec, hO, Matrix.vecMul_one]
    have := ham_desc hw hf hw' hf' hs (dense_ok h1 h2 (fun i => dotProduct (s.lat i) (K + t • O c) / (2 * Real.pi)))
      (dense_ok h1' h2' (fun i => dotProduct (s.lat i) (K + t • O c) / (2 * Real.pi))) ha hb
    simp only [descPhase, if_true, one_mul, star_one, mul_one] at this
    simp only [hk]
    exact this
  unfold velocity
  rw [hfun]
  exact (ham_dir hw hf h1 h2 s.lat ha hb K (O c)).deriv

end Cell

end Verif.Props

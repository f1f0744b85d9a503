import Verif.Model.Bloch
import Verif.Proof.PrimSync
import Mathlib.LinearAlgebra.Matrix.Charpoly.Basic
import Mathlib.Analysis.SpecialFunctions.Complex.Circle
import Mathlib.Tactic.Ring
import Mathlib.Tactic.LinearCombination

/-! Helper lemmas on the Bloch Hamiltonian. -/

set_option linter.unusedSectionVars false

namespace Verif

theorem eiPhase_eq_exp (x : ℝ) : eiPhase x = Complex.exp (x * Complex.I) := by
  rw [eiPhase, Complex.exp_mul_I]; push_cast; ring

theorem eiPhase_add (x y : ℝ) : eiPhase (x + y) = eiPhase x * eiPhase y := by
  simp only [eiPhase_eq_exp]; push_cast; rw [add_mul, Complex.exp_add]

theorem eiPhase_neg (x : ℝ) : eiPhase (-x) = star (eiPhase x) := by
  simp only [eiPhase, Real.cos_neg, Real.sin_neg, star_add, star_mul', Complex.star_def,
    Complex.conj_ofReal, Complex.conj_I]
  push_cast; ring

theorem eiPhase_zero : eiPhase 0 = 1 := by simp [eiPhase]

theorem eiPhase_mul_star (x : ℝ) : eiPhase x * star (eiPhase x) = 1 := by
  rw [← eiPhase_neg, ← eiPhase_add, add_neg_cancel, eiPhase_zero]

theorem eiPhase_int (n : ℤ) : eiPhase (2 * Real.pi * n) = 1 := by
  rw [eiPhase_eq_exp]
  have := Complex.exp_int_mul_two_pi_mul_I n
  rw [← this]; push_cast; ring_nf

/-- Contribution of one hopping term to the element `(a, b)`. -/
noncomputable def hopTerm (pos : ℤ → Vec3 ℝ) (conv : ℤ) (k : Vec3 ℝ) (a b : ℤ)
    (t : Cell × Pair × ℂ) : ℂ :=
  (if t.2.1 = (a, b) then t.2.2 * eiPhase (hopPhase pos conv k t.1 a b) else 0) +
  (if t.2.1 = (b, a) then star (t.2.2 * eiPhase (hopPhase pos conv k t.1 b a)) else 0)

theorem addHop_apply (pos : ℤ → Vec3 ℝ) (conv : ℤ) (k : Vec3 ℝ) (h : IMat)
    (t : Cell × Pair × ℂ) (a b : ℤ) :
    addHop pos conv k h t a b = h a b + hopTerm pos conv k a b t := by
  obtain ⟨R, ⟨i, j⟩, e⟩ := t
  simp only [addHop, IMat.put, hopTerm, Prod.mk.injEq]
  by_cases h1 : a = i ∧ b = j
  · obtain ⟨rfl, rfl⟩ := h1
    by_cases h2 : a = b
    · subst h2; simp; ring
    · have h2' : b ≠ a := Ne.symm h2
      simp [h2, h2']
  · by_cases h2 : a = j ∧ b = i
    · obtain ⟨rfl, rfl⟩ := h2
      have h3 : ¬ (b = a ∧ a = b) := fun hh => h1 ⟨hh.2, hh.1⟩
      have h4 : ¬ (a = b ∧ b = a) := h1
      simp [h3, h4]
    · have h1' : ¬ (i = a ∧ j = b) := fun hh => h1 ⟨hh.1.symm, hh.2.symm⟩
      have h2' : ¬ (i = b ∧ j = a) := fun hh => h2 ⟨hh.2.symm, hh.1.symm⟩
      simp only [h1, h2, h1', h2', if_false, add_zero]

theorem foldl_addHop (pos : ℤ → Vec3 ℝ) (conv : ℤ) (k : Vec3 ℝ) (hops : List (Cell × Pair × ℂ))
    (h : IMat) (a b : ℤ) :
    hops.foldl (addHop pos conv k) h a b = h a b + (hops.map (hopTerm pos conv k a b)).sum := by
  induction hops generalizing h with
  | nil => simp
  | cons t hops ih =>
    rw [List.foldl_cons, ih, addHop_apply, List.map_cons, List.sum_cons, add_assoc]

theorem setDiag_aux (eng : List ℝ) (m : ℕ) (ham : IMat) (a b : ℤ) :
    (eng.zipIdx m).foldl (fun h q => IMat.put h q.2 q.2 (q.1 : ℂ)) ham a b =
      if a = b ∧ (m : ℤ) ≤ a ∧ a < m + eng.length then ((eng.getD (a.toNat - m) 0 : ℝ) : ℂ)
      else ham a b := by
  induction eng generalizing m ham with
  | nil =>
    have h0 : ¬ (a = b ∧ (m : ℤ) ≤ a ∧ a < m + ([] : List ℝ).length) := by
      rintro ⟨-, h1, h2⟩; simp at h2; omega
    rw [if_neg h0]; rfl
  | cons e eng ih =>
    rw [List.zipIdx_cons, List.foldl_cons, ih]
    simp only [IMat.put, List.length_cons]
    by_cases hab : a = b
    · subst hab
      by_cases h1 : a = (m : ℤ)
      · subst h1
        rw [if_neg (by push_cast; omega), if_pos ⟨rfl, rfl⟩, if_pos ⟨rfl, by omega, by push_cast; omega⟩]
        simp
      · by_cases h2 : (m : ℤ) ≤ a ∧ a < m + (eng.length + 1 : ℕ)
        · rw [if_pos ⟨rfl, by push_cast; omega, by push_cast at *; omega⟩,
            if_pos ⟨rfl, h2⟩]
          have : a.toNat - m = (a.toNat - (m + 1)) + 1 := by omega
          rw [this, List.getD_cons_succ]
        · rw [if_neg (by push_cast at *; omega), if_neg (by simpa using h1), if_neg (by
            rintro ⟨-, h3⟩; exact h2 h3)]
    · rw [if_neg (by tauto), if_neg (by rintro ⟨h1, h2⟩; exact hab (h1.trans h2.symm)), if_neg (by tauto)]

/-- On-site part. -/
theorem setDiag_apply (eng : List ℝ) (a b : ℤ) :
    setDiag eng IMat.zero a b =
      if a = b ∧ 0 ≤ a ∧ a < eng.length then ((eng.getD a.toNat 0 : ℝ) : ℂ) else 0 := by
  have := setDiag_aux eng 0 IMat.zero a b
  simpa [setDiag, IMat.zero] using this

theorem setHam_apply (pos : ℤ → Vec3 ℝ) (eng : List ℝ) (hops : List (Cell × Pair × ℂ))
    (conv : ℤ) (k : Vec3 ℝ) (a b : ℤ) :
    setHam pos eng hops conv k IMat.zero a b =
      setDiag eng IMat.zero a b + (hops.map (hopTerm pos conv k a b)).sum := by
  rw [setHam, foldl_addHop]

theorem star_list_sum (l : List ℂ) : star l.sum = (l.map star).sum := by
  induction l with
  | nil => simp
  | cons a l ih => simp only [List.sum_cons, List.map_cons, star_add, ih]

theorem hopTerm_star (pos : ℤ → Vec3 ℝ) (conv : ℤ) (k : Vec3 ℝ) (a b : ℤ) (t : Cell × Pair × ℂ) :
    star (hopTerm pos conv k b a t) = hopTerm pos conv k a b t := by
  unfold hopTerm
  rw [star_add, add_comm]
  congr 1
  · split_ifs <;> simp
  · split_ifs <;> simp

theorem setDiag_star (eng : List ℝ) (a b : ℤ) :
    star (setDiag eng IMat.zero b a) = setDiag eng IMat.zero a b := by
  rw [setDiag_apply, setDiag_apply]
  by_cases h : a = b
  · subst h; split_ifs <;> simp
  · rw [if_neg (by tauto), if_neg (by tauto)]; simp

theorem kDotR_one (pos : ℤ → Vec3 ℝ) (k : Vec3 ℝ) (R : Cell) (i j : ℤ) :
    kDotR pos 1 k R i j = kDotR pos 2 k R i j + (∑ x, k x * pos j x) - ∑ x, k x * pos i x := by
  simp [kDotR, Fin.sum_univ_three]; ring

theorem kDotR_neg (pos : ℤ → Vec3 ℝ) (conv : ℤ) (k : Vec3 ℝ) (R : Cell) (i j : ℤ) :
    kDotR pos conv k (-R) j i = - kDotR pos conv k R i j := by
  unfold kDotR
  split_ifs <;> simp <;> ring

theorem hopPhase_neg (pos : ℤ → Vec3 ℝ) (conv : ℤ) (k : Vec3 ℝ) (R : Cell) (i j : ℤ) :
    hopPhase pos conv k (-R) j i = - hopPhase pos conv k R i j := by
  unfold hopPhase; rw [kDotR_neg]; ring

/-- Bloch phase of an orbital position. -/
noncomputable def posPhase (pos : ℤ → Vec3 ℝ) (k : Vec3 ℝ) (i : ℤ) : ℂ :=
  eiPhase (2 * Real.pi * ∑ x, k x * pos i x)

theorem hopTerm_conv (pos : ℤ → Vec3 ℝ) (k : Vec3 ℝ) (a b : ℤ) (t : Cell × Pair × ℂ) :
    hopTerm pos 1 k a b t = star (posPhase pos k a) * hopTerm pos 2 k a b t * posPhase pos k b := by
  have key : ∀ i j, eiPhase (hopPhase pos 1 k t.1 i j) =
      star (posPhase pos k i) * eiPhase (hopPhase pos 2 k t.1 i j) * posPhase pos k j := by
    intro i j
    unfold posPhase hopPhase
    rw [← eiPhase_neg, ← eiPhase_add, ← eiPhase_add, kDotR_one]
    congr 1; ring
  unfold hopTerm
  rw [key a b, key b a]
  split_ifs <;> simp <;> ring

theorem hopTerm_shift (pos : ℤ → Vec3 ℝ) (k : Vec3 ℝ) (G : Fin 3 → ℤ) (a b : ℤ)
    (t : Cell × Pair × ℂ) :
    hopTerm pos 2 (fun x => k x + G x) a b t = hopTerm pos 2 k a b t := by
  have key : ∀ i j, eiPhase (hopPhase pos 2 (fun x => k x + G x) t.1 i j) =
      eiPhase (hopPhase pos 2 k t.1 i j) := by
    intro i j
    have : hopPhase pos 2 (fun x => k x + G x) t.1 i j = hopPhase pos 2 k t.1 i j +
        2 * Real.pi * ((G 0 * t.1.1 + G 1 * t.1.2.1 + G 2 * t.1.2.2 : ℤ) : ℝ) := by
      simp only [hopPhase, kDotR, if_neg (show ¬ ((2 : ℤ) = 1) by decide)]
      push_cast; ring
    rw [this, eiPhase_add, eiPhase_int, mul_one]
  unfold hopTerm
  rw [key, key]

theorem setDiag_conj (eng : List ℝ) (u : ℤ → ℂ) (hu : ∀ i, star (u i) * u i = 1) (a b : ℤ) :
    star (u a) * setDiag eng IMat.zero a b * u b = setDiag eng IMat.zero a b := by
  rw [setDiag_apply]
  split_ifs with h
  · obtain ⟨rfl, -⟩ := h
    rw [mul_comm (star (u a)), mul_assoc, hu, mul_one]
  · simp

theorem list_sum_conj (l : List (Cell × Pair × ℂ)) (f : Cell × Pair × ℂ → ℂ) (x y : ℂ) :
    x * (l.map f).sum * y = (l.map (fun t => x * f t * y)).sum := by
  induction l with
  | nil => simp
  | cons a l ih => simp only [List.map_cons, List.sum_cons, mul_add, add_mul, ih]

/-- Change of convention, elementwise. -/
theorem setHam_conv (pos : ℤ → Vec3 ℝ) (eng : List ℝ) (hops : List (Cell × Pair × ℂ))
    (k : Vec3 ℝ) (a b : ℤ) :
    setHam pos eng hops 1 k IMat.zero a b =
      star (posPhase pos k a) * setHam pos eng hops 2 k IMat.zero a b * posPhase pos k b := by
  rw [setHam_apply, setHam_apply, mul_add, add_mul, list_sum_conj,
    setDiag_conj eng (posPhase pos k) (fun i => by rw [mul_comm]; exact eiPhase_mul_star _)]
  congr 2
  apply List.map_congr_left
  intro t _
  exact hopTerm_conv pos k a b t

theorem setHam_shift (pos : ℤ → Vec3 ℝ) (eng : List ℝ) (hops : List (Cell × Pair × ℂ))
    (k : Vec3 ℝ) (G : Fin 3 → ℤ) :
    setHam pos eng hops 2 (fun x => k x + G x) IMat.zero = setHam pos eng hops 2 k IMat.zero := by
  funext a b
  rw [setHam_apply, setHam_apply]
  congr 2
  exact List.map_congr_left (fun t _ => hopTerm_shift pos k G a b t)

/-! ### The half matrix of the sparse builder -/

theorem foldl_half (f : Cell × Pair × ℂ → ℂ) (l : List (Cell × Pair × ℂ)) (h : IMat) (a b : ℤ) :
    l.foldl (fun (h : IMat) (t : Cell × Pair × ℂ) =>
      h.put t.2.1.1 t.2.1.2 (h t.2.1.1 t.2.1.2 + f t)) h a b =
      h a b + (l.map (fun t => if t.2.1 = (a, b) then f t else 0)).sum := by
  induction l generalizing h with
  | nil => simp
  | cons t l ih =>
    rw [List.foldl_cons, ih, List.map_cons, List.sum_cons, ← add_assoc]
    congr 1
    obtain ⟨R, ⟨i, j⟩, e⟩ := t
    simp only [IMat.put, Prod.mk.injEq]
    by_cases h1 : a = i ∧ b = j
    · obtain ⟨rfl, rfl⟩ := h1; simp
    · have h1' : ¬ (i = a ∧ j = b) := fun hh => h1 ⟨hh.1.symm, hh.2.symm⟩
      simp [h1, h1']

theorem sum_map_add (l : List (Cell × Pair × ℂ)) (f g : Cell × Pair × ℂ → ℂ) :
    (l.map f).sum + (l.map g).sum = (l.map (fun t => f t + g t)).sum := by
  induction l with
  | nil => simp
  | cons a l ih => simp only [List.map_cons, List.sum_cons, ← ih]; ring

theorem flat_eq_toList {E : Type*} [Star E] (h : IntraHop E) :
    h.flatMap (fun q => q.2.map (fun pe => (q.1, pe.1, pe.2))) = IntraHop.toList h := by
  unfold IntraHop.toList IntraHop.purge
  induction h with
  | nil => rfl
  | cons q h ih =>
    cases hq : q.2 with
    | nil => simp [hq, ih]
    | cons a d => rw [List.flatMap_cons, ih, List.filter_cons_of_pos (by simp [hq]), List.flatMap_cons]

/-! ### Fourier sums -/

/-- Summing over the exported list the terms on one pair is summing over cells. -/
theorem sum_pair_eq {h : IntraHop ℂ} (hi : IntraHop.Inv h) (p : Pair) (φ : Cell → ℂ)
    (g : ℂ → ℂ) (S : Finset Cell) (hS : ∀ R, IntraHop.look h R p ≠ none → R ∈ S) :
    ((IntraHop.toList h).map (fun t => if t.2.1 = p then g t.2.2 * φ t.1 else 0)).sum =
      ∑ R ∈ S, ((IntraHop.look h R p).map g).getD 0 * φ R := by
  classical
  have hnd : (IntraHop.toList h).Nodup := List.Nodup.of_map _ (IntraHop.toList_keys_nodup hi)
  rw [← List.sum_toFinset _ hnd, ← Finset.sum_filter]
  have h2 : ∑ R ∈ S, ((IntraHop.look h R p).map g).getD 0 * φ R =
      ∑ R ∈ S.filter (fun R => IntraHop.look h R p ≠ none),
        ((IntraHop.look h R p).map g).getD 0 * φ R := by
    symm
    apply Finset.sum_filter_of_ne
    intro R _ hne hnone
    rw [hnone] at hne
    simp at hne
  rw [h2]
  refine Finset.sum_bij (fun t _ => t.1) ?_ ?_ ?_ ?_
  · rintro ⟨R, q, e⟩ ht
    simp only [Finset.mem_filter, List.mem_toFinset] at ht ⊢
    obtain ⟨hm, rfl⟩ := ht
    have hl := (IntraHop.mem_toList hi R q e).1 hm
    have : IntraHop.look h R q ≠ none := by rw [hl]; simp
    exact ⟨hS R this, this⟩
  · rintro ⟨R, q, e⟩ ht ⟨R', q', e'⟩ ht' heq
    simp only [Finset.mem_filter, List.mem_toFinset] at ht ht' heq
    obtain ⟨hm, rfl⟩ := ht
    obtain ⟨hm', rfl⟩ := ht'
    subst heq
    have hl := (IntraHop.mem_toList hi _ _ _).1 hm
    have hl' := (IntraHop.mem_toList hi _ _ _).1 hm'
    rw [hl] at hl'
    simp only [Option.some.injEq] at hl'
    rw [hl']
  · intro R hR
    simp only [Finset.mem_filter] at hR
    obtain ⟨e, he⟩ := Option.ne_none_iff_exists'.1 hR.2
    exact ⟨(R, p, e), by simp [IntraHop.mem_toList hi, he], rfl⟩
  · rintro ⟨R, q, e⟩ ht
    simp only [Finset.mem_filter, List.mem_toFinset] at ht
    obtain ⟨hm, rfl⟩ := ht
    have hl := (IntraHop.mem_toList hi R q e).1 hm
    simp [hl]

/-- For a non-diagonal term the visible map is the sum of the two stored spellings. -/
theorem get_eq_sum {h : IntraHop ℂ} (hi : IntraHop.Inv h)
    (hd : ∀ i, IntraHop.look h 0 (i, i) = none) (R : Cell) (a b : ℤ) :
    (IntraHop.get h R a b).getD 0 = ((IntraHop.look h R (a, b)).map id).getD 0 +
      ((IntraHop.look h (-R) (b, a)).map star).getD 0 := by
  rw [IntraHop.get_eq_look]
  by_cases hdg : R = 0 ∧ a = b
  · obtain ⟨rfl, rfl⟩ := hdg
    simp [hd]
  · cases hc : checkConj R a b
    · have : IntraHop.look h (-R) (b, a) = none := by
        by_contra hne
        obtain ⟨e, he⟩ := Option.ne_none_iff_exists'.1 hne
        have := IntraHop.look_norm hi he
        rw [checkConj_swap hdg, hc] at this
        simp at this
      simp [this]
    · have : IntraHop.look h R (a, b) = none := by
        by_contra hne
        obtain ⟨e, he⟩ := Option.ne_none_iff_exists'.1 hne
        have := IntraHop.look_norm hi he
        rw [hc] at this
        simp at this
      simp [this]

/-- Fourier sum of the full map. -/
theorem sum_hopTerm_eq {h : IntraHop ℂ} (hi : IntraHop.Inv h)
    (hd : ∀ i, IntraHop.look h 0 (i, i) = none)
    (pos : ℤ → Vec3 ℝ) (conv : ℤ) (k : Vec3 ℝ) (a b : ℤ) (S : Finset Cell)
    (hS : ∀ R, IntraHop.get h R a b ≠ none → R ∈ S) :
    ((IntraHop.toList h).map (hopTerm pos conv k a b)).sum =
      ∑ R ∈ S, (IntraHop.get h R a b).getD 0 * eiPhase (hopPhase pos conv k R a b) := by
  classical
  have e1 : (IntraHop.toList h).map (hopTerm pos conv k a b) =
      (IntraHop.toList h).map (fun t =>
        (if t.2.1 = (a, b) then id t.2.2 * eiPhase (hopPhase pos conv k t.1 a b) else 0) +
        (if t.2.1 = (b, a) then star t.2.2 * eiPhase (hopPhase pos conv k (-t.1) a b) else 0)) := by
    apply List.map_congr_left
    intro t _
    unfold hopTerm
    congr 1
    split_ifs
    · rw [star_mul', hopPhase_neg, eiPhase_neg]
    · rfl
  rw [e1, ← sum_map_add]
  rw [sum_pair_eq hi (a, b) (fun R => eiPhase (hopPhase pos conv k R a b)) id S,
    sum_pair_eq hi (b, a) (fun R => eiPhase (hopPhase pos conv k (-R) a b)) star
      (S.image (fun R => -R))]
  · rw [Finset.sum_image (fun x _ y _ hxy => neg_injective hxy), ← Finset.sum_add_distrib]
    apply Finset.sum_congr rfl
    intro R _
    rw [get_eq_sum hi hd, neg_neg]
    ring
  · intro R hne
    refine Finset.mem_image.2 ⟨-R, hS _ ?_, neg_neg R⟩
    intro hh
    have := get_eq_sum hi hd (-R) a b
    obtain ⟨e, he⟩ := Option.ne_none_iff_exists'.1 hne
    have hnd : ¬ (R = 0 ∧ b = a) := by
      rintro ⟨rfl, rfl⟩
      exact hne (hd _)
    have h1 : IntraHop.get h R b a = some e := PrimCell.get_of_look hi he
    have h2 := IntraHop.get_conjSymm h R b a hnd
    rw [h1, hh] at h2
    simp at h2
  · intro R hne
    obtain ⟨e, he⟩ := Option.ne_none_iff_exists'.1 hne
    exact hS R (by rw [PrimCell.get_of_look hi he]; simp)

end Verif

import Verif.Spec.Sample
import Verif.Proof.Bloch
import Verif.Props.Base
import Mathlib.Analysis.Complex.Norm
import Mathlib.Algebra.Order.BigOperators.Group.Finset

/-! # Lemmas about the Hamiltonian of a sample -/

namespace Verif
namespace Sample

theorem zipIdx_put {α : Type*} (l : List α) : ∀ (n : ℕ) (f : ℤ → α) (x : ℤ),
    (l.zipIdx n).foldl (fun s q => arrPut s q.2 q.1) f x =
      if (n : ℤ) ≤ x ∧ x < n + l.length then (l[(x - n).toNat]?).getD (f x) else f x := by
  induction l with
  | nil => intro n f x; simp
  | cons e l ih =>
    intro n f x
    rw [List.zipIdx_cons, List.foldl_cons, ih]
    simp only [List.length_cons]
    by_cases h1 : ((n + 1 : ℕ) : ℤ) ≤ x ∧ x < ((n + 1 : ℕ) : ℤ) + l.length
    · rw [if_pos h1, if_pos (by push_cast at h1 ⊢; omega)]
      have e1 : (x - n).toNat = (x - ((n + 1 : ℕ) : ℤ)).toNat + 1 := by push_cast at h1 ⊢; omega
      rw [e1, List.getElem?_cons_succ]
      have hne : x ≠ n := by push_cast at h1; omega
      simp [arrPut, hne]
    · rw [if_neg h1]
      by_cases h2 : x = n
      · subst h2
        simp [arrPut]
      · rw [if_neg (by push_cast at h1 ⊢; omega)]
        simp [arrPut, h2]

/-- Sum of the moduli of the terms touching `a` on the bra and on the ket side. -/
noncomputable def touch (hops : List (SCHop ℝ ℂ)) (a : ℤ) : ℝ :=
  ((hops.filter fun h => h.i = a).map fun h => ‖h.v‖).sum + ((hops.filter fun h => h.j = a).map fun h => ‖h.v‖).sum

theorem sqrt_norm (v : ℂ) : Real.sqrt (v.re ^ 2 + v.im ^ 2) = ‖v‖ := by
  rw [Complex.norm_def, Complex.normSq_apply]; congr 1; ring

theorem hamSum_eq (eng : List ℝ) (hops : List (SCHop ℝ ℂ)) {a : ℤ} (h0 : 0 ≤ a) (h1 : a < eng.length) :
    hamSum eng hops a = (eng[a.toNat]?).getD 0 + touch hops a := by
  unfold hamSum
  have key : ∀ (hops : List (SCHop ℝ ℂ)) (s : ℤ → ℝ), (hops.foldl (fun s h =>
      let a := Real.sqrt (h.v.re ^ 2 + h.v.im ^ 2)
      let s1 := arrPut s h.i (s h.i + a)
      arrPut s1 h.j (s1 h.j + a)) s) a = s a + touch hops a := by
    intro hops
    induction hops with
    | nil => intro s; simp [touch]
    | cons h hops ih =>
      intro s
      rw [List.foldl_cons, ih]
      simp only [sqrt_norm, touch, List.filter_cons, arrPut]
      by_cases hi : h.i = a <;> by_cases hj : h.j = a
      · simp [hi, hj]; ring
      · simp [hi, hj, Ne.symm hj]; ring
      · simp [hi, hj, Ne.symm hi]; ring
      · simp [hi, hj, Ne.symm hi, Ne.symm hj]
  rw [key, zipIdx_put, if_pos (by push_cast; omega)]
  simp

theorem le_npMax (l : List ℝ) {x : ℝ} (h : x ∈ l) : x ≤ npMax l := by
  have key : ∀ (l : List ℝ) (m : ℝ), m ≤ l.foldl max m ∧ ∀ x ∈ l, x ≤ l.foldl max m := by
    intro l
    induction l with
    | nil => intro m; simp
    | cons y l ih =>
      intro m
      rw [List.foldl_cons]
      refine ⟨(le_max_left _ _).trans (ih _).1, ?_⟩
      intro x hx
      rcases List.mem_cons.1 hx with rfl | hx
      · exact (le_max_right _ _).trans (ih _).1
      · exact (ih _).2 x hx
  cases l with
  | nil => simp at h
  | cons y l =>
    rcases List.mem_cons.1 h with rfl | h
    · exact (key l _).1
    · exact (key l _).2 x h

theorem npMax_mem {l : List ℝ} (h : l ≠ []) : npMax l ∈ l := by
  have key : ∀ (l : List ℝ) (m : ℝ), l.foldl max m = m ∨ l.foldl max m ∈ l := by
    intro l
    induction l with
    | nil => intro m; simp
    | cons y l ih =>
      intro m
      rw [List.foldl_cons]
      rcases ih (max m y) with e | e
      · rw [e]
        rcases max_choice m y with e' | e' <;> rw [e']
        · exact Or.inl rfl
        · exact Or.inr (by simp)
      · exact Or.inr (List.mem_cons_of_mem _ e)
  cases l with
  | nil => exact absurd rfl h
  | cons y l =>
    rcases key l y with e | e
    · simp [npMax, e]
    · exact List.mem_cons_of_mem _ e

theorem norm_list_sum_le (l : List ℂ) : ‖l.sum‖ ≤ (l.map fun z => ‖z‖).sum := by
  induction l with
  | nil => simp
  | cons z l ih => simp only [List.sum_cons, List.map_cons]; exact (norm_add_le _ _).trans (by linarith)

/-- The moduli of the matrix elements of the terms in one row add up to at most the terms starting there. -/
theorem row_sum_le (n : ℕ) (hops : List (SCHop ℝ ℂ)) (hr : TermsInRange n hops) (a : ℤ) :
    ∑ b : Fin n, ‖hopMat hops a (b : ℕ)‖ ≤ ((hops.filter fun h => h.i = a).map fun h => ‖h.v‖).sum ∧
    ∑ b : Fin n, ‖hopMat hops (b : ℕ) a‖ ≤ ((hops.filter fun h => h.j = a).map fun h => ‖h.v‖).sum := by
  have one : ∀ k : ℤ, 0 ≤ k → k < n → ∀ c : ℝ, ∑ b : Fin n, (if k = ((b : ℕ) : ℤ) then c else 0) = c := by
    intro k h0 h1 c
    rw [Finset.sum_eq_single (⟨k.toNat, by omega⟩ : Fin n)]
    · rw [if_pos]; simp only; omega
    · intro b _ hb
      rw [if_neg]
      intro h
      exact hb (by ext; simp only; omega)
    · simp
  have key : ∀ hops : List (SCHop ℝ ℂ), TermsInRange n hops →
      ∑ b : Fin n, ((hops.filter fun h => h.i = a ∧ h.j = ((b : ℕ) : ℤ)).map fun h => ‖h.v‖).sum =
        ((hops.filter fun h => h.i = a).map fun h => ‖h.v‖).sum ∧
      ∑ b : Fin n, ((hops.filter fun h => h.i = ((b : ℕ) : ℤ) ∧ h.j = a).map fun h => ‖h.v‖).sum =
        ((hops.filter fun h => h.j = a).map fun h => ‖h.v‖).sum := by
    intro hops
    induction hops with
    | nil => intro _; simp
    | cons h hops ih =>
      intro hr
      obtain ⟨i1, i2⟩ := ih (fun x hx => hr x (List.mem_cons_of_mem _ hx))
      obtain ⟨⟨r1, r2⟩, r3, r4⟩ := hr h (by simp)
      constructor
      · rw [List.filter_cons]
        by_cases hi : h.i = a
        · simp only [hi, decide_true, if_true, List.map_cons, List.sum_cons]
          rw [← i1, ← one h.j r3 r4 ‖h.v‖, ← Finset.sum_add_distrib]
          apply Finset.sum_congr rfl
          intro b _
          rw [List.filter_cons]
          by_cases hj : h.j = ((b : ℕ) : ℤ) <;> simp [hi, hj]
        · simp only [hi, decide_false, Bool.false_eq_true, if_false]
          rw [← i1]
          apply Finset.sum_congr rfl
          intro b _
          rw [List.filter_cons_of_neg (by simp [hi])]
      · rw [List.filter_cons]
        by_cases hi : h.j = a
        · simp only [hi, decide_true, if_true, List.map_cons, List.sum_cons]
          rw [← i2, ← one h.i r1 r2 ‖h.v‖, ← Finset.sum_add_distrib]
          apply Finset.sum_congr rfl
          intro b _
          rw [List.filter_cons]
          by_cases hj : h.i = ((b : ℕ) : ℤ) <;> simp [hi, hj]
        · simp only [hi, decide_false, Bool.false_eq_true, if_false]
          rw [← i2]
          apply Finset.sum_congr rfl
          intro b _
          rw [List.filter_cons_of_neg (by simp [hi])]
  have nle : ∀ a b, ‖hopMat hops a b‖ ≤ ((hops.filter fun h => h.i = a ∧ h.j = b).map fun h => ‖h.v‖).sum := by
    intro a b
    unfold hopMat
    refine (norm_list_sum_le _).trans (le_of_eq ?_)
    rw [List.map_map]; rfl
  exact ⟨(Finset.sum_le_sum fun b _ => nle _ _).trans (le_of_eq (key hops hr).1),
    (Finset.sum_le_sum fun b _ => nle _ _).trans (le_of_eq (key hops hr).2)⟩

/-- Eigenvalues are bounded by the row sums. -/
theorem eigen_bound {n : ℕ} {eng : List ℝ} {hops : List (SCHop ℝ ℂ)} (hn : eng.length = n)
    (hr : TermsInRange n hops) {f : ℝ}
    (hb : ∀ a : ℤ, 0 ≤ a → a < n → |(eng[a.toNat]?).getD 0| + touch hops a ≤ f) {lam : ℂ}
    (h : IsEigenvalue n (hamSpec eng hops) lam) : ‖lam‖ ≤ f := by
  obtain ⟨x, hx, he⟩ := h
  have hne : (Finset.univ : Finset (Fin n)).Nonempty := by
    by_contra hc
    rw [Finset.not_nonempty_iff_eq_empty] at hc
    apply hx
    funext a
    exact absurd (Finset.mem_univ a) (by rw [hc]; simp)
  obtain ⟨a, -, ha⟩ := Finset.exists_max_image Finset.univ (fun a => ‖x a‖) hne
  have hpos : 0 < ‖x a‖ := by
    obtain ⟨b, hb⟩ := Function.ne_iff.1 hx
    exact lt_of_lt_of_le (norm_pos_iff.2 (by simpa using hb)) (ha b (Finset.mem_univ _))
  have h1 : ‖lam‖ * ‖x a‖ ≤ ∑ b : Fin n, ‖hamSpec eng hops (a : ℕ) (b : ℕ)‖ * ‖x a‖ := by
    rw [← norm_mul, ← he a]
    refine (norm_sum_le _ _).trans (Finset.sum_le_sum fun b _ => ?_)
    rw [norm_mul]
    exact mul_le_mul_of_nonneg_left (ha b (Finset.mem_univ _)) (norm_nonneg _)
  rw [← Finset.sum_mul] at h1
  have h2 := le_of_mul_le_mul_right h1 hpos
  refine h2.trans (le_trans ?_ (hb (a : ℕ) (by omega) (by have := a.2; omega)))
  have h3 : ∀ b : Fin n, ‖hamSpec eng hops (a : ℕ) (b : ℕ)‖ ≤ ‖engMat eng (a : ℕ) (b : ℕ)‖ +
      ‖hopMat hops (a : ℕ) (b : ℕ)‖ + ‖hopMat hops (b : ℕ) (a : ℕ)‖ := by
    intro b
    unfold hamSpec
    refine (norm_add_le _ _).trans ?_
    rw [norm_star]
    exact add_le_add (norm_add_le _ _) le_rfl
  refine (Finset.sum_le_sum fun b _ => h3 b).trans ?_
  rw [Finset.sum_add_distrib, Finset.sum_add_distrib]
  have h4 : ∑ b : Fin n, ‖engMat eng (a : ℕ) (b : ℕ)‖ = |(eng[((a : ℕ) : ℤ).toNat]?).getD 0| := by
    rw [Finset.sum_eq_single a]
    · simp [engMat]
    · intro b _ hba
      have : ¬ (((a : ℕ) : ℤ) = ((b : ℕ) : ℤ)) := by
        intro h; exact hba (by ext; omega)
      simp [engMat, this]
    · simp
  rw [h4, add_assoc]
  have h5 := row_sum_le n hops hr (a : ℕ)
  unfold touch
  linarith [h5.1, h5.2]

theorem hamCsr_eq (eng : List ℝ) (hops : List (SCHop ℝ ℂ)) : hamCsr eng hops = hamSpec eng hops := by
  funext a b
  unfold hamCsr hamSpec
  congr 2
  unfold diaMat engMat
  by_cases h : a = b ∧ 0 ≤ a
  · by_cases h2 : a < eng.length
    · rw [if_pos ⟨h.1, h.2, h2⟩, if_pos h, List.getD_eq_getElem?_getD]
    · rw [if_neg (fun hh => h2 hh.2.2), if_pos h, List.getElem?_eq_none (by omega)]
      simp
  · rw [if_neg (fun hh => h ⟨hh.1, hh.2.1⟩), if_neg h]

theorem fillHam_eq (eng : List ℝ) (hops : List (SCHop ℝ ℂ)) :
    fillHam eng hops (fun _ _ => 0) = hamSpec eng hops := by
  unfold fillHam
  have h1 : ∀ (l : List ℝ) (n : ℕ) (m : ℤ → ℤ → ℂ) (a b : ℤ),
      (l.zipIdx n).foldl (fun m q => matPut m q.2 q.2 (q.1 : ℂ)) m a b =
      if a = b ∧ (n : ℤ) ≤ a ∧ a < n + l.length then (((l[(a - n).toNat]?).getD 0 : ℝ) : ℂ) else m a b := by
    intro l
    induction l with
    | nil => intro n m a b; simp
    | cons e l ih =>
      intro n m a b
      rw [List.zipIdx_cons, List.foldl_cons, ih]
      simp only [List.length_cons]
      by_cases hab : a = b
      · subst hab
        by_cases h1 : ((n + 1 : ℕ) : ℤ) ≤ a ∧ a < ((n + 1 : ℕ) : ℤ) + l.length
        · rw [if_pos ⟨rfl, h1⟩, if_pos ⟨rfl, by push_cast at h1 ⊢; omega⟩]
          have e1 : (a - n).toNat = (a - ((n + 1 : ℕ) : ℤ)).toNat + 1 := by push_cast at h1 ⊢; omega
          rw [e1, List.getElem?_cons_succ]
        · rw [if_neg (fun hh => h1 hh.2)]
          by_cases h2 : a = n
          · subst h2
            rw [if_pos (by refine ⟨rfl, le_rfl, ?_⟩; push_cast; omega)]
            simp [matPut]
          · rw [if_neg (by rintro ⟨-, h3, h4⟩; push_cast at h1 h4; omega)]
            simp [matPut, h2]
      · rw [if_neg (fun hh => hab hh.1), if_neg (fun hh => hab hh.1)]
        unfold matPut
        rw [if_neg]
        rintro ⟨rfl, rfl⟩; exact hab rfl
  have h2 : ∀ (hops : List (SCHop ℝ ℂ)) (m : ℤ → ℤ → ℂ) (a b : ℤ), hops.foldl (fun m h =>
      let m1 := matPut m h.i h.j (m h.i h.j + h.v)
      matPut m1 h.j h.i (m1 h.j h.i + star h.v)) m a b = m a b + hopMat hops a b + star (hopMat hops b a) := by
    intro hops
    induction hops with
    | nil => intro m a b; simp [hopMat]
    | cons h hops ih =>
      intro m a b
      rw [List.foldl_cons, ih]
      have hc : ∀ x y, hopMat (h :: hops) x y = (if h.i = x ∧ h.j = y then h.v else 0) + hopMat hops x y := by
        intro x y
        unfold hopMat
        rw [List.filter_cons]
        by_cases hh : h.i = x ∧ h.j = y
        · simp [hh]
        · simp [hh]
      rw [hc, hc, star_add]
      have e1 : matPut (matPut m h.i h.j (m h.i h.j + h.v)) h.j h.i
          (matPut m h.i h.j (m h.i h.j + h.v) h.j h.i + star h.v) a b =
          m a b + (if h.i = a ∧ h.j = b then h.v else 0) + star (if h.i = b ∧ h.j = a then h.v else 0) := by
        unfold matPut
        by_cases c1 : a = h.j ∧ b = h.i
        · obtain ⟨rfl, rfl⟩ := c1
          by_cases c2 : h.i = h.j
          · simp [c2]
          · have c3 : h.j ≠ h.i := fun hh => c2 hh.symm
            simp [c2, c3]
        · rw [if_neg c1]
          have c1' : ¬ (h.i = b ∧ h.j = a) := fun hh => c1 ⟨hh.2.symm, hh.1.symm⟩
          rw [if_neg c1', star_zero, add_zero]
          by_cases c2 : a = h.i ∧ b = h.j
          · obtain ⟨rfl, rfl⟩ := c2
            simp
          · rw [if_neg c2, if_neg (fun hh => c2 ⟨hh.1.symm, hh.2.symm⟩), add_zero]
      rw [e1]
      ring
  funext a b
  rw [h2, h1]
  unfold hamSpec
  congr 2
  unfold engMat
  by_cases h : a = b ∧ 0 ≤ a
  · by_cases h2 : a < eng.length
    · rw [if_pos ⟨h.1, by simpa using h.2, by simpa using h2⟩, if_pos h]; simp
    · rw [if_neg (fun hh => h2 (by simpa using hh.2.2)), if_pos h, List.getElem?_eq_none (by omega)]
      simp
  · rw [if_neg (fun hh => h ⟨hh.1, by simpa using hh.2.1⟩), if_neg h]

/-- Scaling all terms scales the factor. -/
theorem getRescale_scale (eng : List ℝ) (hops : List (SCHop ℝ ℂ)) {c : ℝ} (hc : 0 ≤ c) :
    getRescale (eng.map (· * c)) (hops.map fun h => { h with v := h.v * (c : ℂ) }) = getRescale eng hops * c := by
  unfold getRescale
  rw [List.length_map]
  have h1 : ((List.range eng.length).map fun k : ℕ => hamSum (eng.map (· * c))
      (hops.map fun h => { h with v := h.v * (c : ℂ) }) k) =
      ((List.range eng.length).map fun k : ℕ => hamSum eng hops k).map (· * c) := by
    rw [List.map_map]
    apply List.map_congr_left
    intro k hk
    rw [List.mem_range] at hk
    simp only [Function.comp]
    rw [hamSum_eq _ _ (by omega) (by rw [List.length_map]; omega), hamSum_eq _ _ (by omega) (by omega), add_mul]
    congr 1
    · simp [List.getElem?_eq_getElem hk]
    · unfold touch
      rw [add_mul]
      congr 1 <;>
      · rw [List.filter_map, List.map_map, ← List.sum_map_mul_right]
        refine congrArg List.sum ?_
        apply List.map_congr_left
        intro h _
        simp [abs_of_nonneg hc]
  rw [h1]
  generalize ((List.range eng.length).map fun k : ℕ => hamSum eng hops k) = l
  cases l with
  | nil => simp [npMax]
  | cons y l =>
    simp only [npMax, List.map_cons]
    induction l generalizing y with
    | nil => rfl
    | cons z l ih =>
      simp only [List.map_cons, List.foldl_cons]
      rw [← max_mul_of_nonneg _ _ hc]
      exact ih _

end Sample
end Verif

import Verif.Spec.Layers
import Verif.Proof.EnergyZero
import Verif.Props.Arpack

/-! # States of uncoupled parts -/

namespace Verif

/-- The states of both parts. -/
def joinStates (n : ℕ) (q₁ q₂ : (ℕ → ℝ) × (ℕ → ℕ → ℂ)) : (ℕ → ℝ) × (ℕ → ℕ → ℂ) :=
  (fun j => if j < n then q₁.1 j else q₂.1 (j - n),
   fun o j => if o < n then (if j < n then q₁.2 o j else 0) else if j < n then 0 else q₂.2 (o - n) (j - n))

section

variable {n n' : ℕ} {q₁ q₂ u₁ u₂ : (ℕ → ℝ) × (ℕ → ℕ → ℂ)}

theorem join_lo {j : ℕ} (h : j < n) : (joinStates n q₁ q₂).1 j = q₁.1 j := by simp [joinStates, h]
theorem join_hi (j : ℕ) : (joinStates n q₁ q₂).1 (n + j) = q₂.1 j := by simp [joinStates]
theorem join_lolo {o j : ℕ} (ho : o < n) (h : j < n) : (joinStates n q₁ q₂).2 o j = q₁.2 o j := by simp [joinStates, h, ho]
theorem join_lohi {o : ℕ} (ho : o < n) (j : ℕ) : (joinStates n q₁ q₂).2 o (n + j) = 0 := by simp [joinStates, ho]
theorem join_hilo (o : ℕ) {j : ℕ} (h : j < n) : (joinStates n q₁ q₂).2 (n + o) j = 0 := by simp [joinStates, h]
theorem join_hihi (o j : ℕ) : (joinStates n q₁ q₂).2 (n + o) (n + j) = q₂.2 o j := by simp [joinStates]

theorem lo_or_hi (n : ℕ) {n' j : ℕ} (h : j < n + n') : j < n ∨ ∃ i < n', j = n + i := by
  rcases lt_or_ge j n with h1 | h1
  · exact .inl h1
  · exact .inr ⟨j - n, by omega, by omega⟩

/-- The states of the parts are states of the whole. -/
theorem join_pairs {m m₁ m₂ : IMat} (h11 : ∀ i < n, ∀ j < n, m i j = m₁ i j) (h22 : ∀ i < n', ∀ j < n', m (n + i : ℕ) (n + j : ℕ) = m₂ i j)
    (h12 : ∀ i < n, ∀ j < n', m i (n + j : ℕ) = 0 ∧ m (n + j : ℕ) i = 0) (hq₁ : Eigenpairs n n m₁ q₁) (hq₂ : Eigenpairs n' n' m₂ q₂) :
    Eigenpairs (n + n') (n + n') m (joinStates n q₁ q₂) := by
  refine ⟨fun j hj o ho => ?_, fun j hj i hi => ?_⟩
  · rw [Finset.sum_range_add]
    rcases lo_or_hi n hj with hj | ⟨j, hj', rfl⟩ <;> rcases lo_or_hi n ho with ho | ⟨o, ho', rfl⟩
    · rw [join_lo hj, join_lolo ho hj, ← hq₁.eigen j hj o ho,
        Finset.sum_congr rfl fun i hi => by rw [h11 o ho i (Finset.mem_range.1 hi), join_lolo (Finset.mem_range.1 hi) hj],
        Finset.sum_eq_zero (s := Finset.range n') fun i _ => by rw [join_hilo i hj, mul_zero], add_zero]
    · rw [join_hilo o hj, mul_zero, Finset.sum_eq_zero fun i hi => by rw [(h12 i (Finset.mem_range.1 hi) o ho').2, zero_mul],
        Finset.sum_eq_zero (s := Finset.range n') fun i _ => by rw [join_hilo i hj, mul_zero], add_zero]
    · rw [join_lohi ho, mul_zero, Finset.sum_eq_zero fun i hi => by rw [join_lohi (Finset.mem_range.1 hi), mul_zero],
        Finset.sum_eq_zero (s := Finset.range n') fun i hi => by rw [(h12 o ho i (Finset.mem_range.1 hi)).1, zero_mul], add_zero]
    · rw [join_hi, join_hihi, ← hq₂.eigen j hj' o ho', Finset.sum_eq_zero fun i hi => by rw [join_lohi (Finset.mem_range.1 hi), mul_zero], zero_add]
      exact Finset.sum_congr rfl fun i hi => by rw [h22 o ho' i (Finset.mem_range.1 hi), join_hihi]
  · rw [Finset.sum_range_add]
    rcases lo_or_hi n hj with hj | ⟨j, hj', rfl⟩ <;> rcases lo_or_hi n hi with hi | ⟨i, hi', rfl⟩
    · rw [← hq₁.orthonormal j hj i hi, Finset.sum_congr rfl fun a ha => by rw [join_lolo (Finset.mem_range.1 ha) hj, join_lolo (Finset.mem_range.1 ha) hi],
        Finset.sum_eq_zero (s := Finset.range n') fun a _ => by rw [join_hilo a hi, mul_zero], add_zero]
    · rw [if_neg (by omega), Finset.sum_eq_zero fun a ha => by rw [join_lohi (Finset.mem_range.1 ha), mul_zero],
        Finset.sum_eq_zero (s := Finset.range n') fun a _ => by rw [join_hilo a hj, star_zero, zero_mul], add_zero]
    · rw [if_neg (by omega), Finset.sum_eq_zero fun a ha => by rw [join_lohi (Finset.mem_range.1 ha), star_zero, zero_mul],
        Finset.sum_eq_zero (s := Finset.range n') fun a _ => by rw [join_hilo a hi, mul_zero], add_zero]
    · rw [Finset.sum_eq_zero fun a ha => by rw [join_lohi (Finset.mem_range.1 ha), star_zero, zero_mul], zero_add]
      simp only [join_hihi, hq₂.orthonormal j hj' i hi', Nat.add_left_cancel_iff]

variable {A B : ℕ → ℕ → ℂ}

theorem bracket_lolo {l j : ℕ} (hl : l < n) (hj : j < n) : bracket (n + n') A (joinStates n u₁ u₂) (joinStates n q₁ q₂) l j = bracket n A u₁ q₁ l j := by
  unfold bracket
  rw [Finset.sum_range_add, Finset.sum_eq_zero (s := Finset.range n') fun a _ => Finset.sum_eq_zero fun b _ => by
    rw [join_hilo a hl, star_zero, zero_mul, zero_mul], add_zero]
  refine Finset.sum_congr rfl fun a ha => ?_
  rw [Finset.sum_range_add, Finset.sum_eq_zero (s := Finset.range n') fun b _ => by rw [join_hilo b hj, mul_zero], add_zero]
  exact Finset.sum_congr rfl fun b hb => by rw [join_lolo (Finset.mem_range.1 ha) hl, join_lolo (Finset.mem_range.1 hb) hj]

theorem bracket_hihi (l j : ℕ) : bracket (n + n') A (joinStates n u₁ u₂) (joinStates n q₁ q₂) (n + l) (n + j) =
    bracket n' (fun a b => A (n + a) (n + b)) u₂ q₂ l j := by
  unfold bracket
  rw [Finset.sum_range_add, Finset.sum_eq_zero fun a ha => Finset.sum_eq_zero fun b _ => by
    rw [join_lohi (Finset.mem_range.1 ha), star_zero, zero_mul, zero_mul], zero_add]
  refine Finset.sum_congr rfl fun a _ => ?_
  rw [Finset.sum_range_add, Finset.sum_eq_zero fun b hb => by rw [join_lohi (Finset.mem_range.1 hb), mul_zero], zero_add]
  simp only [join_hihi]

theorem bracket_lohi (hA : ∀ a < n, ∀ b < n', A a (n + b) = 0) {l : ℕ} (hl : l < n) (j : ℕ) :
    bracket (n + n') A (joinStates n u₁ u₂) (joinStates n q₁ q₂) l (n + j) = 0 := by
  unfold bracket
  refine Finset.sum_eq_zero fun a ha => Finset.sum_eq_zero fun b hb => ?_
  rcases lo_or_hi n (Finset.mem_range.1 ha) with ha | ⟨a, ha', rfl⟩
  · rcases lo_or_hi n (Finset.mem_range.1 hb) with hb | ⟨b, hb', rfl⟩
    · rw [join_lohi hb, mul_zero]
    · rw [hA a ha b hb', mul_zero, zero_mul]
  · rw [join_hilo a hl, star_zero, zero_mul, zero_mul]

theorem bracket_hilo (hA : ∀ a < n, ∀ b < n', A (n + b) a = 0) (l : ℕ) {j : ℕ} (hj : j < n) :
    bracket (n + n') A (joinStates n u₁ u₂) (joinStates n q₁ q₂) (n + l) j = 0 := by
  unfold bracket
  refine Finset.sum_eq_zero fun a ha => Finset.sum_eq_zero fun b hb => ?_
  rcases lo_or_hi n (Finset.mem_range.1 ha) with ha | ⟨a, ha', rfl⟩
  · rw [join_lohi ha, star_zero, zero_mul, zero_mul]
  · rcases lo_or_hi n (Finset.mem_range.1 hb) with hb | ⟨b, hb', rfl⟩
    · rw [hA b hb a ha', mul_zero, zero_mul]
    · rw [join_hilo b hj, mul_zero]

/-- Sums over pairs of states of the whole: no pairs of states of different parts contribute. -/
theorem pairSum_join (F : ℝ → ℝ → ℂ) (hA : ∀ a < n, ∀ b < n', A a (n + b) = 0 ∧ A (n + b) a = 0) :
    pairSum (n + n') F A B (joinStates n q₁ q₂) (joinStates n u₁ u₂) =
      pairSum n F A B q₁ u₁ + pairSum n' F (fun a b => A (n + a) (n + b)) (fun a b => B (n + a) (n + b)) q₂ u₂ := by
  unfold pairSum
  rw [Finset.sum_range_add]
  congr 1
  · refine Finset.sum_congr rfl fun j hj => ?_
    have hj := Finset.mem_range.1 hj
    rw [Finset.sum_range_add, Finset.sum_eq_zero (s := Finset.range n') fun l _ => by
      rw [bracket_hilo (fun a ha b hb => (hA a ha b hb).2) l hj, zero_mul, mul_zero], add_zero]
    refine Finset.sum_congr rfl fun l hl => ?_
    have hl := Finset.mem_range.1 hl
    rw [join_lo hj, join_lo hl, bracket_lolo hl hj, bracket_lolo hj hl]
  · refine Finset.sum_congr rfl fun j _ => ?_
    rw [Finset.sum_range_add, Finset.sum_eq_zero fun l hl => by
      rw [bracket_lohi (fun a ha b hb => (hA a ha b hb).1) (Finset.mem_range.1 hl) j, zero_mul, mul_zero], zero_add]
    refine Finset.sum_congr rfl fun l _ => ?_
    rw [join_hi, join_hi, bracket_hihi, bracket_hihi]

theorem pairSum_congr {A' B' : ℕ → ℕ → ℂ} (F : ℝ → ℝ → ℂ) (hA : ∀ a < n, ∀ b < n, A a b = A' a b) (hB : ∀ a < n, ∀ b < n, B a b = B' a b)
    (q u : (ℕ → ℝ) × (ℕ → ℕ → ℂ)) : pairSum n F A B q u = pairSum n F A' B' q u := by
  have h : ∀ (A A' : ℕ → ℕ → ℂ), (∀ a < n, ∀ b < n, A a b = A' a b) → ∀ u q l j, bracket n A u q l j = bracket n A' u q l j := by
    intro A A' h u q l j
    unfold bracket
    exact Finset.sum_congr rfl fun a ha => Finset.sum_congr rfl fun b hb => by rw [h a (Finset.mem_range.1 ha) b (Finset.mem_range.1 hb)]
  unfold pairSum
  simp only [h A A' hA, h B B' hB]

end

/-- At every k-point, the states of the whole and the joined states of the parts belong to one Hamiltonian. -/
theorem sum_pairs {D D₁ D₂ : Diag} (h : DirectSum D D₁ D₂) (hz : ZheevSpec D) (hz₁ : ZheevSpec D₁) (hz₂ : ZheevSpec D₂) {k : Vec3 ℝ} {conv : ℤ}
    {q q₁ q₂ : (ℕ → ℝ) × (ℕ → ℕ → ℂ)} (hq : eigen D k conv = .ok q) (hq₁ : eigen D₁ k conv = .ok q₁) (hq₂ : eigen D₂ k conv = .ok q₂) :
    ∃ m, Eigenpairs (D₁.nb + D₂.nb) (D₁.nb + D₂.nb) m q ∧ Eigenpairs (D₁.nb + D₂.nb) (D₁.nb + D₂.nb) m (joinStates D₁.nb q₁ q₂) := by
  obtain ⟨m, hm, hzm⟩ := eigen_ok D h.plain.1 _ _ q hq
  obtain ⟨m₁, hm₁, hzm₁⟩ := eigen_ok D₁ h.plain.2.1 _ _ q₁ hq₁
  obtain ⟨m₂, hm₂, hzm₂⟩ := eigen_ok D₂ h.plain.2.2 _ _ q₂ hq₂
  obtain ⟨h11, h22, h12⟩ := h.ham k conv m m₁ m₂ hm hm₁ hm₂
  have h1 := hz m q hzm
  rw [h.nb] at h1
  exact ⟨m, h1, join_pairs h11 h22 h12 (hz₁ m₁ q₁ hzm₁) (hz₂ m₂ q₂ hzm₂)⟩

end Verif

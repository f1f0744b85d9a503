import Verif.Proof.SkCells
import Verif.Props.UnitarySym

/-! # Symmetry operations of crystals with two-centre hopping -/

namespace Verif.Props

open PrimCell Materials SK

variable {Λ : Type*}

/-- Parameters that give the scalar product. -/
def onePar : Par := ⟨1, 0, 0, 1, 1, 0, 0, 1, 1, 1⟩

theorem twoCentre_one (n : Vec3 ℝ) (a b : Tens) : twoCentre onePar n a b = (a.inner b : ℝ) := by
  cases a <;> cases b <;> simp [twoCentre, onePar, Tens.inner, perp]

theorem inner_rot (Q : Mat3 ℝ) (a b : Tens) : a.inner (b.rot Q) = b.inner (a.rot Q.transpose) := by
  cases a <;> cases b <;> simp only [Tens.inner, Tens.rot]
  · ring
  · rename_i a b
    rw [Matrix.dotProduct_mulVec, Matrix.mulVec_transpose, dotProduct_comm]
  · rename_i A B
    rw [Matrix.transpose_transpose]
    congr 1
    calc (A * (Q * B * Q.transpose)).trace = (A * Q * B * Q.transpose).trace := by simp only [Matrix.mul_assoc]
      _ = (Q.transpose * (A * Q * B)).trace := by rw [Matrix.trace_mul_comm]
      _ = (Q.transpose * A * Q * B).trace := by simp only [Matrix.mul_assoc]
      _ = (B * (Q.transpose * A * Q)).trace := by rw [Matrix.trace_mul_comm]

theorem rot_comp (Q : Mat3 ℝ) (hQ : Q * Q.transpose = 1) (a : Tens) : (a.rot Q.transpose).rot Q = a := by
  cases a with
  | s c => rfl
  | p a => simp [Tens.rot, hQ]
  | d A =>
    simp only [Tens.rot, Matrix.transpose_transpose]
    congr 1
    calc Q * (Q.transpose * A * Q) * Q.transpose = (Q * Q.transpose) * A * (Q * Q.transpose) := by simp only [Matrix.mul_assoc]
      _ = A := by rw [hQ, Matrix.one_mul, Matrix.mul_one]

theorem shell_nodup (l : OrbLabel) : (shell l).Nodup := by
  rcases l with _ | ⟨_ | _ | _⟩ | ⟨_ | _ | _, _ | _ | _⟩ | _ | _ | _ <;> decide

theorem shell_self {l : OrbLabel} (h : tens l ≠ none) : l ∈ shell l := by
  revert h
  rcases l with _ | ⟨_ | _ | _⟩ | ⟨_ | _ | _, _ | _ | _⟩ | _ | _ | _ <;> simp [shell, tens]

theorem shell_eq {l l' : OrbLabel} (h : l ∈ shell l') : shell l = shell l' := by
  revert h
  rcases l' with _ | ⟨_ | _ | _⟩ | ⟨_ | _ | _, _ | _ | _⟩ | _ | _ | _ <;>
    rcases l with _ | ⟨_ | _ | _⟩ | ⟨_ | _ | _, _ | _ | _⟩ | _ | _ | _ <;> simp [shell]

theorem tens_inner (l l' : OrbLabel) (h : tens l ≠ none) (h' : tens l' ≠ none) :
    (tensD l).inner (tensD l') = if l = l' then 1 else 0 := by
  have h3 : Real.sqrt 3 * Real.sqrt 3 = 3 := Real.mul_self_sqrt (by norm_num)
  revert h h'
  rcases l with _ | ⟨_ | _ | _⟩ | ⟨_ | _ | _, _ | _ | _⟩ | _ | _ | _ <;>
    rcases l' with _ | ⟨_ | _ | _⟩ | ⟨_ | _ | _, _ | _ | _⟩ | _ | _ | _ <;>
    first
    | (intro h h'; exfalso; revert h h'; simp [tens]; done)
    | (intro _ _
       simp [tensD, tens, Tens.inner, Matrix.trace, Fin.sum_univ_three, Matrix.mul_apply, Matrix.vecHead, Matrix.vecTail]
       try (first | done | linear_combination (1 / 3) * h3 | norm_num | (ring_nf; norm_num)))

theorem legal_tens {l : OrbLabel} (h : tens l ≠ none) : tens l = some (tensD l) ∧ (tensD l).legal ∧ (tensD l).shell = shell l := by
  obtain ⟨a, ha⟩ := Option.ne_none_iff_exists'.1 h
  obtain ⟨h1, h2, h3⟩ := tens_legal l a ha
  subst h3
  exact ⟨ha, h1, h2⟩

theorem shell_legal' {l l' : OrbLabel} (h : tens l ≠ none) (h' : l' ∈ shell l) : tens l' ≠ none := by
  obtain ⟨a', ha'⟩ := shell_legal l l' _ (legal_tens h).1 h'
  simp [ha']

theorem rotCoef_eq (Q : Mat3 ℝ) {l l' : OrbLabel} (h : tens l ≠ none) (h' : tens l' ≠ none) :
    rotCoef Q l l' = (tensD l).inner ((tensD l').rot Q) := by
  rw [rotCoef, (legal_tens h).1, (legal_tens h').1]

/-- Rotated orbital on the right. -/
theorem shell_right (v : Par) (n : Vec3 ℝ) (Q : Mat3 ℝ) (hQ : Q * Q.transpose = 1) (a : Tens) {l : OrbLabel} (h : tens l ≠ none) :
    ((shell l).map fun l' => twoCentre v n a (tensD l') * (rotCoef Q l' l : ℂ)).sum = twoCentre v n a ((tensD l).rot Q) := by
  obtain ⟨h1, h2, h3⟩ := legal_tens h
  obtain ⟨r1, r2⟩ := rot_legal Q hQ _ h2
  rw [expand_right v n a _ r1, r2, h3]
  congr 1
  apply List.map_congr_left
  intro l' hl'
  rw [rotCoef_eq Q (shell_legal' h hl') h, mul_comm]

/-- Rotated orbital on the left. -/
theorem shell_left (v : Par) (n : Vec3 ℝ) (Q : Mat3 ℝ) (hQ : Q * Q.transpose = 1) (b : Tens) {l : OrbLabel} (h : tens l ≠ none) :
    ((shell l).map fun l' => (rotCoef Q l l' : ℂ) * twoCentre v n (tensD l') b).sum =
      twoCentre v n ((tensD l).rot Q.transpose) b := by
  obtain ⟨h1, h2, h3⟩ := legal_tens h
  have hQ' : Q.transpose * Q.transpose.transpose = 1 := by rw [Matrix.transpose_transpose]; exact mul_eq_one_comm.1 hQ
  obtain ⟨r1, r2⟩ := rot_legal Q.transpose hQ' _ h2
  rw [expand_left v n _ b r1, r2, h3]
  congr 1
  apply List.map_congr_left
  intro l' hl'
  rw [rotCoef_eq Q h (shell_legal' h hl'), inner_rot]

/-- Columns of the rotation matrix of a shell are orthonormal. -/
theorem shell_orth (Q : Mat3 ℝ) (hQ : Q * Q.transpose = 1) {l m : OrbLabel} (h : tens l ≠ none) (hm : m ∈ shell l) :
    ((shell l).map fun l' => (rotCoef Q l' l : ℂ) * (rotCoef Q l' m : ℂ)).sum = if l = m then 1 else 0 := by
  have hm' := shell_legal' h hm
  have e := shell_right onePar 0 Q hQ ((tensD m).rot Q) h
  have hrr := twoCentre_rot onePar Q hQ 0 (tensD m) (tensD l)
  rw [Matrix.mulVec_zero] at hrr
  rw [hrr, twoCentre_one, tens_inner m l hm' h] at e
  have : ((shell l).map fun l' => (rotCoef Q l' l : ℂ) * (rotCoef Q l' m : ℂ)).sum =
      ((shell l).map fun l' => twoCentre onePar 0 ((tensD m).rot Q) (tensD l') * (rotCoef Q l' l : ℂ)).sum := by
    congr 1
    apply List.map_congr_left
    intro l' hl'
    rw [twoCentre_one, rotCoef_eq Q (shell_legal' h hl') hm']
    have : ((tensD m).rot Q).inner (tensD l') = (tensD l').inner ((tensD m).rot Q) := by
      cases (tensD m).rot Q <;> cases tensD l' <;> simp only [Tens.inner]
      · ring
      · rw [dotProduct_comm]
      · rw [Matrix.trace_mul_comm]
    rw [this, mul_comm]
  rw [this, e]
  by_cases hlm : l = m
  · simp [hlm]
  · rw [if_neg hlm, if_neg (fun h => hlm h.symm)]; simp

/-- Sum over the orbitals of a shell on one atom. -/
theorem sum_shell {n : ℕ} (lab : ℕ → OrbLabel) (P : ℕ → Prop) (L : List OrbLabel) (hL : L.Nodup)
    (h : ∀ l ∈ L, ∃! b, b < n ∧ lab b = l ∧ P b) (G : OrbLabel → ℂ) (F : Fin n → ℂ)
    (h1 : ∀ b : Fin n, P b → lab b ∈ L → F b = G (lab b)) (h0 : ∀ b : Fin n, ¬ (P b ∧ lab b ∈ L) → F b = 0) :
    ∑ b : Fin n, F b = (L.map G).sum := by
  classical
  have e : ∀ b : Fin n, F b = if P b ∧ lab b ∈ L then G (lab b) else 0 := by
    intro b
    split
    · rename_i hc
      exact h1 b hc.1 hc.2
    · rename_i hc
      exact h0 b hc
  rw [Finset.sum_congr rfl fun b _ => e b, ← List.sum_toFinset G hL, ← Finset.sum_filter]
  refine Finset.sum_bij (fun b _ => lab b) ?_ ?_ ?_ ?_
  · intro b hb
    simp only [Finset.mem_filter, Finset.mem_univ, true_and] at hb
    simpa using hb.2
  · intro b hb b' hb' e
    simp only [Finset.mem_filter, Finset.mem_univ, true_and] at hb hb'
    obtain ⟨x, -, hx⟩ := h _ hb.2
    have h1 := hx b ⟨b.2, rfl, hb.1⟩
    have h2 := hx b' ⟨b'.2, e.symm, hb'.1⟩
    exact Fin.ext (h1.trans h2.symm)
  · intro l hl
    have hl' : l ∈ L := by simpa using hl
    obtain ⟨x, ⟨hx, hl2, hP⟩, -⟩ := h l hl'
    exact ⟨⟨x, hx⟩, by simp [hP, hl2, hl'], hl2⟩
  · intro b _
    rfl

theorem skVec_shift (s : PrimCell ℝ ℂ Λ) (R S : Cell) (i j : ℕ) : sitePos s (R + S) j - sitePos s S i = skVec s R i j := by
  funext x
  simp [skVec, sitePos, frac2cartRow, Matrix.mulVec_add, cellVec, Matrix.mulVec, dotProduct, Fin.sum_univ_three, Matrix.vecHead,
    Matrix.vecTail]
  ring

theorem cellMul_add' (A : Matrix (Fin 3) (Fin 3) ℤ) (R S : Cell) : cellMul A (R + S) = cellMul A R + cellMul A S := by
  refine Prod.ext ?_ (Prod.ext ?_ ?_) <;> simp only [cellMul, Prod.fst_add, Prod.snd_add] <;> ring

/-- The matrix of a symmetry operation is invertible. -/
theorem symMat_unit {lm : Λ → OrbLabel} {s : PrimCell ℝ ℂ Λ} {a b c : ℤ} {dmax : ℝ} {Q : Mat3 ℝ} {v : Vec3 ℝ}
    {A : Matrix (Fin 3) (Fin 3) ℤ} {τ : ℕ → Cell} {site σ : ℕ → ℕ} (hS : SpaceSym lm s a b c dmax Q v A τ site σ) :
    (symMat lm s Q site σ).transpose * symMat lm s Q site σ = 1 := by
  classical
  ext i j
  rw [Matrix.mul_apply, Matrix.one_apply]
  simp only [Matrix.transpose_apply]
  have hli := hS.legal i i.2
  have hlj := hS.legal j j.2
  by_cases h : σ (site i) = σ (site j) ∧ orbLab lm s j ∈ shell (orbLab lm s i)
  · obtain ⟨h1, h2⟩ := h
    have hsh := shell_eq h2
    rw [sum_shell (orbLab lm s) (fun a => site a = σ (site i)) _ (shell_nodup _) (hS.fwd i i.2)
      (fun l => (rotCoef Q l (orbLab lm s i) : ℂ) * (rotCoef Q l (orbLab lm s j) : ℂ)) _ (by
        intro a ha hl
        simp only [symMat]
        rw [if_pos ⟨ha, hl⟩, if_pos ⟨ha.trans h1, by rw [hsh]; exact hl⟩]) (by
        intro a hc
        simp only [symMat]
        rw [if_neg hc, zero_mul]), shell_orth Q hS.orth hli h2]
    by_cases hl : orbLab lm s i = orbLab lm s j
    · obtain ⟨a, ⟨ha, hla, hsa⟩, -⟩ := hS.fwd i i.2 _ (shell_self hli)
      obtain ⟨x, -, hx⟩ := hS.bwd a ha (orbLab lm s i) (by rw [hla]; exact shell_self hli)
      have e1 := hx i ⟨i.2, rfl, hsa⟩
      have e2 := hx j ⟨j.2, hl.symm, hsa.trans h1⟩
      rw [if_pos hl, if_pos (Fin.ext (e1.trans e2.symm))]
    · rw [if_neg hl, if_neg (fun h => hl (by rw [h]))]
  · have hij : i ≠ j := by
      rintro rfl
      exact h ⟨rfl, shell_self hli⟩
    rw [if_neg hij]
    apply Finset.sum_eq_zero
    intro a _
    unfold symMat
    by_cases h1 : site a = σ (site i) ∧ orbLab lm s a ∈ shell (orbLab lm s i)
    · by_cases h2 : site a = σ (site j) ∧ orbLab lm s a ∈ shell (orbLab lm s j)
      · exfalso
        apply h
        refine ⟨h1.1.symm.trans h2.1, ?_⟩
        rw [← shell_eq h1.2, shell_eq h2.2]
        exact shell_self hlj
      · rw [if_neg h2, mul_zero]
    · rw [if_neg h1, zero_mul]

open Classical in
/-- A symmetry operation commutes with the Hamiltonian. -/
theorem symMat_comm {lm : Λ → OrbLabel} {par : ℝ → Option Par} {s : PrimCell ℝ ℂ Λ} {a b c : ℤ} {dmax : ℝ} {Q : Mat3 ℝ} {v : Vec3 ℝ}
    {A : Matrix (Fin 3) (Fin 3) ℤ} {τ : ℕ → Cell} {site σ : ℕ → ℕ} (hS : SpaceSym lm s a b c dmax Q v A τ site σ)
    (hhop : ∀ R (i j : ℕ), i < s.numOrb → j < s.numOrb →
      s.hops.get R i j = if SkBond s a b c dmax R i j then some (skHop lm par s R i j) else none) (T : Cell) (p j : Fin s.numOrb) :
    ∑ q : Fin s.numOrb, fullAmp s T p q * symMat lm s Q site σ q j =
      ∑ i : Fin s.numOrb, symMat lm s Q site σ p i * fullAmp s (cellMul A⁻¹ (T - τ j + τ i)) i j := by
  have hAA : A * A⁻¹ = 1 := Matrix.mul_nonsing_inv A hS.unimod
  have hQt : Q.transpose * Q = 1 := mul_eq_one_comm.1 hS.orth
  have hlp := hS.legal p p.2
  have hlj := hS.legal j j.2
  have hinv : ∀ R, cellMul A (cellMul A⁻¹ R) = R := cellMul_inv hAA
  have hamp : ∀ R (i j : Fin s.numOrb), amp s R i j = if SkBond s a b c dmax R i j then skHop lm par s R i j else 0 := by
    intro R i j
    rw [amp, hhop R i j i.2 j.2]
    split <;> rfl
  -- an image of `j`
  obtain ⟨q0, ⟨hq0, hlq0, hsq0⟩, -⟩ := hS.fwd j j.2 _ (shell_self hlj)
  set r := skVec s T p q0 with hr
  have hT : cellMul A (cellMul A⁻¹ (T - τ j)) + τ j = T := by rw [hinv]; abel
  -- bonds on the left
  have hvl : ∀ q : Fin s.numOrb, site q = σ (site j) → skVec s T p q = r := by
    intro q hq
    have h1 := hS.pos j j.2 q q.2 hq (cellMul A⁻¹ (T - τ j))
    have h2 := hS.pos j j.2 q0 hq0 hsq0 (cellMul A⁻¹ (T - τ j))
    rw [hT] at h1 h2
    rw [hr, skVec, skVec, h1, h2]
  have hbl : ∀ q : Fin s.numOrb, site q = σ (site j) → (SkBond s a b c dmax T p q ↔ SkBond s a b c dmax T p q0) := by
    intro q hq
    rw [SkBond, SkBond, hvl q hq]
  -- bonds on the right
  have hAS : ∀ i : Fin s.numOrb, cellMul A (cellMul A⁻¹ (T - τ j + τ i)) = T - τ j + τ i := fun i => hinv _
  have hvr : ∀ i : Fin s.numOrb, site p = σ (site i) → skVec s (cellMul A⁻¹ (T - τ j + τ i)) i j = Q.transpose.mulVec r := by
    intro i hi
    have h1 := hS.pos j j.2 q0 hq0 hsq0 (cellMul A⁻¹ (T - τ j + τ i))
    have h2 := hS.pos i i.2 p p.2 hi 0
    have h0 : cellMul A 0 + τ i = τ i := by
      have : cellMul A 0 = 0 := by simp [cellMul]
      rw [this, zero_add]
    rw [hAS, show T - τ j + τ i + τ j = T + τ i by abel] at h1
    rw [h0] at h2
    have h3 := skVec_shift s T (τ i) p q0
    rw [h1, h2, ← hr] at h3
    rw [← h3, skVec, show Q.mulVec (sitePos s (cellMul A⁻¹ (T - τ j + τ i)) j) + v - (Q.mulVec (sitePos s 0 i) + v) =
      Q.mulVec (sitePos s (cellMul A⁻¹ (T - τ j + τ i)) j - sitePos s 0 i) by rw [Matrix.mulVec_sub]; abel,
      Matrix.mulVec_mulVec, hQt, Matrix.one_mulVec]
  have hbr : ∀ i : Fin s.numOrb, site p = σ (site i) →
      (SkBond s a b c dmax (cellMul A⁻¹ (T - τ j + τ i)) i j ↔ SkBond s a b c dmax T p q0) := by
    intro i hi
    rw [hS.range _ i i.2 j j.2 p p.2 q0 hq0 hi hsq0, hAS, show T - τ j + τ i + τ j - τ i = T by abel]
  have hQn : norm3 (Q.transpose.mulVec r) = norm3 r :=
    norm3_rot Q.transpose (by rw [Matrix.transpose_transpose]; exact hQt) r
  have hdr : Q.mulVec (fun x => Q.transpose.mulVec r x / norm3 r) = fun x => r x / norm3 r := by
    have : (fun x => Q.transpose.mulVec r x / norm3 r) = Q.transpose.mulVec (fun x => r x / norm3 r) := by
      funext x
      simp only [Matrix.mulVec, dotProduct, Fin.sum_univ_three]
      ring
    rw [this, Matrix.mulVec_mulVec, hS.orth, Matrix.one_mulVec]
  -- hopping part
  have hopL : ∑ q : Fin s.numOrb, amp s T p q * symMat lm s Q site σ q j =
      if SkBond s a b c dmax T p q0 then (par (norm3 r)).elim 0 fun w =>
        twoCentre w (fun x => r x / norm3 r) (tensD (orbLab lm s p)) ((tensD (orbLab lm s j)).rot Q) else 0 := by
    rw [sum_shell (orbLab lm s) (fun q => site q = σ (site j)) _ (shell_nodup _) (hS.fwd j j.2)
      (fun l => if SkBond s a b c dmax T p q0 then (par (norm3 r)).elim 0 fun w =>
        twoCentre w (fun x => r x / norm3 r) (tensD (orbLab lm s p)) (tensD l) * (rotCoef Q l (orbLab lm s j) : ℂ) else 0) _ (by
        intro q hq hl
        simp only [symMat]
        rw [if_pos ⟨hq, hl⟩, hamp]
        by_cases hb : SkBond s a b c dmax T p q0
        · rw [if_pos ((hbl q hq).2 hb)]
          simp only [if_pos hb, skHop, hvl q hq]
          cases par (norm3 r) <;> simp
        · rw [if_neg (fun h => hb ((hbl q hq).1 h))]
          simp only [if_neg hb, zero_mul]) (by
        intro q hc
        simp only [symMat]
        rw [if_neg hc, mul_zero])]
    by_cases hb : SkBond s a b c dmax T p q0
    · simp only [if_pos hb]
      cases par (norm3 r) with
      | none => simp
      | some w =>
        simp only [Option.elim_some]
        exact shell_right w _ Q hS.orth _ hlj
    · simp [if_neg hb]
  have hopR : ∑ i : Fin s.numOrb, symMat lm s Q site σ p i * amp s (cellMul A⁻¹ (T - τ j + τ i)) i j =
      if SkBond s a b c dmax T p q0 then (par (norm3 r)).elim 0 fun w =>
        twoCentre w (fun x => r x / norm3 r) (tensD (orbLab lm s p)) ((tensD (orbLab lm s j)).rot Q) else 0 := by
    have hiff : ∀ i : Fin s.numOrb, orbLab lm s p ∈ shell (orbLab lm s i) ↔ orbLab lm s i ∈ shell (orbLab lm s p) := fun i =>
      ⟨fun h => by rw [shell_eq h]; exact shell_self (hS.legal i i.2), fun h => by rw [shell_eq h]; exact shell_self hlp⟩
    rw [sum_shell (orbLab lm s) (fun i => site p = σ (site i)) _ (shell_nodup _) (hS.bwd p p.2)
      (fun l => if SkBond s a b c dmax T p q0 then (par (norm3 r)).elim 0 fun w => (rotCoef Q (orbLab lm s p) l : ℂ) *
        twoCentre w (fun x => Q.transpose.mulVec r x / norm3 r) (tensD l) (tensD (orbLab lm s j)) else 0) _ (by
        intro i hi hl
        simp only [symMat]
        rw [if_pos ⟨hi, (hiff i).2 hl⟩, hamp]
        by_cases hb : SkBond s a b c dmax T p q0
        · rw [if_pos ((hbr i hi).2 hb)]
          simp only [if_pos hb, skHop, hvr i hi, hQn]
          cases par (norm3 r) <;> simp
        · rw [if_neg (fun h => hb ((hbr i hi).1 h))]
          simp only [if_neg hb, mul_zero]) (by
        intro i hc
        simp only [symMat]
        rw [if_neg (fun h => hc ⟨h.1, (hiff i).1 h.2⟩), zero_mul])]
    by_cases hb : SkBond s a b c dmax T p q0
    · simp only [if_pos hb]
      cases par (norm3 r) with
      | none => simp
      | some w =>
        simp only [Option.elim_some]
        rw [shell_left w _ Q hS.orth _ hlp, ← twoCentre_rot w Q hS.orth, rot_comp Q hS.orth, hdr]
    · simp [if_neg hb]
  -- energies
  have engL : ∑ q : Fin s.numOrb, (if T = 0 ∧ (p : ℕ) = q then ((s.orbs[(p : ℕ)]?.elim 0 Orbital.energy : ℝ) : ℂ) else 0) *
      symMat lm s Q site σ q j = if T = 0 then (orbEnergy s p : ℂ) * symMat lm s Q site σ p j else 0 := by
    rw [Finset.sum_eq_single p]
    · by_cases h : T = 0 <;> simp [h, orbEnergy]
    · intro q _ hq
      rw [if_neg (fun h => hq (Fin.ext h.2.symm)), zero_mul]
    · intro h; exact absurd (Finset.mem_univ _) h
  have engR : ∑ i : Fin s.numOrb, symMat lm s Q site σ p i * (if cellMul A⁻¹ (T - τ j + τ i) = 0 ∧ (i : ℕ) = j then
      ((s.orbs[(i : ℕ)]?.elim 0 Orbital.energy : ℝ) : ℂ) else 0) = if T = 0 then (orbEnergy s p : ℂ) * symMat lm s Q site σ p j else 0 := by
    rw [Finset.sum_eq_single j]
    · have h0 : cellMul A⁻¹ (T - τ j + τ j) = 0 ↔ T = 0 := by
        rw [sub_add_cancel]
        constructor
        · intro h
          have := hinv T
          rw [h] at this
          rw [← this]
          simp [cellMul]
        · rintro rfl
          simp [cellMul]
      by_cases h : T = 0
      · rw [if_pos ⟨h0.2 h, rfl⟩, if_pos h, mul_comm]
        unfold symMat
        by_cases hc : site p = σ (site j) ∧ orbLab lm s p ∈ shell (orbLab lm s j)
        · rw [if_pos hc]
          by_cases hz : rotCoef Q (orbLab lm s p) (orbLab lm s j) = 0
          · simp [hz]
          · rw [hS.energy j j.2 p p.2 hc.1 hz]
            rfl
        · rw [if_neg hc, mul_zero, mul_zero]
      · rw [if_neg (fun h' => h (h0.1 h'.1)), if_neg h, mul_zero]
    · intro i _ hi
      rw [if_neg (fun h => hi (Fin.ext h.2)), mul_zero]
    · intro h; exact absurd (Finset.mem_univ _) h
  simp only [fullAmp, add_mul, mul_add, Finset.sum_add_distrib]
  rw [engL, engR, hopL, hopR]

end Verif.Props

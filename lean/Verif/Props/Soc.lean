import Verif.Proof.Soc

/-! # Spin-orbit coupling: C42; angular momentum on atomic orbitals: C78 -/

namespace Verif.Props
open SK Soc

/-- C42: `SOC.eval` returns the matrix elements of `L.S` between the orbitals (as tensors) and spins. -/
theorem C42_soc (i j : OrbLabel) (si sj : SpinLabel) (a b : Tens) (σ τ : Fin 2) (ha : tens i = some a)
    (hb : tens j = some b) (hσ : spinIndex si = some σ) (hτ : spinIndex sj = some τ) :
    Soc.eval i si j sj = .ok (spinOrbit a σ b τ) := eval_eq i j a b ha hb si sj σ τ hσ hτ

/-- C42: `SOCTable2.eval` returns the same matrix elements. -/
theorem C42_table2 (i j : OrbLabel) (si sj : SpinLabel) (a b : Tens) (σ τ : Fin 2) (ha : tens i = some a)
    (hb : tens j = some b) (hσ : spinIndex si = some σ) (hτ : spinIndex sj = some τ) :
    evalTable2 i si j sj = .ok (spinOrbit a σ b τ) := evalTable2_eq i j a b ha hb si sj σ τ hσ hτ

/-- C42: `SOCTable.eval`, whose entries are typed with sixteen digits, returns them up to 3e-16. -/
theorem C42_table (i j : OrbLabel) (si sj : SpinLabel) (a b : Tens) (σ τ : Fin 2) (ha : tens i = some a)
    (hb : tens j = some b) (hσ : spinIndex si = some σ) (hτ : spinIndex sj = some τ) :
    ∃ t, evalTable i si j sj = .ok t ∧ ‖t - spinOrbit a σ b τ‖ ≤ 3.0e-16 :=
  evalTable_near i j a b ha hb si sj σ τ hσ hτ

/-- C42: illegal orbital or spin labels raise `ValueError` in the three classes. -/
theorem C42_errors (i j : OrbLabel) (si sj : SpinLabel)
    (h : tens i = none ∨ tens j = none ∨ spinIndex si = none ∨ spinIndex sj = none) :
    Soc.eval i si j sj = .error .value ∧ evalTable i si j sj = .error .value ∧ evalTable2 i si j sj = .error .value := by
  simp only [Soc.eval, evalTable, evalTable2, check_bad i j si sj h, bind, Except.bind, and_self]

/-- C42: the matrices are Hermitian, exactly and in the three classes; calls with illegal labels fail on both sides. -/
theorem C42_hermitian (i j : OrbLabel) (si sj : SpinLabel) :
    Soc.eval j sj i si = (Soc.eval i si j sj).map star ∧ evalTable j sj i si = (evalTable i si j sj).map star ∧
    evalTable2 j sj i si = (evalTable2 i si j sj).map star := by
  by_cases h : tens i = none ∨ tens j = none ∨ spinIndex si = none ∨ spinIndex sj = none
  · obtain ⟨h1, h2, h3⟩ := C42_errors i j si sj h
    obtain ⟨h4, h5, h6⟩ := C42_errors j i sj si (by tauto)
    rw [h1, h2, h3, h4, h5, h6]
    exact ⟨rfl, rfl, rfl⟩
  · simp only [not_or] at h
    obtain ⟨a, ha⟩ := Option.ne_none_iff_exists'.1 h.1
    obtain ⟨b, hb⟩ := Option.ne_none_iff_exists'.1 h.2.1
    obtain ⟨σ, hσ⟩ := Option.ne_none_iff_exists'.1 h.2.2.1
    obtain ⟨τ, hτ⟩ := Option.ne_none_iff_exists'.1 h.2.2.2
    refine ⟨?_, ?_, ?_⟩
    · rw [eval_eq i j a b ha hb si sj σ τ hσ hτ, eval_eq j i b a hb ha sj si τ σ hτ hσ, spinOrbit_star]
      rfl
    · obtain ⟨h1, h2⟩ := tab_herm i j a b ha hb
      obtain ⟨_, h3⟩ := tab_herm j i b a hb ha
      have h3' : (downUp.get? (j, i)).getD 0 = star ((upDown.get? (i, j)).getD 0) := by rw [h3, star_star]
      simp only [evalTable, check_ok i j a b ha hb si sj σ τ hσ hτ, check_ok j i b a hb ha sj si τ σ hτ hσ, bind,
        Except.bind, pure, Except.pure, Except.map]
      have hneg : ∀ k, ((upUp.get? k).map fun x => -1 * x).getD 0 = -((upUp.get? k).getD 0) := by
        intro k; cases upUp.get? k <;> simp
      cases si <;> cases sj <;> cases hσ <;> cases hτ <;>
        simp only [reduceCtorEq, and_self, and_true, and_false, if_true, if_false, h1, h2, h3', hneg, star_neg]
    · rw [evalTable2_eq i j a b ha hb si sj σ τ hσ hτ, evalTable2_eq j i b a hb ha sj si τ σ hτ hσ, spinOrbit_star]
      rfl

/-- The p labels. -/
def pLab : Fin 3 → OrbLabel
  | 0 => .p .x
  | 1 => .p .y
  | 2 => .p .z

/-- The d labels. -/
def dLab : Fin 5 → OrbLabel
  | 0 => .d .x .y
  | 1 => .d .y .z
  | 2 => .d .z .x
  | 3 => .dx2y2
  | 4 => .dz2

/-- The spin labels. -/
def spinLab : Fin 2 → SpinLabel
  | 0 => .up
  | 1 => .down

theorem pLab_tens (x : Fin 3) : tens (pLab x) = some (pTens x) := by fin_cases x <;> rfl
theorem dLab_tens (x : Fin 5) : tens (dLab x) = some (dTens x) := by fin_cases x <;> rfl
theorem spinLab_index (σ : Fin 2) : spinIndex (spinLab σ) = some σ := by fin_cases σ <;> rfl

/-- C42: in the p shell the eigenvalues are `1/2` (j = 3/2, four states) and `-1` (j = 1/2, two states). -/
theorem C42_spectrum_p (M : Matrix (Fin 3 × Fin 2) (Fin 3 × Fin 2) ℂ)
    (hM : ∀ x y, Soc.eval (pLab x.1) (spinLab x.2) (pLab y.1) (spinLab y.2) = .ok (M x y)) :
    (M - (1 / 2 : ℂ) • 1) * (M - (-1 : ℂ) • 1) = 0 ∧
    Module.finrank ℂ (Module.End.eigenspace (Matrix.toLin' M) (1 / 2)) = 4 ∧
    Module.finrank ℂ (Module.End.eigenspace (Matrix.toLin' M) (-1)) = 2 := by
  have hE : M = shellMat pTens := by
    ext x y
    have h1 := hM x y
    rw [eval_eq _ _ _ _ (pLab_tens _) (pLab_tens _) _ _ _ _ (spinLab_index _) (spinLab_index _), Except.ok.injEq] at h1
    exact h1.symm
  have hp : (M - (1 / 2 : ℂ) • 1) * (M - (-1 : ℂ) • 1) = 0 := by rw [hE]; exact p_poly
  have hp' : (M - (-1 : ℂ) • 1) * (M - (1 / 2 : ℂ) • 1) = 0 := by
    rw [← hp]
    simp only [mul_sub, sub_mul, Matrix.mul_smul, Matrix.smul_mul, mul_one, one_mul, smul_comm (1 / 2 : ℂ) (-1 : ℂ)]
    abel
  have ht : M.trace = 0 := by
    rw [hE]
    simp [Matrix.trace, Fintype.sum_prod_type, Fin.sum_univ_three, shellMat, spinOrbit, pTens, angMom_p]
  have d1 := eigen_dim M (1 / 2) (-1) (by norm_num) hp
  have d2 := eigen_dim M (-1) (1 / 2) (by norm_num) hp'
  rw [ht] at d1 d2
  simp only [Fintype.card_prod, Fintype.card_fin] at d1 d2
  norm_num at d1 d2
  exact ⟨hp, by exact_mod_cast d1, by exact_mod_cast d2⟩

/-- C42: in the d shell the eigenvalues are `1` (j = 5/2, six states) and `-3/2` (j = 3/2, four states). -/
theorem C42_spectrum_d (M : Matrix (Fin 5 × Fin 2) (Fin 5 × Fin 2) ℂ)
    (hM : ∀ x y, Soc.eval (dLab x.1) (spinLab x.2) (dLab y.1) (spinLab y.2) = .ok (M x y)) :
    (M - (1 : ℂ) • 1) * (M - (-(3 / 2) : ℂ) • 1) = 0 ∧
    Module.finrank ℂ (Module.End.eigenspace (Matrix.toLin' M) 1) = 6 ∧
    Module.finrank ℂ (Module.End.eigenspace (Matrix.toLin' M) (-(3 / 2))) = 4 := by
  have hE : M = shellMat dTens := by
    ext x y
    have h1 := hM x y
    rw [eval_eq _ _ _ _ (dLab_tens _) (dLab_tens _) _ _ _ _ (spinLab_index _) (spinLab_index _), Except.ok.injEq] at h1
    exact h1.symm
  have hp : (M - (1 : ℂ) • 1) * (M - (-(3 / 2) : ℂ) • 1) = 0 := by rw [hE]; exact d_poly
  have hp' : (M - (-(3 / 2) : ℂ) • 1) * (M - (1 : ℂ) • 1) = 0 := by
    rw [← hp]
    simp only [mul_sub, sub_mul, Matrix.mul_smul, Matrix.smul_mul, mul_one, one_mul, smul_comm (1 : ℂ) (-(3 / 2) : ℂ)]
    abel
  have ht : M.trace = 0 := by
    rw [hE]
    simp [Matrix.trace, Fintype.sum_prod_type, Fin.sum_univ_five, shellMat, spinOrbit, Fin.sum_univ_three, lx_d, ly_d, lz_d]
  have d1 := eigen_dim M 1 (-(3 / 2)) (by norm_num) hp
  have d2 := eigen_dim M (-(3 / 2)) 1 (by norm_num) hp'
  rw [ht] at d1 d2
  simp only [Fintype.card_prod, Fintype.card_fin] at d1 d2
  norm_num at d1 d2
  exact ⟨hp, by exact_mod_cast d1, by exact_mod_cast d2⟩

/-- The hypothesis of the spectrum theorems holds for the matrix of values. -/
example : ∃ M : Matrix (Fin 5 × Fin 2) (Fin 5 × Fin 2) ℂ,
    ∀ x y, Soc.eval (dLab x.1) (spinLab x.2) (dLab y.1) (spinLab y.2) = .ok (M x y) :=
  ⟨shellMat dTens, fun _ _ => eval_eq _ _ _ _ (dLab_tens _) (dLab_tens _) _ _ _ _ (spinLab_index _) (spinLab_index _)⟩

/-- The s orbital does not couple, `px` and `py` couple by `-i/2` for equal spins up. -/
example : Soc.eval .s .up .s .up = .ok 0 ∧ Soc.eval (.p .x) .up (.p .y) .up = .ok (-(Complex.I / 2)) := by
  constructor
  · rw [C42_soc .s .s .up .up _ _ _ _ rfl rfl rfl rfl]
    simp [spinOrbit, angMom_ss]
  · rw [C42_soc (.p .x) (.p .y) .up .up _ _ _ _ rfl rfl rfl rfl]
    simp [spinOrbit, Fin.sum_univ_three, angMom_p, pauli]
    ring

/-- C78: assigning a coefficient is refused with `ValueError` exactly for `|m| > l`. -/
theorem C78_assign (a : AtOrb) (l m : ℤ) (v : ℂ) :
    (¬ (-l ≤ m ∧ m ≤ l) → AtOrb.setItem a ((l, m), v) = .error .value) ∧
    (-l ≤ m ∧ m ≤ l → ∃ a', AtOrb.setItem a ((l, m), v) = .ok a' ∧ coef a' l m = v ∧
      ∀ l' m', (l', m') ≠ (l, m) → coef a' l' m' = coef a l' m') := by
  constructor
  · intro h
    rw [AtOrb.setItem, if_neg (by rw [legal_iff]; exact h)]
  · intro h
    refine ⟨_, if_pos ((legal_iff l m).2 h), ?_, fun l' m' hne => ?_⟩
    · simp [coef, PyDict.get?_set_self]
    · simp only [coef, PyDict.get?_set_of_ne _ _ hne]

/-- C78: after any sequence of assignments the ladder operators and `lz` act on the coefficients as on `|l,m>`:
`l+ |l,m> = sqrt((l-m)(l+m+1)) |l,m+1>`, `l- |l,m> = sqrt((l+m)(l-m+1)) |l,m-1>`, `lz |l,m> = m |l,m>`. -/
theorem C78_action (kvs : List ((ℤ × ℤ) × ℂ)) (a : AtOrb) (h : AtOrb.assign kvs = .ok a) (l m : ℤ) :
    coef (AtOrb.lPlus a) l m = raised (coef a) l m ∧ coef (AtOrb.lMinus a) l m = lowered (coef a) l m ∧
    coef (AtOrb.lZ a) l m = m * coef a l m :=
  ⟨coef_lPlus a (assign_wf kvs a h) l m, coef_lMinus a (assign_wf kvs a h) l m, coef_lZ a l m⟩

/-- C78: `l+` and `l-` are adjoint to each other and `lz` to itself. -/
theorem C78_adjoint (kvs kvs' : List ((ℤ × ℤ) × ℂ)) (a b : AtOrb) (ha : AtOrb.assign kvs = .ok a)
    (hb : AtOrb.assign kvs' = .ok b) :
    AtOrb.mtxel a b .plus = (AtOrb.mtxel b a .minus).map star ∧ AtOrb.mtxel a b .z = (AtOrb.mtxel b a .z).map star := by
  have wa := assign_wf kvs a ha
  have wb := assign_wf kvs' b hb
  constructor
  · have h1 := mtxel_plus a b wa wb
    have h2 := mtxel_minus b a wb wa
    rw [adjoint a b wa wb _ _ h1 h2] at h1
    rw [h1, h2]
    rfl
  · rw [mtxel_z a b wa, mtxel_z b a wb]
    simp only [Except.map, Except.ok.injEq]
    rw [sum_items a wa.1 (fun l m v => star v * (m * coef b l m)) (by simp)
        ((PyDict.keys a).toFinset ∪ (PyDict.keys b).toFinset) (by simp +contextual),
      sum_items b wb.1 (fun l m v => star v * (m * coef a l m)) (by simp)
        ((PyDict.keys a).toFinset ∪ (PyDict.keys b).toFinset) (by simp +contextual), star_sum]
    refine Finset.sum_congr rfl fun k _ => ?_
    simp only [star_mul', star_star, star_intCast]
    ring

/-- C78: the commutation relation `[l+, l-] = 2 lz` on every orbital. -/
theorem C78_commutator (kvs : List ((ℤ × ℤ) × ℂ)) (a : AtOrb) (h : AtOrb.assign kvs = .ok a) (l m : ℤ) :
    coef (AtOrb.lPlus (AtOrb.lMinus a)) l m - coef (AtOrb.lMinus (AtOrb.lPlus a)) l m = 2 * coef (AtOrb.lZ a) l m := by
  have wa := assign_wf kvs a h
  rw [coef_lPlus _ (minus_wf a), coef_lMinus _ (plus_wf a), coef_lZ]
  simp only [raised, lowered, coef_lPlus a wa, coef_lMinus a wa]
  have hsq : ∀ x : ℝ, 0 ≤ x → ((Real.sqrt x : ℝ) : ℂ) * ((Real.sqrt x : ℝ) : ℂ) = (x : ℂ) := by
    intro x hx
    rw [← Complex.ofReal_mul, Real.mul_self_sqrt hx]
  by_cases hm : -l ≤ m ∧ m ≤ l
  · have hl : (0 : ℝ) ≤ (l : ℝ) + m := by have : 0 ≤ l + m := by omega
                                          exact_mod_cast this
    have hr : (0 : ℝ) ≤ (l : ℝ) - m := by have : 0 ≤ l - m := by omega
                                          exact_mod_cast this
    have e1 := hsq (((l : ℝ) + m) * (l - m + 1)) (by positivity)
    have e2 := hsq (((l : ℝ) - m) * (l + m + 1)) (by positivity)
    push_cast at e1 e2
    have c1 : ((l : ℝ) - ((m - 1 : ℤ) : ℝ)) * (l + ((m - 1 : ℤ) : ℝ) + 1) = ((l : ℝ) + m) * (l - m + 1) := by
      push_cast; ring
    have c2 : ((l : ℝ) + ((m + 1 : ℤ) : ℝ)) * (l - ((m + 1 : ℤ) : ℝ) + 1) = ((l : ℝ) - m) * (l + m + 1) := by
      push_cast; ring
    rw [c1, c2, sub_add_cancel, add_sub_cancel_right]
    by_cases h1 : -l < m <;> by_cases h2 : m < l
    · rw [if_pos (by omega), if_pos (by omega), if_pos (by omega), if_pos (by omega)]
      linear_combination coef a l m * e1 - coef a l m * e2
    · have hml : m = l := by omega
      subst hml
      rw [if_pos (by omega), if_pos (by omega), if_neg (by omega)]
      linear_combination coef a m m * e1
    · have hml : m = -l := by omega
      subst hml
      rw [if_neg (by omega), if_pos (by omega), if_pos (by omega)]
      push_cast at e2 ⊢
      linear_combination -coef a l (-l) * e2
    · have h0 : l = 0 ∧ m = 0 := by omega
      obtain ⟨rfl, rfl⟩ := h0
      simp
  · rw [if_neg (by omega), if_neg (by omega), coef_illegal a wa l m hm]
    simp

/-- C78: the square of the angular momentum, `l- l+ + lz lz + lz`, is `l(l+1)` on every orbital. -/
theorem C78_casimir (kvs : List ((ℤ × ℤ) × ℂ)) (a : AtOrb) (h : AtOrb.assign kvs = .ok a) (l m : ℤ) :
    coef (AtOrb.lMinus (AtOrb.lPlus a)) l m + coef (AtOrb.lZ (AtOrb.lZ a)) l m + coef (AtOrb.lZ a) l m =
      l * (l + 1) * coef a l m := by
  have wa := assign_wf kvs a h
  rw [coef_lMinus _ (plus_wf a), coef_lZ, coef_lZ]
  simp only [lowered, coef_lPlus a wa, raised]
  by_cases hm : -l ≤ m ∧ m ≤ l
  · by_cases h2 : m < l
    · have hl : (0 : ℝ) ≤ (l : ℝ) + m := by have : 0 ≤ l + m := by omega
                                            exact_mod_cast this
      have hr : (0 : ℝ) ≤ (l : ℝ) - m := by have : 0 ≤ l - m := by omega
                                            exact_mod_cast this
      have c2 : ((l : ℝ) + ((m + 1 : ℤ) : ℝ)) * (l - ((m + 1 : ℤ) : ℝ) + 1) = ((l : ℝ) - m) * (l + m + 1) := by
        push_cast; ring
      have e2 : ((Real.sqrt (((l : ℝ) - m) * (l + m + 1)) : ℝ) : ℂ) * ((Real.sqrt (((l : ℝ) - m) * (l + m + 1)) : ℝ) : ℂ)
          = (((((l : ℝ) - m) * (l + m + 1) : ℝ)) : ℂ) := by
        rw [← Complex.ofReal_mul, Real.mul_self_sqrt (by positivity)]
      push_cast at e2
      rw [if_pos (by omega), if_pos (by omega), c2, add_sub_cancel_right]
      linear_combination coef a l m * e2
    · have hml : m = l := by omega
      subst hml
      rw [if_neg (by omega)]
      ring
  · rw [if_neg (by omega), coef_illegal a wa l m hm]
    ring

/-- An orbital of the f shell. -/
example : ∃ a, AtOrb.assign [((3, 1), 2), ((3, -3), Complex.I)] = .ok a ∧ coef a 3 1 = 2 ∧
    AtOrb.assign [((3, 1), 2), ((3, 4), 1)] = .error .value := by
  refine ⟨_, rfl, ?_, rfl⟩
  simp [coef, PyDict.set, PyDict.get?]

end Verif.Props

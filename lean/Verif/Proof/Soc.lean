import Verif.Spec.Soc
import Verif.Proof.SlaterKoster
import Mathlib.LinearAlgebra.Trace
import Mathlib.LinearAlgebra.Eigenspace.Basic

/-! # Proofs about spin-orbit coupling -/

namespace Verif.Soc
open SK OrbLabel

theorem c_sq : c * c = 1 / 2 := by
  rw [c, ← Complex.ofReal_mul, Real.mul_self_sqrt (by norm_num)]; norm_num

theorem c_star : (starRingEnd ℂ) c = c := Complex.conj_ofReal _

theorem sqrt2_eq : ((Real.sqrt 2 : ℝ) : ℂ) = 2 * c := by
  rw [c, show (2 : ℂ) = ((2 : ℝ) : ℂ) by norm_num, ← Complex.ofReal_mul]
  congr 1
  rw [show (2 : ℝ) * Real.sqrt 0.5 = Real.sqrt (2 ^ 2) * Real.sqrt 0.5 by rw [Real.sqrt_sq (by norm_num)],
    ← Real.sqrt_mul (by norm_num)]
  norm_num

theorem sqrt6_eq : ((Real.sqrt 6 : ℝ) : ℂ) = 2 * c * (Real.sqrt 3 : ℝ) := by
  rw [← sqrt2_eq, ← Complex.ofReal_mul, ← Real.sqrt_mul (by norm_num)]
  norm_num

theorem sqrt4_eq : ((Real.sqrt 4 : ℝ) : ℂ) = 2 := by
  rw [show (4 : ℝ) = 2 ^ 2 by norm_num, Real.sqrt_sq (by norm_num)]; norm_num

theorem sqrt3_sq : ((Real.sqrt 3 : ℝ) : ℂ) * ((Real.sqrt 3 : ℝ) : ℂ) = 3 := by
  rw [← Complex.ofReal_mul, Real.mul_self_sqrt (by norm_num)]; norm_num

/-- The orbital of a label. -/
noncomputable def orb (i : OrbLabel) : AtOrb := basis i

theorem assign_basis (i : OrbLabel) : AtOrb.assign (basis i) = .ok (basis i) := by
  rcases i with _ | a | ⟨a, b⟩ | _ | _ | _
  · rfl
  · cases a <;> rfl
  · cases a <;> cases b <;> rfl
  all_goals rfl

theorem check_ok (i j : OrbLabel) (a b : Tens) (ha : tens i = some a) (hb : tens j = some b) (si sj : SpinLabel)
    (σ τ : Fin 2) (hσ : spinIndex si = some σ) (hτ : spinIndex sj = some τ) : check i j si sj = .ok () := by
  have h1 : labelOk i = true := by
    rcases i with _ | x | ⟨x, y⟩ | _ | _ | _ <;> first | rfl | (cases x <;> cases y <;> first | rfl | simp [tens] at ha) |
      simp [tens] at ha
  have h2 : labelOk j = true := by
    rcases j with _ | x | ⟨x, y⟩ | _ | _ | _ <;> first | rfl | (cases x <;> cases y <;> first | rfl | simp [tens] at hb) |
      simp [tens] at hb
  have h3 : spinOk si = true := by cases si <;> first | rfl | simp [spinIndex] at hσ
  have h4 : spinOk sj = true := by cases sj <;> first | rfl | simp [spinIndex] at hτ
  simp [check, h1, h2, h3, h4]

/-- Case analysis on legal labels. -/
theorem legal_cases {P : OrbLabel → Tens → Prop} (h0 : P .s (.s 1)) (h1 : P (.p .x) (.p ![1, 0, 0]))
    (h2 : P (.p .y) (.p ![0, 1, 0])) (h3 : P (.p .z) (.p ![0, 0, 1]))
    (h4 : P (.d .x .y) (.d !![0, Real.sqrt 3 / 2, 0; Real.sqrt 3 / 2, 0, 0; 0, 0, 0]))
    (h5 : P (.d .y .z) (.d !![0, 0, 0; 0, 0, Real.sqrt 3 / 2; 0, Real.sqrt 3 / 2, 0]))
    (h6 : P (.d .z .x) (.d !![0, 0, Real.sqrt 3 / 2; 0, 0, 0; Real.sqrt 3 / 2, 0, 0]))
    (h7 : P .dx2y2 (.d !![Real.sqrt 3 / 2, 0, 0; 0, -(Real.sqrt 3 / 2), 0; 0, 0, 0]))
    (h8 : P .dz2 (.d !![-1 / 2, 0, 0; 0, -1 / 2, 0; 0, 0, 1]))
    (i : OrbLabel) (a : Tens) (ha : tens i = some a) : P i a := by
  rcases i with _ | x | ⟨x, y⟩ | _ | _ | _
  · cases ha; exact h0
  · cases x <;> cases ha <;> assumption
  · cases x <;> cases y <;> first | (cases ha; assumption) | cases ha
  · cases ha; exact h7
  · cases ha; exact h8
  · cases ha


/-- Elements of the p shell. -/
theorem angMom_p (a b : Vec3 ℝ) : angMom 0 (.p a) (.p b) = Complex.I * ((a 2 * b 1 - a 1 * b 2 : ℝ) : ℂ) ∧
    angMom 1 (.p a) (.p b) = Complex.I * ((a 0 * b 2 - a 2 * b 0 : ℝ) : ℂ) ∧
    angMom 2 (.p a) (.p b) = Complex.I * ((a 1 * b 0 - a 0 * b 1 : ℝ) : ℂ) := by
  refine ⟨?_, ?_, ?_⟩ <;> simp only [angMom, turn, Tens.inner] <;> congr 2 <;>
    simp [crossMat, dotProduct, Matrix.mulVec, Fin.sum_univ_three] <;> ring

/-- Elements of the d shell. -/
theorem angMom_d (a1 a2 a3 a4 a5 a6 a7 a8 a9 b1 b2 b3 b4 b5 b6 b7 b8 b9 : ℝ) :
    angMom 0 (.d !![a1, a2, a3; a4, a5, a6; a7, a8, a9]) (.d !![b1, b2, b3; b4, b5, b6; b7, b8, b9]) =
      Complex.I * ((2 / 3 * (a2 * -b7 + a3 * b4 + a4 * -b3 + a5 * (-b8 - b6) + a6 * (b5 - b9) + a7 * b2 + a8 * (-b9 + b5)
        + a9 * (b6 + b8)) : ℝ) : ℂ) ∧
    angMom 1 (.d !![a1, a2, a3; a4, a5, a6; a7, a8, a9]) (.d !![b1, b2, b3; b4, b5, b6; b7, b8, b9]) =
      Complex.I * ((2 / 3 * (a1 * (b7 + b3) + a2 * b6 + a3 * (-b1 + b9) + a4 * b8 + a6 * -b2 + a7 * (b9 - b1) + a8 * -b4
        + a9 * (-b3 - b7)) : ℝ) : ℂ) ∧
    angMom 2 (.d !![a1, a2, a3; a4, a5, a6; a7, a8, a9]) (.d !![b1, b2, b3; b4, b5, b6; b7, b8, b9]) =
      Complex.I * ((2 / 3 * (a1 * (-b4 - b2) + a2 * (b1 - b5) + a3 * -b8 + a4 * (-b5 + b1) + a5 * (b2 + b4) + a6 * b7
        + a7 * -b6 + a8 * b3) : ℝ) : ℂ) := by
  refine ⟨?_, ?_, ?_⟩ <;> simp only [angMom, turn, Tens.inner] <;> congr 2 <;>
    simp [crossMat, Matrix.trace_fin_three, Matrix.mul_apply, Fin.sum_univ_three] <;> ring

/-- What an orbital satisfies after any sequence of assignments: unique and legal keys. -/
def Wf (a : AtOrb) : Prop := PyDict.WF a ∧ ∀ kv ∈ a, AtOrb.legal kv.1 = true

theorem legal_iff (l m : ℤ) : AtOrb.legal (l, m) = true ↔ -l ≤ m ∧ m ≤ l := by
  simp [AtOrb.legal]

theorem assign_wf (kvs : List ((ℤ × ℤ) × ℂ)) (a : AtOrb) (h : AtOrb.assign kvs = .ok a) : Wf a := by
  have key : ∀ (kvs : List ((ℤ × ℤ) × ℂ)) (a0 a : AtOrb), Wf a0 → kvs.foldlM AtOrb.setItem a0 = .ok a → Wf a := by
    intro kvs
    induction kvs with
    | nil => intro a0 a h0 h; simp only [List.foldlM, pure, Except.pure, Except.ok.injEq] at h; exact h ▸ h0
    | cons kv kvs ih =>
      intro a0 a h0 h
      simp only [List.foldlM, bind, Except.bind, AtOrb.setItem] at h
      by_cases hl : AtOrb.legal kv.1 = true
      · simp only [hl, if_true] at h
        refine ih _ _ ⟨PyDict.WF_set h0.1 _ _, ?_⟩ h
        intro x hx
        have hx' := PyDict.mem_keys_of_mem (k := x.1) (v := x.2) hx
        rw [PyDict.mem_keys_set] at hx'
        rcases hx' with hx' | hx'
        · rw [hx']; exact hl
        · obtain ⟨y, hy, hy'⟩ := List.mem_map.1 hx'
          rw [← hy']; exact h0.2 y hy
      · simp only [hl] at h
        cases h
  exact key kvs [] a ⟨PyDict.WF_nil, by simp⟩ h

theorem get?_of_illegal (a : AtOrb) (h : Wf a) (k : ℤ × ℤ) (hk : AtOrb.legal k = false) : PyDict.get? a k = none := by
  cases hg : PyDict.get? a k with
  | none => rfl
  | some v => have := h.2 _ (PyDict.mem_of_get? hg); rw [hk] at this; cases this

theorem coef_illegal (a : AtOrb) (h : Wf a) (l m : ℤ) (hk : ¬ (-l ≤ m ∧ m ≤ l)) : coef a l m = 0 := by
  rw [coef, get?_of_illegal a h _ (by rw [← Bool.not_eq_true, legal_iff]; exact hk)]; rfl

theorem get?_plus (a : AtOrb) (hw : PyDict.WF a) (acc : AtOrb) (l m : ℤ) :
    PyDict.get? (a.foldl AtOrb.plusStep acc) (l, m) =
      if AtOrb.legal (l, m) then
        match PyDict.get? a (l, m - 1) with
        | some v => some (v * (Real.sqrt (((l - (m - 1)) * (l + (m - 1) + 1) : ℤ) : ℝ) : ℂ))
        | none => PyDict.get? acc (l, m)
      else PyDict.get? acc (l, m) := by
  induction a generalizing acc with
  | nil => simp
  | cons kv a ih =>
    obtain ⟨⟨l', m'⟩, v⟩ := kv
    simp only [PyDict.WF, PyDict.keys_cons, List.nodup_cons] at hw
    rw [List.foldl_cons, ih hw.2]
    by_cases hl : AtOrb.legal (l, m) = true
    · simp only [hl, if_true, PyDict.get?_cons]
      by_cases hk : (l', m') = (l, m - 1)
      · obtain ⟨rfl, rfl⟩ := Prod.mk.inj hk
        have hno : PyDict.get? a (l', m - 1) = none := (PyDict.get?_eq_none_iff _ _).2 hw.1
        simp only [hno, if_true, AtOrb.plusStep, sub_add_cancel, hl, PyDict.get?_set_self]
      · simp only [hk, if_false]
        cases PyDict.get? a (l, m - 1) with
        | some w => rfl
        | none =>
          simp only [AtOrb.plusStep]
          split_ifs
          · rw [PyDict.get?_set_of_ne]
            intro h
            obtain ⟨h1, h2⟩ := Prod.mk.inj h
            exact hk (by rw [Prod.mk.injEq]; constructor <;> omega)
          · rfl
    · rw [if_neg hl, if_neg hl]
      simp only [AtOrb.plusStep]
      split_ifs with h1
      · rw [PyDict.get?_set_of_ne]
        intro h
        rw [h] at hl
        exact hl h1
      · rfl

theorem get?_minus (a : AtOrb) (hw : PyDict.WF a) (acc : AtOrb) (l m : ℤ) :
    PyDict.get? (a.foldl AtOrb.minusStep acc) (l, m) =
      if AtOrb.legal (l, m) then
        match PyDict.get? a (l, m + 1) with
        | some v => some (v * (Real.sqrt (((l + (m + 1)) * (l - (m + 1) + 1) : ℤ) : ℝ) : ℂ))
        | none => PyDict.get? acc (l, m)
      else PyDict.get? acc (l, m) := by
  induction a generalizing acc with
  | nil => simp
  | cons kv a ih =>
    obtain ⟨⟨l', m'⟩, v⟩ := kv
    simp only [PyDict.WF, PyDict.keys_cons, List.nodup_cons] at hw
    rw [List.foldl_cons, ih hw.2]
    by_cases hl : AtOrb.legal (l, m) = true
    · simp only [hl, if_true, PyDict.get?_cons]
      by_cases hk : (l', m') = (l, m + 1)
      · obtain ⟨rfl, rfl⟩ := Prod.mk.inj hk
        have hno : PyDict.get? a (l', m + 1) = none := (PyDict.get?_eq_none_iff _ _).2 hw.1
        simp only [hno, if_true, AtOrb.minusStep, add_sub_cancel_right, hl, PyDict.get?_set_self]
      · simp only [hk, if_false]
        cases PyDict.get? a (l, m + 1) with
        | some w => rfl
        | none =>
          simp only [AtOrb.minusStep]
          split_ifs
          · rw [PyDict.get?_set_of_ne]
            intro h
            obtain ⟨h1, h2⟩ := Prod.mk.inj h
            exact hk (by rw [Prod.mk.injEq]; constructor <;> omega)
          · rfl
    · rw [if_neg hl, if_neg hl]
      simp only [AtOrb.minusStep]
      split_ifs with h1
      · rw [PyDict.get?_set_of_ne]
        intro h
        rw [h] at hl
        exact hl h1
      · rfl

theorem coef_lPlus (a : AtOrb) (h : Wf a) (l m : ℤ) : coef (AtOrb.lPlus a) l m = raised (coef a) l m := by
  rw [coef, AtOrb.lPlus, get?_plus a h.1, raised]
  by_cases h1 : -l ≤ m ∧ m ≤ l
  · rw [if_pos ((legal_iff l m).2 h1)]
    by_cases h2 : -l < m
    · rw [if_pos ⟨h2, h1.2⟩, coef]
      cases hg : PyDict.get? a (l, m - 1) with
      | none => simp
      | some v =>
        simp only [Option.getD_some]
        rw [mul_comm]
        congr 3
        push_cast; ring
    · rw [if_neg (by tauto), get?_of_illegal a h]
      · rfl
      · rw [← Bool.not_eq_true, legal_iff]; omega
  · rw [if_neg (by rw [legal_iff]; exact h1), if_neg (by omega)]
    rfl

theorem coef_lMinus (a : AtOrb) (h : Wf a) (l m : ℤ) : coef (AtOrb.lMinus a) l m = lowered (coef a) l m := by
  rw [coef, AtOrb.lMinus, get?_minus a h.1, lowered]
  by_cases h1 : -l ≤ m ∧ m ≤ l
  · rw [if_pos ((legal_iff l m).2 h1)]
    by_cases h2 : m < l
    · rw [if_pos ⟨h1.1, h2⟩, coef]
      cases hg : PyDict.get? a (l, m + 1) with
      | none => simp
      | some v =>
        simp only [Option.getD_some]
        rw [mul_comm]
        congr 3
        push_cast; ring
    · rw [if_neg (by tauto), get?_of_illegal a h]
      · rfl
      · rw [← Bool.not_eq_true, legal_iff]; omega
  · rw [if_neg (by rw [legal_iff]; exact h1), if_neg (by omega)]
    rfl

theorem coef_lZ (a : AtOrb) (l m : ℤ) : coef (AtOrb.lZ a) l m = m * coef a l m := by
  rw [coef, AtOrb.lZ, coef]
  induction a with
  | nil => simp
  | cons kv a ih =>
    simp only [List.map_cons, PyDict.get?_cons]
    by_cases hk : kv.1 = (l, m)
    · simp only [hk, if_true, Option.getD_some]; ring
    · simp only [hk, if_false]; exact ih

theorem plus_wf (a : AtOrb) : Wf (AtOrb.lPlus a) := by
  have key : ∀ (a acc : AtOrb), Wf acc → Wf (a.foldl AtOrb.plusStep acc) := by
    intro a
    induction a with
    | nil => intro acc h; exact h
    | cons kv a ih =>
      intro acc h
      refine ih _ ?_
      simp only [AtOrb.plusStep]
      split_ifs with hl
      · refine ⟨PyDict.WF_set h.1 _ _, ?_⟩
        intro x hx
        have hx' := PyDict.mem_keys_of_mem (k := x.1) (v := x.2) hx
        rw [PyDict.mem_keys_set] at hx'
        rcases hx' with hx' | hx'
        · rw [hx']; exact hl
        · obtain ⟨y, hy, hy'⟩ := List.mem_map.1 hx'
          rw [← hy']; exact h.2 y hy
      · exact h
  exact key a [] ⟨PyDict.WF_nil, by simp⟩

theorem minus_wf (a : AtOrb) : Wf (AtOrb.lMinus a) := by
  have key : ∀ (a acc : AtOrb), Wf acc → Wf (a.foldl AtOrb.minusStep acc) := by
    intro a
    induction a with
    | nil => intro acc h; exact h
    | cons kv a ih =>
      intro acc h
      refine ih _ ?_
      simp only [AtOrb.minusStep]
      split_ifs with hl
      · refine ⟨PyDict.WF_set h.1 _ _, ?_⟩
        intro x hx
        have hx' := PyDict.mem_keys_of_mem (k := x.1) (v := x.2) hx
        rw [PyDict.mem_keys_set] at hx'
        rcases hx' with hx' | hx'
        · rw [hx']; exact hl
        · obtain ⟨y, hy, hy'⟩ := List.mem_map.1 hx'
          rw [← hy']; exact h.2 y hy
      · exact h
  exact key a [] ⟨PyDict.WF_nil, by simp⟩

theorem lZ_wf (a : AtOrb) (h : Wf a) : Wf (AtOrb.lZ a) := by
  refine ⟨?_, ?_⟩
  · have : PyDict.keys (AtOrb.lZ a) = PyDict.keys a := by simp [PyDict.keys, AtOrb.lZ, Function.comp_def]
    rw [PyDict.WF, this]; exact h.1
  · intro x hx
    obtain ⟨y, hy, rfl⟩ := List.mem_map.1 hx
    exact h.2 y hy

theorem product_eq (bra ket : AtOrb) (h : Wf bra) :
    AtOrb.product bra ket = .ok ((bra.map fun kv => star kv.2 * coef ket kv.1.1 kv.1.2).sum) := by
  have key : ∀ (bra : AtOrb) (z : ℂ), (∀ kv ∈ bra, AtOrb.legal kv.1 = true) →
      bra.foldlM (fun acc kv => (AtOrb.getItem ket kv.1).map fun c => acc + star kv.2 * c) z =
        .ok (z + (bra.map fun kv => star kv.2 * coef ket kv.1.1 kv.1.2).sum) := by
    intro bra
    induction bra with
    | nil => intro z _; simp [pure, Except.pure]
    | cons kv bra ih =>
      intro z hb
      simp only [List.foldlM, bind, Except.bind, Except.map, AtOrb.getItem, hb kv (by simp), if_true]
      have := ih (z + star kv.2 * (PyDict.get? ket kv.1).getD 0) (fun x hx => hb x (by simp [hx]))
      simp only [AtOrb.getItem, Except.map] at this
      rw [this]
      simp only [List.map_cons, List.sum_cons, coef, add_assoc]
  rw [AtOrb.product, key bra 0 h.2, zero_add]

theorem mtxel_plus (a b : AtOrb) (ha : Wf a) (hb : Wf b) : AtOrb.mtxel a b .plus =
    .ok ((a.map fun kv => star kv.2 * raised (coef b) kv.1.1 kv.1.2).sum) := by
  simp only [AtOrb.mtxel, product_eq a _ ha, coef_lPlus b hb]

theorem mtxel_minus (a b : AtOrb) (ha : Wf a) (hb : Wf b) : AtOrb.mtxel a b .minus =
    .ok ((a.map fun kv => star kv.2 * lowered (coef b) kv.1.1 kv.1.2).sum) := by
  simp only [AtOrb.mtxel, product_eq a _ ha, coef_lMinus b hb]

theorem mtxel_z (a b : AtOrb) (ha : Wf a) : AtOrb.mtxel a b .z =
    .ok ((a.map fun kv => star kv.2 * (kv.1.2 * coef b kv.1.1 kv.1.2)).sum) := by
  simp only [AtOrb.mtxel, product_eq a _ ha, coef_lZ b]

theorem basis_wf (i : OrbLabel) : Wf (basis i) := assign_wf _ _ (assign_basis i)

theorem raised_eq (f : ℤ → ℤ → ℂ) (l m : ℤ) : raised f l m =
  if -l < m ∧ m ≤ l then (Real.sqrt (((l + m) * (l - m + 1) : ℤ) : ℝ) : ℂ) * f l (m - 1) else 0 := by
  rw [raised]; push_cast; rfl

theorem lowered_eq (f : ℤ → ℤ → ℂ) (l m : ℤ) : lowered f l m =
  if -l ≤ m ∧ m < l then (Real.sqrt (((l - m) * (l + m + 1) : ℤ) : ℝ) : ℂ) * f l (m + 1) else 0 := by
  rw [lowered]; push_cast; rfl

/-- The three matrix elements of a pair of orbitals. -/
def MtxOk (i : OrbLabel) (a : Tens) (j : OrbLabel) (b : Tens) : Prop :=
  ((basis i).map fun kv => star kv.2 * (kv.1.2 * coef (basis j) kv.1.1 kv.1.2)).sum = angMom 2 a b ∧
  ((basis i).map fun kv => star kv.2 * (if -kv.1.1 ≤ kv.1.2 ∧ kv.1.2 < kv.1.1 then
    (Real.sqrt (((kv.1.1 - kv.1.2) * (kv.1.1 + kv.1.2 + 1) : ℤ) : ℝ) : ℂ) * coef (basis j) kv.1.1 (kv.1.2 + 1)
      else 0)).sum = angMom 0 a b - Complex.I * angMom 1 a b ∧
  ((basis i).map fun kv => star kv.2 * (if -kv.1.1 < kv.1.2 ∧ kv.1.2 ≤ kv.1.1 then
    (Real.sqrt (((kv.1.1 + kv.1.2) * (kv.1.1 - kv.1.2 + 1) : ℤ) : ℝ) : ℂ) * coef (basis j) kv.1.1 (kv.1.2 - 1)
      else 0)).sum = angMom 0 a b + Complex.I * angMom 1 a b

theorem angMom_ss (k : Fin 3) (u u' : ℝ) : angMom k (.s u) (.s u') = 0 := by simp [angMom, turn, Tens.inner]
theorem angMom_sp (k : Fin 3) (u : ℝ) (a : Vec3 ℝ) : angMom k (.s u) (.p a) = 0 := by simp [angMom, turn, Tens.inner]
theorem angMom_sd (k : Fin 3) (u : ℝ) (A : Mat3 ℝ) : angMom k (.s u) (.d A) = 0 := by simp [angMom, turn, Tens.inner]
theorem angMom_ps (k : Fin 3) (u : ℝ) (a : Vec3 ℝ) : angMom k (.p a) (.s u) = 0 := by simp [angMom, turn, Tens.inner]
theorem angMom_pd (k : Fin 3) (a : Vec3 ℝ) (A : Mat3 ℝ) : angMom k (.p a) (.d A) = 0 := by simp [angMom, turn, Tens.inner]
theorem angMom_ds (k : Fin 3) (u : ℝ) (A : Mat3 ℝ) : angMom k (.d A) (.s u) = 0 := by simp [angMom, turn, Tens.inner]
theorem angMom_dp (k : Fin 3) (a : Vec3 ℝ) (A : Mat3 ℝ) : angMom k (.d A) (.p a) = 0 := by simp [angMom, turn, Tens.inner]

set_option maxHeartbeats 4000000 in
theorem mtxel_ok (i j : OrbLabel) (a b : Tens) (ha : tens i = some a) (hb : tens j = some b) : MtxOk i a j b := by
  have hI := Complex.I_mul_I
  have hc := c_sq
  have hs := sqrt3_sq
  refine legal_cases (P := fun i a => ∀ (j : OrbLabel) (b : Tens), tens j = some b → MtxOk i a j b)
     ?_ ?_ ?_ ?_ ?_ ?_ ?_ ?_ ?_ i a ha j b hb
  all_goals
    refine legal_cases ?_ ?_ ?_ ?_ ?_ ?_ ?_ ?_ ?_
  all_goals
    simp [MtxOk, basis, coef, PyDict.get?, angMom_p, angMom_d, angMom_ss, angMom_sp, angMom_sd, angMom_ps, angMom_pd, angMom_ds, angMom_dp, c_star, ci]
  all_goals norm_num [sqrt2_eq, sqrt6_eq, sqrt4_eq]
  all_goals clear ha hb i j a b
  all_goals grind

theorem eval_eq (i j : OrbLabel) (a b : Tens) (ha : tens i = some a) (hb : tens j = some b) (si sj : SpinLabel)
    (σ τ : Fin 2) (hσ : spinIndex si = some σ) (hτ : spinIndex sj = some τ) :
    eval i si j sj = .ok (spinOrbit a σ b τ) := by
  obtain ⟨hz, hm, hp⟩ := mtxel_ok i j a b ha hb
  have e1 := mtxel_z (basis i) (basis j) (basis_wf i)
  have e2 := mtxel_minus (basis i) (basis j) (basis_wf i) (basis_wf j)
  have e3 := mtxel_plus (basis i) (basis j) (basis_wf i) (basis_wf j)
  simp only [raised_eq, lowered_eq] at e2 e3
  rw [hz] at e1
  rw [hm] at e2
  rw [hp] at e3
  simp only [eval, check_ok i j a b ha hb si sj σ τ hσ hτ, assign_basis, bind, Except.bind]
  cases si <;> cases sj <;> cases hσ <;> cases hτ <;>
    simp only [evalSoc, e1, e2, e3, Except.map, spinOrbit, Fin.sum_univ_three, reduceCtorEq, and_self, and_true, true_and,
      and_false, false_and, if_true, if_false, Except.ok.injEq] <;> simp [pauli] <;> ring

theorem data_eq : data = data1 ++ data1.map (fun kv => ((kv.1.2, kv.1.1), -kv.2)) := rfl

/-- The matrix of a pair of orbitals in the second table. -/
def DataOk (i : OrbLabel) (a : Tens) (j : OrbLabel) (b : Tens) : Prop :=
  (data.get? (i, j)).getD 0 = angMom 0 a b • sx + angMom 1 a b • sy + angMom 2 a b • sz

set_option maxHeartbeats 4000000 in
theorem data_ok (i j : OrbLabel) (a b : Tens) (ha : tens i = some a) (hb : tens j = some b) : DataOk i a j b := by
  have hs := sqrt3_sq
  refine legal_cases (P := fun i a => ∀ (j : OrbLabel) (b : Tens), tens j = some b → DataOk i a j b)
     ?_ ?_ ?_ ?_ ?_ ?_ ?_ ?_ ?_ i a ha j b hb
  all_goals
    refine legal_cases ?_ ?_ ?_ ?_ ?_ ?_ ?_ ?_ ?_
  all_goals
    simp [DataOk, data_eq, data1, PyDict.get?, angMom_p, angMom_d, angMom_ss, angMom_sp, angMom_sd, angMom_ps, angMom_pd, angMom_ds, angMom_dp]
  all_goals clear ha hb i j a b
  all_goals
    ext u v
    simp only [Matrix.smul_apply, Matrix.neg_apply, Matrix.zero_apply, smul_eq_mul]
    grind

theorem evalTable2_eq (i j : OrbLabel) (a b : Tens) (ha : tens i = some a) (hb : tens j = some b) (si sj : SpinLabel)
    (σ τ : Fin 2) (hσ : spinIndex si = some σ) (hτ : spinIndex sj = some τ) :
    evalTable2 i si j sj = .ok (spinOrbit a σ b τ) := by
  have h : _ = _ := data_ok i j a b ha hb
  simp only [evalTable2, check_ok i j a b ha hb si sj σ τ hσ hτ, bind, Except.bind, pure, Except.pure, h, spinOrbit,
    Fin.sum_univ_three]
  cases si <;> cases sj <;> cases hσ <;> cases hτ <;> simp [pauli, sx, sy, sz] <;> first | ring1 | (left; norm_num)

/-- Numbers that differ by rounding. -/
def Near (x y : ℂ) : Prop := ‖x - y‖ ≤ 3.0e-16

theorem near_refl (x : ℂ) : Near x x := by simp only [Near, sub_self, norm_zero]; norm_num

theorem near_neg {x y : ℂ} (h : Near x y) : Near (-x) (-y) := by
  rw [Near, show -x - -y = -(x - y) by ring, norm_neg]; exact h

theorem near_I {x y : ℝ} (h : |x - y| ≤ 3.0e-16) : Near (x * Complex.I) (Complex.I * y) := by
  rw [Near, show (x : ℂ) * Complex.I - Complex.I * y = Complex.I * ((x - y : ℝ) : ℂ) by push_cast; ring, norm_mul,
    Complex.norm_I, one_mul, Complex.norm_real]
  exact h

theorem near_real {x y : ℝ} (h : |x - y| ≤ 3.0e-16) : Near x y := by
  rw [Near, ← Complex.ofReal_sub, Complex.norm_real]
  exact h

theorem near_half : |(0.5000000000000001 : ℝ) - 1 / 2| ≤ 3.0e-16 := by rw [abs_le]; constructor <;> norm_num
theorem near_one : |(1.0000000000000002 : ℝ) - 1| ≤ 3.0e-16 := by rw [abs_le]; constructor <;> norm_num
theorem near_sqrt : |(0.8660254037844386 : ℝ) - Real.sqrt 3 / 2| ≤ 3.0e-16 := by
  have h1 : Real.sqrt 3 ≤ 1.7320508075688774 := Real.sqrt_le_iff.2 ⟨by norm_num, by norm_num⟩
  have h2 : 1.7320508075688772 ≤ Real.sqrt 3 := Real.le_sqrt_of_sq_le (by norm_num)
  rw [abs_le]; constructor <;> linarith

/-- The tables with exact entries. -/
noncomputable def upUpX : PyDict (OrbLabel × OrbLabel) ℂ :=
  [((p .x, p .y), -(1 / 2 * Complex.I)), ((p .y, p .x), 1 / 2 * Complex.I), ((d .x .y, dx2y2), 1 * Complex.I),
   ((dx2y2, d .x .y), -(1 * Complex.I)), ((d .y .z, d .z .x), 1 / 2 * Complex.I), ((d .z .x, d .y .z), -(1 / 2 * Complex.I))]

/-- The tables with exact entries. -/
noncomputable def upDownX : PyDict (OrbLabel × OrbLabel) ℂ :=
  [((p .x, p .z), 1 / 2), ((p .y, p .z), -(1 / 2 * Complex.I)), ((p .z, p .x), -(1 / 2)),
   ((p .z, p .y), 1 / 2 * Complex.I), ((d .x .y, d .y .z), 1 / 2), ((d .x .y, d .z .x), -(1 / 2 * Complex.I)),
   ((dx2y2, d .y .z), 1 / 2 * Complex.I), ((dx2y2, d .z .x), 1 / 2), ((d .y .z, d .x .y), -(1 / 2)),
   ((d .y .z, dx2y2), -(1 / 2 * Complex.I)), ((d .y .z, dz2), -((Real.sqrt 3 : ℂ) / 2 * Complex.I)),
   ((d .z .x, d .x .y), 1 / 2 * Complex.I), ((d .z .x, dx2y2), -(1 / 2)), ((d .z .x, dz2), (Real.sqrt 3 : ℂ) / 2),
   ((dz2, d .y .z), (Real.sqrt 3 : ℂ) / 2 * Complex.I), ((dz2, d .z .x), -((Real.sqrt 3 : ℂ) / 2))]

/-- The tables with exact entries. -/
noncomputable def downUpX : PyDict (OrbLabel × OrbLabel) ℂ :=
  [((p .x, p .z), -(1 / 2)), ((p .y, p .z), -(1 / 2 * Complex.I)), ((p .z, p .x), 1 / 2),
   ((p .z, p .y), 1 / 2 * Complex.I), ((d .x .y, d .y .z), -(1 / 2)), ((d .x .y, d .z .x), -(1 / 2 * Complex.I)),
   ((dx2y2, d .y .z), 1 / 2 * Complex.I), ((dx2y2, d .z .x), -(1 / 2)), ((d .y .z, d .x .y), 1 / 2),
   ((d .y .z, dx2y2), -(1 / 2 * Complex.I)), ((d .y .z, dz2), -((Real.sqrt 3 : ℂ) / 2 * Complex.I)),
   ((d .z .x, d .x .y), 1 / 2 * Complex.I), ((d .z .x, dx2y2), 1 / 2), ((d .z .x, dz2), -((Real.sqrt 3 : ℂ) / 2)),
   ((dz2, d .y .z), (Real.sqrt 3 : ℂ) / 2 * Complex.I), ((dz2, d .z .x), (Real.sqrt 3 : ℂ) / 2)]

/-- Same keys, entries that differ by rounding. -/
def NearDict (t t' : PyDict (OrbLabel × OrbLabel) ℂ) : Prop := List.Forall₂ (fun x y => x.1 = y.1 ∧ Near x.2 y.2) t t'

theorem near_get (t t' : PyDict (OrbLabel × OrbLabel) ℂ) (h : NearDict t t') (k : OrbLabel × OrbLabel) :
    Near ((t.get? k).getD 0) ((t'.get? k).getD 0) := by
  induction h with
  | nil => exact near_refl _
  | cons hxy _ ih =>
    rw [PyDict.get?_cons, PyDict.get?_cons, hxy.1]
    split_ifs
    · exact hxy.2
    · exact ih

theorem near_h : Near 0.5000000000000001 (1 / 2) := by
  have := near_real near_half; push_cast at this; exact this
theorem near_hI : Near (0.5000000000000001 * Complex.I) (1 / 2 * Complex.I) := by
  have := near_I near_half; push_cast at this; rw [mul_comm _ Complex.I, mul_comm (1 / 2) Complex.I] at *; exact this
theorem near_oI : Near (1.0000000000000002 * Complex.I) (1 * Complex.I) := by
  have := near_I near_one; push_cast at this; rw [mul_comm _ Complex.I, mul_comm 1 Complex.I] at *; exact this
theorem near_q : Near 0.8660254037844386 ((Real.sqrt 3 : ℂ) / 2) := by
  have := near_real near_sqrt; push_cast at this; exact this
theorem near_qI : Near (0.8660254037844386 * Complex.I) ((Real.sqrt 3 : ℂ) / 2 * Complex.I) := by
  have := near_I near_sqrt; push_cast at this; rw [mul_comm _ Complex.I, mul_comm (_ / 2) Complex.I] at *; exact this

theorem near_tables : NearDict upUp upUpX ∧ NearDict upDown upDownX ∧ NearDict downUp downUpX := by
  have h1 := near_h
  have h2 := near_hI
  have h3 := near_oI
  have h4 := near_q
  have h5 := near_qI
  have h6 := near_neg h1
  have h7 := near_neg h2
  have h8 := near_neg h3
  have h9 := near_neg h4
  have h10 := near_neg h5
  refine ⟨?_, ?_, ?_⟩
  · simp only [NearDict, upUp, upUpX, List.forall₂_cons, List.forall₂_nil_left_iff, true_and, and_true]
    tauto
  · simp only [NearDict, upDown, upDownX, List.forall₂_cons, List.forall₂_nil_left_iff, true_and, and_true]
    tauto
  · simp only [NearDict, downUp, downUpX, List.forall₂_cons, List.forall₂_nil_left_iff, true_and, and_true]
    tauto

/-- The exact tables hold the matrix elements. -/
def TabOk (i : OrbLabel) (a : Tens) (j : OrbLabel) (b : Tens) : Prop :=
  (upUpX.get? (i, j)).getD 0 = angMom 2 a b / 2 ∧
  (upDownX.get? (i, j)).getD 0 = (angMom 0 a b - Complex.I * angMom 1 a b) / 2 ∧
  (downUpX.get? (i, j)).getD 0 = (angMom 0 a b + Complex.I * angMom 1 a b) / 2

set_option maxHeartbeats 4000000 in
theorem tab_ok (i j : OrbLabel) (a b : Tens) (ha : tens i = some a) (hb : tens j = some b) : TabOk i a j b := by
  have hs := sqrt3_sq
  have hI := Complex.I_mul_I
  refine legal_cases (P := fun i a => ∀ (j : OrbLabel) (b : Tens), tens j = some b → TabOk i a j b)
     ?_ ?_ ?_ ?_ ?_ ?_ ?_ ?_ ?_ i a ha j b hb
  all_goals
    refine legal_cases ?_ ?_ ?_ ?_ ?_ ?_ ?_ ?_ ?_
  all_goals
    simp [TabOk, upUpX, upDownX, downUpX, PyDict.get?, angMom_p, angMom_d, angMom_ss, angMom_sp, angMom_sd, angMom_ps, angMom_pd,
      angMom_ds, angMom_dp]
  all_goals clear ha hb i j a b
  all_goals grind

theorem evalTable_near (i j : OrbLabel) (a b : Tens) (ha : tens i = some a) (hb : tens j = some b) (si sj : SpinLabel)
    (σ τ : Fin 2) (hσ : spinIndex si = some σ) (hτ : spinIndex sj = some τ) :
    ∃ t, evalTable i si j sj = .ok t ∧ Near t (spinOrbit a σ b τ) := by
  obtain ⟨t1, t2, t3⟩ := tab_ok i j a b ha hb
  have n1 := near_get _ _ near_tables.1 (i, j)
  have n2 := near_get _ _ near_tables.2.1 (i, j)
  have n3 := near_get _ _ near_tables.2.2 (i, j)
  have n4 := near_neg n1
  rw [t1] at n1 n4
  rw [t2] at n2
  rw [t3] at n3
  simp only [evalTable, check_ok i j a b ha hb si sj σ τ hσ hτ, bind, Except.bind, pure, Except.pure]
  cases si <;> cases sj <;> cases hσ <;> cases hτ <;> refine ⟨_, rfl, ?_⟩ <;>
    simp only [reduceCtorEq, and_self, and_true, true_and, and_false, false_and, if_true, if_false]
  · refine (congrArg (Near _) ?_).mp n1
    simp [spinOrbit, Fin.sum_univ_three, pauli]; ring
  · refine (congrArg (Near _) ?_).mp n2
    simp [spinOrbit, Fin.sum_univ_three, pauli]; ring
  · refine (congrArg (Near _) ?_).mp n3
    simp [spinOrbit, Fin.sum_univ_three, pauli]; ring
  · have : ((upUp.get? (i, j)).map fun x => -1 * x).getD 0 = -((upUp.get? (i, j)).getD 0) := by
      cases upUp.get? (i, j) <;> simp
    rw [this]
    refine (congrArg (Near _) ?_).mp n4
    simp [spinOrbit, Fin.sum_univ_three, pauli]; ring


/-- Dimension of an eigenspace of a matrix with two eigenvalues. -/
theorem eigen_dim {n : Type*} [Fintype n] [DecidableEq n] (M : Matrix n n ℂ) (a b : ℂ) (hab : a ≠ b)
    (h : (M - a • (1 : Matrix n n ℂ)) * (M - b • (1 : Matrix n n ℂ)) = 0) :
    (Module.finrank ℂ (Module.End.eigenspace (Matrix.toLin' M) a) : ℂ) =
      (a - b)⁻¹ * (M.trace - b * Fintype.card n) := by
  have hne : a - b ≠ 0 := sub_ne_zero.2 hab
  have hp : LinearMap.IsProj (Module.End.eigenspace (Matrix.toLin' M) a)
      (Matrix.toLin' ((a - b)⁻¹ • (M - b • (1 : Matrix n n ℂ)))) := by
    refine ⟨fun x => ?_, fun x hx => ?_⟩
    · rw [Module.End.mem_eigenspace_iff, Matrix.toLin'_apply, Matrix.toLin'_apply, Matrix.mulVec_mulVec]
      have h2 : M * ((a - b)⁻¹ • (M - b • (1 : Matrix n n ℂ))) = a • ((a - b)⁻¹ • (M - b • (1 : Matrix n n ℂ))) := by
        have h3 : M * (M - b • (1 : Matrix n n ℂ)) = a • (M - b • (1 : Matrix n n ℂ)) := by
          rw [sub_mul, sub_eq_zero] at h
          rw [h, smul_mul_assoc, one_mul]
        rw [Matrix.mul_smul, h3, smul_comm]
      rw [h2, Matrix.smul_mulVec]
    · rw [Module.End.mem_eigenspace_iff, Matrix.toLin'_apply] at hx
      rw [Matrix.toLin'_apply, Matrix.smul_mulVec, Matrix.sub_mulVec, hx, Matrix.smul_mulVec, Matrix.one_mulVec,
        ← sub_smul, smul_smul, inv_mul_cancel₀ hne, one_smul]
  have := hp.trace
  rw [Matrix.trace_toLin'_eq, Matrix.trace_smul, Matrix.trace_sub, Matrix.trace_smul, Matrix.trace_one, smul_eq_mul, smul_eq_mul] at this
  exact this.symm

/-- The p orbitals. -/
def pTens : Fin 3 → Tens
  | 0 => .p ![1, 0, 0]
  | 1 => .p ![0, 1, 0]
  | 2 => .p ![0, 0, 1]

/-- The d orbitals. -/
noncomputable def dTens : Fin 5 → Tens
  | 0 => .d !![0, Real.sqrt 3 / 2, 0; Real.sqrt 3 / 2, 0, 0; 0, 0, 0]
  | 1 => .d !![0, 0, 0; 0, 0, Real.sqrt 3 / 2; 0, Real.sqrt 3 / 2, 0]
  | 2 => .d !![0, 0, Real.sqrt 3 / 2; 0, 0, 0; Real.sqrt 3 / 2, 0, 0]
  | 3 => .d !![Real.sqrt 3 / 2, 0, 0; 0, -(Real.sqrt 3 / 2), 0; 0, 0, 0]
  | 4 => .d !![-1 / 2, 0, 0; 0, -1 / 2, 0; 0, 0, 1]

/-- `L.S` in a shell. -/
noncomputable def shellMat {n : ℕ} (t : Fin n → Tens) : Matrix (Fin n × Fin 2) (Fin n × Fin 2) ℂ :=
  Matrix.of fun x y => spinOrbit (t x.1) x.2 (t y.1) y.2

theorem lx_d (x y : Fin 5) : angMom 0 (dTens x) (dTens y) = (!![0, 0, -Complex.I, 0, 0; 0, 0, 0, -Complex.I, -(Real.sqrt 3 * Complex.I);
    Complex.I, 0, 0, 0, 0; 0, Complex.I, 0, 0, 0; 0, Real.sqrt 3 * Complex.I, 0, 0, 0] : Matrix (Fin 5) (Fin 5) ℂ) x y := by
  have hs := sqrt3_sq
  fin_cases x <;> fin_cases y <;> simp [dTens, angMom_d] <;> grind

theorem ly_d (x y : Fin 5) : angMom 1 (dTens x) (dTens y) = (!![0, Complex.I, 0, 0, 0; -Complex.I, 0, 0, 0, 0;
    0, 0, 0, -Complex.I, Real.sqrt 3 * Complex.I; 0, 0, Complex.I, 0, 0; 0, 0, -(Real.sqrt 3 * Complex.I), 0, 0] : Matrix (Fin 5) (Fin 5) ℂ) x y := by
  have hs := sqrt3_sq
  fin_cases x <;> fin_cases y <;> simp [dTens, angMom_d] <;> grind

theorem lz_d (x y : Fin 5) : angMom 2 (dTens x) (dTens y) = (!![0, 0, 0, 2 * Complex.I, 0; 0, 0, Complex.I, 0, 0;
    0, -Complex.I, 0, 0, 0; -(2 * Complex.I), 0, 0, 0, 0; 0, 0, 0, 0, 0] : Matrix (Fin 5) (Fin 5) ℂ) x y := by
  have hs := sqrt3_sq
  fin_cases x <;> fin_cases y <;> simp [dTens, angMom_d] <;> grind

theorem p_poly : (shellMat pTens - (1 / 2 : ℂ) • 1) * (shellMat pTens - (-1 : ℂ) • 1) = 0 := by
  have hI := Complex.I_mul_I
  ext ⟨x, s⟩ ⟨y, t⟩
  fin_cases x <;> fin_cases s <;> fin_cases y <;> fin_cases t <;>
    simp [Matrix.mul_apply, Fintype.sum_prod_type, Fin.sum_univ_three, shellMat, spinOrbit, pTens, angMom_p, pauli, Matrix.one_apply] <;>
    grind

set_option maxHeartbeats 4000000 in
theorem d_poly : (shellMat dTens - (1 : ℂ) • 1) * (shellMat dTens - (-(3 / 2) : ℂ) • 1) = 0 := by
  have hI := Complex.I_mul_I
  have hs := sqrt3_sq
  ext ⟨x, s⟩ ⟨y, t⟩
  simp only [Matrix.mul_apply, Fintype.sum_prod_type, Fin.sum_univ_five, Fin.sum_univ_two, Fin.sum_univ_three, shellMat, spinOrbit, lx_d, ly_d, lz_d, Matrix.sub_apply, Matrix.of_apply, Matrix.smul_apply, Matrix.one_apply, Prod.mk.injEq]
  fin_cases x <;> fin_cases s <;> fin_cases y <;> fin_cases t <;>
    simp [pauli] <;> grind

theorem angMom_star (k : Fin 3) (a b : Tens) : angMom k b a = star (angMom k a b) := by
  have h : b.inner (turn k a) = -(a.inner (turn k b)) := by
    rcases a with u | a | A <;> rcases b with u' | b | B <;> simp only [turn, Tens.inner, neg_zero, mul_zero]
    · have hT : (crossMat k).transpose = -crossMat k := by
        ext x y; fin_cases k <;> fin_cases x <;> fin_cases y <;> simp [crossMat]
      rw [Matrix.dotProduct_mulVec, ← Matrix.mulVec_transpose, hT, Matrix.neg_mulVec, neg_dotProduct, dotProduct_comm]
    · rw [mul_sub, mul_sub, Matrix.trace_sub, Matrix.trace_sub, ← mul_assoc, ← mul_assoc, ← mul_assoc, ← mul_assoc,
        Matrix.trace_mul_cycle B (crossMat k) A, Matrix.trace_mul_cycle A (crossMat k) B]
      ring
  rw [angMom, angMom, h]
  simp

theorem spinOrbit_star (a b : Tens) (σ τ : Fin 2) : spinOrbit b τ a σ = star (spinOrbit a σ b τ) := by
  simp only [spinOrbit, star_sum]
  refine Finset.sum_congr rfl fun k _ => ?_
  rw [star_mul', ← angMom_star k a b]
  congr 1
  fin_cases k <;> fin_cases σ <;> fin_cases τ <;> simp [pauli]

theorem check_swap (i j : OrbLabel) (si sj : SpinLabel) : check j i sj si = check i j si sj := by
  simp only [check, Bool.and_comm]

theorem labelOk_iff (i : OrbLabel) : labelOk i = false ↔ tens i = none := by
  rcases i with _ | a | ⟨a, b⟩ | _ | _ | _ 
  · simp [labelOk, tens]
  · cases a <;> simp [labelOk, tens]
  · cases a <;> cases b <;> simp [labelOk, tens]
  all_goals simp [labelOk, tens]

theorem spinOk_iff (s : SpinLabel) : spinOk s = false ↔ spinIndex s = none := by
  cases s <;> simp [spinOk, spinIndex]

theorem check_bad (i j : OrbLabel) (si sj : SpinLabel)
    (h : tens i = none ∨ tens j = none ∨ spinIndex si = none ∨ spinIndex sj = none) : check i j si sj = .error .value := by
  rw [← labelOk_iff, ← labelOk_iff, ← spinOk_iff, ← spinOk_iff] at h
  simp only [check]
  rcases h with h | h | h | h <;> simp [h]

theorem star_lit : (starRingEnd ℂ) 0.5000000000000001 = 0.5000000000000001 ∧
    (starRingEnd ℂ) 1.0000000000000002 = 1.0000000000000002 ∧ (starRingEnd ℂ) 0.8660254037844386 = 0.8660254037844386 := by
  refine ⟨?_, ?_, ?_⟩
  · have := Complex.conj_ofReal 0.5000000000000001; push_cast at this; exact this
  · have := Complex.conj_ofReal 1.0000000000000002; push_cast at this; exact this
  · have := Complex.conj_ofReal 0.8660254037844386; push_cast at this; exact this

/-- Hermiticity of the hard-coded tables. -/
def TabHerm (i j : OrbLabel) : Prop :=
  (upUp.get? (j, i)).getD 0 = star ((upUp.get? (i, j)).getD 0) ∧
  (upDown.get? (j, i)).getD 0 = star ((downUp.get? (i, j)).getD 0)

set_option maxHeartbeats 4000000 in
theorem tab_herm (i j : OrbLabel) (a b : Tens) (ha : tens i = some a) (hb : tens j = some b) : TabHerm i j := by
  refine legal_cases (P := fun i a => ∀ (j : OrbLabel) (b : Tens), tens j = some b → TabHerm i j)
     ?_ ?_ ?_ ?_ ?_ ?_ ?_ ?_ ?_ i a ha j b hb
  all_goals
    refine legal_cases ?_ ?_ ?_ ?_ ?_ ?_ ?_ ?_ ?_
  all_goals
    simp [TabHerm, upUp, upDown, downUp, PyDict.get?, star_lit]

theorem raised_lowered (f g : ℤ → ℤ → ℂ) (l m : ℤ) (hm : -l ≤ m ∧ m < l) :
    raised f l (m + 1) = (Real.sqrt (((l : ℝ) - m) * (l + m + 1)) : ℂ) * f l m ∧
    lowered g l m = (Real.sqrt (((l : ℝ) - m) * (l + m + 1)) : ℂ) * g l (m + 1) := by
  constructor
  · rw [raised, if_pos (by omega), add_sub_cancel_right]
    congr 3
    push_cast; ring
  · rw [lowered, if_pos hm]

/-- Sum over the items of an orbital as a sum over all states. -/
theorem sum_items (a : AtOrb) (ha : PyDict.WF a) (F : ℤ → ℤ → ℂ → ℂ) (hF : ∀ l m, F l m 0 = 0) (S : Finset (ℤ × ℤ))
    (hS : ∀ k ∈ PyDict.keys a, k ∈ S) :
    (a.map fun kv => F kv.1.1 kv.1.2 kv.2).sum = ∑ k ∈ S, F k.1 k.2 (coef a k.1 k.2) := by
  induction a generalizing S with
  | nil => simp [coef, hF]
  | cons kv a ih =>
    simp only [PyDict.WF, PyDict.keys_cons, List.nodup_cons] at ha
    have hk : kv.1 ∈ S := hS _ (by simp)
    rw [List.map_cons, List.sum_cons, ih ha.2 (S.erase kv.1) ?_, ← Finset.add_sum_erase S _ hk]
    · congr 1
      · simp [coef, PyDict.get?_cons]
      · refine Finset.sum_congr rfl fun k hk' => ?_
        have hne : kv.1 ≠ k := fun h => (Finset.mem_erase.1 hk').1 h.symm
        simp [coef, PyDict.get?_cons, hne]
    · intro k hk'
      rw [Finset.mem_erase]
      exact ⟨fun h => ha.1 (h ▸ hk'), hS k (by simp [hk'])⟩

theorem adjoint (a b : AtOrb) (ha : Wf a) (hb : Wf b) (t u : ℂ) (h1 : AtOrb.mtxel a b .plus = .ok t)
    (h2 : AtOrb.mtxel b a .minus = .ok u) : t = star u := by
  rw [mtxel_plus a b ha hb, Except.ok.injEq] at h1
  rw [mtxel_minus b a hb ha, Except.ok.injEq] at h2
  rw [← h1, ← h2]
  rw [sum_items a ha.1 (fun l m v => star v * raised (coef b) l m) (by simp) ((PyDict.keys a).toFinset ∪ (PyDict.keys b).toFinset.image fun k => (k.1, k.2 + 1)) (by simp +contextual),
    sum_items b hb.1 (fun l m v => star v * lowered (coef a) l m) (by simp) ((PyDict.keys b).toFinset ∪ (PyDict.keys a).toFinset.image fun k => (k.1, k.2 - 1)) (by simp +contextual), star_sum]
  refine Finset.sum_bij' (fun k _ => (k.1, k.2 - 1)) (fun k _ => (k.1, k.2 + 1)) ?_ ?_ ?_ ?_ ?_
  · intro k hk
    simp only [Finset.mem_union, Finset.mem_image, List.mem_toFinset] at hk ⊢
    rcases hk with hk | ⟨k', hk', rfl⟩
    · exact .inr ⟨k, hk, rfl⟩
    · left; simpa using hk'
  · intro k hk
    simp only [Finset.mem_union, Finset.mem_image, List.mem_toFinset] at hk ⊢
    rcases hk with hk | ⟨k', hk', rfl⟩
    · exact .inr ⟨k, hk, rfl⟩
    · left; simpa using hk'
  · intro k _; simp
  · intro k _; simp
  · rintro ⟨l, m⟩ _
    by_cases hm : -l < m ∧ m ≤ l
    · have := raised_lowered (coef b) (coef a) l (m - 1) (by omega)
      rw [sub_add_cancel] at this
      simp only [this.1, this.2, star_mul', star_star]
      rw [show star ((Real.sqrt (((l : ℝ) - ((m - 1 : ℤ) : ℝ)) * (l + ((m - 1 : ℤ) : ℝ) + 1)) : ℝ) : ℂ) = _ from Complex.conj_ofReal _]
      ring
    · rw [raised, if_neg hm, lowered, if_neg (by omega)]
      simp

end Verif.Soc

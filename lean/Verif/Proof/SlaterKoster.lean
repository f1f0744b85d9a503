import Verif.Spec.SlaterKoster
import Mathlib.Tactic.FieldSimp
import Mathlib.Tactic.LinearCombination
import Mathlib.Analysis.Complex.Basic

/-! # Proofs about the Slater-Koster formula -/

namespace Verif.SK

theorem norm3_perm (r : Vec3 ℝ) (a : LabAxis) : norm3 (permVector r a) = norm3 r := by
  cases a <;> simp only [permVector, norm3] <;> congr 1 <;> simp <;> ring

theorem norm3_neg (r : Vec3 ℝ) : norm3 (-r) = norm3 r := by
  simp [norm3]

/-- The parameters with conjugation. -/
def Par.conj (v : Par) : Par :=
  ⟨star v.sss, star v.sps, star v.sds, star v.pps, star v.ppp, star v.pds, star v.pdp, star v.dds, star v.ddp, star v.ddd⟩

/-- The label pairs for which the code takes the conjugate of the reversed integral. -/
def swapped (i j : OrbLabel) : Bool :=
  (isP i && j = .s) || (isD i && (j = .s || isP j)) || (isD i && isD j && decide (dIndex j < dIndex i))

/-- Unit vector along the bond. -/
noncomputable def dir (r : Vec3 ℝ) : Vec3 ℝ := fun x => r x / norm3 r

theorem dir_unit (r : Vec3 ℝ) (h : ¬ norm3 r ≤ 1.0e-15) : dir r 0 ^ 2 + dir r 1 ^ 2 + dir r 2 ^ 2 = 1 := by
  have h0 : 0 < norm3 r := lt_trans (by norm_num) (not_le.1 h)
  have h1 : norm3 r ^ 2 = r 0 ^ 2 + r 1 ^ 2 + r 2 ^ 2 := Real.sq_sqrt (by positivity)
  unfold dir
  field_simp
  exact h1.symm

theorem dirCos_perm (r : Vec3 ℝ) (h : ¬ norm3 r ≤ 1.0e-15) (a : LabAxis) :
    dirCos (permVector r a) = .ok (((permVector (dir r) a 0 : ℝ) : ℂ), ((permVector (dir r) a 1 : ℝ) : ℂ),
      ((permVector (dir r) a 2 : ℝ) : ℂ)) := by
  rw [dirCos, norm3_perm, if_neg h]
  cases a <;> simp [permVector, dir]

theorem dirCos_ok (r : Vec3 ℝ) (h : ¬ norm3 r ≤ 1.0e-15) :
    dirCos r = .ok (((dir r 0 : ℝ) : ℂ), ((dir r 1 : ℝ) : ℂ), ((dir r 2 : ℝ) : ℂ)) := dirCos_perm r h .x

theorem dir_neg (r : Vec3 ℝ) : dir (-r) = - dir r := by
  funext x
  simp [dir, norm3_neg, neg_div]

/-- Value of the upper triangle. -/
theorem upper_value (v : Par) (r : Vec3 ℝ) (h : ¬ norm3 r ≤ 1.0e-15) (i j : OrbLabel) (a b : Tens)
    (ha : tens i = some a) (hb : tens j = some b) (hs : swapped i j = false) :
    eval v r i j = .ok (twoCentre v (dir r) a b) := by
  have hu := dir_unit r h
  generalize hL : dir r 0 = L at hu
  generalize hM : dir r 1 = M at hu
  generalize hN : dir r 2 = N at hu
  have huc : (L : ℂ) ^ 2 + (M : ℂ) ^ 2 + (N : ℂ) ^ 2 = 1 := by exact_mod_cast hu
  have h3 : ((Real.sqrt 3 : ℝ) : ℂ) ^ 2 = 3 := by
    rw [← Complex.ofReal_pow, Real.sq_sqrt (by norm_num)]
    norm_num
  have hd : (2 : ℂ) / ((Real.sqrt 3 : ℝ) : ℂ) = 2 / 3 * ((Real.sqrt 3 : ℝ) : ℂ) := by
    have hs3 : ((Real.sqrt 3 : ℝ) : ℂ) ≠ 0 := by
      intro h
      rw [h] at h3
      norm_num at h3
    field_simp
    linear_combination (-1) * h3
  have e1 : (0.5 : ℂ) = 1 / 2 := by norm_num
  have e2 : (1.5 : ℂ) = 3 / 2 := by norm_num
  have e3 : (0.75 : ℂ) = 3 / 4 := by norm_num
  have e4 : (0.25 : ℂ) = 1 / 4 := by norm_num
  have hx := dirCos_ok r h
  have hy := dirCos_perm r h .y
  have hz := dirCos_perm r h .z
  simp only [permVector, Matrix.cons_val_zero, Matrix.cons_val_one, Matrix.cons_val, hL, hM, hN] at hx hy hz
  rcases i with _ | ⟨_ | _ | _⟩ | ⟨_ | _ | _, _ | _ | _⟩ | _ | _ | _ <;>
    rcases j with _ | ⟨_ | _ | _⟩ | ⟨_ | _ | _, _ | _ | _⟩ | _ | _ | _ <;>
    first
    | (exfalso; revert ha; simp only [tens]; intro ha; cases ha; done)
    | (exfalso; revert hb; simp only [tens]; intro hb; cases hb; done)
    | (exfalso; revert hs; decide)
    | skip
  all_goals simp only [tens, Option.some.injEq] at ha hb
  all_goals subst ha hb
  all_goals simp only [eval, ss, sp, sd, pp, pd, dd, ddUpper, ddTable, isP, isD, dIndex, remapLabel, mapTable, permVector,
    axisOf, hx, hy, hz, bind, Except.bind, pure, Except.pure, reduceCtorEq, if_true, if_false, not_true, not_false_iff, and_self, or_true, true_or,
    or_false, false_or, decide_true, decide_false, OrbLabel.p.injEq, OrbLabel.d.injEq, and_false, false_and, ne_eq, Bool.false_eq_true,
    gt_iff_lt, Nat.reduceLT, lt_self_iff_false, or_self]
  all_goals congr 1
  all_goals simp only [twoCentre, quad, perp, dotProduct, Matrix.mulVec, Fin.sum_univ_three, Matrix.trace, Matrix.diag,
    Matrix.mul_apply, hL, hM, hN, Matrix.of_apply, Matrix.cons_val_zero, Matrix.cons_val_one, Matrix.cons_val, Matrix.cons_val',
    halfSqrt3]
  all_goals push_cast
  all_goals try simp only [sqrt3, hd, e1, e2, e3, e4]
  all_goals generalize ((Real.sqrt 3 : ℝ) : ℂ) = S at h3
  all_goals clear hx hy hz hd hL hM hN hs hu e1 e2 e3 e4 h
  all_goals grind

theorem eval_swap (v : Par) (r : Vec3 ℝ) (i j : OrbLabel) (hs : swapped i j = true) :
    eval v r i j = (eval v (-r) j i).map star := by
  rcases i with _ | ⟨_ | _ | _⟩ | ⟨_ | _ | _, _ | _ | _⟩ | _ | _ | _ <;>
    rcases j with _ | ⟨_ | _ | _⟩ | ⟨_ | _ | _, _ | _ | _⟩ | _ | _ | _ <;>
    first
    | rfl
    | (exfalso; revert hs; decide)
    | simp [eval, dd, isD, isP, dIndex]

theorem swapped_swap (i j : OrbLabel) (hs : swapped i j = true) : swapped j i = false := by
  revert hs
  rcases i with _ | ⟨_ | _ | _⟩ | ⟨_ | _ | _, _ | _ | _⟩ | _ | _ | _ <;>
    rcases j with _ | ⟨_ | _ | _⟩ | ⟨_ | _ | _, _ | _ | _⟩ | _ | _ | _ <;> decide

theorem quad_neg (A : Mat3 ℝ) (n : Vec3 ℝ) : quad A (-n) = quad A n := by
  simp [quad, Matrix.mulVec_neg]

theorem perp_neg (a b n : Vec3 ℝ) : perp a b (-n) = perp a b n := by
  simp [perp]

theorem perp_negl (a b n : Vec3 ℝ) : perp (-a) b n = - perp a b n := by
  simp [perp]; ring

theorem perp_negr (a b n : Vec3 ℝ) : perp a (-b) n = - perp a b n := by
  simp [perp]; ring

theorem perp_comm (a b n : Vec3 ℝ) : perp a b n = perp b a n := by
  simp only [perp, dotProduct_comm a b]; ring

theorem twoCentre_swap (v : Par) (n : Vec3 ℝ) (a b : Tens) :
    star (twoCentre v (-n) b a) = twoCentre v.conj n a b := by
  cases a <;> cases b <;>
    simp only [twoCentre, Par.conj, star_add, star_mul', star_neg, quad_neg, perp_neg, perp_negl, perp_negr, neg_neg, dotProduct_neg,
      Matrix.mulVec_neg, Complex.star_def, Complex.conj_ofReal]
  case d.d A B =>
    rw [perp_comm (B.mulVec n), Matrix.trace_mul_comm B A, mul_comm (quad B n)]
  case p.p a b =>
    rw [perp_comm b]
    push_cast
    ring
  all_goals push_cast; ring

/-- The value of `eval` for all parameters. -/
theorem eval_value (v : Par) (r : Vec3 ℝ) (h : ¬ norm3 r ≤ 1.0e-15) (i j : OrbLabel) (a b : Tens)
    (ha : tens i = some a) (hb : tens j = some b) :
    eval v r i j = .ok (twoCentre (if swapped i j then v.conj else v) (dir r) a b) := by
  cases hs : swapped i j
  · exact upper_value v r h i j a b ha hb hs
  · rw [eval_swap v r i j hs, upper_value v (-r) (by rwa [norm3_neg]) j i b a hb ha (swapped_swap i j hs), dir_neg]
    simp only [Except.map, if_true, twoCentre_swap]

theorem conj_real (v : Par) (h : v.real) : v.conj = v := by
  obtain ⟨h1, h2, h3, h4, h5, h6, h7, h8, h9, h10⟩ := h
  have := fun z (hz : Complex.im z = 0) => Complex.conj_eq_iff_im.2 hz
  cases v
  simp only [Par.conj, Par.mk.injEq, Complex.star_def]
  exact ⟨this _ h1, this _ h2, this _ h3, this _ h4, this _ h5, this _ h6, this _ h7, this _ h8, this _ h9, this _ h10⟩

theorem eval_illegal (v : Par) (r : Vec3 ℝ) (i j : OrbLabel) (h : tens i = none ∨ tens j = none) :
    eval v r i j = .error .value := by
  rcases i with _ | ⟨_ | _ | _⟩ | ⟨_ | _ | _, _ | _ | _⟩ | _ | _ | _ <;>
    rcases j with _ | ⟨_ | _ | _⟩ | ⟨_ | _ | _, _ | _ | _⟩ | _ | _ | _ <;>
    first
    | rfl
    | (exfalso; revert h; simp [tens]; done)
    | (simp [eval, sd, pd, dd, ds, dp, isD, isP, bind, Except.bind, Except.map]; done)

theorem eval_small (v : Par) (r : Vec3 ℝ) (i j : OrbLabel) (h : norm3 r ≤ 1.0e-15) (hss : ¬ (i = .s ∧ j = .s)) :
    eval v r i j = .error .value := by
  have hc : ∀ a, dirCos (permVector r a) = .error .value := fun a => by rw [dirCos, norm3_perm, if_pos h]
  have hc' : ∀ a, dirCos (permVector (-r) a) = .error .value := fun a => by rw [dirCos, norm3_perm, norm3_neg, if_pos h]
  have hx := hc .x
  have hx' := hc' .x
  simp only [permVector] at hx hx'
  rcases i with _ | ⟨_ | _ | _⟩ | ⟨_ | _ | _, _ | _ | _⟩ | _ | _ | _ <;>
    rcases j with _ | ⟨_ | _ | _⟩ | ⟨_ | _ | _, _ | _ | _⟩ | _ | _ | _ <;>
    first
    | (exact absurd ⟨rfl, rfl⟩ hss)
    | (apply eval_illegal; simp only [tens, true_or, or_true]; done)
    | (simp [eval, sp, sd, pp, pd, dd, ps, ds, dp, ddUpper, isD, isP, dIndex, axisOf, remapLabel, mapTable, bind, Except.bind, Except.map,
        hc, hc', hx, hx']; done)

/-! ## Rotations -/

theorem dot_rot (R : Mat3 ℝ) (hR : R * R.transpose = 1) (a b : Vec3 ℝ) :
    dotProduct (R.mulVec a) (R.mulVec b) = dotProduct a b := by
  have hR' : R.transpose * R = 1 := mul_eq_one_comm.1 hR
  rw [Matrix.dotProduct_mulVec, Matrix.vecMul_mulVec, hR', Matrix.vecMul_one]

theorem mulVec_rot (R A : Mat3 ℝ) (hR : R * R.transpose = 1) (n : Vec3 ℝ) :
    (R * A * R.transpose).mulVec (R.mulVec n) = R.mulVec (A.mulVec n) := by
  have hR' : R.transpose * R = 1 := mul_eq_one_comm.1 hR
  rw [Matrix.mulVec_mulVec, Matrix.mul_assoc, hR', Matrix.mul_one, Matrix.mulVec_mulVec]

theorem twoCentre_rot (v : Par) (R : Mat3 ℝ) (hR : R * R.transpose = 1) (n : Vec3 ℝ) (a b : Tens) :
    twoCentre v (R.mulVec n) (a.rot R) (b.rot R) = twoCentre v n a b := by
  have hR' : R.transpose * R = 1 := mul_eq_one_comm.1 hR
  cases a <;> cases b <;>
    simp only [twoCentre, Tens.rot, quad, perp, mulVec_rot R _ hR, dot_rot R hR]
  case d.d A B =>
    have : (R * A * R.transpose * (R * B * R.transpose)).trace = (A * B).trace := by
      rw [show R * A * R.transpose * (R * B * R.transpose) = R * (A * (R.transpose * R) * B * R.transpose) by
        simp only [Matrix.mul_assoc], hR', Matrix.trace_mul_comm, Matrix.mul_assoc, hR', Matrix.mul_one, Matrix.mul_one]
    rw [this]

theorem norm3_eq (r : Vec3 ℝ) : norm3 r = Real.sqrt (dotProduct r r) := by
  simp only [norm3, dotProduct, Fin.sum_univ_three, pow_two]

theorem norm3_rot (R : Mat3 ℝ) (hR : R * R.transpose = 1) (r : Vec3 ℝ) : norm3 (R.mulVec r) = norm3 r := by
  rw [norm3_eq, norm3_eq, dot_rot R hR]

theorem dir_rot (R : Mat3 ℝ) (hR : R * R.transpose = 1) (r : Vec3 ℝ) : dir (R.mulVec r) = R.mulVec (dir r) := by
  funext x
  simp only [dir, norm3_rot R hR, Matrix.mulVec, dotProduct, Fin.sum_univ_three]
  ring

/-- Tensors with the right symmetry. -/
def Tens.legal : Tens → Prop
  | .d A => A.transpose = A ∧ A.trace = 0
  | _ => True

/-- The labels of the shell of a tensor. -/
def Tens.shell : Tens → List OrbLabel
  | .s _ => SK.shell .s
  | .p _ => SK.shell (.p .x)
  | .d _ => SK.shell .dz2

theorem lin_add (v : Par) (n : Vec3 ℝ) (A B : Mat3 ℝ) (b : Tens) :
    twoCentre v n (.d (A + B)) b = twoCentre v n (.d A) b + twoCentre v n (.d B) b := by
  cases b <;> simp only [twoCentre, quad, perp, Matrix.add_mulVec, dotProduct_add, add_dotProduct, Matrix.add_mul,
    Matrix.trace_add] <;> push_cast <;> ring

theorem lin_smul (v : Par) (n : Vec3 ℝ) (c : ℝ) (A : Mat3 ℝ) (b : Tens) :
    twoCentre v n (.d (c • A)) b = c * twoCentre v n (.d A) b := by
  cases b <;> simp only [twoCentre, quad, perp, Matrix.smul_mulVec, dotProduct_smul, smul_dotProduct, Matrix.smul_mul,
    Matrix.trace_smul, smul_eq_mul] <;> push_cast <;> ring

theorem lin_padd (v : Par) (n : Vec3 ℝ) (a a' : Vec3 ℝ) (b : Tens) :
    twoCentre v n (.p (a + a')) b = twoCentre v n (.p a) b + twoCentre v n (.p a') b := by
  cases b <;> simp only [twoCentre, quad, perp, add_dotProduct] <;> push_cast <;> ring

theorem lin_psmul (v : Par) (n : Vec3 ℝ) (c : ℝ) (a : Vec3 ℝ) (b : Tens) :
    twoCentre v n (.p (c • a)) b = c * twoCentre v n (.p a) b := by
  cases b <;> simp only [twoCentre, quad, perp, smul_dotProduct, smul_eq_mul] <;> push_cast <;> ring

/-- Expansion of the first orbital in the orbitals of its shell. -/
theorem expand_left (v : Par) (n : Vec3 ℝ) (a b : Tens) (ha : a.legal) :
    twoCentre v n a b = (a.shell.map fun i => (((tensD i).inner a : ℝ) : ℂ) * twoCentre v n (tensD i) b).sum := by
  have h3 : Real.sqrt 3 * Real.sqrt 3 = 3 := Real.mul_self_sqrt (by norm_num)
  cases a with
  | s c =>
    cases b <;> simp [Tens.shell, shell, tensD, tens, Tens.inner, twoCentre, mul_assoc]
  | p a =>
    have ha : a = dotProduct ![1, 0, 0] a • ![1, 0, 0] + dotProduct ![0, 1, 0] a • ![0, 1, 0] + dotProduct ![0, 0, 1] a • ![0, 0, 1] := by
      funext x
      fin_cases x <;> simp [dotProduct, Fin.sum_univ_three]
    conv_lhs => rw [ha]
    simp only [lin_padd, lin_psmul, Tens.shell, shell, tensD, tens, Option.getD_some, Tens.inner, List.map_cons, List.map_nil,
      List.sum_cons, List.sum_nil, add_zero]
    ring
  | d A =>
    obtain ⟨h1, h2⟩ := ha
    have e1 : A 1 0 = A 0 1 := congrFun (congrFun h1 0) 1
    have e2 : A 2 0 = A 0 2 := congrFun (congrFun h1 0) 2
    have e3 : A 2 1 = A 1 2 := congrFun (congrFun h1 1) 2
    have e4 : A 2 2 = -A 0 0 - A 1 1 := by
      simp only [Matrix.trace, Matrix.diag, Fin.sum_univ_three] at h2
      linarith
    have hA : A = (2 / 3 * (!![0, Real.sqrt 3 / 2, 0; Real.sqrt 3 / 2, 0, 0; 0, 0, 0] * A).trace) • !![0, Real.sqrt 3 / 2, 0; Real.sqrt 3 / 2, 0, 0; 0, 0, 0]
      + (2 / 3 * (!![0, 0, 0; 0, 0, Real.sqrt 3 / 2; 0, Real.sqrt 3 / 2, 0] * A).trace) • !![0, 0, 0; 0, 0, Real.sqrt 3 / 2; 0, Real.sqrt 3 / 2, 0]
      + (2 / 3 * (!![0, 0, Real.sqrt 3 / 2; 0, 0, 0; Real.sqrt 3 / 2, 0, 0] * A).trace) • !![0, 0, Real.sqrt 3 / 2; 0, 0, 0; Real.sqrt 3 / 2, 0, 0]
      + (2 / 3 * (!![Real.sqrt 3 / 2, 0, 0; 0, -(Real.sqrt 3 / 2), 0; 0, 0, 0] * A).trace) • !![Real.sqrt 3 / 2, 0, 0; 0, -(Real.sqrt 3 / 2), 0; 0, 0, 0]
      + (2 / 3 * (!![-1 / 2, 0, 0; 0, -1 / 2, 0; 0, 0, 1] * A).trace) • !![-1 / 2, 0, 0; 0, -1 / 2, 0; 0, 0, 1] := by
      ext x y
      fin_cases x <;> fin_cases y <;>
        simp [Matrix.trace, Matrix.diag, Matrix.mul_apply, Fin.sum_univ_three, e1, e2, e3, e4] <;> grind
    conv_lhs => rw [hA]
    simp only [lin_add, lin_smul, Tens.shell, shell, tensD, tens, Option.getD_some, Tens.inner, List.map_cons, List.map_nil,
      List.sum_cons, List.sum_nil, add_zero]
    ring

theorem expand_right (v : Par) (n : Vec3 ℝ) (a b : Tens) (hb : b.legal) :
    twoCentre v n a b = (b.shell.map fun i => (((tensD i).inner b : ℝ) : ℂ) * twoCentre v n a (tensD i)).sum := by
  have h : ∀ c, twoCentre v n a c = star (twoCentre v.conj (-n) c a) := fun c => by
    rw [twoCentre_swap]
    congr 1
    cases v
    simp [Par.conj]
  rw [h, expand_left v.conj (-n) b a hb]
  have hst : ∀ l : List ℂ, star l.sum = (l.map star).sum := fun l => by
    induction l with
    | nil => simp
    | cons a l ih => simp only [List.sum_cons, List.map_cons, star_add, ih]
  rw [hst, List.map_map]
  congr 1
  refine List.map_congr_left fun i _ => ?_
  simp only [Function.comp, star_mul', h (tensD i), Complex.star_def, Complex.conj_ofReal]

theorem tens_legal (i : OrbLabel) (a : Tens) (h : tens i = some a) : a.legal ∧ a.shell = shell i ∧ a = tensD i := by
  refine ⟨?_, ?_, by rw [tensD, h]; rfl⟩
  · rcases i with _ | ⟨_ | _ | _⟩ | ⟨_ | _ | _, _ | _ | _⟩ | _ | _ | _ <;> simp only [tens, Option.some.injEq, reduceCtorEq] at h <;>
      subst h <;> first | trivial | (constructor
                                     · ext x y; fin_cases x <;> fin_cases y <;> rfl
                                     · simp [Matrix.trace, Fin.sum_univ_three] <;> norm_num)
  · rcases i with _ | ⟨_ | _ | _⟩ | ⟨_ | _ | _, _ | _ | _⟩ | _ | _ | _ <;> simp only [tens, Option.some.injEq, reduceCtorEq] at h <;>
      subst h <;> rfl

theorem rot_legal (R : Mat3 ℝ) (hR : R * R.transpose = 1) (a : Tens) (h : a.legal) : (a.rot R).legal ∧ (a.rot R).shell = a.shell := by
  have hR' : R.transpose * R = 1 := mul_eq_one_comm.1 hR
  refine ⟨?_, by cases a <;> rfl⟩
  cases a with
  | s c => trivial
  | p a => trivial
  | d A =>
    refine ⟨?_, ?_⟩
    · rw [Matrix.transpose_mul, Matrix.transpose_mul, Matrix.transpose_transpose, h.1, Matrix.mul_assoc]
    · rw [Matrix.trace_mul_comm, ← Matrix.mul_assoc, hR', Matrix.one_mul, h.2]

theorem shell_legal (i i' : OrbLabel) (a : Tens) (h : tens i = some a) (h' : i' ∈ shell i) : ∃ a', tens i' = some a' := by
  rcases i with _ | ⟨_ | _ | _⟩ | ⟨_ | _ | _, _ | _ | _⟩ | _ | _ | _ <;> simp only [tens, reduceCtorEq] at h <;>
    simp only [shell, List.mem_cons, List.not_mem_nil, or_false] at h' <;>
    first
    | (subst h'; exact ⟨_, rfl⟩)
    | (rcases h' with rfl | rfl | rfl <;> exact ⟨_, rfl⟩)
    | (rcases h' with rfl | rfl | rfl | rfl | rfl <;> exact ⟨_, rfl⟩)

end Verif.SK

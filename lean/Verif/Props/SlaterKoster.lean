import Verif.Proof.SlaterKoster

/-! # Slater-Koster integrals: C40, C41 -/

namespace Verif.Props
open SK

/-- C40: for real parameters and every bond longer than 1e-15 the hopping returned for a pair of legal labels is the
rotation-invariant two-centre integral of the corresponding orbitals; `n` is the unit vector along the bond. -/
theorem C40_tensor (v : Par) (hv : v.real) (r : Vec3 ℝ) (h : 1.0e-15 < norm3 r) (i j : OrbLabel) (a b : Tens)
    (ha : tens i = some a) (hb : tens j = some b) :
    eval v r i j = .ok (twoCentre v (fun x => r x / norm3 r) a b) := by
  rw [eval_value v r (not_le.2 h) i j a b ha hb, conj_real v hv, ite_self]
  rfl

/-- C40: the expression is invariant under simultaneous rotation (or reflection) of bond and orbitals. -/
theorem C40_invariant (v : Par) (R : Mat3 ℝ) (hR : R * R.transpose = 1) (n : Vec3 ℝ) (a b : Tens) :
    twoCentre v (R.mulVec n) (a.rot R) (b.rot R) = twoCentre v n a b := twoCentre_rot v R hR n a b

/-- C40: rotating the bond and the two orbitals together leaves the hopping unchanged; the rotated orbitals are expanded
in the orbitals of their shells. -/
theorem C40_rotation (v : Par) (hv : v.real) (R : Mat3 ℝ) (hR : R * R.transpose = 1) (r : Vec3 ℝ) (h : 1.0e-15 < norm3 r)
    (i j : OrbLabel) (a b : Tens) (ha : tens i = some a) (hb : tens j = some b) :
    ∃ t : OrbLabel → OrbLabel → ℂ, (∀ i' ∈ shell i, ∀ j' ∈ shell j, eval v (R.mulVec r) i' j' = .ok (t i' j')) ∧
      eval v r i j = .ok ((shell i).map fun i' => ((shell j).map fun j' =>
        (rotCoef R i' i : ℂ) * (rotCoef R j' j : ℂ) * t i' j').sum).sum := by
  refine ⟨fun i' j' => twoCentre v (dir (R.mulVec r)) (tensD i') (tensD j'), ?_, ?_⟩
  · intro i' hi' j' hj'
    obtain ⟨a', ha'⟩ := shell_legal i i' a ha hi'
    obtain ⟨b', hb'⟩ := shell_legal j j' b hb hj'
    rw [eval_value v _ (by rw [norm3_rot R hR]; exact not_le.2 h) i' j' a' b' ha' hb', conj_real v hv, ite_self]
    simp only [tensD, ha', hb', Option.getD_some]
  · rw [eval_value v r (not_le.2 h) i j a b ha hb, conj_real v hv, ite_self]
    congr 1
    have hla := rot_legal R hR a (tens_legal i a ha).1
    have hlb := rot_legal R hR b (tens_legal j b hb).1
    rw [← twoCentre_rot v R hR, dir_rot R hR, expand_left _ _ _ _ hla.1, hla.2, (tens_legal i a ha).2.1]
    congr 1
    refine List.map_congr_left fun i' hi' => ?_
    rw [expand_right _ _ _ _ hlb.1, hlb.2, (tens_legal j b hb).2.1, ← List.sum_map_mul_left]
    congr 1
    refine List.map_congr_left fun j' hj' => ?_
    obtain ⟨a', ha'⟩ := shell_legal i i' a ha hi'
    obtain ⟨b', hb'⟩ := shell_legal j j' b hb hj'
    have e1 : (tensD i').inner (a.rot R) = rotCoef R i' i := by simp only [rotCoef, tensD, ha', ha, Option.getD_some]
    have e2 : (tensD j').inner (b.rot R) = rotCoef R j' j := by simp only [rotCoef, tensD, hb', hb, Option.getD_some]
    rw [e1, e2]
    ring

/-- C40: illegal labels, and bonds of length at most 1e-15 between orbitals other than two s orbitals, raise
`ValueError`. -/
theorem C40_errors (v : Par) (r : Vec3 ℝ) (i j : OrbLabel) :
    (tens i = none ∨ tens j = none → eval v r i j = .error .value) ∧
    (norm3 r ≤ 1.0e-15 → ¬ (i = .s ∧ j = .s) → eval v r i j = .error .value) ∧ eval v r .s .s = .ok v.sss :=
  ⟨eval_illegal v r i j, eval_small v r i j, rfl⟩

/-- The nine legal labels. -/
example : (tens .s).isSome ∧ (∀ a, (tens (.p a)).isSome) ∧ (tens (.d .x .y)).isSome ∧ (tens (.d .y .z)).isSome ∧
    (tens (.d .z .x)).isSome ∧ (tens .dx2y2).isSome ∧ (tens .dz2).isSome :=
  ⟨rfl, fun a => by cases a <;> rfl, rfl, rfl, rfl, rfl, rfl⟩

/-- Parameters with one nonzero entry. -/
def onlyDds (c : ℂ) : Par := ⟨0, 0, 0, 0, 0, 0, 0, c, 0, 0⟩

/-- The sigma integral of two `dz2` orbitals along `z` is the parameter itself. -/
example : (onlyDds 2).real ∧ eval (onlyDds 2) ![0, 0, 3] .dz2 .dz2 = .ok 2 := by
  have hr : (onlyDds 2).real := by simp [Par.real, onlyDds]
  have hn : norm3 ![0, 0, 3] = 3 := by
    simp only [norm3]
    rw [show ((![0, 0, 3] : Vec3 ℝ) 0 ^ 2 + (![0, 0, 3] : Vec3 ℝ) 1 ^ 2 + (![0, 0, 3] : Vec3 ℝ) 2 ^ 2) = 3 ^ 2 by simp,
      Real.sqrt_sq (by norm_num)]
  refine ⟨hr, ?_⟩
  rw [C40_tensor _ hr _ (by rw [hn]; norm_num) .dz2 .dz2 _ _ rfl rfl, hn]
  simp [twoCentre, onlyDds, quad, dotProduct, Matrix.mulVec, Fin.sum_univ_three]

/-- C41: for real parameters the integral of the reversed bond with exchanged orbitals is the complex conjugate, for all
labels and bonds, failing calls included. -/
theorem C41_hermitian (v : Par) (hv : v.real) (r : Vec3 ℝ) (i j : OrbLabel) :
    eval v (-r) j i = (eval v r i j).map star := by
  cases ha : tens i with
  | none => rw [eval_illegal v r i j (.inl ha), eval_illegal v (-r) j i (.inr ha)]; rfl
  | some a =>
    cases hb : tens j with
    | none => rw [eval_illegal v r i j (.inr hb), eval_illegal v (-r) j i (.inl hb)]; rfl
    | some b =>
      by_cases h : norm3 r ≤ 1.0e-15
      · by_cases hs : i = .s ∧ j = .s
        · obtain ⟨rfl, rfl⟩ := hs
          show Except.ok v.sss = Except.ok (star v.sss)
          rw [show star v.sss = v.sss from Complex.conj_eq_iff_im.2 hv.1]
        · rw [eval_small v r i j h hs, eval_small v (-r) j i (by rwa [norm3_neg]) (fun hh => hs ⟨hh.2, hh.1⟩)]
          rfl
      · rw [eval_value v r h i j a b ha hb, eval_value v (-r) (by rwa [norm3_neg]) j i b a hb ha, conj_real v hv,
          ite_self, ite_self, dir_neg]
        have := twoCentre_swap v (dir r) a b
        rw [conj_real v hv] at this
        simp only [Except.map, ← this, star_star]

/-- With complex parameters the result is not Hermitian, even between equal labels. -/
theorem C41_complex_parameters : ∃ (v : Par) (r : Vec3 ℝ) (i j : OrbLabel) (t : ℂ),
    eval v (-r) j i = .ok t ∧ eval v r i j ≠ .ok (star t) := by
  have hn : norm3 ![0, 0, 1] = 1 := by
    simp [norm3]
  have h : ¬ norm3 ![0, 0, 1] ≤ 1.0e-15 := by rw [hn]; norm_num
  refine ⟨onlyDds Complex.I, ![0, 0, 1], .dz2, .dz2, Complex.I, ?_, ?_⟩
  · rw [eval_value _ _ (by rwa [norm3_neg]) .dz2 .dz2 _ _ rfl rfl, dir_neg]
    simp [swapped, isD, isP, dIndex, twoCentre, onlyDds, quad, dotProduct, Matrix.mulVec, Fin.sum_univ_three, dir, hn]
  · rw [eval_value _ _ h .dz2 .dz2 _ _ rfl rfl]
    simp [swapped, isD, isP, dIndex, twoCentre, onlyDds, quad, dotProduct, Matrix.mulVec, Fin.sum_univ_three, dir, hn]
    intro hh
    have := congrArg Complex.im hh
    norm_num at this

/-- C40 fails for complex parameters: the proper rotation `x → -y, y → -x, z → -z` exchanges the `dyz` and `dzx` orbitals,
but the hopping from `dyz` to `dzx` differs from the hopping from `dzx` to `dyz` along the rotated bond. -/
theorem C40_complex_parameters : ∃ (v : Par) (R : Mat3 ℝ) (r : Vec3 ℝ) (i j : OrbLabel) (a b : Tens),
    R * R.transpose = 1 ∧ R.det = 1 ∧ 1.0e-15 < norm3 r ∧ tens i = some a ∧ tens j = some b ∧ a.rot R = b ∧ b.rot R = a ∧
      eval v r i j ≠ eval v (R.mulVec r) j i := by
  have hR : (!![0, -1, 0; -1, 0, 0; 0, 0, -1] : Mat3 ℝ) * (!![0, -1, 0; -1, 0, 0; 0, 0, -1] : Mat3 ℝ).transpose = 1 := by
    ext x y
    fin_cases x <;> fin_cases y <;> simp [Matrix.mul_apply, Fin.sum_univ_three]
  have hn : norm3 ![3, 4, 0] = 5 := by
    simp only [norm3]
    rw [show ((![3, 4, 0] : Vec3 ℝ) 0 ^ 2 + (![3, 4, 0] : Vec3 ℝ) 1 ^ 2 + (![3, 4, 0] : Vec3 ℝ) 2 ^ 2) = 5 ^ 2 by
      norm_num [Matrix.cons_val_two], Real.sqrt_sq (by norm_num)]
  have h : ¬ norm3 ![3, 4, 0] ≤ 1.0e-15 := by rw [hn]; norm_num
  refine ⟨⟨0, 0, 0, 0, 0, 0, 0, 0, Complex.I, 0⟩, !![0, -1, 0; -1, 0, 0; 0, 0, -1], ![3, 4, 0], .d .y .z, .d .z .x, _, _,
    hR, ?_, not_le.1 h, rfl, rfl, ?_, ?_, ?_⟩
  · simp [Matrix.det_fin_three]
  · simp only [Tens.rot, Tens.d.injEq]
    ext x y
    fin_cases x <;> fin_cases y <;> simp [Matrix.mul_apply, Fin.sum_univ_three]
  · simp only [Tens.rot, Tens.d.injEq]
    ext x y
    fin_cases x <;> fin_cases y <;> simp [Matrix.mul_apply, Fin.sum_univ_three]
  · rw [eval_value _ _ h (.d .y .z) (.d .z .x) _ _ rfl rfl,
      eval_value _ _ (by rw [norm3_rot _ hR]; exact h) (.d .z .x) (.d .y .z) _ _ rfl rfl, dir_rot _ hR]
    simp [swapped, isD, isP, dIndex, twoCentre, perp, quad, dotProduct, Matrix.mulVec, Fin.sum_univ_three, dir, hn, Par.conj]
    intro hh
    have h3 : ((Real.sqrt 3 : ℝ) : ℂ) * ((Real.sqrt 3 : ℝ) : ℂ) = 3 := by
      rw [← Complex.ofReal_mul, Real.mul_self_sqrt (by norm_num)]; norm_num
    have h4 : (24 : ℂ) / 25 * Complex.I = 0 := by
      linear_combination hh - (8 / 25 * Complex.I) * h3
    norm_num at h4

end Verif.Props

import Verif.Model.Base
import Mathlib.Tactic.Linarith
import Mathlib.Tactic.FieldSimp
import Mathlib.Tactic.NormNum
import Mathlib.Tactic.Ring
import Mathlib.Tactic.FinCases
import Mathlib.Tactic.LinearCombination
import Mathlib.Tactic.Positivity
import Mathlib.LinearAlgebra.Matrix.Notation
import Mathlib.Analysis.SpecialFunctions.Trigonometric.Bounds

/-! # Properties C36-C39 and C73: lattices and k-points -/

namespace Verif

/-! ## C36 -/

section
variable {F : Type*} [Field F] [DecidableEq F]

/-- C36: converting fractional coordinates to Cartesian ones and back is the identity for every
nondegenerate lattice, every origin and every list of points. -/
theorem C36_frac_cart_frac {lat : Mat3 F} (h : lat.det ≠ 0) (o : Vec3 F) (l : List (Vec3 F)) :
    cart2frac lat (frac2cart lat l o) o = some l := by
  have ht : lat.transpose.det ≠ 0 := by rwa [Matrix.det_transpose]
  unfold cart2frac frac2cart
  rw [if_neg ht, List.map_map]
  congr 1
  conv_rhs => rw [← List.map_id l]
  refine List.map_congr_left (fun r _ => ?_)
  simp only [Function.comp, cart2fracRow, frac2cartRow, add_sub_cancel_right, id]
  rw [Matrix.mulVec_mulVec, Matrix.nonsing_inv_mul _ (isUnit_iff_ne_zero.2 ht), Matrix.one_mulVec]

/-- C36, the other direction: whenever `cart2frac` succeeds, converting back restores the points, and it
succeeds exactly for nondegenerate lattices. -/
theorem C36_cart_frac_cart (lat : Mat3 F) (o : Vec3 F) (l : List (Vec3 F)) :
    (∀ q, cart2frac lat l o = some q → frac2cart lat q o = l) ∧
      ((cart2frac lat l o).isSome ↔ lat.det ≠ 0) := by
  unfold cart2frac frac2cart
  rw [Matrix.det_transpose]
  by_cases h : lat.det = 0
  · simp [h]
  · refine ⟨?_, by simp [h]⟩
    intro q hq
    rw [if_neg h, Option.some.injEq] at hq
    subst hq
    rw [List.map_map]
    conv_rhs => rw [← List.map_id l]
    refine List.map_congr_left (fun r _ => ?_)
    have ht : lat.transpose.det ≠ 0 := by rwa [Matrix.det_transpose]
    simp only [Function.comp, cart2fracRow, frac2cartRow, id]
    rw [Matrix.mulVec_mulVec, Matrix.mul_nonsing_inv _ (isUnit_iff_ne_zero.2 ht), Matrix.one_mulVec,
      sub_add_cancel]

/-- C36: what a Cartesian coordinate is: `origin + x a_1 + y a_2 + z a_3`. -/
theorem C36_meaning (lat : Mat3 F) (o : Vec3 F) (r : Vec3 F) :
    frac2cart lat [r] o = [fun x => o x + r 0 * lat 0 x + r 1 * lat 1 x + r 2 * lat 2 x] := by
  simp only [frac2cart, List.map_cons, List.map_nil, frac2cartRow, List.cons.injEq, and_true]
  funext x
  simp [Matrix.mulVec, dotProduct, Fin.sum_univ_three]
  ring
end

/-- C36: reciprocal vectors satisfy `a_i . b_j = 2 pi delta_ij`; they exist exactly for
nondegenerate lattices. -/
theorem C36_reciprocal (lat : Mat3 ℝ) :
    (∀ B, genReciprocal lat = some B →
      ∀ i j, dotProduct (lat i) (B j) = if i = j then 2 * Real.pi else 0) ∧
    ((genReciprocal lat).isSome ↔ lat.det ≠ 0) := by
  unfold genReciprocal
  by_cases h : lat.det = 0
  · simp [h]
  · refine ⟨?_, by simp [h]⟩
    intro B hB i j
    rw [if_neg h, Option.some.injEq] at hB
    subst hB
    have e : lat.mulVec (lat⁻¹.mulVec (fun k => 2 * Real.pi * (if j = k then 1 else 0))) i =
        2 * Real.pi * (if j = i then 1 else 0) := by
      rw [Matrix.mulVec_mulVec, Matrix.mul_nonsing_inv _ (isUnit_iff_ne_zero.2 h), Matrix.one_mulVec]
    have e2 : dotProduct (lat i) (lat⁻¹.mulVec (fun k => 2 * Real.pi * (if j = k then 1 else 0))) =
        2 * Real.pi * (if j = i then 1 else 0) := e
    refine e2.trans ?_
    by_cases hij : i = j
    · rw [if_pos hij.symm, if_pos hij, mul_one]
    · rw [if_neg (Ne.symm hij), if_neg hij, mul_zero]

/-- A hexagonal lattice meets the hypothesis. -/
example : (!![1, 0, 0; 1 / 2, 1, 0; 0, 0, 3] : Mat3 ℚ).det ≠ 0 := by
  simp [Matrix.det_fin_three]

/-! ## C37 -/

private theorem rot_dot (ax : Axis) (t : ℝ) (v w : Vec3 ℝ) :
    dotProduct ((rotMat ax t).mulVec v) ((rotMat ax t).mulVec w) = dotProduct v w := by
  have h := Real.sin_sq_add_cos_sq t
  cases ax <;> simp [rotMat, axisVec, Matrix.mulVec, dotProduct, Fin.sum_univ_three, Matrix.vecMulVec,
      Matrix.add_apply, Matrix.smul_apply, Matrix.one_apply]
  · linear_combination (v 1 * w 1 + v 2 * w 2) * h
  · linear_combination (v 0 * w 0 + v 2 * w 2) * h
  · linear_combination (v 0 * w 0 + v 1 * w 1) * h

private theorem rot_det (ax : Axis) (t : ℝ) : (rotMat ax t).det = 1 := by
  have h := Real.sin_sq_add_cos_sq t
  cases ax <;> simp [rotMat, axisVec, Matrix.det_fin_three, Matrix.vecMulVec] <;> linear_combination h

private theorem rot_add (ax : Axis) (s t : ℝ) : rotMat ax t * rotMat ax s = rotMat ax (s + t) := by
  ext i j
  fin_cases i <;> fin_cases j <;> cases ax <;>
    simp [rotMat, axisVec, Matrix.vecMulVec, Matrix.mul_apply, Fin.sum_univ_three, Real.cos_add, Real.sin_add] <;>
    ring

/-- C37 (arrays of floats): any rotation keeps all distances and the orientation of any four points.
What is missing for the full claim: integer coordinates, see `C37_integer_coordinates`. -/
theorem C37_rigid_partial (t : ℝ) (ax : Axis) (c p q r s : Vec3 ℝ) :
    ∃ p' q' r' s', rotateCoord [p, q, r, s] t ax c = [p', q', r', s'] ∧
      dotProduct (q' - p') (q' - p') = dotProduct (q - p) (q - p) ∧
      (Matrix.of ![q' - p', r' - p', s' - p']).det = (Matrix.of ![q - p, r - p, s - p]).det := by
  refine ⟨_, _, _, _, rfl, ?_, ?_⟩
  · rw [add_sub_add_right_eq_sub, ← Matrix.mulVec_sub, sub_sub_sub_cancel_right, rot_dot]
  · rw [add_sub_add_right_eq_sub, add_sub_add_right_eq_sub, add_sub_add_right_eq_sub,
      ← Matrix.mulVec_sub, ← Matrix.mulVec_sub, ← Matrix.mulVec_sub, sub_sub_sub_cancel_right,
      sub_sub_sub_cancel_right, sub_sub_sub_cancel_right]
    have e : (Matrix.of ![(rotMat ax t).mulVec (q - p), (rotMat ax t).mulVec (r - p),
        (rotMat ax t).mulVec (s - p)]) = Matrix.of ![q - p, r - p, s - p] * (rotMat ax t).transpose := by
      ext i j
      fin_cases i <;> simp [Matrix.mul_apply, Matrix.mulVec, dotProduct, mul_comm]
    rw [e, Matrix.det_mul, Matrix.det_transpose, rot_det, mul_one]

/-- C37: the rotation acts on each point separately and in place. -/
theorem C37_pointwise (l : List (Vec3 ℝ)) (t : ℝ) (ax : Axis) (c : Vec3 ℝ) :
    (rotateCoord l t ax c).length = l.length ∧
      ∀ (k : ℕ) (p : Vec3 ℝ), l[k]? = some p → ∃ p', rotateCoord [p] t ax c = [p'] ∧ (rotateCoord l t ax c)[k]? = some p' := by
  refine ⟨by simp [rotateCoord], fun k p hk => ⟨_, rfl, ?_⟩⟩
  simp [rotateCoord, hk]

/-- C37: the points of the axis through the center stay fixed. -/
theorem C37_axis_fixed (t u : ℝ) (ax : Axis) (c : Vec3 ℝ) :
    rotateCoord [c + u • axisVec ax] t ax c = [c + u • axisVec ax] := by
  simp only [rotateCoord, List.map_cons, List.map_nil, add_sub_cancel_left, List.cons.injEq, and_true]
  rw [add_comm]
  congr 1
  funext x
  fin_cases x <;> cases ax <;>
    simp [rotMat, axisVec, Matrix.mulVec, dotProduct, Fin.sum_univ_three, Matrix.vecMulVec]

/-- C37: rotations about the same axis and center add up; the zero rotation is the identity. -/
theorem C37_compose (l : List (Vec3 ℝ)) (s t : ℝ) (ax : Axis) (c : Vec3 ℝ) :
    rotateCoord (rotateCoord l s ax c) t ax c = rotateCoord l (s + t) ax c ∧ rotateCoord l 0 ax c = l := by
  constructor
  · simp only [rotateCoord, List.map_map]
    refine List.map_congr_left (fun r _ => ?_)
    simp only [Function.comp, add_sub_cancel_right]
    rw [Matrix.mulVec_mulVec, rot_add]
  · have : rotMat ax 0 = 1 := by
      ext i j
      fin_cases i <;> fin_cases j <;> simp [rotMat]
    simp [rotateCoord, this]

/-- C37, right-hand rule: a rotation about z turns the x direction towards y; cyclically. -/
theorem C37_right_hand (t : ℝ) :
    rotateCoord [![1, 0, 0]] t .z 0 = [![Real.cos t, Real.sin t, 0]] ∧
    rotateCoord [![0, 1, 0]] t .x 0 = [![0, Real.cos t, Real.sin t]] ∧
    rotateCoord [![0, 0, 1]] t .y 0 = [![Real.sin t, 0, Real.cos t]] := by
  refine ⟨?_, ?_, ?_⟩ <;>
  · simp only [rotateCoord, List.map_cons, List.map_nil, List.cons.injEq, and_true]
    funext x
    fin_cases x <;> simp [rotMat, axisVec, Matrix.mulVec, dotProduct, Fin.sum_univ_three, Matrix.vecMulVec]

/-- C37 fails for integer coordinates: rotating the integer point `(1, 0, 0)` by 45 degrees
gives the origin, because the result is truncated to integers. -/
theorem C37_integer_coordinates :
    rotateCoordInt [![1, 0, 0]] (Real.pi / 4) .z 0 = [![0, 0, 0]] := by
  have h2 : Real.sqrt 2 / 2 < 1 := by
    rw [div_lt_one (by norm_num)]
    rw [show (2 : ℝ) = Real.sqrt 4 by rw [show (4 : ℝ) = 2 ^ 2 by norm_num]; simp]
    exact Real.sqrt_lt_sqrt (by norm_num) (by norm_num)
  have h0 : 0 ≤ Real.sqrt 2 / 2 := by positivity
  have hf : ⌊Real.sqrt 2 / 2⌋ = 0 := by
    rw [Int.floor_eq_iff]; exact ⟨by simpa using h0, by simpa using h2⟩
  simp only [rotateCoordInt, List.map_cons, List.map_nil, List.cons.injEq, and_true]
  funext x
  fin_cases x <;> simp [rotMat, axisVec, Matrix.mulVec, dotProduct, Fin.sum_univ_three, Matrix.vecMulVec,
    truncInt, hf] <;> exact fun h => absurd h (not_lt.2 h0)

/-! ## C38 -/

/-- C38: the lattice vectors are, up to the documented removal of components below `1e-15`, vectors
with the requested lengths and angles (in degrees: `alpha` between a2 and a3, `beta` between a3
and a1, `gamma` between a1 and a2), a1 along x and a2 in the upper half of the xy plane. -/
theorem C38_lattice_vectors {a b c alpha beta gamma : ℝ} {L : Mat3 ℝ}
    (h : genLatticeVectors a b c alpha beta gamma = some L) :
    ∃ V : Mat3 ℝ,
      (dotProduct (V 0) (V 0) = a ^ 2 ∧ dotProduct (V 1) (V 1) = b ^ 2 ∧ dotProduct (V 2) (V 2) = c ^ 2) ∧
      (dotProduct (V 1) (V 2) = b * c * Real.cos (alpha * Real.pi / 180) ∧
       dotProduct (V 2) (V 0) = c * a * Real.cos (beta * Real.pi / 180) ∧
       dotProduct (V 0) (V 1) = a * b * Real.cos (gamma * Real.pi / 180)) ∧
      V 0 = ![a, 0, 0] ∧ V 1 2 = 0 ∧
      ∀ i j, (1e-15 ≤ |V i j| → L i j = V i j) ∧ (|V i j| < 1e-15 → L i j = 0) := by
  unfold genLatticeVectors at h
  split_ifs at h with h1
  push Not at h1
  rw [Option.some.injEq] at h
  have ea : alpha / 180 * Real.pi = alpha * Real.pi / 180 := by ring
  have eb : beta / 180 * Real.pi = beta * Real.pi / 180 := by ring
  have eg : gamma / 180 * Real.pi = gamma * Real.pi / 180 := by ring
  rw [ea, eb, eg] at h1
  obtain ⟨h2, h3⟩ := h1
  have sg := Real.sin_sq_add_cos_sq (gamma * Real.pi / 180)
  refine ⟨genLatRaw a b c alpha beta gamma, ⟨?_, ?_, ?_⟩, ⟨?_, ?_, ?_⟩, ?_, ?_, ?_⟩
  · simp [genLatRaw, dotProduct, Fin.sum_univ_three]; ring
  · simp [genLatRaw, dotProduct, Fin.sum_univ_three, eg]; linear_combination b ^ 2 * sg
  · have hs := Real.mul_self_sqrt h2
    simp only [genLatRaw, dotProduct, Fin.sum_univ_three, ea, eb, eg]
    simp only [Matrix.cons_val', Matrix.cons_val, Matrix.of_apply]
    generalize hX : Real.sqrt _ = X at hs ⊢
    unfold latRad at hs
    generalize Real.cos (alpha * Real.pi / 180) = x at *
    generalize Real.cos (beta * Real.pi / 180) = y at *
    generalize Real.cos (gamma * Real.pi / 180) = z at *
    generalize Real.sin (gamma * Real.pi / 180) = w at *
    field_simp
    linear_combination c ^ 2 * hs + c ^ 2 * (y ^ 2 - 1) * sg
  · simp [genLatRaw, dotProduct, Fin.sum_univ_three, ea, eb, eg]
    field_simp
    ring
  · simp [genLatRaw, dotProduct, Fin.sum_univ_three, eb]; ring
  · simp [genLatRaw, dotProduct, Fin.sum_univ_three, eg]; ring
  · funext i
    fin_cases i <;> simp [genLatRaw]
  · simp [genLatRaw]
  · intro i j
    rw [← h]
    simp only [Matrix.map_apply, cleanEntry]
    exact ⟨fun hh => if_neg (not_lt.2 hh), fun hh => if_pos hh⟩

/-- C38: the call succeeds exactly for admissible angles. -/
theorem C38_admissible (a b c alpha beta gamma : ℝ) :
    (genLatticeVectors a b c alpha beta gamma).isSome ↔
      (let x := Real.cos (alpha * Real.pi / 180)
       let y := Real.cos (beta * Real.pi / 180)
       let z := Real.cos (gamma * Real.pi / 180)
       0 ≤ 1 + 2 * x * y * z - x ^ 2 - y ^ 2 - z ^ 2 ∧ Real.sin (gamma * Real.pi / 180) ≠ 0) := by
  have ea : alpha / 180 * Real.pi = alpha * Real.pi / 180 := by ring
  have eb : beta / 180 * Real.pi = beta * Real.pi / 180 := by ring
  have eg : gamma / 180 * Real.pi = gamma * Real.pi / 180 := by ring
  unfold genLatticeVectors latRad
  rw [ea, eb, eg]
  split_ifs with h
  · simp only [Option.isSome_none, Bool.false_eq_true, false_iff]
    rintro ⟨h1, h2⟩
    rcases h with h | h
    · linarith
    · exact h2 h
  · push Not at h
    simp only [Option.isSome_some, true_iff]
    exact h

/-- C38: the volume is the modulus of the determinant (the triple product), and the areas satisfy
Lagrange's identity `area^2 = |u|^2 |v|^2 - (u . v)^2` for the two vectors spanning the face. -/
theorem C38_volume_area (L : Mat3 ℝ) :
    latticeVolume L = |L.det| ∧
    latticeArea L 2 ^ 2 = dotProduct (L 0) (L 0) * dotProduct (L 1) (L 1) - dotProduct (L 0) (L 1) ^ 2 ∧
    latticeArea L 0 ^ 2 = dotProduct (L 1) (L 1) * dotProduct (L 2) (L 2) - dotProduct (L 1) (L 2) ^ 2 ∧
    latticeArea L 1 ^ 2 = dotProduct (L 2) (L 2) * dotProduct (L 0) (L 0) - dotProduct (L 2) (L 0) ^ 2 ∧
    ∀ d, 0 ≤ latticeArea L d := by
  refine ⟨?_, ?_, ?_, ?_, ?_⟩
  · unfold latticeVolume
    congr 1
    simp [cross_apply, dotProduct, Fin.sum_univ_three, Matrix.det_fin_three]
    ring
  all_goals try
    unfold latticeArea norm3
    simp only []
    rw [Real.sq_sqrt (by positivity)]
    simp [cross_apply, dotProduct, Fin.sum_univ_three]
    ring
  intro d
  fin_cases d <;> exact Real.sqrt_nonneg _

/-- C38: the volume of the lattice with the requested parameters, in terms of the parameters. -/
theorem C38_volume_value {a b c alpha beta gamma : ℝ} {L : Mat3 ℝ} (ha : 0 < a) (hb : 0 < b) (hc : 0 < c)
    (h : genLatticeVectors a b c alpha beta gamma = some L)
    (hclean : ∀ i j, genLatRaw a b c alpha beta gamma i j = 0 ∨ 1e-15 ≤ |genLatRaw a b c alpha beta gamma i j|) :
    let x := Real.cos (alpha * Real.pi / 180)
    let y := Real.cos (beta * Real.pi / 180)
    let z := Real.cos (gamma * Real.pi / 180)
    latticeVolume L = a * b * c * Real.sqrt (1 + 2 * x * y * z - x ^ 2 - y ^ 2 - z ^ 2) := by
  intro x y z
  unfold genLatticeVectors at h
  split_ifs at h with h1
  push Not at h1
  rw [Option.some.injEq] at h
  have hL : L = genLatRaw a b c alpha beta gamma := by
    rw [← h]
    ext i j
    simp only [Matrix.map_apply, cleanEntry]
    rcases hclean i j with h0 | h0
    · rw [h0]; simp
    · rw [if_neg (not_lt.2 h0)]
  have ea : alpha / 180 * Real.pi = alpha * Real.pi / 180 := by ring
  have eb : beta / 180 * Real.pi = beta * Real.pi / 180 := by ring
  have eg : gamma / 180 * Real.pi = gamma * Real.pi / 180 := by ring
  rw [(C38_volume_area L).1, hL]
  rw [ea, eb, eg] at h1
  have hs : Real.sin (gamma * Real.pi / 180) ≠ 0 := h1.2
  have : (genLatRaw a b c alpha beta gamma).det = a * b * c * Real.sqrt (1 + 2 * x * y * z - x ^ 2 - y ^ 2 - z ^ 2) := by
    simp [genLatRaw, Matrix.det_fin_three, latRad, ea, eb, eg]
    field_simp
    simp only [x, y, z, mul_comm Real.pi alpha, mul_comm Real.pi beta]
  rw [this, abs_of_nonneg]
  positivity

/-- A monoclinic-like admissible set of parameters. -/
example : (genLatticeVectors 1 2 3 90 90 90).isSome := by
  rw [C38_admissible]
  have : (90 : ℝ) * Real.pi / 180 = Real.pi / 2 := by ring
  simp [this]

/-! ## C39 -/

private theorem kSegments_length : ∀ (num : List ℕ) (hs : List (Vec3 ℝ)), hs.length = num.length + 1 →
    (kSegments hs num).length = num.sum
  | [], [_], _ => rfl
  | n :: ns, k0 :: k1 :: ks, h => by
    simp only [kSegments, List.length_append, List.sum_cons]
    rw [kSegments_length ns (k1 :: ks) (by simpa using h)]
    simp [kSegment]
  | [], [], h => by simp at h
  | [], _ :: _ :: _, h => by simp at h
  | _ :: _, [], h => by simp at h
  | _ :: _, [_], h => by simp at h

private theorem kSegments_get : ∀ (num : List ℕ) (hs : List (Vec3 ℝ)), hs.length = num.length + 1 →
    ∀ (i j n : ℕ) (k0 k1 : Vec3 ℝ), num[i]? = some n → j < n → hs[i]? = some k0 → hs[i + 1]? = some k1 →
    (kSegments hs num)[(num.take i).sum + j]? = some (k0 + ((j : ℝ) / n) • (k1 - k0))
  | n :: ns, k0 :: k1 :: ks, h => by
    intro i j m q0 q1 hn hj h0 h1
    cases i with
    | zero =>
      simp at hn h0 h1
      subst hn h0 h1
      simp only [List.take_zero, List.sum_nil, zero_add, kSegments]
      rw [List.getElem?_append_left (by simpa [kSegment] using hj)]
      simp [kSegment, List.getElem?_range hj]
    | succ i =>
      simp only [List.getElem?_cons_succ] at hn h0 h1
      simp only [List.take_succ_cons, List.sum_cons, kSegments]
      rw [List.getElem?_append_right (by simp [kSegment]; omega)]
      rw [show n + (ns.take i).sum + j - (kSegment k0 k1 n).length = (ns.take i).sum + j by
        simp [kSegment]; omega]
      exact kSegments_get ns (k1 :: ks) (by simpa using h) i j m q0 q1 hn hj h0 h1
  | [], _, _ => by intro i j n k0 k1 hn; simp at hn
  | _ :: _, [], h => by simp at h
  | _ :: _, [_], h => by simp at h

/-- C39: a path has `sum(num) + 1` points; the points of segment `i` start at the reported index of the
`i`-th high-symmetry point and divide the segment evenly; the last point is the last
high-symmetry point and its reported index is correct. -/
theorem C39_kpath_partial {hs : List (Vec3 ℝ)} {num : List ℕ} {path : List (Vec3 ℝ)} {idx : List ℕ}
    (h : genKpath hs num = some (path, idx)) :
    path.length = num.sum + 1 ∧ idx.length = hs.length ∧
    (∀ (i n : ℕ) (k0 k1 : Vec3 ℝ), num[i]? = some n → hs[i]? = some k0 → hs[i + 1]? = some k1 →
      ∃ p, idx[i]? = some p ∧ ∀ j < n, path[p + j]? = some (k0 + ((j : ℝ) / n) • (k1 - k0))) ∧
    (∀ (i n : ℕ) (k0 : Vec3 ℝ), num[i]? = some n → 0 < n → hs[i]? = some k0 →
      ∃ p, idx[i]? = some p ∧ path[p]? = some k0) ∧
    (∃ p k, idx[num.length]? = some p ∧ hs[num.length]? = some k ∧ path[p]? = some k ∧ p + 1 = path.length) := by
  unfold genKpath at h
  split_ifs at h with hl
  push Not at hl
  simp only [Option.some.injEq, Prod.mk.injEq] at h
  obtain ⟨rfl, rfl⟩ := h
  have hlen := kSegments_length num hs hl
  have hidx : ∀ i < num.length + 1, ((List.range (num.length + 1)).map (fun i => (num.take i).sum))[i]? =
      some (num.take i).sum := by
    intro i hi
    rw [List.getElem?_map, List.getElem?_range hi]; rfl
  have hseg : ∀ (i n : ℕ) (k0 k1 : Vec3 ℝ), num[i]? = some n → hs[i]? = some k0 → hs[i + 1]? = some k1 →
      ∃ p, ((List.range (num.length + 1)).map (fun i => (num.take i).sum))[i]? = some p ∧
        ∀ j < n, (kSegments hs num ++ [hs.getLastD 0])[p + j]? = some (k0 + ((j : ℝ) / n) • (k1 - k0)) := by
    intro i n k0 k1 hn h0 h1
    have hi : i < num.length := (List.getElem?_eq_some_iff.1 hn).1
    refine ⟨_, hidx i (by omega), fun j hj => ?_⟩
    have := kSegments_get num hs hl i j n k0 k1 hn hj h0 h1
    rw [List.getElem?_append_left (List.getElem?_eq_some_iff.1 this).1]
    exact this
  refine ⟨by simp [hlen], by simp [hl], hseg, ?_, ?_⟩
  · intro i n k0 hn hpos h0
    have hi : i < num.length := (List.getElem?_eq_some_iff.1 hn).1
    have h1 : hs[i + 1]? = some hs[i + 1] := List.getElem?_eq_getElem (by omega)
    obtain ⟨p, hp, hq⟩ := hseg i n k0 _ hn h0 h1
    refine ⟨p, hp, ?_⟩
    have := hq 0 hpos
    simpa using this
  · refine ⟨num.sum, hs[num.length]'(by omega), ?_, List.getElem?_eq_getElem (by omega), ?_, by simp [hlen]⟩
    · rw [hidx _ (by omega)]; simp
    · rw [List.getElem?_append_right (by omega), hlen]
      simp only [Nat.sub_self, List.getElem?_cons_zero, Option.some.injEq]
      rw [List.getLastD_eq_getLast?, List.getLast?_eq_getElem?]
      simp [hl]

/-- C39: the call fails exactly if the number of segments is wrong. -/
theorem C39_kpath_total (hs : List (Vec3 ℝ)) (num : List ℕ) :
    (genKpath hs num).isSome ↔ hs.length = num.length + 1 := by
  unfold genKpath; split_ifs with h <;> simp [h]
  push Not at h; exact h

example : (genKpath [![0, 0, 0], ![1/2, 0, 0], ![2/3, 1/3, 0]] [40, 40]).isSome := by
  rw [C39_kpath_total]; rfl

/-- C39 fails for segments without points: the reported index of the first of three high-symmetry
points refers to the second one. -/
theorem C39_empty_segment :
    ∃ path idx, genKpath [![0, 0, 0], ![1, 0, 0], ![1, 1, 0]] [0, 1] = some (path, idx) ∧
      ∃ p, idx[0]? = some p ∧ path[p]? = some ![1, 0, 0] := by
  refine ⟨_, _, by simp [genKpath]; exact ⟨rfl, rfl⟩, 0, by decide, ?_⟩
  simp [kSegments, kSegment]

private theorem linspace_mesh {n : ℕ} (hn : n ≠ 0) :
    linspace 0 (1 - 1 / n) n = (List.range n).map (fun i : ℕ => (i : ℝ) / n) := by
  unfold linspace
  refine List.map_congr_left (fun i hi => ?_)
  rw [List.mem_range] at hi
  have hn' : (n : ℝ) ≠ 0 := by exact_mod_cast hn
  by_cases h1 : n = 1
  · subst h1
    have : i = 0 := by omega
    simp [this]
  · have : (n : ℝ) - 1 ≠ 0 := by
      intro h; apply h1
      have : (n : ℝ) = 1 := by linarith
      exact_mod_cast this
    field_simp
    ring

/-- C39: the mesh consists of the points `(i/na, j/nb, k/nc)`, each exactly once, in lexicographic
order. -/
theorem C39_kmesh {na nb nc : ℕ} {mesh : List (Vec3 ℝ)} (h : genKmesh [na, nb, nc] = some mesh) :
    mesh = ((List.range na).flatMap fun i : ℕ => (List.range nb).flatMap fun j : ℕ => (List.range nc).map fun k : ℕ =>
      (![(i : ℝ) / na, (j : ℝ) / nb, (k : ℝ) / nc] : Vec3 ℝ)) ∧
    mesh.length = na * nb * nc ∧ mesh.Nodup ∧
    ∀ p, p ∈ mesh ↔ ∃ i j k : ℕ, i < na ∧ j < nb ∧ k < nc ∧ p = ![(i : ℝ) / na, (j : ℝ) / nb, (k : ℝ) / nc] := by
  simp only [genKmesh] at h
  split_ifs at h with h0
  push Not at h0
  rw [Option.some.injEq] at h
  rw [linspace_mesh h0.1, linspace_mesh h0.2.1, linspace_mesh h0.2.2] at h
  have e : mesh = ((List.range na).flatMap fun i : ℕ => (List.range nb).flatMap fun j : ℕ => (List.range nc).map fun k : ℕ =>
      (![(i : ℝ) / na, (j : ℝ) / nb, (k : ℝ) / nc] : Vec3 ℝ)) := by
    rw [← h]
    simp only [List.flatMap_map, List.map_map]
    rfl
  have inj : ∀ (n i j : ℕ), n ≠ 0 → (i : ℝ) / n = (j : ℝ) / n → i = j := by
    intro n i j hn hij
    have hn' : (n : ℝ) ≠ 0 := by exact_mod_cast hn
    rw [div_left_inj' hn'] at hij
    exact_mod_cast hij
  refine ⟨e, ?_, ?_, ?_⟩
  · rw [e]; simp [List.length_flatMap, mul_assoc]
  · rw [e]
    rw [List.nodup_flatMap]
    refine ⟨fun i _ => ?_, ?_⟩
    · rw [List.nodup_flatMap]
      refine ⟨fun j _ => ?_, ?_⟩
      · refine List.Nodup.map ?_ List.nodup_range
        intro k l hkl
        have := congrFun hkl 2
        simp only [Matrix.cons_val] at this
        exact inj nc k l h0.2.2 this
      · refine List.Pairwise.imp_of_mem ?_ (List.nodup_range (n := nb))
        intro j j' _ _ hne
        simp only [Function.onFun]
        rw [List.disjoint_left]
        intro p hp hp'
        simp only [List.mem_map, List.mem_range] at hp hp'
        obtain ⟨k, _, rfl⟩ := hp
        obtain ⟨k', _, h'⟩ := hp'
        have := congrFun h' 1
        simp only [Matrix.cons_val] at this
        exact hne (inj nb j' j h0.2.1 this).symm
    · refine List.Pairwise.imp_of_mem ?_ (List.nodup_range (n := na))
      intro i i' _ _ hne
      simp only [Function.onFun]
      rw [List.disjoint_left]
      intro p hp hp'
      simp only [List.mem_map, List.mem_range, List.mem_flatMap] at hp hp'
      obtain ⟨j, _, k, _, rfl⟩ := hp
      obtain ⟨j', _, k', _, h'⟩ := hp'
      have := congrFun h' 0
      simp only [Matrix.cons_val] at this
      exact hne (inj na i' i h0.1 this).symm
  · intro p
    rw [e]
    simp only [List.mem_map, List.mem_range, List.mem_flatMap]
    constructor
    · rintro ⟨i, hi, j, hj, k, hk, rfl⟩; exact ⟨i, j, k, hi, hj, hk, rfl⟩
    · rintro ⟨i, j, k, hi, hj, hk, rfl⟩; exact ⟨i, hi, j, hj, k, hk, rfl⟩

/-- C39: the mesh exists for all positive sizes. -/
theorem C39_kmesh_total {na nb nc : ℕ} (h : 0 < na ∧ 0 < nb ∧ 0 < nc) : (genKmesh [na, nb, nc]).isSome := by
  simp only [genKmesh]
  rw [if_neg (by omega)]; rfl

/-! ## C73 -/

private theorem kdistLoop_spec : ∀ (ks : List (Vec3 ℝ)) (p : Vec3 ℝ) (d : ℝ),
    (kdistLoop p d ks).length = ks.length ∧
    ∀ i (x y : Vec3 ℝ) (u v : ℝ), (p :: ks)[i]? = some x → (p :: ks)[i + 1]? = some y →
      (d :: kdistLoop p d ks)[i]? = some u → (d :: kdistLoop p d ks)[i + 1]? = some v → v = u + norm3 (y - x) := by
  intro ks
  induction ks with
  | nil => intro p d; exact ⟨rfl, by intro i x y u v _ h; simp at h⟩
  | cons k ks ih =>
    intro p d
    obtain ⟨h1, h2⟩ := ih k (d + norm3 (k - p))
    refine ⟨by simp [kdistLoop, h1], ?_⟩
    intro i x y u v hx hy hu hv
    cases i with
    | zero =>
      simp [kdistLoop] at hx hy hu hv
      subst hx hy hu hv; rfl
    | succ i =>
      rw [List.getElem?_cons_succ] at hx hy hu hv
      exact h2 i x y u v hx hy hu hv

/-- C73: the distances along a path start at zero, there is one per k-point, and consecutive ones
differ by the Euclidean distance of the k-points in Cartesian reciprocal coordinates; so they do
not decrease. -/
theorem C73_kdist {lat : Mat3 ℝ} {kpts : List (Vec3 ℝ)} {dist : List ℝ} (h : genKdist lat kpts = some dist) :
    dist.length = kpts.length ∧ (∀ d, dist[0]? = some d → d = 0) ∧
    ∃ B, genReciprocal lat = some B ∧
    ∀ i (k k' : Vec3 ℝ) (d d' : ℝ), kpts[i]? = some k → kpts[i + 1]? = some k' → dist[i]? = some d →
      dist[i + 1]? = some d' →
      d ≤ d' ∧ d' = d + norm3 (fun x => ∑ a, (k' a - k a) * B a x) := by
  unfold genKdist at h
  cases hB : genReciprocal lat with
  | none => simp [hB] at h
  | some B =>
    simp only [hB] at h
    have hnn : ∀ v, 0 ≤ norm3 v := fun v => Real.sqrt_nonneg _
    cases kpts with
    | nil =>
      simp [frac2cart] at h
      subst h
      exact ⟨rfl, by simp, B, rfl, by simp⟩
    | cons k0 ks =>
      simp only [frac2cart, List.map_cons, Option.some.injEq] at h
      subst h
      obtain ⟨h1, h2⟩ := kdistLoop_spec (ks.map (frac2cartRow B 0)) (frac2cartRow B 0 k0) 0
      refine ⟨by simp [h1], by simp, B, rfl, ?_⟩
      intro i k k' d d' hk hk' hd hd'
      have e1 : (frac2cartRow B 0 k0 :: ks.map (frac2cartRow B 0))[i]? = some (frac2cartRow B 0 k) := by
        rw [← List.map_cons (f := frac2cartRow B 0), List.getElem?_map, hk]; rfl
      have e2 : (frac2cartRow B 0 k0 :: ks.map (frac2cartRow B 0))[i + 1]? = some (frac2cartRow B 0 k') := by
        rw [← List.map_cons (f := frac2cartRow B 0), List.getElem?_map, hk']; rfl
      have := h2 i _ _ d d' e1 e2 hd hd'
      have e3 : frac2cartRow B 0 k' - frac2cartRow B 0 k = fun x => ∑ a, (k' a - k a) * B a x := by
        funext x
        simp [frac2cartRow, Matrix.mulVec, dotProduct, Fin.sum_univ_three]
        ring
      rw [e3] at this
      exact ⟨by rw [this]; linarith [hnn (fun x => ∑ a, (k' a - k a) * B a x)], this⟩

/-- C73: distances exist for every nondegenerate lattice and list of k-points. -/
theorem C73_kdist_total {lat : Mat3 ℝ} (h : lat.det ≠ 0) (kpts : List (Vec3 ℝ)) :
    (genKdist lat kpts).isSome := by
  unfold genKdist
  cases hB : genReciprocal lat with
  | none => unfold genReciprocal at hB; rw [if_neg h] at hB; simp at hB
  | some B =>
    simp only []
    cases frac2cart B kpts 0 <;> rfl

end Verif

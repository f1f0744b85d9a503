import Verif.Spec.Thickness
import Verif.Spec.CellChoice
import Verif.Props.Conserved

/-! # C147: the height of the cell of a layer -/

namespace Verif.Props

section Layer

variable {L : Lind} {D : Diag} {A : Mat3 ℝ}

theorem layer_pairs {N : ℕ} {m m' : IMat} (h : ∀ i < N, ∀ j < N, m' i j = m i j) {q : (ℕ → ℝ) × (ℕ → ℕ → ℂ)} (hq : Eigenpairs N N m' q) :
    Eigenpairs N N m q := by
  refine ⟨fun j hj o ho => ?_, hq.orthonormal⟩
  rw [← hq.eigen j hj o ho]
  exact Finset.sum_congr rfl fun x hx => by rw [h o ho x (Finset.mem_range.1 hx)]

theorem layer_sum (h : SameLayer L D A) (hz : ZheevSpec L.D) (hz' : ZheevSpec D) {n : ℕ} {P P' R R' : ℕ → Vec3 ℝ}
    {s s' t t' : (ℕ → ℕ → ℝ) × Arr3 ℂ} (hs : statesSpec L.D n P 2 = .ok s) (hs' : statesSpec L.D n P' 2 = .ok s')
    (ht : statesSpec D n R 2 = .ok t) (ht' : statesSpec D n R' 2 = .ok t') (e : ∀ i, R i 0 = P i 0 ∧ R i 1 = P i 1)
    (e' : ∀ i, R' i 0 = P' i 0 ∧ R' i 1 = P' i 1) (Q : Vec3 ℝ) (om : ℝ) :
    lindhardSum (L.layer D A) n t t' Q om = lindhardSum L n s s' Q om := by
  rw [lindhard_pairs, lindhard_pairs]
  refine Finset.sum_congr rfl fun k hk => ?_
  have hk := Finset.mem_range.1 hk
  obtain ⟨m, hm, hm1⟩ := eigen_ok _ h.plain _ _ _ (states_rows hs k hk)
  obtain ⟨m', hm', hm1'⟩ := eigen_ok _ h.plain _ _ _ (states_rows hs' k hk)
  obtain ⟨u, hu, hu1⟩ := eigen_ok _ h.plain' _ _ _ (states_rows ht k hk)
  obtain ⟨u', hu', hu1'⟩ := eigen_ok _ h.plain' _ _ _ (states_rows ht' k hk)
  have a : Eigenpairs L.D.nb L.D.nb m (rowOf s k) := hz _ _ hm1
  have a' : Eigenpairs L.D.nb L.D.nb m' (rowOf s' k) := hz _ _ hm1'
  have b : Eigenpairs L.D.nb L.D.nb u (rowOf t k) := by rw [← h.nb]; exact hz' _ _ hu1
  have b' : Eigenpairs L.D.nb L.D.nb u' (rowOf t' k) := by rw [← h.nb]; exact hz' _ _ hu1'
  have c := layer_pairs (h.ham _ _ _ _ (e k).1 (e k).2 hm hu) b
  have c' := layer_pairs (h.ham _ _ _ _ (e' k).1 (e' k).2 hm' hu') b'
  have hn : (L.layer D A).D.nb = L.D.nb := h.nb
  rw [hn]
  exact pair_unique _ _ _ c a c' a'

theorem recip_frac {lat B : Mat3 ℝ} (hdet : lat.det ≠ 0) (hB : genReciprocal lat = some B) (Q : Vec3 ℝ) (x : Fin 3) :
    cart2fracRow B 0 Q x = (2 * Real.pi)⁻¹ * (lat x ⬝ᵥ Q) := by
  rw [recip_some lat hdet] at hB
  obtain rfl := Option.some.inj hB
  have h2 : (2 * Real.pi) ≠ 0 := by positivity
  have e : (Matrix.of fun i j => 2 * Real.pi * lat⁻¹ j i : Mat3 ℝ).transpose⁻¹ = (2 * Real.pi)⁻¹ • lat := by
    refine Matrix.inv_eq_right_inv ?_
    have : (Matrix.of fun i j => 2 * Real.pi * lat⁻¹ j i : Mat3 ℝ).transpose = (2 * Real.pi) • lat⁻¹ := by
      ext i j; simp
    rw [this, Matrix.smul_mul, Matrix.mul_smul, smul_smul, mul_inv_cancel₀ h2, one_smul, Matrix.nonsing_inv_mul _ (isUnit_iff_ne_zero.2 hdet)]
  unfold cart2fracRow
  rw [e, sub_zero, Matrix.smul_mulVec]
  rfl

/-- The area of the cell of a layer. -/
theorem flat_det {lat : Mat3 ℝ} (h0 : lat 0 2 = 0) (h1 : lat 1 2 = 0) : lat.det = (lat 0 0 * lat 1 1 - lat 0 1 * lat 1 0) * lat 2 2 := by
  rw [Matrix.det_fin_three, h0, h1]
  ring

theorem layer_factor (h : SameLayer L D A) (hd : L.dim = 2) :
    lindhardFactor (L.layer D A) * (|A 2 2| / norm3 (A 2)) = lindhardFactor L * (|L.lat 2 2| / norm3 (L.lat 2)) := by
  have h1 := flat_det h.flat.1 h.flat.2
  have h2 : A.det = (L.lat 0 0 * L.lat 1 1 - L.lat 0 1 * L.lat 1 0) * A 2 2 := by
    rw [flat_det (by rw [h.rows.1]; exact h.flat.1) (by rw [h.rows.2]; exact h.flat.2), h.rows.1, h.rows.2]
  have n1 := h.det
  have n2 := h.det'
  rw [h1] at n1
  rw [h2] at n2
  have z1 : L.lat 2 2 ≠ 0 := right_ne_zero_of_mul n1
  have z2 : A 2 2 ≠ 0 := right_ne_zero_of_mul n2
  have pos : ∀ v : Vec3 ℝ, v 2 ≠ 0 → norm3 v ≠ 0 := fun v hv => by
    unfold norm3
    have : 0 < v 2 ^ 2 := by positivity
    positivity
  have p1 := pos _ z1
  have p2 := pos _ z2
  have y1 := abs_ne_zero.2 z1
  have y2 := abs_ne_zero.2 z2
  have hd' : (L.layer D A).dim = 2 := hd
  unfold lindhardFactor
  rw [if_pos hd, if_pos hd', h1]
  show L.gs * norm3 (A 2) / (|A.det| * (L.mesh.1 * L.mesh.2.1)) * _ = _
  rw [h2, abs_mul, abs_mul]
  set a := |L.lat 0 0 * L.lat 1 1 - L.lat 0 1 * L.lat 1 0|
  set N : ℝ := L.mesh.1 * L.mesh.2.1
  have g : ∀ n z : ℝ, n ≠ 0 → z ≠ 0 → L.gs * n / (a * z * N) * (z / n) = L.gs / (a * N) := by
    intro n z hn hz
    rw [div_mul_div_comm, show L.gs * n * z = L.gs * (n * z) by ring, show a * z * N * n = a * N * (n * z) by ring,
      mul_div_mul_right _ _ (mul_ne_zero hn hz)]
  rw [g _ _ p2 y2, g _ _ p1 y1]

/-- The results in two cells, up to the factor by which the third lattice vector is longer than the cell is high. -/
theorem layer_tilt (h : SameLayer L D A) (hz : ZheevSpec L.D) (hz' : ZheevSpec D) (hd : L.dim = 2) {w : World} (hn : w.size ≤ L.numKpt)
    {buf buf' : ℕ → Buf} {fortran fortran' : Bool} {qs : List (Vec3 ℝ)} {d d' : ℕ → ℕ → ℕ → ℂ} (hok : L.dynPolArbitrary w buf fortran qs = .ok d)
    (hok' : (L.layer D A).dynPolArbitrary w buf' fortran' qs = .ok d') (r : ℕ) (hr : r < w.size) (iq : ℕ) (hq : iq < qs.length) (iw : ℕ)
    (hw : iw < L.omegas.length) :
    d' r iq iw * ((|A 2 2| / norm3 (A 2) : ℝ) : ℂ) = d r iq iw * ((|L.lat 2 2| / norm3 (L.lat 2) : ℝ) : ℂ) := by
  have g := (C45_rows L w buf fortran (Or.inl hd) hn r hr).2 qs
  have g' := (C45_rows (L.layer D A) w buf' fortran' (Or.inl hd) hn r hr).2 qs
  rw [hok] at g
  rw [hok'] at g'
  obtain ⟨t, ht, g⟩ := map_eq_ok g.symm
  obtain ⟨t', ht', g'⟩ := map_eq_ok g'.symm
  have f : _ = d r iq iw := congrFun (congrFun g iq) iw
  have f' : _ = d' r iq iw := congrFun (congrFun g' iq) iw
  obtain ⟨B, s, s', hB, hs, hs', hv⟩ := arb_states qs t ht iq _ (List.getElem?_eq_getElem hq)
  obtain ⟨B', u, u', hB', hu, hu', hv'⟩ := arb_states qs t' ht' iq _ (List.getElem?_eq_getElem hq)
  have e0 : cart2fracRow B' 0 qs[iq] 0 = cart2fracRow B 0 qs[iq] 0 := by
    rw [recip_frac h.det hB, recip_frac (lat := A) h.det' hB', h.rows.1]
  have e1 : cart2fracRow B' 0 qs[iq] 1 = cart2fracRow B 0 qs[iq] 1 := by
    rw [recip_frac h.det hB, recip_frac (lat := A) h.det' hB', h.rows.2]
  have e := layer_sum h hz hz' hs hs' hu hu' (fun _ => ⟨rfl, rfl⟩) (fun i => ⟨congrArg (L.kFrac i 0 + ·) e0, congrArg (L.kFrac i 1 + ·) e1⟩)
    qs[iq] L.omegas[iw]
  have hf : ((lindhardFactor (L.layer D A) : ℝ) : ℂ) * ((|A 2 2| / norm3 (A 2) : ℝ) : ℂ) =
      (lindhardFactor L : ℂ) * ((|L.lat 2 2| / norm3 (L.lat 2) : ℝ) : ℂ) := by
    rw [← Complex.ofReal_mul, ← Complex.ofReal_mul, layer_factor h hd]
  have hx : (L.layer D A).ext = L.ext := rfl
  have hN : (L.layer D A).numKpt = L.numKpt := rfl
  rw [← f, ← f', hv iw _ (List.getElem?_eq_getElem hw), hv' iw L.omegas[iw] (List.getElem?_eq_getElem hw), hN, e, hx]
  linear_combination (w.size : ℂ) ^ (qs.length - 1 - iq) * lindhardSum L L.numKpt s s' qs[iq] L.omegas[iw] / (L.ext : ℂ) * hf

theorem up_norm {v : Vec3 ℝ} (h0 : v 0 = 0) (h1 : v 1 = 0) (h2 : v 2 ≠ 0) : |v 2| / norm3 v = 1 := by
  unfold norm3
  rw [h0, h1, show (0 : ℝ) ^ 2 + 0 ^ 2 + v 2 ^ 2 = v 2 ^ 2 by ring, Real.sqrt_sq_eq_abs]
  exact div_self (abs_ne_zero.2 h2)

theorem height_ne {lat : Mat3 ℝ} (h0 : lat 0 2 = 0) (h1 : lat 1 2 = 0) (hd : lat.det ≠ 0) : lat 2 2 ≠ 0 := by
  rw [flat_det h0 h1] at hd
  exact right_ne_zero_of_mul hd

/-- C147: the polarization of a layer does not depend on the height of the cell if the third lattice vector is perpendicular to the layer.  Missing:
tilted third lattice vectors, for which the claim is false (`C147_tilted`, `C147_tilted_wrong`). -/
theorem C147_height_partial (h : SameLayer L D A) (hz : ZheevSpec L.D) (hz' : ZheevSpec D) (hd : L.dim = 2) (hp : L.lat 2 0 = 0 ∧ L.lat 2 1 = 0)
    (hp' : A 2 0 = 0 ∧ A 2 1 = 0) {w : World} (hn : w.size ≤ L.numKpt)
    {buf buf' : ℕ → Buf} {fortran fortran' : Bool} {qs : List (Vec3 ℝ)} {d d' : ℕ → ℕ → ℕ → ℂ} (hok : L.dynPolArbitrary w buf fortran qs = .ok d)
    (hok' : (L.layer D A).dynPolArbitrary w buf' fortran' qs = .ok d') (r : ℕ) (hr : r < w.size) (iq : ℕ) (hq : iq < qs.length) (iw : ℕ)
    (hw : iw < L.omegas.length) : d' r iq iw = d r iq iw := by
  have e := layer_tilt h hz hz' hd hn hok hok' r hr iq hq iw hw
  rw [up_norm hp.1 hp.2 (height_ne h.flat.1 h.flat.2 h.det), up_norm hp'.1 hp'.2
    (height_ne (by rw [h.rows.1]; exact h.flat.1) (by rw [h.rows.2]; exact h.flat.2) h.det')] at e
  simpa using e

theorem flat_inv {lat : Mat3 ℝ} (h0 : lat 0 2 = 0) (h1 : lat 1 2 = 0) (hp : lat 2 0 = 0 ∧ lat 2 1 = 0) (hd : lat.det ≠ 0) (j : Fin 3) :
    lat⁻¹ j 0 = (lat 0 0 * lat 1 1 - lat 0 1 * lat 1 0)⁻¹ * ![lat 1 1, -lat 1 0, 0] j ∧
      lat⁻¹ j 1 = (lat 0 0 * lat 1 1 - lat 0 1 * lat 1 0)⁻¹ * ![-lat 0 1, lat 0 0, 0] j := by
  have e := flat_det h0 h1
  have n := hd
  rw [e] at n
  have n1 := left_ne_zero_of_mul n
  have n2 := right_ne_zero_of_mul n
  simp only [Matrix.inv_def, Ring.inverse_eq_inv', Matrix.smul_apply, smul_eq_mul, Matrix.adjugate_fin_three, e, mul_inv]
  constructor <;> fin_cases j <;> simp [h0, h1, hp.1, hp.2] <;> field_simp

/-- C147: the same for q-points of the mesh, which are given as multiples of the reciprocal lattice vectors, in the plane.  Missing: tilted third
lattice vectors, with which these multiples are other vectors. -/
theorem C147_regular_partial (h : SameLayer L D A) (hz : ZheevSpec L.D) (hz' : ZheevSpec D) (hd : L.dim = 2) (hp : L.lat 2 0 = 0 ∧ L.lat 2 1 = 0)
    (hp' : A 2 0 = 0 ∧ A 2 1 = 0) {w : World} (hn : w.size ≤ L.numKpt)
    {buf buf' : ℕ → Buf} {fortran fortran' : Bool} {qs : List Grid} {d d' : ℕ → ℕ → ℕ → ℂ} (hok : L.dynPolRegular w buf fortran qs = .ok d)
    (hok' : (L.layer D A).dynPolRegular w buf' fortran' qs = .ok d') (r : ℕ) (hr : r < w.size) (iq : ℕ) (q : Grid) (hq : qs[iq]? = some q) (hq0 : q.2.2 = 0)
    (iw : ℕ) (hw : iw < L.omegas.length) : d' r iq iw = d r iq iw := by
  have f0 : A 0 2 = 0 := by rw [h.rows.1]; exact h.flat.1
  have f1 : A 1 2 = 0 := by rw [h.rows.2]; exact h.flat.2
  have g := (C45_rows L w buf fortran (Or.inl hd) hn r hr).1 qs
  have g' := (C45_rows (L.layer D A) w buf' fortran' (Or.inl hd) hn r hr).1 qs
  rw [hok] at g
  rw [hok'] at g'
  obtain ⟨t, ht, g⟩ := map_eq_ok g.symm
  obtain ⟨t', ht', g'⟩ := map_eq_ok g'.symm
  have f : _ = d r iq iw := congrFun (congrFun g iq) iw
  have f' : _ = d' r iq iw := congrFun (congrFun g' iq) iw
  obtain ⟨B, s, s', hB, hs, hs', hv⟩ := reg_states qs t ht iq _ hq
  obtain ⟨B', u, u', hB', hu, hu', hv'⟩ := reg_states qs t' ht' iq _ hq
  have hq' : L.grid2frac q 2 = 0 := by simp [Lind.grid2frac, hq0]
  have eQ : frac2cartRow B' 0 (L.grid2frac q) = frac2cartRow B 0 (L.grid2frac q) := by
    have hB' : genReciprocal A = some B' := hB'
    rw [recip_some _ h.det] at hB
    rw [recip_some _ h.det'] at hB'
    obtain rfl := Option.some.inj hB
    obtain rfl := Option.some.inj hB'
    funext x
    have a := flat_inv h.flat.1 h.flat.2 hp h.det x
    have a' := flat_inv f0 f1 hp' h.det' x
    simp only [frac2cartRow, Pi.add_apply, Matrix.mulVec, dotProduct, Fin.sum_univ_three, Matrix.transpose_apply, Matrix.of_apply, hq', mul_zero,
      a.1, a.2, a'.1, a'.2, h.rows.1, h.rows.2]
  have e := layer_sum h hz hz' hs hs' hu hu' (fun _ => ⟨rfl, rfl⟩) (fun i => ⟨rfl, rfl⟩) (frac2cartRow B 0 (L.grid2frac q)) L.omegas[iw]
  have hf := layer_factor h hd
  rw [up_norm hp.1 hp.2 (height_ne h.flat.1 h.flat.2 h.det), up_norm hp'.1 hp'.2 (height_ne f0 f1 h.det'), mul_one, mul_one] at hf
  have hx : (L.layer D A).ext = L.ext := rfl
  have hN : (L.layer D A).numKpt = L.numKpt := rfl
  have hG : (L.layer D A).grid2frac q = L.grid2frac q := rfl
  rw [← f, ← f', hv iw _ (List.getElem?_eq_getElem hw), hv' iw L.omegas[iw] (List.getElem?_eq_getElem hw), hN, hG, eQ, e, hx, hf]

/-- C147: if one of the third lattice vectors is perpendicular and the other is not, the results differ wherever they are not zero. -/
theorem C147_tilted (h : SameLayer L D A) (hz : ZheevSpec L.D) (hz' : ZheevSpec D) (hd : L.dim = 2) (hp : L.lat 2 0 = 0 ∧ L.lat 2 1 = 0)
    (hp' : A 2 0 ≠ 0 ∨ A 2 1 ≠ 0) {w : World} (hn : w.size ≤ L.numKpt)
    {buf buf' : ℕ → Buf} {fortran fortran' : Bool} {qs : List (Vec3 ℝ)} {d d' : ℕ → ℕ → ℕ → ℂ} (hok : L.dynPolArbitrary w buf fortran qs = .ok d)
    (hok' : (L.layer D A).dynPolArbitrary w buf' fortran' qs = .ok d') (r : ℕ) (hr : r < w.size) (iq : ℕ) (hq : iq < qs.length) (iw : ℕ)
    (hw : iw < L.omegas.length) (hne : d r iq iw ≠ 0) : d' r iq iw ≠ d r iq iw := by
  intro e'
  have e := layer_tilt h hz hz' hd hn hok hok' r hr iq hq iw hw
  rw [up_norm hp.1 hp.2 (height_ne h.flat.1 h.flat.2 h.det), e'] at e
  have e2 : |A 2 2| / norm3 (A 2) = 1 := by exact_mod_cast mul_left_cancel₀ hne e
  have hn0 : norm3 (A 2) ≠ 0 := fun h0 => by rw [h0, div_zero] at e2; exact zero_ne_one e2
  rw [div_eq_one_iff_eq hn0] at e2
  have e3 : norm3 (A 2) ^ 2 = A 2 2 ^ 2 := by rw [← e2, sq_abs]
  unfold norm3 at e3
  rw [Real.sq_sqrt (by positivity)] at e3
  have s0 := sq_nonneg (A 2 0)
  have s1 := sq_nonneg (A 2 1)
  rcases hp' with h0 | h0
  · have : 0 < A 2 0 ^ 2 := by positivity
    linarith
  · have : 0 < A 2 1 ^ 2 := by positivity
    linarith

end Layer

/-- C147: two cells with the same hopping terms, all within the plane, describe the same layer. -/
theorem C147_cell {Λ : Type} {L : Lind} {D : Diag} {s s' : PrimCell ℝ ℂ Λ} (h : SolvesCell L.D s) (h' : SolvesCell D s') (hw : PrimCell.WF s)
    (hf : PrimCell.ArraysFresh s) (hw' : PrimCell.WF s') (hf' : PrimCell.ArraysFresh s') (hl : L.lat = s.lat) (hd : s.lat.det ≠ 0) (hd' : s'.lat.det ≠ 0)
    (hr : s'.lat 0 = s.lat 0 ∧ s'.lat 1 = s.lat 1) (hflat : s.lat 0 2 = 0 ∧ s.lat 1 2 = 0)
    (ho : s'.orbs.map Orbital.energy = s.orbs.map Orbital.energy) (hh : ∀ R (i j : ℕ), s'.hops.get R i j = s.hops.get R i j)
    (hpl : ∀ R (i j : ℕ), s.hops.get R i j ≠ none → R.2.2 = 0) : SameLayer L D s'.lat := by
  have hlen : s'.orbs.length = s.orbs.length := by simpa using congrArg List.length ho
  refine ⟨h.plain, h'.plain, by rw [h.nb, h'.nb]; exact hlen, by rw [hl]; exact hd, hd', by rw [hl]; exact hr, by rw [hl]; exact hflat,
    fun k k' m m' e0 e1 hm hm' i hi j hj => ?_⟩
  have hi : i < s.orbs.length := by rw [h.nb] at hi; exact hi
  have hj : j < s.orbs.length := by rw [h.nb] at hj; exact hj
  have hi' : i < s'.orbs.length := by omega
  have hj' : j < s'.orbs.length := by omega
  have hS : ∀ R, s.hops.get R i j ≠ none → R ∈ ((C07_neighbours_finite s.hops (i : ℕ)).image Prod.fst).toFinset :=
    fun R hR => (Set.Finite.mem_toFinset _).2 ⟨(R, (j : ℕ)), hR, rfl⟩
  rw [ham_entry hw hf k 2 m (h.ham _ _ _ hm) i j _ _ (List.getElem?_eq_getElem hi) (List.getElem?_eq_getElem hj) _ hS,
    ham_entry hw' hf' k' 2 m' (h'.ham _ _ _ hm') i j _ _ (List.getElem?_eq_getElem hi') (List.getElem?_eq_getElem hj') _
      (fun R hR => hS R (by rwa [hh] at hR))]
  have he : (s'.orbs[i]).energy = (s.orbs[i]).energy := by
    have := congrArg (fun l : List ℝ => l[i]?) ho
    simpa [hi, hi'] using this
  rw [he]
  congr 1
  refine Finset.sum_congr rfl fun R _ => ?_
  rw [hh]
  by_cases hR : s.hops.get R i j = none
  · rw [hR]; simp
  · congr 2
    have hz : cellAt R 2 = 0 := by
      have := hpl R i j hR
      simp [cellAt, this]
    simp only [Fin.sum_univ_three, e0, e1]
    simp [hz]

section Case

/-- A molecule as a layer, in a cell of height 1. -/
noncomputable def boxCalc : Lind := { pairCalc with dim := 2 }

/-- A cell with another third lattice vector. -/
def tallLat (s c : ℝ) : Mat3 ℝ := !![1, 0, 0; 0, 1, 0; s, 0, c]

theorem box_layer (s c : ℝ) (hc : c ≠ 0) : SameLayer boxCalc (pairSolver 1) (tallLat s c) := by
  refine ⟨rfl, rfl, rfl, by simp [boxCalc, pairCalc], ?_, ?_, by simp [boxCalc, pairCalc], fun k k' m m' _ _ hm hm' i _ j _ => ?_⟩
  · simp [tallLat, Matrix.det_fin_three, hc]
  · constructor <;> funext x <;> fin_cases x <;> simp [boxCalc, pairCalc, tallLat]
  · obtain rfl := Except.ok.inj hm
    obtain rfl := Except.ok.inj hm'
    rfl

theorem box_runs (s c : ℝ) (hc : c ≠ 0) (w : World) (hw : w.size = 1) (buf : ℕ → Buf) (fortran : Bool) (Q : Vec3 ℝ) :
    (∃ d, boxCalc.dynPolArbitrary w buf fortran [Q] = .ok d) ∧ (∃ d', (boxCalc.layer (pairSolver 1) (tallLat s c)).dynPolArbitrary w buf fortran [Q] = .ok d') ∧
      w.size ≤ boxCalc.numKpt := by
  have hn1 : boxCalc.numKpt = 1 := by
    show (buildKmeshGrid (1, 1, 1)).length = 1
    decide
  have hE : ∀ k conv, ∃ q, eigen boxCalc.D k conv = .ok q := fun k c => ⟨_, pairSolver_eigen 1 k c⟩
  exact ⟨(calc_runs (L := boxCalc) hE (box_layer s c hc).det (Or.inl rfl) w (by omega) buf fortran [Q] (fun _ => 0) [] (0, 0)).1,
    (calc_runs (L := boxCalc.layer (pairSolver 1) (tallLat s c)) hE (box_layer s c hc).det' (Or.inl rfl) w (hw.trans hn1.symm).le buf fortran [Q]
      (fun _ => 0) [] (0, 0)).1, by omega⟩

theorem box_value (w : World) (hw : w.size = 1) (buf : ℕ → Buf) (fortran : Bool) (d : ℕ → ℕ → ℕ → ℂ)
    (hd : boxCalc.dynPolArbitrary w buf fortran [![Real.pi, 0, 0]] = .ok d) : d 0 0 0 ≠ 0 := by
  have hn1 : boxCalc.numKpt = 1 := by
    show (buildKmeshGrid (1, 1, 1)).length = 1
    decide
  have g := (C45_partial boxCalc w buf fortran (Or.inl rfl) (by omega) 0 w.pos).2 [![Real.pi, 0, 0]] (Or.inl hw)
  rw [hd] at g
  obtain ⟨B, s, s', -, hs, hs', hv⟩ := arb_states _ (d 0) g.symm 0 ![Real.pi, 0, 0] rfl
  have e1 := Except.ok.inj ((states_rows hs 0 (by omega)).symm.trans (pairSolver_eigen 1 _ _))
  have e2 := Except.ok.inj ((states_rows hs' 0 (by omega)).symm.trans (pairSolver_eigen 1 _ _))
  have a1 : s.1 0 = (pairStates 1).1 := congrArg Prod.fst e1
  have a2 : s'.1 0 = (pairStates 1).1 := congrArg Prod.fst e2
  have b1 : ∀ l, s.2 0 l = fun o => (pairStates 1).2 o l := fun l => funext fun o => congrFun (congrFun (congrArg Prod.snd e1) o) l
  have b2 : ∀ l, s'.2 0 l = fun o => (pairStates 1).2 o l := fun l => funext fun o => congrFun (congrFun (congrArg Prod.snd e2) o) l
  have hf : lindhardFactor boxCalc = 1 := by simp [lindhardFactor, boxCalc, pairCalc, norm3]
  rw [hv 0 0 rfl, hf, hn1]
  have hb : boxCalc.D.nb = 2 := rfl
  have hx : boxCalc.ext = 1 := rfl
  have hbe : boxCalc.beta = 1 := rfl
  have hmu : boxCalc.mu = 0 := rfl
  have hde : boxCalc.delta = 1 := rfl
  have v0 : (pairStates 1).1 0 = -1 := by simp [pairStates]
  have v1 : (pairStates 1).1 1 = 1 := by simp [pairStates]
  have hov : ∀ j < 2, ∀ l < 2, overlapSq 2 ![Real.pi, 0, 0] boxCalc.orbPos (fun o => (pairStates 1).2 o l) (fun o => (pairStates 1).2 o j) =
      if j = l then 0 else 1 := by
    have hh := sqrt_half
    have hpi : Complex.exp (Complex.I * Real.pi) = -1 := by rw [mul_comm]; exact Complex.exp_pi_mul_I
    have hst : (starRingEnd ℂ) (((Real.sqrt 2)⁻¹ : ℝ) : ℂ) = (((Real.sqrt 2)⁻¹ : ℝ) : ℂ) := Complex.conj_ofReal _
    intro j hj l hl
    unfold overlapSq
    have p0 : (∑ x, (![Real.pi, 0, 0] : Vec3 ℝ) x * boxCalc.orbPos 0 x) = 0 := by simp [boxCalc, pairCalc, Fin.sum_univ_three]
    have p1 : (∑ x, (![Real.pi, 0, 0] : Vec3 ℝ) x * boxCalc.orbPos 1 x) = Real.pi := by simp [boxCalc, pairCalc, Fin.sum_univ_three]
    rw [Finset.sum_range_succ, Finset.sum_range_one, p0, p1, hpi, Complex.ofReal_zero, mul_zero, Complex.exp_zero]
    set c : ℂ := (((Real.sqrt 2)⁻¹ : ℝ) : ℂ) with hc
    have q : ∀ o b, (pairStates 1).2 o b = if o = 1 ∧ b = 0 then -c else c := fun o b => by
      simp only [pairStates, hc]
    simp only [q, Complex.star_def]
    interval_cases j <;> interval_cases l <;> simp [hst]
    · rw [show c * c + c * c = 1 by rw [hh]; norm_num]; simp
    · rw [show c * c + c * c = 1 by rw [hh]; norm_num]; simp
  set Δ : ℝ := 1 / (1 + Real.exp (-1)) - 1 / (1 + Real.exp 1) with hΔ
  have hpos : 0 < Δ := by
    rw [hΔ, sub_pos]
    have : Real.exp (-1) < Real.exp 1 := Real.exp_lt_exp.2 (by norm_num)
    exact one_div_lt_one_div_of_lt (by positivity) (by linarith)
  have hsum : lindhardSum boxCalc 1 s s' ![Real.pi, 0, 0] 0 = ((Δ : ℝ) : ℂ) / ((-2 : ℝ) + Complex.I) + ((-Δ : ℝ) : ℂ) / ((2 : ℝ) + Complex.I) := by
    unfold lindhardSum
    rw [hb, Finset.sum_range_one]
    simp only [Finset.sum_range_succ, Finset.sum_range_zero, a1, a2, b1, b2, hov 0 (by norm_num) 0 (by norm_num), hov 0 (by norm_num) 1 (by norm_num),
      hov 1 (by norm_num) 0 (by norm_num), hov 1 (by norm_num) 1 (by norm_num), v0, v1, hbe, hmu, hde]
    norm_num [hΔ]
  rw [hsum, hx]
  have n1 : ((-2 : ℝ) : ℂ) + Complex.I ≠ 0 := fun h => by simpa using congrArg Complex.im h
  have n2 : ((2 : ℝ) : ℂ) + Complex.I ≠ 0 := fun h => by simpa using congrArg Complex.im h
  have key : ((Δ : ℝ) : ℂ) / ((-2 : ℝ) + Complex.I) + ((-Δ : ℝ) : ℂ) / ((2 : ℝ) + Complex.I) =
      ((Δ * 4 : ℝ) : ℂ) / ((((-2 : ℝ) : ℂ) + Complex.I) * (((2 : ℝ) : ℂ) + Complex.I)) := by
    rw [div_add_div _ _ n1 n2]
    congr 1
    push_cast
    ring
  rw [key, Complex.ofReal_one, mul_one, div_one]
  exact div_ne_zero (Complex.ofReal_ne_zero.2 (by positivity)) (mul_ne_zero n1 n2)

/-- A calculation on the mesh for which all Hamiltonians can be diagonalised runs to its end. -/
theorem regular_runs {L : Lind} (hE : ∀ k conv, ∃ q, eigen L.D k conv = .ok q) (hdet : L.lat.det ≠ 0) (hd : L.dim = 2 ∨ L.dim = 3) (w : World)
    (hn : w.size ≤ L.numKpt) (buf : ℕ → Buf) (fortran : Bool) (qs : List Grid) : ∃ d, L.dynPolRegular w buf fortran qs = .ok d := by
  have hst : ∀ (n : ℕ) (P : ℕ → Vec3 ℝ) (conv : ℤ), ∃ u, statesSpec L.D n P conv = .ok u := by
    intro n P conv
    have : firstErr (fun i => eigen L.D (P i) conv) (List.range n) = none := by
      rw [firstErr_none]
      exact fun i _ => hE _ _
    exact ⟨_, by rw [statesSpec_eq, this]; rfl⟩
  have h := regular_run L w buf fortran qs hd hn 0 w.pos
  obtain ⟨u, hu⟩ := hst L.numKpt L.kFrac 2
  have hm : ∀ l : List Grid, ∃ v, l.mapM (statesKq L) = .ok v := by
    intro l
    induction l with
    | nil => exact ⟨[], rfl⟩
    | cons q l ih =>
      obtain ⟨v, hv⟩ := ih
      obtain ⟨y, hy⟩ : ∃ y, statesKq L q = .ok y := hst L.numKpt _ 2
      exact ⟨y :: v, by rw [List.mapM_cons, hy, hv]; rfl⟩
  obtain ⟨v, hv⟩ := hm qs
  have hspec : ∃ t, regSpec L qs = .ok t := by
    unfold regSpec
    simp only [Lind.frac2cart, recip_some _ hdet, hu, hv, bind, Except.bind]
    exact ⟨_, rfl⟩
  obtain ⟨t, ht⟩ := hspec
  rw [ht] at h
  obtain ⟨d, hd, -⟩ := map_eq_ok h
  exact ⟨d, hd⟩

/-- The same for a q-point of the mesh. -/
theorem C147_regular_example (c : ℝ) (hc : c ≠ 0) (w : World) (hw : w.size = 1) (buf : ℕ → Buf) (fortran : Bool) (a b : ℤ) :
    ∃ d d', boxCalc.dynPolRegular w buf fortran [(a, b, 0)] = .ok d ∧
      (boxCalc.layer (pairSolver 1) (tallLat 0 c)).dynPolRegular w buf fortran [(a, b, 0)] = .ok d' ∧ d' 0 0 0 = d 0 0 0 := by
  obtain ⟨-, -, hn⟩ := box_runs 0 c hc w hw buf fortran 0
  have hE : ∀ k conv, ∃ q, eigen boxCalc.D k conv = .ok q := fun k c => ⟨_, pairSolver_eigen 1 k c⟩
  obtain ⟨d, hd⟩ := regular_runs (L := boxCalc) hE (box_layer 0 c hc).det (Or.inl rfl) w hn buf fortran [(a, b, 0)]
  obtain ⟨d', hd'⟩ := regular_runs (L := boxCalc.layer (pairSolver 1) (tallLat 0 c)) hE (box_layer 0 c hc).det' (Or.inl rfl) w hn buf fortran [(a, b, 0)]
  exact ⟨d, d', hd, hd', C147_regular_partial (box_layer 0 c hc) (pair_zheev 1) (pair_zheev 1) rfl (by simp [boxCalc, pairCalc]) (by simp [tallLat]) hn hd hd'
    0 w.pos 0 (a, b, 0) rfl rfl 0 Nat.zero_lt_one⟩

/-- A layer in cells of the heights 1 and `c`, for which the hypotheses of C147 hold; the results are the same and not zero. -/
theorem C147_example (c : ℝ) (hc : c ≠ 0) (w : World) (hw : w.size = 1) (buf : ℕ → Buf) (fortran : Bool) :
    ∃ d d', boxCalc.dynPolArbitrary w buf fortran [![Real.pi, 0, 0]] = .ok d ∧
      (boxCalc.layer (pairSolver 1) (tallLat 0 c)).dynPolArbitrary w buf fortran [![Real.pi, 0, 0]] = .ok d' ∧ d' 0 0 0 = d 0 0 0 ∧ d 0 0 0 ≠ 0 := by
  obtain ⟨⟨d, hd⟩, ⟨d', hd'⟩, hn⟩ := box_runs 0 c hc w hw buf fortran ![Real.pi, 0, 0]
  refine ⟨d, d', hd, hd', ?_, box_value w hw buf fortran d hd⟩
  exact C147_height_partial (box_layer 0 c hc) (pair_zheev 1) (pair_zheev 1) rfl (by simp [boxCalc, pairCalc]) (by simp [tallLat]) hn hd hd' 0 w.pos 0
    (by simp) 0 Nat.zero_lt_one

/-- C147 is false for tilted cells: with the third lattice vector `(1, 0, 1)` instead of `(0, 0, 1)` the same layer has another polarization. -/
theorem C147_tilted_wrong (w : World) (hw : w.size = 1) (buf : ℕ → Buf) (fortran : Bool) :
    ∃ d d', boxCalc.dynPolArbitrary w buf fortran [![Real.pi, 0, 0]] = .ok d ∧
      (boxCalc.layer (pairSolver 1) (tallLat 1 1)).dynPolArbitrary w buf fortran [![Real.pi, 0, 0]] = .ok d' ∧ d' 0 0 0 ≠ d 0 0 0 := by
  obtain ⟨⟨d, hd⟩, ⟨d', hd'⟩, hn⟩ := box_runs 1 1 one_ne_zero w hw buf fortran ![Real.pi, 0, 0]
  exact ⟨d, d', hd, hd', C147_tilted (box_layer 1 1 one_ne_zero) (pair_zheev 1) (pair_zheev 1) rfl (by simp [boxCalc, pairCalc]) (by simp [tallLat]) hn hd hd'
    0 w.pos 0 (by simp) 0 Nat.zero_lt_one (box_value w hw buf fortran d hd)⟩

end Case

end Verif.Props

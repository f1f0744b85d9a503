import Verif.Spec.Units
import Verif.Props.TimeReversal

/-! # C143: units of energy and length -/

namespace Verif.Props

open PrimCell

section Solver

variable {e : ℝ} {D D' : Diag}

/-- The states in the other unit. -/
def unitStates (e : ℝ) (q : (ℕ → ℝ) × (ℕ → ℕ → ℂ)) : (ℕ → ℝ) × (ℕ → ℕ → ℂ) := (fun j => e * q.1 j, q.2)

theorem unit_pairs (h : ScaledBy e D D') (hz : ZheevSpec D) (hz' : ZheevSpec D') {k : Vec3 ℝ} {conv : ℤ} {q q' : (ℕ → ℝ) × (ℕ → ℕ → ℂ)}
    (hq : eigen D k conv = .ok q) (hq' : eigen D' k conv = .ok q') :
    ∃ m, Eigenpairs D.nb D.nb m q' ∧ Eigenpairs D.nb D.nb m (unitStates e q) := by
  obtain ⟨m, hm, hzm⟩ := eigen_ok D h.plain.1 _ _ q hq
  obtain ⟨m', hm', hzm'⟩ := eigen_ok D' h.plain.2 _ _ q' hq'
  have h2 := hz' m' q' hzm'
  rw [h.nb] at h2
  have h1 := hz m q hzm
  refine ⟨m', h2, fun j hj o ho => ?_, h1.orthonormal⟩
  have h3 := h1.eigen j hj o ho
  simp only [unitStates]
  rw [Finset.sum_congr rfl fun (i : ℕ) hi => by rw [h.ham k conv m m' hm hm' o ho i (Finset.mem_range.1 hi), mul_assoc], ← Finset.mul_sum, h3]
  push_cast
  ring

/-- C143: the bands are measured in the unit of energy. -/
theorem C143_bands (he : 0 < e) (h : ScaledBy e D D') (hz : ZheevSpec D) (hz' : ZheevSpec D') (hs : SortSpec D.nb D.argsort)
    (hs' : SortSpec D'.nb D'.argsort) {w w' : World} {buf buf' : ℕ → Buf} {n : ℕ} {kpts : ℕ → Vec3 ℝ} {conv : ℤ} {orbs orbs' : Option (List ℕ)}
    {bd bd' : ℕ → (ℕ → ℕ → ℝ) × (ℕ → ℕ → ℝ)} (hok : calcBands D w buf n kpts conv orbs = .ok bd)
    (hok' : calcBands D' w' buf' n kpts conv orbs' = .ok bd') (r : ℕ) (hr : r < w.size) (r' : ℕ) (hr' : r' < w'.size) (i : ℕ) (hi : i < n)
    (b : ℕ) (hb : b < D.nb) : (bd' r').1 i b = e * (bd r).1 i b := by
  obtain ⟨q, hq, hp, hd⟩ := C44_bands_sorted D w buf n kpts conv orbs r hr (fun ev => (hs ev).1) (fun ev => (hs ev).2) bd hok i hi
  obtain ⟨q', hq', hp', hd'⟩ := C44_bands_sorted D' w' buf' n kpts conv orbs' r' hr' (fun ev => (hs' ev).1) (fun ev => (hs' ev).2) bd' hok' i hi
  obtain ⟨m, h1, h2⟩ := unit_pairs h hz hz' hq hq'
  have hl := levels_unique h1 h2
  rw [h.nb] at hp' hd'
  refine roots_unique (n := D.nb) (f := (bd' r').1 i) (g := fun b => e * (bd r).1 i b) hd'
    (fun a b hab hb => mul_le_mul_of_nonneg_left (hd a b hab hb) he.le) (fun z => ?_) b hb
  have hprod : ∀ u : ℕ → ℝ, ∏ b ∈ Finset.range D.nb, (z - (u b : ℂ)) = (((List.range D.nb).map u).map fun x : ℝ => z - (x : ℂ)).prod := by
    intro u
    rw [List.map_map, Finset.prod_range, ← List.prod_ofFn, List.ofFn_eq_map, ← List.map_coe_finRange_eq_range, List.map_map]
    rfl
  rw [hprod, hprod fun b => e * (bd r).1 i b]
  refine List.Perm.prod_eq (List.Perm.map _ (hp'.trans (hl.trans ?_)))
  have := hp.map (fun x : ℝ => e * x)
  rw [List.map_map, List.map_map] at this
  exact this.symm

theorem min_unit (he : 0 < e) (l : List ℝ) : (l.map (e * ·)).min? = l.min?.map (e * ·) := by
  cases l with
  | nil => rfl
  | cons a l =>
    rw [List.map_cons, List.min?_cons', List.min?_cons', Option.map_some, Option.some_inj]
    induction l generalizing a with
    | nil => rfl
    | cons b l ih => rw [List.map_cons, List.foldl_cons, List.foldl_cons, ← ih, mul_min_of_nonneg _ _ he.le]

theorem max_unit (he : 0 < e) (l : List ℝ) : (l.map (e * ·)).max? = l.max?.map (e * ·) := by
  cases l with
  | nil => rfl
  | cons a l =>
    rw [List.map_cons, List.max?_cons', List.max?_cons', Option.map_some, Option.some_inj]
    induction l generalizing a with
    | nil => rfl
    | cons b l ih => rw [List.map_cons, List.foldl_cons, List.foldl_cons, ← ih, mul_max_of_nonneg _ _ he.le]

/-- The energies of the DOS are measured in the unit of the bands. -/
theorem grid_unit (he : 0 < e) {n nb : ℕ} {u v : ℕ → ℕ → ℝ} (huv : ∀ i < n, ∀ b < nb, v i b = e * u i b) (emin emax : Option ℝ) (step : ℝ) :
    dosGrid n nb v (emin.map (e * ·)) (emax.map (e * ·)) (e * step) = (dosGrid n nb u emin emax step).map fun l => l.map (e * ·) := by
  have hfl : flat2 n nb v = (flat2 n nb u).map (e * ·) := by
    unfold flat2
    rw [List.map_flatMap]
    refine List.flatMap_congr fun i hi => ?_
    rw [List.map_map]
    exact List.map_congr_left fun b hb => huv i (List.mem_range.1 hi) b (List.mem_range.1 hb)
  have core : ∀ a b : ℝ, (let m : ℤ := if 0 ≤ (e * b - e * a) / (e * step) then ⌊(e * b - e * a) / (e * step)⌋ else ⌈(e * b - e * a) / (e * step)⌉
      if m < -1 then .error .value else if m = -1 then .ok [] else .ok (npLinspace (e * a) (e * b) m.toNat) : Except ParErr (List ℝ)) =
      (let m : ℤ := if 0 ≤ (b - a) / step then ⌊(b - a) / step⌋ else ⌈(b - a) / step⌉
      if m < -1 then .error .value else if m = -1 then .ok [] else .ok (npLinspace a b m.toNat) : Except ParErr (List ℝ)).map fun l => l.map (e * ·) := by
    intro a b
    have hl : ∀ m, npLinspace (e * a) (e * b) m = (npLinspace a b m).map (e * ·) := by
      intro m
      unfold npLinspace
      rw [List.map_map]
      refine List.map_congr_left fun i _ => ?_
      simp only [Function.comp]
      ring
    have hq : (e * b - e * a) / (e * step) = (b - a) / step := by rw [← mul_sub, mul_div_mul_left _ _ he.ne']
    simp only [hq, hl]
    split_ifs <;> rfl
  unfold dosGrid
  cases emin with
  | some a =>
    cases emax with
    | some b => exact core a b
    | none =>
      simp only [Option.map_some, Option.map_none, hfl, max_unit he]
      cases (flat2 n nb u).max? with
      | none => rfl
      | some b => exact core a b
  | none =>
    cases emax with
    | some b =>
      simp only [Option.map_some, Option.map_none, hfl, min_unit he]
      cases (flat2 n nb u).min? with
      | none => rfl
      | some a => exact core a b
    | none =>
      simp only [Option.map_none, hfl, min_unit he, max_unit he]
      cases (flat2 n nb u).min? with
      | none => rfl
      | some a =>
        cases (flat2 n nb u).max? with
        | none => rfl
        | some b => exact core a b

/-- C143: the DOS, and the part of it on any orbitals, is measured in inverse units of energy; whether the range of energies is given or found. -/
theorem C143_dos (he : 0 < e) (h : ScaledBy e D D') (hz : ZheevSpec D) (hz' : ZheevSpec D') (hs : SortSpec D.nb D.argsort)
    (hs' : SortSpec D'.nb D'.argsort) {w w' : World} {buf buf' : ℕ → Buf} {n : ℕ} {kpts : ℕ → Vec3 ℝ} {conv : ℤ} {orbs : Option (List ℕ)}
    (ho : ∀ os, orbs = some os → ∀ o ∈ os, o < D.nb) {emin emax : Option ℝ} {step sigma gs : ℝ} {basis : ℝ → ℝ → ℝ → ℝ}
    (hbs : basis = gaussian ∨ basis = lorentzian) {f f' : ℕ → List ℝ × (ℕ → ℝ)}
    (hf : calcDos D w buf n kpts conv orbs emin emax step sigma basis gs = .ok f)
    (hf' : calcDos D' w' buf' n kpts conv orbs (emin.map (e * ·)) (emax.map (e * ·)) (e * step) (e * sigma) basis gs = .ok f')
    (r : ℕ) (hr : r < w.size) (r' : ℕ) (hr' : r' < w'.size) :
    (f' r').1 = (f r).1.map (e * ·) ∧ ∀ x < (f r).1.length, (f' r').2 x = (f r).2 x / e := by
  have hband : ∀ (D : Diag) (w : World) (buf : ℕ → Buf) (emin emax : Option ℝ) (step sigma : ℝ) (f : ℕ → List ℝ × (ℕ → ℝ)),
      calcDos D w buf n kpts conv orbs emin emax step sigma basis gs = .ok f → ∀ r < w.size,
      ∃ bd, calcBands D w buf n kpts conv orbs = .ok bd ∧ dosGrid n D.nb (bd r).1 emin emax step = .ok (f r).1 := by
    intro D w buf emin emax step sigma f hf r hr
    have h1 := dos_spec D w buf n kpts conv orbs emin emax step sigma basis gs r hr
    have h2 := bands_spec D w buf n kpts conv orbs r hr
    rw [hf] at h1
    unfold dosSpec at h1
    cases h3 : calcBands D w buf n kpts conv orbs with
    | error err =>
      rw [h3] at h2
      rw [← h2] at h1
      simp [Except.map] at h1
    | ok bd =>
      rw [h3] at h2
      rw [← h2] at h1
      simp only [Except.map] at h1
      cases h4 : dosGrid n D.nb (bd r).1 emin emax step with
      | error err => rw [h4] at h1; simp at h1
      | ok g =>
        rw [h4] at h1
        simp only [Except.ok.injEq] at h1
        exact ⟨bd, rfl, by rw [h4, h1]⟩
  obtain ⟨bd, hbd, hg⟩ := hband D w buf emin emax _ _ f hf r hr
  obtain ⟨bd', hbd', hg'⟩ := hband D' w' buf' _ _ _ _ f' hf' r' hr'
  have hgrid : (f' r').1 = (f r).1.map (e * ·) := by
    rw [h.nb, grid_unit he (u := (bd r).1) (fun i hi b hb => C143_bands he h hz hz' hs hs' hbd hbd' r hr r' hr' i hi b hb), hg] at hg'
    exact (Except.ok.inj hg').symm
  refine ⟨hgrid, fun x hx => ?_⟩
  have hex : ∀ i, ∃ q, i < n → eigen D (kpts i) conv = .ok q := by
    intro i
    by_cases hi : i < n
    · obtain ⟨q, hq, -⟩ := C44_bands_sorted D w buf n kpts conv orbs r hr (fun ev => (hs ev).1) (fun ev => (hs ev).2) bd hbd i hi
      exact ⟨q, fun _ => hq⟩
    · exact ⟨(0, 0), fun h => absurd h hi⟩
  have hex' : ∀ i, ∃ q, i < n → eigen D' (kpts i) conv = .ok q := by
    intro i
    by_cases hi : i < n
    · obtain ⟨q, hq, -⟩ := C44_bands_sorted D' w' buf' n kpts conv orbs r' hr' (fun ev => (hs' ev).1) (fun ev => (hs' ev).2) bd' hbd' i hi
      exact ⟨q, fun _ => hq⟩
    · exact ⟨(0, 0), fun h => absurd h hi⟩
  choose q hq using hex
  choose q' hq' using hex'
  have hE : (f' r').1.getD x 0 = e * (f r).1.getD x 0 := by
    rw [hgrid, List.getD_eq_getElem?_getD, List.getD_eq_getElem?_getD, List.getElem?_map, List.getElem?_eq_getElem hx]
    rfl
  have hb : ∀ u v : ℝ, basis (e * u) (e * v) (e * sigma) = basis u v sigma / e := by
    intro u v
    have hd : e * u - e * v = e * (u - v) := by ring
    rcases hbs with rfl | rfl
    · simp only [gaussian, hd]
      have : -(e * (u - v)) ^ 2 / (2 * (e * sigma) ^ 2) = -(u - v) ^ 2 / (2 * sigma ^ 2) := by
        rw [show -(e * (u - v)) ^ 2 = e ^ 2 * -(u - v) ^ 2 by ring, show 2 * (e * sigma) ^ 2 = e ^ 2 * (2 * sigma ^ 2) by ring,
          mul_div_mul_left _ _ (by positivity)]
      rw [this, mul_assoc e, one_div, one_div, mul_inv e]
      ring
    · simp only [lorentzian, hd]
      rw [show (e * sigma) ^ 2 / ((e * (u - v)) ^ 2 + (e * sigma) ^ 2) = sigma ^ 2 / ((u - v) ^ 2 + sigma ^ 2) by
        rw [mul_pow, mul_pow, ← mul_add, mul_div_mul_left _ _ (by positivity)], one_div, one_div, mul_inv, mul_inv, mul_inv]
      ring
  rw [dos_levels D (fun ev => (hs ev).1) n kpts conv q (fun i hi => hq i hi) orbs w buf _ _ step sigma basis gs f hf r hr,
    dos_levels D' (fun ev => (hs' ev).1) n kpts conv q' (fun i hi => hq' i hi) orbs w' buf' _ _ _ _ basis gs f' hf' r' hr', h.nb, hE]
  have key : ∀ A B N : ℝ, A = B / e → gs * A / N = gs * B / N / e := by
    rintro A B N rfl
    ring
  refine key _ _ _ ?_
  rw [Finset.sum_div]
  refine Finset.sum_congr rfl fun k hk => ?_
  obtain ⟨m, h1, h2⟩ := unit_pairs h hz hz' (hq k (Finset.mem_range.1 hk)) (hq' k (Finset.mem_range.1 hk))
  rw [weight_unique (p := fun k => unitStates e (q k)) h1 h2 (fun y => basis (e * (f r).1.getD x 0) y (e * sigma)) orbs ho, Finset.sum_div]
  refine Finset.sum_congr rfl fun j _ => ?_
  simp only [unitStates, hb]
  rw [div_mul_eq_mul_div]
  rfl

end Solver

section Response

variable {e c : ℝ} {L : Lind} {D' : Diag}

theorem unit_det (c : ℝ) (A : Mat3 ℝ) : (c • A).det = c ^ 3 * A.det := by
  rw [Matrix.det_smul, Fintype.card_fin]

theorem unit_row (c : ℝ) (A : Mat3 ℝ) (i : Fin 3) : (c • A) i = c • A i := rfl

theorem unit_norm (hc : 0 < c) (v : Vec3 ℝ) : norm3 (c • v) = c * norm3 v := by
  unfold norm3
  simp only [Pi.smul_apply, smul_eq_mul]
  rw [show (c * v 0) ^ 2 + (c * v 1) ^ 2 + (c * v 2) ^ 2 = c ^ 2 * (v 0 ^ 2 + v 1 ^ 2 + v 2 ^ 2) by ring, Real.sqrt_mul (by positivity), Real.sqrt_sq hc.le]

theorem unit_lindhard_factor (hc : 0 < c) (hd : L.dim = 2 ∨ L.dim = 3) : lindhardFactor (L.inUnits D' e c) = lindhardFactor L / c ^ L.dim := by
  have hc3 : |c ^ 3| = c ^ 3 := abs_of_pos (by positivity)
  unfold lindhardFactor Lind.inUnits
  simp only [unit_det, unit_row, unit_norm hc, abs_mul, hc3]
  rcases hd with h | h
  · simp only [h, if_true]
    by_cases h0 : |L.lat.det| * (L.mesh.1 * L.mesh.2.1 : ℝ) = 0
    · rw [mul_assoc, h0]
      simp
    · field_simp
  · simp only [h, show ¬ ((3 : ℕ) = 2) by decide, if_false]
    by_cases h0 : |L.lat.det| * (L.mesh.1 * L.mesh.2.1 * L.mesh.2.2 : ℝ) = 0
    · rw [mul_assoc, h0]
      simp
    · field_simp

theorem unit_lind (he : 0 < e) (om x y : ℝ) : lindFactor (L.inUnits D' e c) (e * om) (e * x) (e * y) = lindFactor L om x y / e := by
  unfold lindFactor Lind.inUnits
  simp only
  have h : ∀ z, L.beta / e * (e * z - e * L.mu) = L.beta * (z - L.mu) := fun z => by field_simp
  rw [h, h, div_div]
  congr 1
  push_cast
  ring

theorem unit_sum (he : 0 < e) (hc : 0 < c) (h : ScaledBy e L.D D') (hz : ZheevSpec L.D) (hz' : ZheevSpec D') {n : ℕ} {P P' : ℕ → Vec3 ℝ} {Q : Vec3 ℝ}
    {u v u' v' : (ℕ → ℕ → ℝ) × Arr3 ℂ} (hu : statesSpec L.D n P 2 = .ok u) (hv : statesSpec L.D n P' 2 = .ok v)
    (hu' : statesSpec D' n P 2 = .ok u') (hv' : statesSpec D' n P' 2 = .ok v') (om : ℝ) :
    lindhardSum (L.inUnits D' e c) n u' v' (c⁻¹ • Q) (e * om) = lindhardSum L n u v Q om / e := by
  rw [lindhard_pairs, lindhard_pairs, Finset.sum_div]
  refine Finset.sum_congr rfl fun i hi => ?_
  have hi := Finset.mem_range.1 hi
  obtain ⟨m1, a1, a2⟩ := unit_pairs h hz hz' (states_rows hu i hi) (states_rows hu' i hi)
  obtain ⟨m2, b1, b2⟩ := unit_pairs h hz hz' (states_rows hv i hi) (states_rows hv' i hi)
  show pairSum D'.nb _ _ _ _ _ = _
  rw [h.nb]
  refine (pair_unique _ _ _ a1 a2 b1 b2).trans ?_
  have hwave : waveOp (c⁻¹ • Q) (L.inUnits D' e c).orbPos = waveOp Q L.orbPos := by
    funext a b
    unfold waveOp Lind.inUnits
    simp only [Pi.smul_apply, smul_eq_mul]
    have : ∀ x, c⁻¹ * Q x * (c * L.orbPos b x) = Q x * L.orbPos b x := fun x => by field_simp
    simp only [this]
  rw [hwave]
  show pairSum L.D.nb _ _ _ (unitStates e (rowOf u i)) (unitStates e (rowOf v i)) = _
  unfold pairSum
  simp only [Finset.sum_div]
  refine Finset.sum_congr rfl fun x _ => Finset.sum_congr rfl fun y _ => ?_
  simp only [unitStates]
  rw [unit_lind he]
  show _ / _ * (bracket L.D.nb _ (rowOf v i) (rowOf u i) y x * bracket L.D.nb _ (rowOf u i) (rowOf v i) x y) = _
  ring

theorem unit_table (he : 0 < e) (hc : 0 < c) (hd : L.dim = 2 ∨ L.dim = 3) (h : ScaledBy e L.D D') (hz : ZheevSpec L.D) (hz' : ZheevSpec D') {X : Type}
    (l : List X) (P : X → ℕ → Vec3 ℝ) (qc : List (Vec3 ℝ)) {u u' : (ℕ → ℕ → ℝ) × Arr3 ℂ} {v v' : List ((ℕ → ℕ → ℝ) × Arr3 ℂ)}
    (hu : statesSpec L.D L.numKpt L.kFrac 2 = .ok u) (hu' : statesSpec D' L.numKpt L.kFrac 2 = .ok u')
    (hv : l.mapM (fun x => statesSpec L.D L.numKpt (P x) 2) = .ok v) (hv' : l.mapM (fun x => statesSpec D' L.numKpt (P x) 2) = .ok v') (iq iw : ℕ) :
    lindhardTable (L.inUnits D' e c) u' ((qc.map (c⁻¹ • ·)).zip v') iq iw = lindhardTable L u (qc.zip v) iq iw / ((e * c ^ L.dim : ℝ) : ℂ) := by
  unfold lindhardTable
  have hom : (L.inUnits D' e c).omegas[iw]? = L.omegas[iw]?.map (e * ·) := List.getElem?_map
  rw [hom, unit_lindhard_factor hc hd]
  have h1 := mapM_size _ _ _ hv
  have h2 := mapM_size _ _ _ hv'
  by_cases hl : iq < l.length ∧ iq < qc.length
  · obtain ⟨hl, hq⟩ := hl
    have hx : l[iq]? = some l[iq] := List.getElem?_eq_getElem hl
    have hqx : qc[iq]? = some qc[iq] := List.getElem?_eq_getElem hq
    obtain ⟨y, hy, hy'⟩ := mapM_get _ _ _ hv _ _ hx
    obtain ⟨y2, hz1, hz2⟩ := mapM_get _ _ _ hv' _ _ hx
    have e1 : (qc.zip v)[iq]? = some (qc[iq], y) := List.getElem?_zip_eq_some.2 ⟨hqx, hy'⟩
    have e2 : ((qc.map (c⁻¹ • ·)).zip v')[iq]? = some (c⁻¹ • qc[iq], y2) :=
      List.getElem?_zip_eq_some.2 ⟨by rw [List.getElem?_map, hqx]; rfl, hz2⟩
    rw [e1, e2]
    cases L.omegas[iw]? with
    | none => simp
    | some om =>
      simp only [Option.map_some]
      show lindhardSum (L.inUnits D' e c) L.numKpt u' y2 _ _ * _ / ((L.ext : ℝ) : ℂ) = _
      rw [unit_sum he hc h hz hz' hu hy hu' hz1]
      push_cast
      ring
  · have e1 : (qc.zip v)[iq]? = none := by rw [List.getElem?_eq_none_iff, List.length_zip]; omega
    have e2 : ((qc.map (c⁻¹ • ·)).zip v')[iq]? = none := by rw [List.getElem?_eq_none_iff, List.length_zip, List.length_map]; omega
    rw [e1, e2]
    simp

/-- C143: the dynamical polarization is a number of states per energy and area or volume; wave vectors are inverse lengths. -/
theorem C143_dyn_arbitrary (he : 0 < e) (hc : 0 < c) (h : ScaledBy e L.D D') (hz : ZheevSpec L.D) (hz' : ZheevSpec D') (hd : L.dim = 2 ∨ L.dim = 3)
    {w : World} (hn : w.size ≤ L.numKpt) {buf buf' : ℕ → Buf} {fortran fortran' : Bool} {qs : List (Vec3 ℝ)} {d d' : ℕ → ℕ → ℕ → ℂ}
    (hok : L.dynPolArbitrary w buf fortran qs = .ok d) (hok' : (L.inUnits D' e c).dynPolArbitrary w buf' fortran' (qs.map (c⁻¹ • ·)) = .ok d')
    (r : ℕ) (hr : r < w.size) (iq iw : ℕ) : d' r iq iw = d r iq iw / ((e * c ^ L.dim : ℝ) : ℂ) := by
  have h1 := arbitrary_run L w buf fortran qs hd hn r hr
  have h2 := arbitrary_run (L.inUnits D' e c) w buf' fortran' (qs.map (c⁻¹ • ·)) hd hn r hr
  rw [hok] at h1
  rw [hok', List.length_map] at h2
  have key : ∀ t t', arbSpec L qs = .ok t → arbSpec (L.inUnits D' e c) (qs.map (c⁻¹ • ·)) = .ok t' →
      t' = fun iq iw => t iq iw / ((e * c ^ L.dim : ℝ) : ℂ) := by
    intro t t' ht ht'
    unfold arbSpec at ht ht'
    obtain ⟨qf, hqf, ht⟩ := ok_split ht
    obtain ⟨u, hu, ht⟩ := ok_split ht
    obtain ⟨v, hv, ht⟩ := ok_split ht
    obtain ⟨qf', hqf', ht'⟩ := ok_split ht'
    obtain ⟨u', hu', ht'⟩ := ok_split ht'
    obtain ⟨v', hv', ht'⟩ := ok_split ht'
    obtain rfl := Except.ok.inj ht
    obtain rfl := Except.ok.inj ht'
    obtain ⟨-, e1⟩ := cart_frac hqf
    obtain ⟨-, e2⟩ := cart_frac hqf'
    have e3 : qf' = qf := by
      rw [e1, e2, List.map_map]
      refine List.map_congr_left fun Q _ => ?_
      funext x
      simp only [Function.comp, Lind.inUnits, unit_row, Pi.smul_apply, smul_eq_mul]
      congr 1
      refine Finset.sum_congr rfl fun y _ => ?_
      field_simp
    subst e3
    funext iq iw
    exact unit_table he hc hd h hz hz' qf' _ qs hu hu' hv hv' iq iw
  cases ht : arbSpec L qs with
  | error e => rw [ht] at h1; simp [Except.map] at h1
  | ok t =>
    cases ht' : arbSpec (L.inUnits D' e c) (qs.map (c⁻¹ • ·)) with
    | error e => rw [ht'] at h2; simp [Except.map] at h2
    | ok t' =>
      rw [ht] at h1
      rw [ht', key t t' ht ht'] at h2
      simp only [Except.map, Except.ok.injEq] at h1 h2
      rw [h1, h2]
      unfold scaleRows
      ring

theorem cart_map {M : Lind} {l qc : List (Vec3 ℝ)} (h : M.frac2cart l = .ok qc) : M.lat.det ≠ 0 ∧ qc = l.map (cartOf M.lat) := by
  have hdet : M.lat.det ≠ 0 := by
    intro hdet
    simp [Lind.frac2cart, genReciprocal, hdet] at h
  refine ⟨hdet, ?_⟩
  rw [Lind.frac2cart, recip_some _ hdet] at h
  obtain rfl := Except.ok.inj h
  unfold frac2cart
  refine List.map_congr_left fun k _ => ?_
  funext y
  simp only [frac2cartRow, add_zero, cartOf, Matrix.mulVec, dotProduct, Matrix.transpose_apply, Matrix.of_apply]
  exact Finset.sum_congr rfl fun x _ => by ring

theorem unit_cart (hc : 0 < c) {l qc qc' : List (Vec3 ℝ)} (h : L.frac2cart l = .ok qc) (h' : (L.inUnits D' e c).frac2cart l = .ok qc') :
    qc' = qc.map (c⁻¹ • ·) := by
  obtain ⟨hdet, e1⟩ := cart_map h
  obtain ⟨hdet', e2⟩ := cart_map h'
  rw [e1, e2, List.map_map]
  refine List.map_congr_left fun k _ => ?_
  refine (cartOf_unique hdet' fun x => ?_).symm
  rw [← cartOf_frac hdet k x]
  simp only [Function.comp, Lind.inUnits, unit_row, smul_dotProduct, dotProduct_smul, smul_eq_mul]
  congr 1
  field_simp

/-- C143: likewise at points of the mesh. -/
theorem C143_dyn_regular (he : 0 < e) (hc : 0 < c) (h : ScaledBy e L.D D') (hz : ZheevSpec L.D) (hz' : ZheevSpec D') (hd : L.dim = 2 ∨ L.dim = 3)
    {w : World} (hn : w.size ≤ L.numKpt) {buf buf' : ℕ → Buf} {fortran fortran' : Bool} {qs : List Grid} {d d' : ℕ → ℕ → ℕ → ℂ}
    (hok : L.dynPolRegular w buf fortran qs = .ok d) (hok' : (L.inUnits D' e c).dynPolRegular w buf' fortran' qs = .ok d')
    (r : ℕ) (hr : r < w.size) (iq iw : ℕ) : d' r iq iw = d r iq iw / ((e * c ^ L.dim : ℝ) : ℂ) := by
  have h1 := regular_run L w buf fortran qs hd hn r hr
  have h2 := regular_run (L.inUnits D' e c) w buf' fortran' qs hd hn r hr
  rw [hok] at h1
  rw [hok'] at h2
  have key : ∀ t t', regSpec L qs = .ok t → regSpec (L.inUnits D' e c) qs = .ok t' → t' = fun iq iw => t iq iw / ((e * c ^ L.dim : ℝ) : ℂ) := by
    intro t t' ht ht'
    unfold regSpec at ht ht'
    obtain ⟨qc, hqc, ht⟩ := ok_split ht
    obtain ⟨u, hu, ht⟩ := ok_split ht
    obtain ⟨v, hv, ht⟩ := ok_split ht
    obtain ⟨qc', hqc', ht'⟩ := ok_split ht'
    obtain ⟨u', hu', ht'⟩ := ok_split ht'
    obtain ⟨v', hv', ht'⟩ := ok_split ht'
    obtain rfl := Except.ok.inj ht
    obtain rfl := Except.ok.inj ht'
    obtain rfl := unit_cart hc hqc hqc'
    funext iq iw
    exact unit_table he hc hd h hz hz' qs _ qc hu hu' hv hv' iq iw
  cases ht : regSpec L qs with
  | error e => rw [ht] at h1; simp [Except.map] at h1
  | ok t =>
    cases ht' : regSpec (L.inUnits D' e c) qs with
    | error e => rw [ht'] at h2; simp [Except.map] at h2
    | ok t' =>
      rw [ht] at h1
      rw [ht', key t t' ht ht'] at h2
      simp only [Except.map, Except.ok.injEq] at h1 h2
      rw [h1, h2]
      try unfold scaleRows
      try ring

/-- Hoppings in the other unit. -/
noncomputable def unitHops (e : ℝ) (hops : List (Cell × Pair × ℂ)) : List (Cell × Pair × ℂ) := hops.map fun t => (t.1, t.2.1, (e : ℂ) * t.2.2)

theorem unit_vel (hc : 0 < c) (A : Mat3 ℝ) (pos : ℤ → Vec3 ℝ) (hops : List (Cell × Pair × ℂ)) (K : Vec3 ℝ) (x : Fin 3) (a b : ℤ) :
    velocity (c • A) pos [] (unitHops e hops) (c⁻¹ • K) x a b = ((e * c : ℝ) : ℂ) * velocity A pos [] hops K x a b := by
  rw [← velMat_eq, ← velMat_eq, velMat_apply, velMat_apply, ← List.sum_map_mul_left]
  unfold acHops unitHops
  simp only [List.map_map]
  congr 1
  refine List.map_congr_left fun t _ => ?_
  have hr : ∀ y, hopDrNm (c • A) pos (t.1, t.2.1, (e : ℂ) * t.2.2) y = c * hopDrNm A pos t y := by
    intro y
    simp only [hopDrNm, frac2cartRow, Pi.add_apply, Pi.zero_apply, add_zero, Matrix.mulVec, dotProduct, Matrix.transpose_apply, unit_row, Pi.smul_apply,
      smul_eq_mul, Finset.mul_sum]
    exact Finset.sum_congr rfl fun z _ => by ring
  simp only [Function.comp, velTerm, hr, Pi.smul_apply, smul_eq_mul]
  have hk : ∀ y, c⁻¹ * K y * (c * hopDrNm A pos t y) = K y * hopDrNm A pos t y := fun y => by field_simp
  simp only [hk, mul_add, mul_ite, mul_zero]
  congr 1
  · split_ifs
    · push_cast
      ring
    · rfl
  · split_ifs
    · simp only [star_mul', Complex.star_def, Complex.conj_ofReal]
      push_cast
      ring
    · rfl

theorem unit_size (hc : 0 < c) (hd : L.dim = 2 ∨ L.dim = 3) : cellSize (L.inUnits D' e c) = c ^ L.dim * cellSize L := by
  have hc3 : |c ^ 3| = c ^ 3 := abs_of_pos (by positivity)
  unfold cellSize Lind.inUnits
  simp only [unit_det, abs_mul, hc3]
  rcases hd with h | h
  · simp only [h, if_true]
    have : crossProduct (c • L.lat 0) (c • L.lat 1) = (c ^ 2) • crossProduct (L.lat 0) (L.lat 1) := by
      ext i
      fin_cases i <;> simp [cross_apply] <;> ring
    rw [unit_row, unit_row, this, unit_norm (by positivity)]
  · simp only [h, show ¬ ((3 : ℕ) = 2) by decide, if_false]

theorem unit_kubo (he : 0 < e) (om x y : ℝ) (ht : (1e-7 : ℝ) ≤ |x - y| ↔ (1e-7 : ℝ) ≤ e * |x - y|) :
    kuboFactor (L.inUnits D' e c) (e * om) (e * x) (e * y) = kuboFactor L om x y / ((e ^ 2 : ℝ) : ℂ) := by
  unfold kuboFactor Lind.inUnits
  simp only
  have h : ∀ z, L.beta / e * (e * z - e * L.mu) = L.beta * (z - L.mu) := fun z => by field_simp
  have h2 : |e * x - e * y| = e * |x - y| := by rw [← mul_sub, abs_mul, abs_of_pos he]
  rw [h, h, h2]
  by_cases h3 : (1e-7 : ℝ) ≤ |x - y|
  · rw [if_pos h3, if_pos (ht.1 h3), show e * x - e * y = e * (x - y) by ring]
    rw [show ((e * (x - y) - e * om : ℝ) : ℂ) - Complex.I * ((e * L.delta : ℝ) : ℂ) = (e : ℂ) * (((x - y - om : ℝ) : ℂ) - Complex.I * (L.delta : ℂ)) by
      push_cast; ring]
    push_cast
    rw [div_div, div_div, div_div]
    congr 1
    ring
  · rw [if_neg h3, if_neg (fun h => h3 (ht.2 h)), zero_div]

/-- C143: the AC conductivity is a pure number in two dimensions (in units of `e² / ħ`) and an inverse length in three.  Partial: only if no two
levels of the Hamiltonian at a mesh point are closer than the threshold of `1e-7` in one of the two units and not in the other. -/
theorem C143_ac_partial (he : 0 < e) (hc : 0 < c) (h : ScaledBy e L.D D') (hz : ZheevSpec L.D) (hz' : ZheevSpec D') (hd : L.dim = 2 ∨ L.dim = 3)
    (ht : ∀ i < L.numKpt, ∀ q, eigen L.D (L.kFrac i) 1 = .ok q → ∀ x < L.D.nb, ∀ y < L.D.nb,
      ((1e-7 : ℝ) ≤ |q.1 x - q.1 y| ↔ (1e-7 : ℝ) ≤ e * |q.1 x - q.1 y|)) {w w' : World}
    (hn : w.size ≤ L.numKpt) (hn' : w'.size ≤ L.numKpt) {buf buf' : ℕ → Buf} {fortran fortran' : Bool} {pos : ℤ → Vec3 ℝ}
    {hops : List (Cell × Pair × ℂ)} {comp : Option (Fin 3 × Fin 3)} {d d' : ℕ → ℕ → ℂ} (hok : L.acCond w buf fortran pos hops comp = .ok d)
    (hok' : (L.inUnits D' e c).acCond w' buf' fortran' pos (unitHops e hops) comp = .ok d') (r : ℕ) (hr : r < w.size) (r' : ℕ) (hr' : r' < w'.size)
    (iw : ℕ) : d' r' iw = d r iw * ((c ^ 2 / c ^ L.dim : ℝ) : ℂ) := by
  have h1 := ac_run L w buf fortran pos [] hops comp hn r hr
  have h2 := ac_run (L.inUnits D' e c) w' buf' fortran' pos [] (unitHops e hops) comp hn' r' hr'
  rw [hok] at h1
  rw [hok'] at h2
  replace h1 := h1.symm
  replace h2 := h2.symm
  unfold acSpec at h1 h2
  obtain ⟨km, hkm, h1⟩ := ok_split h1
  obtain ⟨km', hkm', h2⟩ := ok_split h2
  cases comp with
  | none => cases h1
  | some cp =>
  obtain ⟨_, hcp, h1⟩ := ok_split h1
  cases hcp
  obtain ⟨_, hcp, h2⟩ := ok_split h2
  cases hcp
  obtain ⟨s, hs, h1⟩ := ok_split h1
  obtain ⟨u, hu, h2⟩ := ok_split h2
  have e1 : km' = km.map (c⁻¹ • ·) := unit_cart hc hkm hkm'
  have hk : ∀ om, kuboSum (L.inUnits D' e c) pos [] (unitHops e hops) cp u (fun i => km'.getD i 0) (e * om) =
      kuboSum L pos [] hops cp s (fun i => km.getD i 0) om * ((c ^ 2 : ℝ) : ℂ) := by
    intro om
    unfold kuboSum
    rw [Finset.sum_mul]
    refine Finset.sum_congr rfl fun i hi => ?_
    have hi : i < L.numKpt := Finset.mem_range.1 hi
    obtain ⟨m, a1, a2⟩ := unit_pairs h hz hz' (states_rows hs i hi) (states_rows hu i hi)
    rw [kubo_pairs, kubo_pairs]
    show pairSum D'.nb _ _ _ _ _ = _
    rw [h.nb]
    refine (pair_unique _ _ _ a1 a2 a1 a2).trans ?_
    show pairSum L.D.nb _ _ _ (unitStates e (rowOf s i)) (unitStates e (rowOf s i)) = _
    have hK : km'.getD i 0 = c⁻¹ • km.getD i 0 := by
      rw [e1, List.getD_eq_getElem?_getD, List.getD_eq_getElem?_getD, List.getElem?_map]
      cases km[i]? with
      | none => simp
      | some y => rfl
    have hb : ∀ x a b, bracket L.D.nb (fun a b => velocity (L.inUnits D' e c).lat pos [] (unitHops e hops) (km'.getD i 0) x a b)
        (unitStates e (rowOf s i)) (unitStates e (rowOf s i)) a b =
        ((e * c : ℝ) : ℂ) * bracket L.D.nb (fun a b => velocity L.lat pos [] hops (km.getD i 0) x a b) (rowOf s i) (rowOf s i) a b := by
      intro x a b
      unfold bracket
      simp only [Finset.mul_sum]
      refine Finset.sum_congr rfl fun a _ => Finset.sum_congr rfl fun b _ => ?_
      rw [hK]
      show _ * velocity (c • L.lat) _ _ _ _ _ _ _ * _ = _
      rw [unit_vel hc]
      simp only [unitStates]
      ring
    unfold pairSum
    simp only [hb, Finset.sum_mul]
    refine Finset.sum_congr rfl fun x hx => Finset.sum_congr rfl fun y hy => ?_
    simp only [unitStates]
    rw [unit_kubo he om ((rowOf s i).1 x) ((rowOf s i).1 y) (ht i hi _ (states_rows hs i hi) x (Finset.mem_range.1 hx) y (Finset.mem_range.1 hy))]
    have he' : (e : ℂ) ≠ 0 := by exact_mod_cast he.ne'
    push_cast
    field_simp
  have g1 := congrFun (Except.ok.inj h1) iw
  have g2 := congrFun (Except.ok.inj h2) iw
  refine g2.symm.trans (Eq.trans ?_ (congrArg (· * ((c ^ 2 / c ^ L.dim : ℝ) : ℂ)) g1))
  have hom : (L.inUnits D' e c).omegas[iw]? = L.omegas[iw]?.map (e * ·) := List.getElem?_map
  rw [hom, unit_size hc hd]
  cases L.omegas[iw]? with
  | none => simp
  | some om =>
    simp only [Option.map_some, hk]
    show ((L.gs : ℝ) : ℂ) * Complex.I / ((c ^ L.dim * cellSize L * L.numKpt : ℝ) : ℂ) * _ / ((L.ext : ℝ) : ℂ) = _
    push_cast
    rw [mul_assoc ((c : ℂ) ^ L.dim)]
    simp only [div_eq_mul_inv, mul_inv]
    ring

end Response

section Cell

variable {Λ : Type}

/-- C143: a cell whose energies and hoppings are all multiplied by `e` has a Hamiltonian multiplied by `e`, in either convention. -/
theorem C143_cell {s s' : PrimCell ℝ ℂ Λ} (hw : WF s) (hf : ArraysFresh s) (hw' : WF s') (hf' : ArraysFresh s') {e : ℝ}
    (ho : s'.orbs = s.orbs.map fun o => { o with energy := e * o.energy }) (hh : ∀ R i j, s'.hops.get R i j = (s.hops.get R i j).map ((e : ℂ) * ·))
    {D D' : Diag} (hD : SolvesCell D s) (hD' : SolvesCell D' s') : ScaledBy e D D' := by
  refine ⟨by rw [hD.nb, hD'.nb]; simp [numOrb, ho], ⟨hD.plain, hD'.plain⟩, fun k conv m m' hm hm' i hi j hj => ?_⟩
  rw [hD.nb] at hi hj
  have hi' : s.orbs[i]? = some s.orbs[i] := List.getElem?_eq_getElem hi
  have hj' : s.orbs[j]? = some s.orbs[j] := List.getElem?_eq_getElem hj
  have hS : ∀ R, s.hops.get R i j ≠ none → R ∈ ((C07_neighbours_finite s.hops (i : ℕ)).image Prod.fst).toFinset :=
    fun R hR => (Set.Finite.mem_toFinset _).2 ⟨(R, (j : ℕ)), hR, rfl⟩
  rw [ham_entry hw hf k conv m (hD.ham _ _ _ hm) i j _ _ hi' hj' _ hS,
    ham_entry hw' hf' k conv m' (hD'.ham _ _ _ hm') i j { s.orbs[i] with energy := e * s.orbs[i].energy }
      { s.orbs[j] with energy := e * s.orbs[j].energy }
      (by rw [ho, List.getElem?_map, hi']; rfl) (by rw [ho, List.getElem?_map, hj']; rfl) _
      (fun R hR => hS R fun h0 => hR (by rw [hh, h0]; rfl)), mul_add, Finset.mul_sum]
  congr 1
  · by_cases hij : i = j
    · simp [hij]
    · simp [hij]
  · refine Finset.sum_congr rfl fun R _ => ?_
    rw [hh]
    cases s.hops.get R i j with
    | none => simp
    | some t =>
      simp only [Option.map_some, Option.getD_some]
      ring

end Cell

section Case

/-- A molecule of two sites with the hopping `t` between them. -/
noncomputable def pairSolver (t : ℝ) : Diag where
  nb := 2
  setHam _ _ h := .ok fun a b => h a b + if a = 0 ∧ b = 1 ∨ a = 1 ∧ b = 0 then (t : ℂ) else 0
  zheev h := open Classical in if h 0 0 = 0 ∧ h 0 1 = t ∧ h 1 0 = t ∧ h 1 1 = 0 then
    some (fun b => if b = 0 then -t else t, fun o b => if o = 1 ∧ b = 0 then -((Real.sqrt 2)⁻¹ : ℝ) else ((Real.sqrt 2)⁻¹ : ℝ)) else none
  argsort _ := [0, 1]

noncomputable def pairStates (t : ℝ) : (ℕ → ℝ) × (ℕ → ℕ → ℂ) :=
  (fun b => if b = 0 then -t else t, fun o b => if o = 1 ∧ b = 0 then -((Real.sqrt 2)⁻¹ : ℝ) else ((Real.sqrt 2)⁻¹ : ℝ))

theorem sqrt_half : (((Real.sqrt 2)⁻¹ : ℝ) : ℂ) * (((Real.sqrt 2)⁻¹ : ℝ) : ℂ) = 1 / 2 := by
  rw [← Complex.ofReal_mul, ← mul_inv, Real.mul_self_sqrt (by norm_num)]
  norm_num

theorem pair_zheev (t : ℝ) : ZheevSpec (pairSolver t) := by
  intro h q hq
  have hq' : (open Classical in if h 0 0 = 0 ∧ h 0 1 = t ∧ h 1 0 = t ∧ h 1 1 = 0 then some (pairStates t) else none) = some q := hq
  split_ifs at hq' with hc
  obtain ⟨h1, h2, h3, h4⟩ := hc
  obtain rfl := Option.some.inj hq'
  have s2 := sqrt_half
  refine ⟨fun j hj o ho => ?_, fun j hj j' hj' => ?_⟩
  · have hj : j < 2 := hj
    have ho : o < 2 := ho
    show ∑ m ∈ Finset.range 2, _ = _
    interval_cases j <;> interval_cases o <;> simp [Finset.sum_range_succ, pairStates, h1, h2, h3, h4]
  · have hj : j < 2 := hj
    have hj' : j' < 2 := hj'
    show ∑ m ∈ Finset.range 2, _ = _
    push_cast at s2
    interval_cases j <;> interval_cases j' <;> simp [Finset.sum_range_succ, pairStates] <;> linear_combination 2 * s2

theorem pairSolver_eigen (t : ℝ) (k : Vec3 ℝ) (conv : ℤ) : eigen (pairSolver t) k conv = .ok (pairStates t) := by
  have h0 : (pairSolver t).zheev (fun a b => (0 : ℂ) + if a = 0 ∧ b = 1 ∨ a = 1 ∧ b = 0 then (t : ℂ) else 0) = some (pairStates t) := by
    simp [pairSolver, pairStates]
  unfold eigen
  rw [show (pairSolver t).setHam k conv (fun _ _ => 0) = .ok fun a b => (0 : ℂ) + if a = 0 ∧ b = 1 ∨ a = 1 ∧ b = 0 then (t : ℂ) else 0 from rfl]
  simp only [h0]
  rfl

theorem pair_scaled (e t : ℝ) : ScaledBy e (pairSolver t) (pairSolver (e * t)) := by
  refine ⟨rfl, ⟨rfl, rfl⟩, fun k conv m m' hm hm' i _ j _ => ?_⟩
  obtain rfl := Except.ok.inj hm
  obtain rfl := Except.ok.inj hm'
  by_cases h : (i : ℤ) = 0 ∧ (j : ℤ) = 1 ∨ (i : ℤ) = 1 ∧ (j : ℤ) = 0
  · simp only [h, if_true]
    push_cast
    ring
  · simp only [h, if_false]
    ring

/-- The calculator of the molecule: one k-point, frequency zero. -/
noncomputable def pairCalc : Lind where
  D := pairSolver 1
  lat := 1
  orbPos i := ![i, 0, 0]
  mesh := (1, 1, 1)
  omegas := [0]
  beta := 1
  mu := 0
  delta := 1
  gs := 1
  ext := 1
  dim := 3

/-- The one hopping of the molecule, over a distance of 1. -/
def pairHops : List (Cell × Pair × ℂ) := [((0, 0, 0), (0, 1), 1)]

theorem pair_run (e c : ℝ) (hc : 0 < c) (w : World) (hw : w.size = 1) (buf : ℕ → Buf) (fortran : Bool) (hops : List (Cell × Pair × ℂ)) (a b : Fin 3) :
    ∃ d, (pairCalc.inUnits (pairSolver e) e c).acCond w buf fortran (fun i => ![i, 0, 0]) hops (some (a, b)) = .ok d := by
  have hdet : (pairCalc.inUnits (pairSolver e) e c).lat.det ≠ 0 := by
    show (c • (1 : Mat3 ℝ)).det ≠ 0
    rw [unit_det, Matrix.det_one, mul_one]
    positivity
  have hn1 : (pairCalc.inUnits (pairSolver e) e c).numKpt = 1 := by
    show (buildKmeshGrid (1, 1, 1)).length = 1
    decide
  have hs : ∃ u, statesSpec (pairCalc.inUnits (pairSolver e) e c).D (pairCalc.inUnits (pairSolver e) e c).numKpt
      (pairCalc.inUnits (pairSolver e) e c).kFrac 1 = .ok u := by
    have : firstErr (fun i => eigen (pairCalc.inUnits (pairSolver e) e c).D ((pairCalc.inUnits (pairSolver e) e c).kFrac i) 1)
        (List.range (pairCalc.inUnits (pairSolver e) e c).numKpt) = none := by
      rw [firstErr_none]
      exact fun i _ => ⟨_, pairSolver_eigen e _ _⟩
    exact ⟨_, by rw [statesSpec_eq, this]; rfl⟩
  obtain ⟨u, hu⟩ := hs
  have h := ac_run (pairCalc.inUnits (pairSolver e) e c) w buf fortran (fun i => ![i, 0, 0]) [] hops (some (a, b)) (by omega) 0 w.pos
  simp only [acSpec, Lind.frac2cart, recip_some _ hdet, hu, bind, Except.bind] at h
  obtain ⟨d, h, -⟩ := map_eq_ok h
  exact ⟨d, h⟩

/-- The value the calculator returns. -/
theorem pair_value (e : ℝ) (w : World) (hw : w.size = 1) (buf : ℕ → Buf) (fortran : Bool) (hops : List (Cell × Pair × ℂ)) (a b : Fin 3) {d : ℕ → ℕ → ℂ}
    (hok : (pairCalc.inUnits (pairSolver e) e 1).acCond w buf fortran (fun i => ![i, 0, 0]) hops (some (a, b)) = .ok d) :
    d 0 0 = Complex.I * pairSum 2 (kuboFactor (pairCalc.inUnits (pairSolver e) e 1) 0)
      (fun x y => velocity 1 (fun i => ![i, 0, 0]) [] hops 0 a x y) (fun x y => velocity 1 (fun i => ![i, 0, 0]) [] hops 0 b x y)
      (pairStates e) (pairStates e) := by
  set L := pairCalc.inUnits (pairSolver e) e 1 with hL
  have hlat : L.lat = 1 := by simp [hL, pairCalc, Lind.inUnits]
  have hn1 : L.numKpt = 1 := by
    show (buildKmeshGrid (1, 1, 1)).length = 1
    decide
  have h1 := ac_run L w buf fortran (fun i => ![i, 0, 0]) [] hops (some (a, b)) (by omega) 0 w.pos
  rw [hok] at h1
  replace h1 := h1.symm
  unfold acSpec at h1
  obtain ⟨km, hkm, h1⟩ := ok_split h1
  obtain ⟨_, hc, h1⟩ := ok_split h1
  cases hc
  obtain ⟨u, hu, h1⟩ := ok_split h1
  have h2 := congrFun (Except.ok.inj h1) 0
  refine h2.symm.trans ?_
  have hom : L.omegas[0]? = some 0 := by simp [hL, pairCalc, Lind.inUnits]
  have hsz : cellSize L = 1 := by
    unfold cellSize
    rw [hlat]
    simp [hL, pairCalc, Lind.inUnits]
  have hK : km.getD 0 0 = 0 := by
    have h3 := (C77_mesh L km hkm).2 0 (by omega)
    funext j
    have h4 := h3 j
    rw [hlat] at h4
    have h5 : L.kFrac 0 j = 0 := by
      fin_cases j <;> simp [Lind.kFrac, Lind.grid2frac, hL, pairCalc, Lind.inUnits, buildKmeshGrid]
    rw [h5, div_eq_zero_iff] at h4
    have h6 : dotProduct ((1 : Mat3 ℝ) j) (km.getD 0 0) = km.getD 0 0 j := by
      have := congrFun (Matrix.one_mulVec (km.getD 0 0)) j
      simpa [Matrix.mulVec] using this
    rw [h6] at h4
    exact h4.resolve_right (by positivity)
  have hrow : rowOf u 0 = pairStates e := Except.ok.inj ((states_rows hu 0 (by omega)).symm.trans (pairSolver_eigen e _ _))
  rw [hom]
  simp only [kuboSum, hn1, Finset.sum_range_one, kubo_pairs, hsz, hK, hrow, hlat]
  show ((1 : ℝ) : ℂ) * Complex.I / _ * pairSum 2 _ _ _ _ _ / ((1 : ℝ) : ℂ) = _
  simp

theorem pair_vel : velocity 1 (fun i => ![(i : ℝ), 0, 0]) [] pairHops 0 0 0 0 = 0 ∧ velocity 1 (fun i => ![(i : ℝ), 0, 0]) [] pairHops 0 0 1 1 = 0 ∧
    velocity 1 (fun i => ![(i : ℝ), 0, 0]) [] pairHops 0 0 0 1 = Complex.I ∧ velocity 1 (fun i => ![(i : ℝ), 0, 0]) [] pairHops 0 0 1 0 = -Complex.I := by
  simp only [← velMat_eq, velMat_apply]
  simp [pairHops, acHops, velTerm, hopDrNm, frac2cartRow, eiPhase]

/-- C143 fails for the AC conductivity: the molecule conducts, but not if its energies are measured in a unit `10^8` times as large. -/
theorem C143_ac_wrong (w : World) (hw : w.size = 1) (buf : ℕ → Buf) (fortran : Bool) :
    ∃ d d', ScaledBy 1e-8 (pairSolver 1) (pairSolver 1e-8) ∧ ZheevSpec (pairSolver 1) ∧ ZheevSpec (pairSolver 1e-8) ∧
      pairCalc.acCond w buf fortran (fun i => ![i, 0, 0]) pairHops (some (0, 0)) = .ok d ∧
      (pairCalc.inUnits (pairSolver 1e-8) 1e-8 1).acCond w buf fortran (fun i => ![i, 0, 0]) (unitHops 1e-8 pairHops) (some (0, 0)) = .ok d' ∧
      d' 0 0 = 0 ∧ 0 < (d 0 0).re := by
  have hone : pairCalc.inUnits (pairSolver 1) 1 1 = pairCalc := by
    simp [Lind.inUnits, pairCalc]
  obtain ⟨d, hd⟩ := pair_run 1 1 one_pos w hw buf fortran pairHops 0 0
  obtain ⟨d', hd'⟩ := pair_run 1e-8 1 one_pos w hw buf fortran (unitHops 1e-8 pairHops) 0 0
  have hv := pair_value 1 w hw buf fortran pairHops 0 0 hd
  have hv' := pair_value 1e-8 w hw buf fortran (unitHops 1e-8 pairHops) 0 0 hd'
  rw [hone] at hd hv
  refine ⟨d, d', by have := pair_scaled 1e-8 1; rwa [mul_one] at this, pair_zheev 1, pair_zheev _, hd, hd', ?_, ?_⟩
  · rw [hv']
    have hF : ∀ x y, kuboFactor (pairCalc.inUnits (pairSolver 1e-8) 1e-8 1) 0 ((pairStates 1e-8).1 x) ((pairStates 1e-8).1 y) = 0 := by
      intro x y
      unfold kuboFactor
      rw [if_neg]
      simp only [pairStates]
      split_ifs <;> norm_num [abs_of_pos, abs_of_neg]
    unfold pairSum
    simp only [hF, zero_mul, Finset.sum_const_zero, mul_zero]
  · rw [hv]
    obtain ⟨v1, v2, v3, v4⟩ := pair_vel
    have s2 := sqrt_half
    have b01 : bracket 2 (fun x y => velocity 1 (fun i => ![(i : ℝ), 0, 0]) [] pairHops 0 0 x y) (pairStates 1) (pairStates 1) 0 1 = Complex.I := by
      simp [bracket, Finset.sum_range_succ, v1, v2, v3, v4, pairStates]
      push_cast at s2
      linear_combination 2 * Complex.I * s2
    have b10 : bracket 2 (fun x y => velocity 1 (fun i => ![(i : ℝ), 0, 0]) [] pairHops 0 0 x y) (pairStates 1) (pairStates 1) 1 0 = -Complex.I := by
      simp [bracket, Finset.sum_range_succ, v1, v2, v3, v4, pairStates]
      push_cast at s2
      linear_combination -2 * Complex.I * s2
    have k0 : ∀ x, kuboFactor pairCalc 0 x x = 0 := by
      intro x
      unfold kuboFactor
      rw [if_neg (by norm_num)]
    set A : ℝ := 1 / (1 + Real.exp (-1)) - 1 / (1 + Real.exp 1) with hA
    have hpos : 0 < A := by
      rw [hA, sub_pos]
      refine one_div_lt_one_div_of_lt (by positivity) ?_
      have : Real.exp (-1) < Real.exp 1 := Real.exp_lt_exp.2 (by norm_num)
      linarith
    have k01 : kuboFactor pairCalc 0 (-1) 1 = ((A / -2 : ℝ) : ℂ) / (-2 - Complex.I) := by
      unfold kuboFactor
      rw [if_pos (by norm_num [abs_of_neg])]
      simp only [pairCalc, hA]
      norm_num
    have k10 : kuboFactor pairCalc 0 1 (-1) = ((-A / 2 : ℝ) : ℂ) / (2 - Complex.I) := by
      unfold kuboFactor
      rw [if_pos (by norm_num)]
      simp only [pairCalc, hA]
      norm_num
    have e0 : (pairStates 1).1 0 = -1 := rfl
    have e1 : (pairStates 1).1 1 = 1 := rfl
    unfold pairSum
    simp only [Finset.sum_range_succ, Finset.sum_range_zero, zero_add, e0, e1, k0, k01, k10, b01, b10, zero_mul, add_zero]
    rw [show Complex.I * (((A / -2 : ℝ) : ℂ) / (-2 - Complex.I) * (-Complex.I * Complex.I) + ((-A / 2 : ℝ) : ℂ) / (2 - Complex.I) * (Complex.I * -Complex.I)) =
      ((A / 5 : ℝ) : ℂ) by
      have n1 : (-2 - Complex.I : ℂ) ≠ 0 := by intro h; have := congrArg Complex.re h; norm_num at this
      have n2 : (2 - Complex.I : ℂ) ≠ 0 := by intro h; have := congrArg Complex.re h; norm_num at this
      push_cast
      field_simp
      ring_nf
      simp only [Complex.I_sq, show Complex.I ^ 3 = -Complex.I by rw [pow_succ, Complex.I_sq]; ring, show Complex.I ^ 4 = 1 by simp]
      ring]
    rw [Complex.ofReal_re]
    positivity

theorem pair_states (e : ℝ) (n : ℕ) (P : ℕ → Vec3 ℝ) (conv : ℤ) : ∃ u, statesSpec (pairSolver e) n P conv = .ok u := by
  have : firstErr (fun i => eigen (pairSolver e) (P i) conv) (List.range n) = none := by
    rw [firstErr_none]
    exact fun i _ => ⟨_, pairSolver_eigen e _ _⟩
  exact ⟨_, by rw [statesSpec_eq, this]; rfl⟩

theorem pair_pol (e c : ℝ) (hc : 0 < c) (w : World) (hw : w.size = 1) (buf : ℕ → Buf) (fortran : Bool) (Q : Vec3 ℝ) :
    ∃ d, (pairCalc.inUnits (pairSolver e) e c).dynPolArbitrary w buf fortran [Q] = .ok d := by
  have hdet : (pairCalc.inUnits (pairSolver e) e c).lat.det ≠ 0 := by
    show (c • (1 : Mat3 ℝ)).det ≠ 0
    rw [unit_det, Matrix.det_one, mul_one]
    positivity
  have hn1 : (pairCalc.inUnits (pairSolver e) e c).numKpt = 1 := by
    show (buildKmeshGrid (1, 1, 1)).length = 1
    decide
  have h := arbitrary_run (pairCalc.inUnits (pairSolver e) e c) w buf fortran [Q] (Or.inr rfl) (by omega) 0 w.pos
  obtain ⟨qf, hqf⟩ := cart_ok _ hdet [Q]
  obtain ⟨u, hu⟩ := pair_states e (pairCalc.inUnits (pairSolver e) e c).numKpt (pairCalc.inUnits (pairSolver e) e c).kFrac 2
  have hm : ∀ l : List (Vec3 ℝ), ∃ v, l.mapM (fun q => statesSpec (pairSolver e) (pairCalc.inUnits (pairSolver e) e c).numKpt
      (fun i => (pairCalc.inUnits (pairSolver e) e c).kFrac i + q) 2) = .ok v := by
    intro l
    induction l with
    | nil => exact ⟨[], rfl⟩
    | cons q l ih =>
      obtain ⟨v, hv⟩ := ih
      obtain ⟨y, hy⟩ := pair_states e (pairCalc.inUnits (pairSolver e) e c).numKpt (fun i => (pairCalc.inUnits (pairSolver e) e c).kFrac i + q) 2
      exact ⟨y :: v, by rw [List.mapM_cons, hy, hv]; rfl⟩
  obtain ⟨v, hv⟩ := hm qf
  have hspec : ∃ t, arbSpec (pairCalc.inUnits (pairSolver e) e c) [Q] = .ok t := by
    unfold arbSpec
    rw [hqf]
    show ∃ t, (statesSpec (pairSolver e) _ _ 2 >>= fun s => _) = .ok t
    rw [hu]
    show ∃ t, (List.mapM (fun q => statesSpec (pairSolver e) _ _ 2) qf >>= fun s => _) = .ok t
    rw [hv]
    exact ⟨_, rfl⟩
  obtain ⟨t, ht⟩ := hspec
  rw [ht] at h
  obtain ⟨d, hd, -⟩ := map_eq_ok h
  exact ⟨d, hd⟩

/-- The molecule in milli-electronvolts and Angstroms instead of electronvolts and nanometres: the hypotheses of C143 hold, and all calculations
run to their ends. -/
theorem C143_example (w : World) (hw : w.size = 1) (buf : ℕ → Buf) (fortran : Bool) (Q : Vec3 ℝ) :
    ∃ x x' d d', pairCalc.dynPolArbitrary w buf fortran [Q] = .ok x ∧
      (pairCalc.inUnits (pairSolver 1000) 1000 10).dynPolArbitrary w buf fortran [(10 : ℝ)⁻¹ • Q] = .ok x' ∧
      pairCalc.acCond w buf fortran (fun i => ![i, 0, 0]) pairHops (some (0, 0)) = .ok d ∧
      (pairCalc.inUnits (pairSolver 1000) 1000 10).acCond w buf fortran (fun i => ![i, 0, 0]) (unitHops 1000 pairHops) (some (0, 0)) = .ok d' ∧
      x' 0 0 0 = x 0 0 0 / 1000000 ∧ d' 0 0 = d 0 0 / 10 := by
  have hone : pairCalc.inUnits (pairSolver 1) 1 1 = pairCalc := by
    simp [Lind.inUnits, pairCalc]
  have hn1 : pairCalc.numKpt = 1 := by
    show (buildKmeshGrid (1, 1, 1)).length = 1
    decide
  obtain ⟨x, hx⟩ := pair_pol 1 1 one_pos w hw buf fortran Q
  obtain ⟨x', hx'⟩ := pair_pol 1000 10 (by norm_num) w hw buf fortran ((10 : ℝ)⁻¹ • Q)
  obtain ⟨d, hd⟩ := pair_run 1 1 one_pos w hw buf fortran pairHops 0 0
  obtain ⟨d', hd'⟩ := pair_run 1000 10 (by norm_num) w hw buf fortran (unitHops 1000 pairHops) 0 0
  rw [hone] at hx hd
  have hsc : ScaledBy 1000 pairCalc.D (pairSolver 1000) := by have := pair_scaled 1000 1; rwa [mul_one] at this
  refine ⟨x, x', d, d', hx, hx', hd, hd', ?_, ?_⟩
  · rw [C143_dyn_arbitrary (by norm_num) (by norm_num) hsc (pair_zheev 1) (pair_zheev _) (Or.inr rfl) (by omega) hx hx' 0 w.pos 0 0]
    simp only [pairCalc]
    norm_num
  · rw [C143_ac_partial (by norm_num) (by norm_num) hsc (pair_zheev 1) (pair_zheev _) (Or.inr rfl) (fun i hi q hq a ha b hb => ?_) (by omega) (by omega)
      hd hd' 0 w.pos 0 w.pos 0]
    · simp only [pairCalc]
      norm_num
      ring
    · obtain rfl := Except.ok.inj ((pairSolver_eigen 1 _ _).symm.trans hq)
      simp only [pairStates]
      split_ifs <;> norm_num [abs_of_pos, abs_of_neg]

end Case

end Verif.Props

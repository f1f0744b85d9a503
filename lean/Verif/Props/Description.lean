import Verif.Proof.Description
import Verif.Props.TimeReversal

/-! # C142: results do not depend on how the crystal is described -/

namespace Verif.Props

open PrimCell Materials

section Geometry

variable {Λ : Type} {s s' : PrimCell ℝ ℂ Λ} {O : Mat3 ℝ} {π : Equiv.Perm ℕ} {n : ℕ → Cell}

theorem desc_dot (hs : SameModel s s' O π n) (x : Fin 3) (Q : Vec3 ℝ) : ∑ y, s'.lat x y * O.mulVec Q y = ∑ y, s.lat x y * Q y := by
  have hO : O.transpose * O = 1 := mul_eq_one_comm.1 hs.rigid
  have : dotProduct (O.mulVec (s.lat x)) (O.mulVec Q) = dotProduct (s.lat x) Q := by
    rw [Matrix.dotProduct_mulVec, Matrix.vecMul_mulVec, hO, Matrix.vecMul_one]
  rw [← hs.lat] at this
  exact this

theorem rot_dot (hs : SameModel s s' O π n) (x y : Fin 3) : dotProduct (s'.lat x) (s'.lat y) = dotProduct (s.lat x) (s.lat y) := by
  have := desc_dot hs x (s.lat y)
  rw [← hs.lat] at this
  exact this

theorem desc_det (hs : SameModel s s' O π n) : |s'.lat.det| = |s.lat.det| := by
  have h : s'.lat = s.lat * O.transpose := by
    ext x y
    rw [hs.lat x, Matrix.mul_apply]
    simp only [Matrix.mulVec, dotProduct, Matrix.transpose_apply]
    exact Finset.sum_congr rfl fun _ _ => mul_comm _ _
  have h1 : O.det * O.det = 1 := by
    have := congrArg Matrix.det hs.rigid
    rwa [Matrix.det_mul, Matrix.det_transpose, Matrix.det_one] at this
  have h2 : |O.det| = 1 := by
    have : |O.det| * |O.det| = 1 := by rw [← abs_mul, h1, abs_one]
    nlinarith [abs_nonneg O.det]
  rw [h, Matrix.det_mul, Matrix.det_transpose, abs_mul, h2, mul_one]

theorem desc_norm (hs : SameModel s s' O π n) (x : Fin 3) : norm3 (s'.lat x) = norm3 (s.lat x) := by
  have := rot_dot hs x x
  simp only [dotProduct, Fin.sum_univ_three] at this
  unfold norm3
  congr 1
  linarith

theorem desc_area (hs : SameModel s s' O π n) : norm3 (crossProduct (s'.lat 0) (s'.lat 1)) = norm3 (crossProduct (s.lat 0) (s.lat 1)) := by
  have h0 := rot_dot hs 0 0
  have h1 := rot_dot hs 1 1
  have h2 := rot_dot hs 0 1
  have lag : ∀ a b : Vec3 ℝ, crossProduct a b 0 ^ 2 + crossProduct a b 1 ^ 2 + crossProduct a b 2 ^ 2 =
      dotProduct a a * dotProduct b b - dotProduct a b ^ 2 := by
    intro a b
    simp only [cross_apply, dotProduct, Fin.sum_univ_three]
    simp
    ring
  unfold norm3
  rw [lag, lag, h0, h1, h2]

end Geometry

section Same

variable {Λ : Type} {s s' : PrimCell ℝ ℂ Λ} {O : Mat3 ℝ} {π : Equiv.Perm ℕ} {n : ℕ → Cell}

/-- C142: the bands do not depend on the order and the representatives of the orbitals, the origin and the orientation. -/
theorem C142_bands (hw : WF s) (hf : ArraysFresh s) (hw' : WF s') (hf' : ArraysFresh s') (hs : SameModel s s' O π n) {D D' : Diag}
    (hD : SolvesCell D s) (hD' : SolvesCell D' s') (hz : ZheevSpec D) (hz' : ZheevSpec D') (ho : SortSpec D.nb D.argsort)
    (ho' : SortSpec D'.nb D'.argsort) {w w' : World} {buf buf' : ℕ → Buf} {m : ℕ} {kpts : ℕ → Vec3 ℝ} {conv : ℤ}
    {orbs orbs' : Option (List ℕ)} {bd bd' : ℕ → (ℕ → ℕ → ℝ) × (ℕ → ℕ → ℝ)} (hok : calcBands D w buf m kpts conv orbs = .ok bd)
    (hok' : calcBands D' w' buf' m kpts conv orbs' = .ok bd') (r : ℕ) (hr : r < w.size) (r' : ℕ) (hr' : r' < w'.size) (i : ℕ) (hi : i < m)
    (b : ℕ) (hb : b < D.nb) : (bd' r').1 i b = (bd r).1 i b := by
  obtain ⟨q, hq, hp, hd⟩ := C44_bands_sorted D w buf m kpts conv orbs r hr (fun ev => (ho ev).1) (fun ev => (ho ev).2) bd hok i hi
  obtain ⟨q', hq', hp', hd'⟩ := C44_bands_sorted D' w' buf' m kpts conv orbs' r' hr' (fun ev => (ho' ev).1) (fun ev => (ho' ev).2) bd' hok' i hi
  obtain ⟨M, h1, h2⟩ := eigen_desc hw hf hw' hf' hs hD hD' hz hz' hq hq'
  have hl := levels_unique h1 h2
  have hnb : D'.nb = D.nb := by rw [hD'.nb, hD.nb, hs.num]
  rw [hnb] at hp' hd'
  refine roots_unique (n := D.nb) (f := (bd' r').1 i) (g := (bd r).1 i) hd' hd (fun z => ?_) b hb
  have hprod : ∀ u : ℕ → ℝ, ∏ b ∈ Finset.range D.nb, (z - (u b : ℂ)) = (((List.range D.nb).map u).map fun x : ℝ => z - (x : ℂ)).prod := by
    intro u
    rw [List.map_map, Finset.prod_range, ← List.prod_ofFn, List.ofFn_eq_map, ← List.map_coe_finRange_eq_range, List.map_map]
    rfl
  rw [hprod, hprod]
  exact List.Perm.prod_eq (List.Perm.map _ (hp'.trans (hl.trans hp.symm)))

/-- What a successful calculation of the DOS has gone through. -/
theorem dos_bands {D : Diag} {w : World} {buf : ℕ → Buf} {m : ℕ} {kpts : ℕ → Vec3 ℝ} {conv : ℤ} {orbs : Option (List ℕ)} {emin emax : Option ℝ}
    {step sigma gs : ℝ} {basis : ℝ → ℝ → ℝ → ℝ} {f : ℕ → List ℝ × (ℕ → ℝ)}
    (hf : calcDos D w buf m kpts conv orbs emin emax step sigma basis gs = .ok f) (r : ℕ) (hr : r < w.size) :
    ∃ bd, calcBands D w buf m kpts conv orbs = .ok bd ∧ dosGrid m D.nb (bd r).1 emin emax step = .ok (f r).1 := by
  have h1 := dos_spec D w buf m kpts conv orbs emin emax step sigma basis gs r hr
  have h2 := bands_spec D w buf m kpts conv orbs r hr
  rw [hf] at h1
  unfold dosSpec at h1
  cases h3 : calcBands D w buf m kpts conv orbs with
  | error e =>
    rw [h3] at h2
    rw [← h2] at h1
    simp [Except.map] at h1
  | ok bd =>
    rw [h3] at h2
    rw [← h2] at h1
    simp only [Except.map] at h1
    cases h4 : dosGrid m D.nb (bd r).1 emin emax step with
    | error e => rw [h4] at h1; simp at h1
    | ok g =>
      rw [h4] at h1
      simp only [Except.ok.injEq] at h1
      exact ⟨bd, rfl, by rw [h4, h1]⟩

/-- C142: neither does the DOS, nor the part of it on given orbitals (which have other numbers in the second description). -/
theorem C142_dos (hw : WF s) (hf : ArraysFresh s) (hw' : WF s') (hf' : ArraysFresh s') (hs : SameModel s s' O π n) {D D' : Diag}
    (hD : SolvesCell D s) (hD' : SolvesCell D' s') (hz : ZheevSpec D) (hz' : ZheevSpec D') (ho : SortSpec D.nb D.argsort)
    (ho' : SortSpec D'.nb D'.argsort) {w w' : World} {buf buf' : ℕ → Buf} {m : ℕ} {kpts : ℕ → Vec3 ℝ} {conv : ℤ} {orbs : Option (List ℕ)}
    (hor : ∀ os, orbs = some os → ∀ o ∈ os, o < s.numOrb) {emin emax : Option ℝ} {step sigma gs : ℝ} {basis : ℝ → ℝ → ℝ → ℝ}
    {f f' : ℕ → List ℝ × (ℕ → ℝ)} (hok : calcDos D w buf m kpts conv orbs emin emax step sigma basis gs = .ok f)
    (hok' : calcDos D' w' buf' m kpts conv (orbs.map fun os => os.map π) emin emax step sigma basis gs = .ok f')
    (r : ℕ) (hr : r < w.size) (r' : ℕ) (hr' : r' < w'.size) : f' r' = f r := by
  obtain ⟨bd, hbd, hg⟩ := dos_bands hok r hr
  obtain ⟨bd', hbd', hg'⟩ := dos_bands hok' r' hr'
  have hnb : D'.nb = D.nb := by rw [hD'.nb, hD.nb, hs.num]
  have hgrid : (f' r').1 = (f r).1 := by
    have := grid_shift (c := 0) (n := m) (nb := D.nb) (u := (bd r).1) (v := (bd' r').1)
      (fun i hi b hb => by rw [add_zero]; exact C142_bands hw hf hw' hf' hs hD hD' hz hz' ho ho' hbd hbd' r hr r' hr' i hi b hb) emin emax step
    simp only [add_zero, List.map_id', Option.map_id'] at this
    rw [hnb, this, hg] at hg'
    exact (Except.ok.inj hg').symm
  have hex : ∀ i, ∃ q, i < m → eigen D (kpts i) conv = .ok q := by
    intro i
    by_cases hi : i < m
    · obtain ⟨q, hq, -⟩ := C44_bands_sorted D w buf m kpts conv orbs r hr (fun ev => (ho ev).1) (fun ev => (ho ev).2) bd hbd i hi
      exact ⟨q, fun _ => hq⟩
    · exact ⟨(0, 0), fun h => absurd h hi⟩
  have hex' : ∀ i, ∃ q, i < m → eigen D' (kpts i) conv = .ok q := by
    intro i
    by_cases hi : i < m
    · obtain ⟨q, hq, -⟩ := C44_bands_sorted D' w' buf' m kpts conv _ r' hr' (fun ev => (ho' ev).1) (fun ev => (ho' ev).2) bd' hbd' i hi
      exact ⟨q, fun _ => hq⟩
    · exact ⟨(0, 0), fun h => absurd h hi⟩
  choose q hq using hex
  choose q' hq' using hex'
  refine Prod.ext hgrid ?_
  funext x
  rw [dos_levels D (fun ev => (ho ev).1) m kpts conv q (fun i hi => hq i hi) orbs w buf _ _ step sigma basis gs f hok r hr,
    dos_levels D' (fun ev => (ho' ev).1) m kpts conv q' (fun i hi => hq' i hi) _ w' buf' _ _ step sigma basis gs f' hok' r' hr', hnb, hgrid]
  congr 2
  refine Finset.sum_congr rfl fun k hk => ?_
  obtain ⟨M, h1, h2⟩ := eigen_desc hw hf hw' hf' hs hD hD' hz hz' (hq k (Finset.mem_range.1 hk)) (hq' k (Finset.mem_range.1 hk))
  rw [weight_unique (p := fun k => descStates π (descPhase conv n (kpts k)) (q k)) h1 h2 (fun y => basis ((f r).1.getD x 0) y sigma) _ (by
    intro os hos o hmem
    cases orbs with
    | none => cases hos
    | some os' =>
      obtain rfl := Option.some.inj hos
      obtain ⟨o', ho1, rfl⟩ := List.mem_map.1 hmem
      rw [hD.nb]
      exact hs.perm o' (hor os' rfl o' ho1))]
  refine Finset.sum_congr rfl fun j _ => ?_
  congr 1
  cases orbs with
  | none => rfl
  | some os =>
    simp only [stateWeight, Option.map_some, List.map_map]
    congr 1
    refine List.map_congr_left fun o _ => ?_
    simp only [Function.comp, descStates, Equiv.symm_apply_apply, norm_mul]
    have h3 : ‖descPhase conv n (kpts k) o‖ = 1 := by
      have h4 := congrArg norm (descPhase_unit conv n (kpts k) o)
      rw [norm_mul, norm_star, norm_one] at h4
      nlinarith [norm_nonneg (descPhase conv n (kpts k) o)]
    rw [h3, one_mul]

end Same

section Response

variable {Λ : Type} {s s' : PrimCell ℝ ℂ Λ} {O : Mat3 ℝ} {π : Equiv.Perm ℕ} {n : ℕ → Cell} {L L' : Lind} {ext : ℝ}

theorem same_mesh (h : SameSetup (1, 1, 1) L L') : L'.mesh = L.mesh := by
  obtain ⟨h1, h2, h3⟩ := h.mesh
  simp only [one_mul] at h1 h2 h3
  exact Prod.ext (by omega) (Prod.ext (by omega) (by omega))

/-- Phases of the plane wave in the two descriptions. -/
theorem wave_desc (hs : SameModel s s' O π n) (hL : CalcOf L s ext) (hL' : CalcOf L' s' ext) {Q k P : Vec3 ℝ} {z : Fin 3 → ℤ}
    (hP : ∀ c, P c = k c + (∑ y, L.lat c y * Q y) / (2 * Real.pi) + z c) {a b : ℕ} (ha : a < s.numOrb) (hb : b < s.numOrb) :
    waveOp (O.mulVec Q) L'.orbPos (π a) (π b) = eiPhase ((∑ y, O.mulVec Q y * s'.origin y) - ∑ y, Q y * s.origin y) *
      (descPhase 2 n P a * waveOp Q L.orbPos a b * star (descPhase 2 n k b)) := by
  unfold waveOp
  by_cases hab : a = b
  · subst hab
    obtain ⟨oa, ha1⟩ : ∃ o, s.orbs[a]? = some o := ⟨_, List.getElem?_eq_getElem ha⟩
    obtain ⟨oa', ha2, -, ha4⟩ := hs.orb a oa ha1
    have hex : ∀ x : ℝ, Complex.exp (Complex.I * (x : ℂ)) = eiPhase x := by
      intro x
      rw [eiPhase_eq_exp, mul_comm]
    rw [if_pos rfl, if_pos rfl, hex, hex, hL.pos a oa ha1, hL'.pos (π a) oa' ha2]
    have hz : ∃ N : ℤ, ∑ x, (z x : ℝ) * (cellAt (n a) x : ℝ) = N := ⟨∑ x, z x * cellAt (n a) x, by push_cast; rfl⟩
    obtain ⟨N, hN⟩ := hz
    have hp : (2 * Real.pi) ≠ 0 := by positivity
    have h0 := desc_dot hs 0 Q
    have h1 := desc_dot hs 1 Q
    have h2 := desc_dot hs 2 Q
    simp only [descPhase, show ¬ ((2 : ℤ) = 1) by decide, if_false]
    rw [← eiPhase_neg, ← eiPhase_add, ← eiPhase_add, ← eiPhase_add, ← mul_one (eiPhase (∑ x, _)), ← eiPhase_int N, ← eiPhase_add, ← hN]
    congr 1
    have hq : ∀ c, 2 * Real.pi * P c = 2 * Real.pi * k c + ∑ y, L.lat c y * Q y + 2 * Real.pi * z c := by
      intro c
      rw [hP c]
      field_simp
    have q0 := hq 0
    have q1 := hq 1
    have q2 := hq 2
    rw [hL.lat] at q0 q1 q2
    simp only [frac2cartRow, Pi.add_apply, Matrix.mulVec, dotProduct, Matrix.transpose_apply, Fin.sum_univ_three, ha4] at h0 h1 h2 q0 q1 q2 ⊢
    linear_combination (oa.position 0 + cellAt (n a) 0) * h0 + (oa.position 1 + cellAt (n a) 1) * h1 + (oa.position 2 + cellAt (n a) 2) * h2 -
      (cellAt (n a) 0 : ℝ) * q0 - (cellAt (n a) 1 : ℝ) * q1 - (cellAt (n a) 2 : ℝ) * q2
  · rw [if_neg hab, if_neg (fun h => hab (π.injective h))]
    ring

theorem lindhard_desc (hw : WF s) (hf : ArraysFresh s) (hw' : WF s') (hf' : ArraysFresh s') (hs : SameModel s s' O π n) (hL : CalcOf L s ext)
    (hL' : CalcOf L' s' ext) (hp : SameSetup (1, 1, 1) L L') (hz : ZheevSpec L.D) (hz' : ZheevSpec L'.D) {P : ℕ → Vec3 ℝ} {Q : Vec3 ℝ}
    (hP : ∀ i < L.numKpt, ∃ z : Fin 3 → ℤ, ∀ c, P i c = L.kFrac i c + (∑ y, L.lat c y * Q y) / (2 * Real.pi) + z c) {u v u' v' : (ℕ → ℕ → ℝ) × Arr3 ℂ}
    (hu : statesSpec L.D L.numKpt L.kFrac 2 = .ok u) (hv : statesSpec L.D L.numKpt P 2 = .ok v) (hu' : statesSpec L'.D L.numKpt L.kFrac 2 = .ok u')
    (hv' : statesSpec L'.D L.numKpt P 2 = .ok v') (om : ℝ) :
    lindhardSum L' L.numKpt u' v' (O.mulVec Q) om = lindhardSum L L.numKpt u v Q om := by
  have hnb : L'.D.nb = L.D.nb := by rw [hL'.solver.nb, hL.solver.nb, hs.num]
  have hfac : lindFactor L' om = lindFactor L om := by
    funext e e'
    unfold lindFactor
    rw [hp.beta, hp.mu, hp.delta]
  rw [lindhard_pairs, lindhard_pairs, hnb, hfac]
  refine Finset.sum_congr rfl fun i hi => ?_
  have hi := Finset.mem_range.1 hi
  obtain ⟨z, hPz⟩ := hP i hi
  obtain ⟨m1, a1, a2⟩ := eigen_desc hw hf hw' hf' hs hL.solver hL'.solver hz hz' (states_rows hu i hi) (states_rows hu' i hi)
  obtain ⟨m2, b1, b2⟩ := eigen_desc hw hf hw' hf' hs hL.solver hL'.solver hz hz' (states_rows hv i hi) (states_rows hv' i hi)
  refine (pair_unique _ _ _ a1 a2 b1 b2).trans ?_
  show pairSum L.D.nb _ _ _ (descStates π (descPhase 2 n (L.kFrac i)) (rowOf u i)) (descStates π (descPhase 2 n (P i)) (rowOf v i)) = _
  have hπ : ∀ a, a < L.D.nb → π a < L.D.nb := by rw [hL.solver.nb]; exact hs.perm
  set g := eiPhase ((∑ y, O.mulVec Q y * s'.origin y) - ∑ y, Q y * s.origin y) with hg
  have hA : ∀ a < L.D.nb, ∀ b < L.D.nb, waveOp (O.mulVec Q) L'.orbPos (π a) (π b) =
      g * (descPhase 2 n (P i) a * waveOp Q L.orbPos a b * star (descPhase 2 n (L.kFrac i) b)) := by
    intro a ha b hb
    rw [hL.solver.nb] at ha hb
    exact wave_desc hs hL hL' hPz ha hb
  have hB : ∀ a < L.D.nb, ∀ b < L.D.nb, star (waveOp (O.mulVec Q) L'.orbPos (π a) (π b)) =
      star g * (descPhase 2 n (L.kFrac i) a * star (waveOp Q L.orbPos a b) * star (descPhase 2 n (P i) b)) := by
    intro a ha b hb
    by_cases hab : a = b
    · subst hab
      rw [hA a ha a ha]
      simp only [star_mul', star_star]
      ring
    · have e1 : waveOp (O.mulVec Q) L'.orbPos (π a) (π b) = 0 := by
        unfold waveOp
        rw [if_neg (fun h => hab (π.injective h))]
      have e2 : waveOp Q L.orbPos a b = 0 := by
        unfold waveOp
        rw [if_neg hab]
      rw [e1, e2]
      simp
  have hgg : g * star g = 1 := eiPhase_mul_star _
  unfold pairSum
  refine Finset.sum_congr rfl fun x _ => Finset.sum_congr rfl fun y _ => ?_
  rw [desc_bracket hπ (descPhase_unit 2 n _) (descPhase_unit 2 n _) hA,
    desc_bracket (A := fun a b => star (waveOp Q L.orbPos a b)) hπ (descPhase_unit 2 n _) (descPhase_unit 2 n _) hB]
  simp only [descStates]
  linear_combination (lindFactor L om ((rowOf u i).1 x) ((rowOf v i).1 y) * bracket L.D.nb (waveOp Q L.orbPos) (rowOf v i) (rowOf u i) y x *
    bracket L.D.nb (fun a b => star (waveOp Q L.orbPos a b)) (rowOf u i) (rowOf v i) x y) * hgg

theorem factor_desc (hs : SameModel s s' O π n) (hL : CalcOf L s ext) (hL' : CalcOf L' s' ext) (hp : SameSetup (1, 1, 1) L L') :
    lindhardFactor L' = lindhardFactor L := by
  unfold lindhardFactor
  rw [hp.dim, hp.gs, same_mesh hp, hL.lat, hL'.lat, desc_det hs, desc_norm hs]

theorem table_desc (hw : WF s) (hf : ArraysFresh s) (hw' : WF s') (hf' : ArraysFresh s') (hs : SameModel s s' O π n) (hL : CalcOf L s ext)
    (hL' : CalcOf L' s' ext) (hp : SameSetup (1, 1, 1) L L') (hz : ZheevSpec L.D) (hz' : ZheevSpec L'.D) {X : Type} (l : List X) (P : X → ℕ → Vec3 ℝ)
    (qc : List (Vec3 ℝ)) (hP : ∀ (iq : ℕ) (x : X) (Q : Vec3 ℝ), l[iq]? = some x → qc[iq]? = some Q → ∀ i < L.numKpt, ∃ z : Fin 3 → ℤ, ∀ c,
      P x i c = L.kFrac i c + (∑ y, L.lat c y * Q y) / (2 * Real.pi) + z c) {u u' : (ℕ → ℕ → ℝ) × Arr3 ℂ} {v v' : List ((ℕ → ℕ → ℝ) × Arr3 ℂ)}
    (hu : statesSpec L.D L.numKpt L.kFrac 2 = .ok u) (hu' : statesSpec L'.D L.numKpt L.kFrac 2 = .ok u')
    (hv : l.mapM (fun x => statesSpec L.D L.numKpt (P x) 2) = .ok v) (hv' : l.mapM (fun x => statesSpec L'.D L.numKpt (P x) 2) = .ok v') :
    lindhardTable L' u' ((qc.map O.mulVec).zip v') = lindhardTable L u (qc.zip v) := by
  have hnk : L'.numKpt = L.numKpt := by rw [Lind.numKpt, same_mesh hp]; rfl
  funext iq iw
  unfold lindhardTable
  rw [hp.omegas, hnk, factor_desc hs hL hL' hp, hL.ext, hL'.ext]
  have h1 := mapM_size _ _ _ hv
  have h2 := mapM_size _ _ _ hv'
  by_cases hl : iq < l.length
  · by_cases hq : iq < qc.length
    · have hx : l[iq]? = some l[iq] := List.getElem?_eq_getElem hl
      have hqx : qc[iq]? = some qc[iq] := List.getElem?_eq_getElem hq
      obtain ⟨y, hy, hy'⟩ := mapM_get _ _ _ hv _ _ hx
      obtain ⟨y2, hz1, hz2⟩ := mapM_get _ _ _ hv' _ _ hx
      have e1 : (qc.zip v)[iq]? = some (qc[iq], y) := List.getElem?_zip_eq_some.2 ⟨hqx, hy'⟩
      have e2 : ((qc.map O.mulVec).zip v')[iq]? = some (O.mulVec qc[iq], y2) :=
        List.getElem?_zip_eq_some.2 ⟨by rw [List.getElem?_map, hqx]; rfl, hz2⟩
      rw [e1, e2]
      cases L.omegas[iw]? with
      | none => rfl
      | some om =>
        simp only
        rw [lindhard_desc hw hf hw' hf' hs hL hL' hp hz hz' (hP iq _ _ hx hqx) hu hy hu' hz1]
    · have e1 : (qc.zip v)[iq]? = none := by rw [List.getElem?_eq_none_iff, List.length_zip]; omega
      have e2 : ((qc.map O.mulVec).zip v')[iq]? = none := by rw [List.getElem?_eq_none_iff, List.length_zip, List.length_map]; omega
      rw [e1, e2]
  · have e1 : (qc.zip v)[iq]? = none := by rw [List.getElem?_eq_none_iff, List.length_zip]; omega
    have e2 : ((qc.map O.mulVec).zip v')[iq]? = none := by rw [List.getElem?_eq_none_iff, List.length_zip, List.length_map]; omega
    rw [e1, e2]

/-- C142: the dynamical polarization does not depend on the description; if the crystal is rotated, `q` has to be rotated as well. -/
theorem C142_dyn_arbitrary (hw : WF s) (hf : ArraysFresh s) (hw' : WF s') (hf' : ArraysFresh s') (hs : SameModel s s' O π n) (hL : CalcOf L s ext)
    (hL' : CalcOf L' s' ext) (hp : SameSetup (1, 1, 1) L L') (hz : ZheevSpec L.D) (hz' : ZheevSpec L'.D) (hd : L.dim = 2 ∨ L.dim = 3) {w : World}
    (hn : w.size ≤ L.numKpt) {buf buf' : ℕ → Buf} {fortran fortran' : Bool} {qs : List (Vec3 ℝ)} {d d' : ℕ → ℕ → ℕ → ℂ}
    (hok : L.dynPolArbitrary w buf fortran qs = .ok d) (hok' : L'.dynPolArbitrary w buf' fortran' (qs.map O.mulVec) = .ok d')
    (r : ℕ) (hr : r < w.size) : d' r = d r := by
  have hnk : L'.numKpt = L.numKpt := by rw [Lind.numKpt, same_mesh hp]; rfl
  have hkf : L'.kFrac = L.kFrac := by funext i; simp only [Lind.kFrac, Lind.grid2frac, same_mesh hp]
  have h1 := arbitrary_run L w buf fortran qs hd hn r hr
  have h2 := arbitrary_run L' w buf' fortran' (qs.map O.mulVec) (by rw [hp.dim]; exact hd) (by rw [hnk]; exact hn) r hr
  rw [hok] at h1
  rw [hok', List.length_map] at h2
  have key : ∀ t t', arbSpec L qs = .ok t → arbSpec L' (qs.map O.mulVec) = .ok t' → t' = t := by
    intro t t' ht ht'
    unfold arbSpec at ht ht'
    obtain ⟨qf, hqf, ht⟩ := ok_split ht
    obtain ⟨u, hu, ht⟩ := ok_split ht
    obtain ⟨v, hv, ht⟩ := ok_split ht
    obtain ⟨qf', hqf', ht'⟩ := ok_split ht'
    obtain ⟨u', hu', ht'⟩ := ok_split ht'
    obtain ⟨v', hv', ht'⟩ := ok_split ht'
    obtain rfl := Except.ok.inj ht
    obtain rfl := Except.ok.inj ht'
    obtain ⟨-, e1⟩ := cart_frac hqf
    obtain ⟨-, e2⟩ := cart_frac hqf'
    have e3 : qf' = qf := by
      rw [e1, e2, List.map_map]
      refine List.map_congr_left fun Q _ => ?_
      funext x
      simp only [Function.comp]
      rw [hL.lat, hL'.lat, desc_dot hs]
    rw [e3, hnk, hkf, e1, mapM_map'] at hv'
    rw [e1, mapM_map'] at hv
    rw [hnk, hkf] at hu'
    refine table_desc hw hf hw' hf' hs hL hL' hp hz hz' qs _ qs (fun iq x Q h1 h2 i hi => ⟨0, fun c => ?_⟩) hu hu' hv hv'
    obtain rfl : x = Q := Option.some.inj (h1.symm.trans h2)
    simp
  cases ht : arbSpec L qs with
  | error e => rw [ht] at h1; simp [Except.map] at h1
  | ok t =>
    cases ht' : arbSpec L' (qs.map O.mulVec) with
    | error e => rw [ht'] at h2; simp [Except.map] at h2
    | ok t' =>
      rw [ht] at h1
      rw [ht', key t t' ht ht'] at h2
      simp only [Except.map, Except.ok.injEq] at h1 h2
      rw [h1, h2]

/-- C142: likewise at points of the mesh. -/
theorem C142_dyn_regular (hw : WF s) (hf : ArraysFresh s) (hw' : WF s') (hf' : ArraysFresh s') (hs : SameModel s s' O π n) (hL : CalcOf L s ext)
    (hL' : CalcOf L' s' ext) (hp : SameSetup (1, 1, 1) L L') (hz : ZheevSpec L.D) (hz' : ZheevSpec L'.D) (hd : L.dim = 2 ∨ L.dim = 3) {w : World}
    (hn : w.size ≤ L.numKpt) {buf buf' : ℕ → Buf} {fortran fortran' : Bool} {qs : List Grid} {d d' : ℕ → ℕ → ℕ → ℂ}
    (hok : L.dynPolRegular w buf fortran qs = .ok d) (hok' : L'.dynPolRegular w buf' fortran' qs = .ok d')
    (r : ℕ) (hr : r < w.size) : d' r = d r := by
  have hm := numKpt_pos L (lt_of_lt_of_le w.pos hn)
  have hnk : L'.numKpt = L.numKpt := by rw [Lind.numKpt, same_mesh hp]; rfl
  have hgf : L'.grid2frac = L.grid2frac := by funext g; simp only [Lind.grid2frac, same_mesh hp]
  have hkf : L'.kFrac = L.kFrac := by funext i; simp only [Lind.kFrac, hgf, same_mesh hp]
  have h1 := regular_run L w buf fortran qs hd hn r hr
  have h2 := regular_run L' w buf' fortran' qs (by rw [hp.dim]; exact hd) (by rw [hnk]; exact hn) r hr
  rw [hok] at h1
  rw [hok'] at h2
  have key : ∀ t t', regSpec L qs = .ok t → regSpec L' qs = .ok t' → t' = t := by
    intro t t' ht ht'
    unfold regSpec at ht ht'
    obtain ⟨qc, hqc, ht⟩ := ok_split ht
    obtain ⟨u, hu, ht⟩ := ok_split ht
    obtain ⟨v, hv, ht⟩ := ok_split ht
    obtain ⟨qc', hqc', ht'⟩ := ok_split ht'
    obtain ⟨u', hu', ht'⟩ := ok_split ht'
    obtain ⟨v', hv', ht'⟩ := ok_split ht'
    obtain rfl := Except.ok.inj ht
    obtain rfl := Except.ok.inj ht'
    have hcart : ∀ {M : Lind} {l qc : List (Vec3 ℝ)}, M.frac2cart l = .ok qc → M.lat.det ≠ 0 ∧ qc = l.map (cartOf M.lat) := by
      intro M l qc h
      have hdet : M.lat.det ≠ 0 := by
        intro hdet
        simp [Lind.frac2cart, genReciprocal, hdet] at h
      refine ⟨hdet, ?_⟩
      rw [Lind.frac2cart, recip_some _ hdet] at h
      obtain rfl := Except.ok.inj h
      unfold frac2cart
      refine List.map_congr_left fun k _ => ?_
      funext y
      simp only [frac2cartRow, add_zero, cartOf, Matrix.mulVec, dotProduct, Matrix.transpose_apply, Matrix.of_apply]
      exact Finset.sum_congr rfl fun x _ => by ring
    obtain ⟨hdet, e1⟩ := hcart hqc
    obtain ⟨hdet', e2⟩ := hcart hqc'
    have e3 : qc' = qc.map O.mulVec := by
      rw [e1, e2, hgf, List.map_map (f := cartOf L.lat)]
      refine List.map_congr_left fun k _ => ?_
      refine (cartOf_unique hdet' fun x => ?_).symm
      have := desc_dot hs x (cartOf L.lat k)
      rw [← hL.lat, ← hL'.lat] at this
      rw [← cartOf_frac hdet k x]
      exact congrArg (· / (2 * Real.pi)) this
    subst e3
    have hst : ∀ q, statesKq L' q = statesSpec L'.D L.numKpt (fun i => L.grid2frac (wrapSum L.mesh ((buildKmeshGrid L.mesh).getD i (0, 0, 0)) q)) 2 := by
      intro q
      rw [statesKq, hnk, hgf, same_mesh hp]
    have hst' : qs.mapM (fun q => statesSpec L'.D L.numKpt (fun i => L.grid2frac (wrapSum L.mesh ((buildKmeshGrid L.mesh).getD i (0, 0, 0)) q)) 2) = .ok v' := by
      rw [← hv']
      congr 1
      funext q
      rw [hst]
    rw [hnk, hkf] at hu'
    refine table_desc hw hf hw' hf' hs hL hL' hp hz hz' qs _ qc (fun iq x Q h1 h2 i hi => ?_) hu hu' hv hst'
    obtain ⟨z, hz0⟩ := wrap_frac L hm ((buildKmeshGrid L.mesh).getD i (0, 0, 0)) x
    refine ⟨z, fun c => ?_⟩
    rw [e1, List.map_map, List.getElem?_map, h1] at h2
    obtain rfl := Option.some.inj h2
    rw [hz0 c]
    have := cartOf_frac hdet (L.grid2frac x) c
    simp only [dotProduct] at this
    simp only [Function.comp]
    rw [this]
    rfl
  cases ht : regSpec L qs with
  | error e => rw [ht] at h1; simp [Except.map] at h1
  | ok t =>
    cases ht' : regSpec L' qs with
    | error e => rw [ht'] at h2; simp [Except.map] at h2
    | ok t' =>
      rw [ht] at h1
      rw [ht', key t t' ht ht'] at h2
      simp only [Except.map, Except.ok.injEq] at h1 h2
      rw [h1, h2]

theorem bracket_lin {N : ℕ} (c : Fin 3 → ℂ) (V : Fin 3 → ℕ → ℕ → ℂ) (u q : (ℕ → ℝ) × (ℕ → ℕ → ℂ)) (l j : ℕ) :
    bracket N (fun a b => ∑ d, c d * V d a b) u q l j = ∑ d, c d * bracket N (V d) u q l j := by
  unfold bracket
  simp only [Fin.sum_univ_three, Finset.mul_sum, ← Finset.sum_add_distrib]
  refine Finset.sum_congr rfl fun a _ => Finset.sum_congr rfl fun b _ => ?_
  ring

theorem kubo_desc (hw : WF s) (hf : ArraysFresh s) (hw' : WF s') (hf' : ArraysFresh s') (hs : SameModel s s' O π n) (hL : CalcOf L s ext)
    (hL' : CalcOf L' s' ext) (hp : SameSetup (1, 1, 1) L L') (hz : ZheevSpec L.D) (hz' : ZheevSpec L'.D) {kc kc' : ℕ → Vec3 ℝ}
    (hkc : ∀ i < L.numKpt, kc' i = O.mulVec (kc i)) {u u' : (ℕ → ℕ → ℝ) × Arr3 ℂ}
    (hu : statesSpec L.D L.numKpt L.kFrac 1 = .ok u) (hu' : statesSpec L'.D L.numKpt L.kFrac 1 = .ok u') (a b : Fin 3) (om : ℝ) :
    kuboSum L' s'.posAt s'.arrEng s'.hopRows (a, b) u' kc' om =
      ∑ c, ∑ d, ((O a c : ℂ) * (O b d : ℂ)) * kuboSum L s.posAt s.arrEng s.hopRows (c, d) u kc om := by
  have hnk : L'.numKpt = L.numKpt := by rw [Lind.numKpt, same_mesh hp]; rfl
  have hnb : L'.D.nb = L.D.nb := by rw [hL'.solver.nb, hL.solver.nb, hs.num]
  have hfac : kuboFactor L' om = kuboFactor L om := by
    funext e e'
    unfold kuboFactor
    rw [hp.beta, hp.mu, hp.delta]
  have hπ : ∀ a, a < L.D.nb → π a < L.D.nb := by rw [hL.solver.nb]; exact hs.perm
  have key : ∀ i < L.numKpt, kuboTerm L' s'.posAt s'.arrEng s'.hopRows (a, b) u' kc' om i =
      ∑ c, ∑ d, ((O a c : ℂ) * (O b d : ℂ)) * kuboTerm L s.posAt s.arrEng s.hopRows (c, d) u kc om i := by
    intro i hi
    simp only [kubo_pairs]
    rw [hnb, hfac, hkc i hi]
    obtain ⟨m, a1, a2⟩ := eigen_desc hw hf hw' hf' hs hL.solver hL'.solver hz hz' (states_rows hu i hi) (states_rows hu' i hi)
    obtain ⟨n1, n2⟩ : s.numOrb ≠ 0 ∧ s.hops.numHop ≠ 0 := by
      obtain ⟨M, g, -⟩ := eigen_ok L.D hL.solver.plain _ _ _ (states_rows hu i hi)
      exact dense_nonempty (hL.solver.ham _ _ _ g)
    obtain ⟨n1', n2'⟩ : s'.numOrb ≠ 0 ∧ s'.hops.numHop ≠ 0 := by
      obtain ⟨M, g, -⟩ := eigen_ok L'.D hL'.solver.plain _ _ _ (states_rows hu' i hi)
      exact dense_nonempty (hL'.solver.ham _ _ _ g)
    refine (pair_unique _ _ _ a1 a2 a1 a2).trans ?_
    show pairSum L.D.nb _ _ _ (descStates π (descPhase 1 n (L.kFrac i)) (rowOf u i)) (descStates π (descPhase 1 n (L.kFrac i)) (rowOf u i)) = _
    have hv : ∀ c, ∀ x < L.D.nb, ∀ y < L.D.nb, velocity L'.lat s'.posAt s'.arrEng s'.hopRows (O.mulVec (kc i)) c (π x : ℕ) (π y : ℕ) =
        1 * (descPhase 1 n (L.kFrac i) x * (∑ d, (O c d : ℂ) * velocity L.lat s.posAt s.arrEng s.hopRows (kc i) d x y) *
          star (descPhase 1 n (L.kFrac i) y)) := by
      intro c x hx y hy
      rw [hL.solver.nb] at hx hy
      rw [hL.lat, hL'.lat, vel_desc hw hf hw' hf' hs n1 n2 n1' n2' (kc i) c hx hy]
      simp [descPhase]
    have hb : ∀ c x y, bracket L.D.nb (fun p q => velocity L'.lat s'.posAt s'.arrEng s'.hopRows (O.mulVec (kc i)) c p q)
        (descStates π (descPhase 1 n (L.kFrac i)) (rowOf u i)) (descStates π (descPhase 1 n (L.kFrac i)) (rowOf u i)) x y =
        ∑ d, (O c d : ℂ) * bracket L.D.nb (fun p q => velocity L.lat s.posAt s.arrEng s.hopRows (kc i) d p q) (rowOf u i) (rowOf u i) x y := by
      intro c x y
      rw [desc_bracket (A := fun p q => ∑ d, (O c d : ℂ) * velocity L.lat s.posAt s.arrEng s.hopRows (kc i) d p q) (g := 1) hπ
        (descPhase_unit 1 n _) (descPhase_unit 1 n _) (hv c), one_mul]
      exact bracket_lin (fun d => (O c d : ℂ)) (fun d p q => velocity L.lat s.posAt s.arrEng s.hopRows (kc i) d p q) _ _ _ _
    unfold pairSum
    simp only [hb]
    simp only [descStates, Fin.sum_univ_three, Finset.mul_sum, ← Finset.sum_add_distrib]
    refine Finset.sum_congr rfl fun x _ => Finset.sum_congr rfl fun y _ => ?_
    ring
  unfold kuboSum
  rw [hnk, Finset.sum_congr rfl fun i hi => key i (Finset.mem_range.1 hi)]
  simp only [Fin.sum_univ_three, Finset.mul_sum, ← Finset.sum_add_distrib]

/-- C142: the AC conductivity is a tensor: it does not depend on the description but for the rotation of the axes. -/
theorem C142_ac (hw : WF s) (hf : ArraysFresh s) (hw' : WF s') (hf' : ArraysFresh s') (hs : SameModel s s' O π n) (hL : CalcOf L s ext)
    (hL' : CalcOf L' s' ext) (hp : SameSetup (1, 1, 1) L L') (hz : ZheevSpec L.D) (hz' : ZheevSpec L'.D) {w w' : World}
    (hn : w.size ≤ L.numKpt) (hn' : w'.size ≤ L.numKpt) {buf buf' : ℕ → Buf} {fortran fortran' : Bool} {x : Fin 3 → Fin 3 → ℕ → ℕ → ℂ}
    {x' : ℕ → ℕ → ℂ} (a b : Fin 3) (hok : ∀ c d, L.acCond w buf fortran s.posAt s.hopRows (some (c, d)) = .ok (x c d))
    (hok' : L'.acCond w' buf' fortran' s'.posAt s'.hopRows (some (a, b)) = .ok x') (r : ℕ) (hr : r < w.size) (r' : ℕ) (hr' : r' < w'.size)
    (iw : ℕ) : x' r' iw = ∑ c, ∑ d, ((O a c : ℂ) * (O b d : ℂ)) * x c d r iw := by
  have hnk : L'.numKpt = L.numKpt := by rw [Lind.numKpt, same_mesh hp]; rfl
  have hgf : L'.grid2frac = L.grid2frac := by funext g; simp only [Lind.grid2frac, same_mesh hp]
  have hkf : L'.kFrac = L.kFrac := by funext i; simp only [Lind.kFrac, hgf, same_mesh hp]
  have h2 := ac_run L' w' buf' fortran' s'.posAt s'.arrEng s'.hopRows (some (a, b)) (by rw [hnk]; exact hn') r' hr'
  rw [hok'] at h2
  replace h2 := h2.symm
  unfold acSpec at h2
  obtain ⟨km', hkm', h2⟩ := ok_split h2
  obtain ⟨_, hc, h2⟩ := ok_split h2
  cases hc
  obtain ⟨u', hu', h2⟩ := ok_split h2
  have hx : ∃ km u, L.frac2cart ((buildKmeshGrid L.mesh).map L.grid2frac) = .ok km ∧ statesSpec L.D L.numKpt L.kFrac 1 = .ok u ∧
      ∀ c d, x c d r iw = match L.omegas[iw]? with
        | some om => (L.gs : ℂ) * Complex.I / ((cellSize L * L.numKpt : ℝ) : ℂ) *
            kuboSum L s.posAt s.arrEng s.hopRows (c, d) u (fun i => km.getD i 0) om / (L.ext : ℂ)
        | none => 0 := by
    have hall : ∀ c d, ∃ km u, L.frac2cart ((buildKmeshGrid L.mesh).map L.grid2frac) = .ok km ∧ statesSpec L.D L.numKpt L.kFrac 1 = .ok u ∧
        x c d r iw = match L.omegas[iw]? with
        | some om => (L.gs : ℂ) * Complex.I / ((cellSize L * L.numKpt : ℝ) : ℂ) *
            kuboSum L s.posAt s.arrEng s.hopRows (c, d) u (fun i => km.getD i 0) om / (L.ext : ℂ)
        | none => 0 := by
      intro c d
      have h1 := ac_run L w buf fortran s.posAt s.arrEng s.hopRows (some (c, d)) hn r hr
      rw [hok c d] at h1
      replace h1 := h1.symm
      unfold acSpec at h1
      obtain ⟨km, hkm, h1⟩ := ok_split h1
      obtain ⟨_, hc, h1⟩ := ok_split h1
      cases hc
      obtain ⟨u, hu, h1⟩ := ok_split h1
      exact ⟨km, u, hkm, hu, (congrFun (Except.ok.inj h1) iw).symm⟩
    obtain ⟨km, u, e1, e2, -⟩ := hall 0 0
    refine ⟨km, u, e1, e2, fun c d => ?_⟩
    obtain ⟨km2, u2, f1, f2, f3⟩ := hall c d
    obtain rfl : km = km2 := Except.ok.inj (e1.symm.trans f1)
    obtain rfl : u = u2 := Except.ok.inj (e2.symm.trans f2)
    exact f3
  obtain ⟨km, u, hkm, hu, hx⟩ := hx
  have hdet' : L'.lat.det ≠ 0 := by
    intro hdet
    simp [Lind.frac2cart, genReciprocal, hdet] at hkm'
  have hkc : ∀ i < L.numKpt, km'.getD i 0 = O.mulVec (km.getD i 0) := by
    intro i hi
    have g1 := (C77_mesh L km hkm).2 i hi
    have g2 := (C77_mesh L' km' hkm').2 i (by rw [hnk]; exact hi)
    rw [hkf] at g2
    refine (cartOf_unique hdet' g2).trans (cartOf_unique hdet' fun y => ?_).symm
    have := desc_dot hs y (km.getD i 0)
    rw [← hL.lat, ← hL'.lat] at this
    rw [← g1 y]
    exact congrArg (· / (2 * Real.pi)) this
  have hsize : cellSize L' = cellSize L := by
    unfold cellSize
    rw [hp.dim, hL.lat, hL'.lat, desc_area hs, desc_det hs]
  rw [hnk, hkf] at hu'
  have hx' := congrFun (Except.ok.inj h2) iw
  refine hx'.symm.trans ?_
  simp only [hx]
  rw [hp.omegas, hp.gs, hsize, hnk, hL.ext, hL'.ext]
  cases L.omegas[iw]? with
  | none => simp
  | some om =>
    simp only [kubo_desc hw hf hw' hf' hs hL hL' hp hz hz' hkc hu hu' a b om, Fin.sum_univ_three]
    ring

end Response

section Case

theorem add_desc {π : Equiv.Perm ℕ} {n : ℕ → Cell} {m m' : Cell → ℤ → ℤ → Option ℂ}
    (h : ∀ R (i j : ℕ), m' (R + n i - n j) (π i : ℕ) (π j : ℕ) = m R i j) (R0 : Cell) (i0 j0 : ℕ) (t : ℂ) (R : Cell) (i j : ℕ) :
    HopMap.add m' (R0 + n i0 - n j0) (π i0 : ℕ) (π j0 : ℕ) t (R + n i - n j) (π i : ℕ) (π j : ℕ) = HopMap.add m R0 i0 j0 t R i j := by
  have e1 : (R + n i - n j = R0 + n i0 - n j0 ∧ ((π i : ℕ) : ℤ) = (π i0 : ℕ) ∧ ((π j : ℕ) : ℤ) = (π j0 : ℕ)) ↔
      (R = R0 ∧ (i : ℤ) = i0 ∧ (j : ℤ) = j0) := by
    simp only [Nat.cast_inj, π.injective.eq_iff]
    constructor
    · rintro ⟨h1, rfl, rfl⟩
      exact ⟨by simpa using h1, rfl, rfl⟩
    · rintro ⟨rfl, rfl, rfl⟩
      exact ⟨rfl, rfl, rfl⟩
  have e2 : (R + n i - n j = -(R0 + n i0 - n j0) ∧ ((π i : ℕ) : ℤ) = (π j0 : ℕ) ∧ ((π j : ℕ) : ℤ) = (π i0 : ℕ)) ↔
      (R = -R0 ∧ (i : ℤ) = j0 ∧ (j : ℤ) = i0) := by
    simp only [Nat.cast_inj, π.injective.eq_iff]
    constructor
    · rintro ⟨h1, rfl, rfl⟩
      refine ⟨?_, rfl, rfl⟩
      have : R + n i - n j = -R0 + n i - n j := by rw [h1]; abel
      simpa using this
    · rintro ⟨rfl, rfl, rfl⟩
      exact ⟨by abel, rfl, rfl⟩
  simp only [HopMap.add, e1, e2, h]

/-- Graphene described otherwise: the two orbitals are exchanged, and the second atom is represented by its copy in the cell `(-1, 0, 0)`. -/
noncomputable def otherCalls (t : ℂ) : List (Op ℝ ℂ String) :=
  [.addOrbital [-2/3, 1/3] 0 "B", .addOrbital [0, 0] 0 "A", .addHopping [1, 0] 1 0 t, .addHopping [0, 0] 0 1 t, .addHopping [-1, 1] 0 1 t]

/-- C142: two descriptions of graphene, with any rotation and any origin.  All calculations run to their ends and agree. -/
theorem C142_example (H : HashFns ℝ ℂ String) (hO : ∀ l, l ≠ [] → H.orb l ≠ H.orb []) (hP : ∀ l, l ≠ [] → H.hop l ≠ H.hop []) (lat O : Mat3 ℝ)
    (hdet : lat.det ≠ 0) (hrot : O * O.transpose = 1) (o : Vec3 ℝ) (t : ℂ) (mesh : ℕ × ℕ × ℕ) (w : World) (hw : w.size = 1) (buf : ℕ → Buf)
    (fortran : Bool) (Q : Vec3 ℝ) (a b : Fin 3) (hn : w.size ≤ mesh.1 * (mesh.2.1 * mesh.2.2)) :
    ∃ (s s' : PrimCell ℝ ℂ String) (d d' : ℕ → ℕ → ℕ → ℂ) (x : Fin 3 → Fin 3 → ℕ → ℕ → ℂ) (x' : ℕ → ℕ → ℂ),
      runOk H (init H lat 0) (Materials.diamondCalls t) = .ok s ∧
      runOk H (init H (fun i => O.mulVec (lat i)) o) (otherCalls t) = .ok s' ∧
      SameModel (syncArray H s) (syncArray H s') O (Equiv.swap 0 1) (fun i => if i = 1 then (-1, 0, 0) else 0) ∧
      (anyCalc (syncArray H s) 1 mesh).dynPolArbitrary w buf fortran [Q] = .ok d ∧
      (anyCalc (syncArray H s') 1 mesh).dynPolArbitrary w buf fortran [O.mulVec Q] = .ok d' ∧
      (∀ c e, (anyCalc (syncArray H s) 1 mesh).acCond w buf fortran (syncArray H s).posAt (syncArray H s).hopRows (some (c, e)) = .ok (x c e)) ∧
      (anyCalc (syncArray H s') 1 mesh).acCond w buf fortran (syncArray H s').posAt (syncArray H s').hopRows (some (a, b)) = .ok x' ∧
      d' 0 = d 0 ∧ ∀ iw, x' 0 iw = ∑ c, ∑ e, ((O a c : ℂ) * (O b e : ℂ)) * x c e 0 iw := by
  obtain ⟨s, h1, hl, -, h4, h5, h6, h7, -, h8, h9⟩ := build_spec H lat 0 [([0, 0], 0, "C_pz"), ([1/3, 1/3], 0, "C_pz")]
    [([0, 0], 0, 1, t), ([1, 0], 1, 0, t), ([0, 1], 1, 0, t)]
    (by intro q hq; fin_cases hq <;> simp [checkLen]) (by intro q hq; fin_cases hq <;> simp [HopOk, checkLen, cellOf])
    (Materials.diamondCalls t) rfl
  obtain ⟨s', h1', hl', -, h4', h5', h6', h7', -, h8', h9'⟩ := build_spec H (fun i => O.mulVec (lat i)) o [([-2/3, 1/3], 0, "B"), ([0, 0], 0, "A")]
    [([1, 0], 1, 0, t), ([0, 0], 0, 1, t), ([-1, 1], 0, 1, t)]
    (by intro q hq; fin_cases hq <;> simp [checkLen]) (by intro q hq; fin_cases hq <;> simp [HopOk, checkLen, cellOf])
    (otherCalls t) rfl
  have hws : WF s := h6 ▸ WF_run H (WF_init H _ _) _ h7
  have hws' : WF s' := h6' ▸ WF_run H (WF_init H _ _) _ h7'
  have hhop : ∀ R (i j : ℕ), s'.hops.get (R + (if i = 1 then ((-1, 0, 0) : Cell) else 0) - (if j = 1 then ((-1, 0, 0) : Cell) else 0))
      (Equiv.swap 0 1 i : ℕ) (Equiv.swap 0 1 j : ℕ) = s.hops.get R i j := by
    rw [h5, h5']
    simp only [List.foldl_cons, List.foldl_nil]
    have b0 : ∀ R (i j : ℕ), (fun _ _ _ => none : Cell → ℤ → ℤ → Option ℂ) (R + (if i = 1 then ((-1, 0, 0) : Cell) else 0) -
        (if j = 1 then ((-1, 0, 0) : Cell) else 0)) (Equiv.swap 0 1 i : ℕ) (Equiv.swap 0 1 j : ℕ) =
        (fun _ _ _ => none : Cell → ℤ → ℤ → Option ℂ) R i j := fun _ _ _ => rfl
    have b1 := add_desc (π := Equiv.swap 0 1) (m := fun _ _ _ => none) (m' := fun _ _ _ => none) (n := fun i => if i = 1 then ((-1, 0, 0) : Cell) else 0) b0 (cellOf [0, 0]) 0 1 t
    have b2 := add_desc (π := Equiv.swap 0 1) (n := fun i => if i = 1 then ((-1, 0, 0) : Cell) else 0) b1 (cellOf [1, 0]) 1 0 t
    have b3 := add_desc (π := Equiv.swap 0 1) (n := fun i => if i = 1 then ((-1, 0, 0) : Cell) else 0) b2 (cellOf [0, 1]) 1 0 t
    intro R i j
    exact b3 R i j
  have hg : s.hops.get 0 0 1 ≠ none := by
    rw [h5]
    simp only [List.foldl_cons, List.foldl_nil, HopMap.add, cellOf, checkLen, Option.getD_some]
    simp
    split_ifs with a1 a2 a3
    · simp
    · simp
    · simp
    · exact absurd rfl a3
  have hg' : s'.hops.get (0 + 0 - (-1, 0, 0)) 1 0 ≠ none := by
    have := hhop 0 0 1
    simp only [Equiv.swap_apply_left, Equiv.swap_apply_right] at this
    rw [show s'.hops.get (0 + 0 - (-1, 0, 0)) 1 0 = s.hops.get 0 0 1 from this]
    exact hg
  obtain ⟨g1, g2, g3, g4, g5, g6, -⟩ := build_ham (H := H) (s := s) hws hO hP h8 h9 (by rw [h4]; simp) 0 0 1 hg
  obtain ⟨g1', g2', g3', g4', g5', g6', -⟩ := build_ham (H := H) (s := s') hws' hO hP h8' h9' (by rw [h4']; simp) _ 1 0 hg'
  obtain ⟨ham, hham⟩ := g6 0 2 (Or.inr rfl)
  obtain ⟨n1, n2⟩ := dense_nonempty hham
  obtain ⟨ham', hham'⟩ := g6' 0 2 (Or.inr rfl)
  obtain ⟨n1', n2'⟩ := dense_nonempty hham'
  have hnum : (syncArray H s).numOrb = 2 := by
    show (syncArray H s).orbs.length = 2
    rw [g3, h4]
    rfl
  have hnum' : (syncArray H s').numOrb = 2 := by
    show (syncArray H s').orbs.length = 2
    rw [g3', h4']
    rfl
  have hr : SameModel (syncArray H s) (syncArray H s') O (Equiv.swap 0 1) (fun i => if i = 1 then (-1, 0, 0) else 0) := by
    refine ⟨hrot, fun x => by rw [g5, g5', hl, hl'], by rw [hnum, hnum'], ?_, ?_, ?_⟩
    · rw [hnum]
      intro i hi
      interval_cases i
      · simp
      · simp
    · intro i ob hi
      rw [g3, h4] at hi
      rw [g3', h4']
      match i, hi with
      | 0, hi =>
        obtain rfl := Option.some.inj hi
        refine ⟨⟨vec3 (0, 0, 0), 0, "A"⟩, by rw [Equiv.swap_apply_left]; rfl, rfl, fun x => ?_⟩
        fin_cases x <;> simp [vec3, checkLen, cellAt]
      | 1, hi =>
        obtain rfl := Option.some.inj hi
        refine ⟨⟨vec3 (-2/3, 1/3, 0), 0, "B"⟩, by rw [Equiv.swap_apply_right]; rfl, rfl, fun x => ?_⟩
        fin_cases x <;> norm_num [vec3, checkLen, cellAt]
    · intro R i j _ _
      rw [g4, g4']
      exact hhop R i j
  have hd : (syncArray H s).lat.det ≠ 0 := by rw [g5, hl]; exact hdet
  have hd' : (syncArray H s').lat.det ≠ 0 := by
    rw [← abs_pos, desc_det hr, abs_pos]
    exact hd
  have hk : w.size ≤ (anyCalc (syncArray H s) 1 mesh).numKpt := by
    show w.size ≤ (buildKmeshGrid mesh).length
    rw [kmesh_length]
    exact hn
  have hk' : w.size ≤ (anyCalc (syncArray H s') 1 mesh).numKpt := hk
  have hp : SameSetup (1, 1, 1) (anyCalc (syncArray H s) 1 mesh) (anyCalc (syncArray H s') 1 mesh) :=
    ⟨rfl, rfl, rfl, rfl, rfl, rfl, by simp [anyCalc]⟩
  obtain ⟨d, -, -, e1, -⟩ := anyCalc_run n1 n2 hd 1 mesh w hw hk buf fortran Q
  obtain ⟨d', -, -, e2, -⟩ := anyCalc_run n1' n2' hd' 1 mesh w hw hk' buf fortran (O.mulVec Q)
  choose x e3 using fun c e => any_ac n1 n2 hd 1 mesh w hk buf fortran (c, e)
  obtain ⟨x', e4⟩ := any_ac n1' n2' hd' 1 mesh w hk' buf fortran (a, b)
  exact ⟨s, s', d, d', x, x', h1, h1', hr, e1, e2, e3, e4,
    C142_dyn_arbitrary g1 g2 g1' g2' hr (anyCalc_of _ 1 mesh) (anyCalc_of _ 1 mesh) hp (anySolver_zheev _) (anySolver_zheev _) (Or.inr rfl) hk e1 e2 0 w.pos,
    C142_ac g1 g2 g1' g2' hr (anyCalc_of _ 1 mesh) (anyCalc_of _ 1 mesh) hp (anySolver_zheev _) (anySolver_zheev _) hk hk a b e3 e4 0 w.pos 0 w.pos⟩

end Case

end Verif.Props

import Verif.Proof.TimeReversal

/-! # C141: models with real hoppings do not distinguish opposite wave vectors -/

namespace Verif.Props

open PrimCell Materials

section Real

variable {Λ : Type} {s : PrimCell ℝ ℂ Λ}

/-- C141: with real hoppings the bands at opposite wave vectors are equal; in either convention, and whatever reciprocal lattice vectors are added. -/
theorem C141_bands (hw : WF s) (hf : ArraysFresh s) (hs : RealHops s) {D : Diag} (hD : SolvesCell D s) (hz : ZheevSpec D) (ho : SortSpec D.nb D.argsort)
    {w w' : World} {buf buf' : ℕ → Buf} {n : ℕ} {kpts kpts' : ℕ → Vec3 ℝ} (hk : ∀ i < n, Opposite (kpts i) (kpts' i)) {conv : ℤ}
    {orbs orbs' : Option (List ℕ)} {bd bd' : ℕ → (ℕ → ℕ → ℝ) × (ℕ → ℕ → ℝ)} (hok : calcBands D w buf n kpts conv orbs = .ok bd)
    (hok' : calcBands D w' buf' n kpts' conv orbs' = .ok bd') (r : ℕ) (hr : r < w.size) (r' : ℕ) (hr' : r' < w'.size) (i : ℕ) (hi : i < n)
    (b : ℕ) (hb : b < D.nb) : (bd' r').1 i b = (bd r).1 i b := by
  obtain ⟨q, hq, hp, hd⟩ := C44_bands_sorted D w buf n kpts conv orbs r hr (fun ev => (ho ev).1) (fun ev => (ho ev).2) bd hok i hi
  obtain ⟨q', hq', hp', hd'⟩ := C44_bands_sorted D w' buf' n kpts' conv orbs' r' hr' (fun ev => (ho ev).1) (fun ev => (ho ev).2) bd' hok' i hi
  obtain ⟨z, hkz⟩ := hk i hi
  obtain ⟨m, h1, h2⟩ := eigen_rev hw hf hs hD hz hkz hq hq'
  have hl := levels_unique h1 h2
  refine roots_unique (n := D.nb) (f := (bd' r').1 i) (g := (bd r).1 i) hd' hd (fun z => ?_) b hb
  have hprod : ∀ u : ℕ → ℝ, ∏ b ∈ Finset.range D.nb, (z - (u b : ℂ)) = (((List.range D.nb).map u).map fun x : ℝ => z - (x : ℂ)).prod := by
    intro u
    rw [List.map_map, Finset.prod_range, ← List.prod_ofFn, List.ofFn_eq_map, ← List.map_coe_finRange_eq_range, List.map_map]
    rfl
  rw [hprod, hprod]
  exact List.Perm.prod_eq (List.Perm.map _ (hp'.trans (hl.trans hp.symm)))

/-- Lindhard functions of opposite q. -/
theorem lindhard_rev (hw : WF s) (hf : ArraysFresh s) (hs : RealHops s) {L : Lind} (hD : SolvesCell L.D s) (hz : ZheevSpec L.D)
    (hm : 0 < L.mesh.1 ∧ 0 < L.mesh.2.1 ∧ 0 < L.mesh.2.2) {P P' : ℕ → Vec3 ℝ}
    (hP : ∀ i < L.numKpt, ∀ j < L.numKpt, Opposite (L.kFrac i) (L.kFrac j) → Opposite (P i) (P' j)) {u v v' : (ℕ → ℕ → ℝ) × Arr3 ℂ}
    (hu : statesSpec L.D L.numKpt L.kFrac 2 = .ok u) (hv : statesSpec L.D L.numKpt P 2 = .ok v) (hv' : statesSpec L.D L.numKpt P' 2 = .ok v')
    (q : Vec3 ℝ) (om : ℝ) : lindhardSum L L.numKpt u v' (-q) om = lindhardSum L L.numKpt u v q om := by
  rw [lindhard_pairs, lindhard_pairs]
  refine mesh_opp L hm _ _ fun i hi j hj hij => ?_
  obtain ⟨z1, hk1⟩ := hij
  obtain ⟨z2, hk2⟩ := hP i hi j hj ⟨z1, hk1⟩
  obtain ⟨m1, a1, a2⟩ := eigen_rev hw hf hs hD hz hk1 (states_rows hu i hi) (states_rows hu j hj)
  obtain ⟨m2, b1, b2⟩ := eigen_rev hw hf hs hD hz hk2 (states_rows hv i hi) (states_rows hv' j hj)
  have hθ : ∀ z, revPhase s 2 z = fun _ => 1 := by
    intro z
    funext a
    simp [revPhase]
  rw [hθ] at a2 b2
  refine (pair_unique _ _ _ a1 a2 b1 b2).trans ?_
  show pairSum L.D.nb _ _ _ (revStates (fun _ => 1) (rowOf u i)) (revStates (fun _ => 1) (rowOf v i)) = _
  have hwave : ∀ a b, waveOp (-q) L.orbPos a b = star (waveOp q L.orbPos a b) := by
    intro a b
    unfold waveOp
    by_cases hab : a = b
    · rw [if_pos hab, if_pos hab]
      show _ = (starRingEnd ℂ) _
      rw [← Complex.exp_conj, map_mul, Complex.conj_I, Complex.conj_ofReal]
      congr 1
      simp only [Pi.neg_apply, neg_mul, Finset.sum_neg_distrib]
      push_cast
      ring
    · rw [if_neg hab, if_neg hab, star_zero]
  unfold pairSum
  refine Finset.sum_congr rfl fun x _ => Finset.sum_congr rfl fun y _ => ?_
  rw [rev_bracket (A := waveOp q L.orbPos) (e := 1) (by simp) (by intro a _ b _; simp [hwave]),
    rev_bracket (A := fun a b => star (waveOp q L.orbPos a b)) (e := 1) (by simp) (by intro a _ b _; simp [hwave]), one_mul, one_mul]
  have h1 : star (bracket L.D.nb (waveOp q L.orbPos) (rowOf v i) (rowOf u i) y x) =
      bracket L.D.nb (fun a b => star (waveOp q L.orbPos a b)) (rowOf u i) (rowOf v i) x y :=
    bracket_star (fun a b => by
      unfold waveOp
      by_cases hab : a = b
      · subst hab; rfl
      · rw [if_neg hab, if_neg (Ne.symm hab)]) _ _ _ _
  rw [h1, ← h1, star_star]
  simp only [revStates]
  ring

theorem table_rev (hw : WF s) (hf : ArraysFresh s) (hs : RealHops s) {L : Lind} (hD : SolvesCell L.D s) (hz : ZheevSpec L.D)
    (hm : 0 < L.mesh.1 ∧ 0 < L.mesh.2.1 ∧ 0 < L.mesh.2.2) {X : Type} (l : List X) (P P' : X → ℕ → Vec3 ℝ) (qc : List (Vec3 ℝ))
    (hP : ∀ x, ∀ i < L.numKpt, ∀ j < L.numKpt, Opposite (L.kFrac i) (L.kFrac j) → Opposite (P x i) (P' x j)) {u : (ℕ → ℕ → ℝ) × Arr3 ℂ}
    {v v' : List ((ℕ → ℕ → ℝ) × Arr3 ℂ)} (hu : statesSpec L.D L.numKpt L.kFrac 2 = .ok u)
    (hv : l.mapM (fun x => statesSpec L.D L.numKpt (P x) 2) = .ok v) (hv' : l.mapM (fun x => statesSpec L.D L.numKpt (P' x) 2) = .ok v') :
    lindhardTable L u ((qc.map fun q => -q).zip v') = lindhardTable L u (qc.zip v) := by
  funext iq iw
  unfold lindhardTable
  have h1 := mapM_size _ _ _ hv
  have h2 := mapM_size _ _ _ hv'
  by_cases hl : iq < l.length
  · by_cases hq : iq < qc.length
    · have hx : l[iq]? = some l[iq] := List.getElem?_eq_getElem hl
      have hqx : qc[iq]? = some qc[iq] := List.getElem?_eq_getElem hq
      obtain ⟨y, hy, hy'⟩ := mapM_get _ _ _ hv _ _ hx
      obtain ⟨y2, hz1, hz2⟩ := mapM_get _ _ _ hv' _ _ hx
      have e1 : (qc.zip v)[iq]? = some (qc[iq], y) := List.getElem?_zip_eq_some.2 ⟨hqx, hy'⟩
      have e2 : ((qc.map fun q => -q).zip v')[iq]? = some (-qc[iq], y2) :=
        List.getElem?_zip_eq_some.2 ⟨by rw [List.getElem?_map, hqx]; rfl, hz2⟩
      rw [e1, e2]
      cases L.omegas[iw]? with
      | none => rfl
      | some om =>
        simp only
        rw [lindhard_rev hw hf hs hD hz hm (hP _) hu hy hz1]
    · have e1 : (qc.zip v)[iq]? = none := by rw [List.getElem?_eq_none_iff, List.length_zip]; omega
      have e2 : ((qc.map fun q => -q).zip v')[iq]? = none := by rw [List.getElem?_eq_none_iff, List.length_zip, List.length_map]; omega
      rw [e1, e2]
  · have e1 : (qc.zip v)[iq]? = none := by rw [List.getElem?_eq_none_iff, List.length_zip]; omega
    have e2 : ((qc.map fun q => -q).zip v')[iq]? = none := by rw [List.getElem?_eq_none_iff, List.length_zip, List.length_map]; omega
    rw [e1, e2]

theorem mapM_map' {ε A B C : Type} (f : A → B) (g : B → Except ε C) (l : List A) : (l.map f).mapM g = l.mapM (fun x => g (f x)) := by
  induction l with
  | nil => rfl
  | cons a l ih => rw [List.map_cons, List.mapM_cons, List.mapM_cons, ih]

/-- C141: with real hoppings the dynamical polarization at `-q` is that at `q`, for any points `q`. -/
theorem C141_dyn_arbitrary (hw : WF s) (hf : ArraysFresh s) (hs : RealHops s) {L : Lind} {ext : ℝ} (hL : CalcOf L s ext) (hz : ZheevSpec L.D)
    (hd : L.dim = 2 ∨ L.dim = 3) {w : World} (hn : w.size ≤ L.numKpt) {buf buf' : ℕ → Buf} {fortran fortran' : Bool} {qs : List (Vec3 ℝ)}
    {d d' : ℕ → ℕ → ℕ → ℂ} (hok : L.dynPolArbitrary w buf fortran qs = .ok d)
    (hok' : L.dynPolArbitrary w buf' fortran' (qs.map fun q => -q) = .ok d') (r : ℕ) (hr : r < w.size) : d' r = d r := by
  have hm := numKpt_pos L (lt_of_lt_of_le w.pos hn)
  have h1 := arbitrary_run L w buf fortran qs hd hn r hr
  have h2 := arbitrary_run L w buf' fortran' (qs.map fun q => -q) hd hn r hr
  rw [hok] at h1
  rw [hok', List.length_map] at h2
  have key : ∀ t t', arbSpec L qs = .ok t → arbSpec L (qs.map fun q => -q) = .ok t' → t' = t := by
    intro t t' ht ht'
    unfold arbSpec at ht ht'
    obtain ⟨qf, hqf, ht⟩ := ok_split ht
    obtain ⟨u, hu, ht⟩ := ok_split ht
    obtain ⟨v, hv, ht⟩ := ok_split ht
    obtain ⟨qf', hqf', ht'⟩ := ok_split ht'
    obtain ⟨u', hu', ht'⟩ := ok_split ht'
    obtain ⟨v', hv', ht'⟩ := ok_split ht'
    obtain rfl := Except.ok.inj ht
    obtain rfl := Except.ok.inj ht'
    obtain rfl : u = u' := Except.ok.inj (hu.symm.trans hu')
    obtain ⟨-, e1⟩ := cart_frac hqf
    obtain ⟨-, e2⟩ := cart_frac hqf'
    rw [e1, mapM_map'] at hv
    rw [e2, List.map_map, mapM_map'] at hv'
    refine table_rev hw hf hs hL.solver hz hm qs _ _ qs (fun Q i hi j hj hij => ?_) hu hv hv'
    obtain ⟨z, hk⟩ := hij
    refine ⟨z, fun x => ?_⟩
    simp only [Pi.add_apply, Function.comp, Pi.neg_apply, mul_neg, Finset.sum_neg_distrib, hk]
    ring
  cases ht : arbSpec L qs with
  | error e => rw [ht] at h1; simp [Except.map] at h1
  | ok t =>
    cases ht' : arbSpec L (qs.map fun q => -q) with
    | error e => rw [ht'] at h2; simp [Except.map] at h2
    | ok t' =>
      rw [ht] at h1
      rw [ht', key t t' ht ht'] at h2
      simp only [Except.map, Except.ok.injEq] at h1 h2
      rw [h1, h2]

theorem wrap_frac (L : Lind) (hm : 0 < L.mesh.1 ∧ 0 < L.mesh.2.1 ∧ 0 < L.mesh.2.2) (k q : Grid) :
    ∃ z : Fin 3 → ℤ, ∀ x, L.grid2frac (wrapSum L.mesh k q) x = L.grid2frac k x + L.grid2frac q x + z x := by
  have key : ∀ (x y : ℤ) (n : ℕ), 0 < n → (((x + y) % (n : ℤ) : ℤ) : ℝ) / n = (x : ℝ) / n + (y : ℝ) / n + ((-((x + y) / (n : ℤ)) : ℤ) : ℝ) := by
    intro x y n hn
    have h1 : (n : ℝ) ≠ 0 := by exact_mod_cast hn.ne'
    have h2 : (((x + y) % (n : ℤ) : ℤ) : ℝ) = (x : ℝ) + y - n * (((x + y) / (n : ℤ) : ℤ) : ℝ) := by
      rw [Int.emod_def]
      push_cast
      ring
    rw [h2]
    push_cast
    field_simp
    ring
  refine ⟨![-((k.1 + q.1) / (L.mesh.1 : ℤ)), -((k.2.1 + q.2.1) / (L.mesh.2.1 : ℤ)), -((k.2.2 + q.2.2) / (L.mesh.2.2 : ℤ))], fun x => ?_⟩
  fin_cases x
  · exact key _ _ _ hm.1
  · exact key _ _ _ hm.2.1
  · exact key _ _ _ hm.2.2

/-- C141: likewise at points of the mesh. -/
theorem C141_dyn_regular (hw : WF s) (hf : ArraysFresh s) (hs : RealHops s) {L : Lind} {ext : ℝ} (hL : CalcOf L s ext) (hz : ZheevSpec L.D)
    (hd : L.dim = 2 ∨ L.dim = 3) {w : World} (hn : w.size ≤ L.numKpt) {buf buf' : ℕ → Buf} {fortran fortran' : Bool} {qs : List Grid}
    {d d' : ℕ → ℕ → ℕ → ℂ} (hok : L.dynPolRegular w buf fortran qs = .ok d)
    (hok' : L.dynPolRegular w buf' fortran' (qs.map fun q => (-q.1, -q.2.1, -q.2.2)) = .ok d') (r : ℕ) (hr : r < w.size) : d' r = d r := by
  have hm := numKpt_pos L (lt_of_lt_of_le w.pos hn)
  have h1 := regular_run L w buf fortran qs hd hn r hr
  have h2 := regular_run L w buf' fortran' (qs.map fun q => (-q.1, -q.2.1, -q.2.2)) hd hn r hr
  rw [hok] at h1
  rw [hok', List.length_map] at h2
  have hneg : ∀ q : Grid, L.grid2frac (-q.1, -q.2.1, -q.2.2) = -L.grid2frac q := by
    intro q
    funext x
    fin_cases x <;> simp [Lind.grid2frac, neg_div]
  have key : ∀ t t', regSpec L qs = .ok t → regSpec L (qs.map fun q => (-q.1, -q.2.1, -q.2.2)) = .ok t' → t' = t := by
    intro t t' ht ht'
    unfold regSpec at ht ht'
    obtain ⟨qc, hqc, ht⟩ := ok_split ht
    obtain ⟨u, hu, ht⟩ := ok_split ht
    obtain ⟨v, hv, ht⟩ := ok_split ht
    obtain ⟨qc', hqc', ht'⟩ := ok_split ht'
    obtain ⟨u', hu', ht'⟩ := ok_split ht'
    obtain ⟨v', hv', ht'⟩ := ok_split ht'
    obtain rfl := Except.ok.inj ht
    obtain rfl := Except.ok.inj ht'
    obtain rfl : u = u' := Except.ok.inj (hu.symm.trans hu')
    have hc : qc' = qc.map fun q => -q := by
      unfold Lind.frac2cart at hqc hqc'
      cases hB : genReciprocal L.lat with
      | none => rw [hB] at hqc; cases hqc
      | some B =>
        rw [hB] at hqc hqc'
        obtain rfl := Except.ok.inj hqc
        obtain rfl := Except.ok.inj hqc'
        unfold frac2cart
        simp only [List.map_map]
        refine List.map_congr_left fun q _ => ?_
        simp only [Function.comp, hneg, frac2cartRow, add_zero, Matrix.mulVec_neg]
    subst hc
    rw [mapM_map'] at hv'
    refine table_rev hw hf hs hL.solver hz hm qs _ _ qc (fun Q i hi j hj hij => ?_) hu hv hv'
    obtain ⟨z, hk⟩ := hij
    obtain ⟨z1, hz1⟩ := wrap_frac L hm ((buildKmeshGrid L.mesh).getD i (0, 0, 0)) Q
    obtain ⟨z2, hz2⟩ := wrap_frac L hm ((buildKmeshGrid L.mesh).getD j (0, 0, 0)) (-Q.1, -Q.2.1, -Q.2.2)
    refine ⟨fun x => z x + z1 x + z2 x, fun x => ?_⟩
    have h3 := hk x
    unfold Lind.kFrac at h3
    rw [hz1, hz2, h3, hneg, Pi.neg_apply]
    push_cast
    ring
  cases ht : regSpec L qs with
  | error e => rw [ht] at h1; simp [Except.map] at h1
  | ok t =>
    cases ht' : regSpec L (qs.map fun q => (-q.1, -q.2.1, -q.2.2)) with
    | error e => rw [ht'] at h2; simp [Except.map] at h2
    | ok t' =>
      rw [ht] at h1
      rw [ht', key t t' ht ht'] at h2
      simp only [Except.map, Except.ok.injEq] at h1 h2
      rw [h1, h2]

/-- The Kubo-Greenwood sums of the two orders of the components. -/
theorem kubo_rev (hw : WF s) (hf : ArraysFresh s) (hs : RealHops s) {L : Lind} (hD : SolvesCell L.D s) (hz : ZheevSpec L.D)
    (hm : 0 < L.mesh.1 ∧ 0 < L.mesh.2.1 ∧ 0 < L.mesh.2.2) {kc : ℕ → Vec3 ℝ}
    (hkc : ∀ i < L.numKpt, ∀ j, dotProduct (L.lat j) (kc i) / (2 * Real.pi) = L.kFrac i j) {u : (ℕ → ℕ → ℝ) × Arr3 ℂ}
    (hu : statesSpec L.D L.numKpt L.kFrac 1 = .ok u) (a b : Fin 3) (om : ℝ) :
    kuboSum L s.posAt s.arrEng s.hopRows (b, a) u kc om = kuboSum L s.posAt s.arrEng s.hopRows (a, b) u kc om := by
  unfold kuboSum
  simp only [kubo_pairs]
  refine mesh_opp L hm _ _ fun i hi j hj hij => ?_
  obtain ⟨z, hk⟩ := hij
  obtain ⟨m, a1, a2⟩ := eigen_rev hw hf hs hD hz hk (states_rows hu i hi) (states_rows hu j hj)
  obtain ⟨n1, n2⟩ : s.numOrb ≠ 0 ∧ s.hops.numHop ≠ 0 := by
    obtain ⟨M, g, -⟩ := eigen_ok L.D hD.plain _ _ _ (states_rows hu i hi)
    exact dense_nonempty (hD.ham _ _ _ g)
  refine (pair_unique _ _ _ a1 a2 a1 a2).trans ?_
  show pairSum L.D.nb _ _ _ (revStates (revPhase s 1 z) (rowOf u i)) (revStates (revPhase s 1 z) (rowOf u i)) = _
  have hv : ∀ c, ∀ x < L.D.nb, ∀ y < L.D.nb, velocity L.lat s.posAt s.arrEng s.hopRows (kc j) c x y =
      -1 * (revPhase s 1 z x * star (velocity L.lat s.posAt s.arrEng s.hopRows (kc i) c x y) * star (revPhase s 1 z y)) := by
    intro c x hx y hy
    rw [hD.nb] at hx hy
    exact vel_rev hw hf hs n1 n2 (fun d => by rw [hkc j hj, hkc i hi, hk]) c hx hy
  unfold pairSum
  refine Finset.sum_congr rfl fun x _ => Finset.sum_congr rfl fun y _ => ?_
  rw [rev_bracket (A := fun p q => velocity L.lat s.posAt s.arrEng s.hopRows (kc i) b p q) (e := -1) (revPhase_unit s 1 z) (hv b),
    rev_bracket (A := fun p q => velocity L.lat s.posAt s.arrEng s.hopRows (kc i) a p q) (e := -1) (revPhase_unit s 1 z) (hv a),
    bracket_star (fun p q => vel_herm _ _ _ _ _ _ p q), bracket_star (fun p q => vel_herm _ _ _ _ _ _ p q)]
  simp only [revStates]
  ring

/-- C141: with real hoppings the AC conductivity is symmetric (Onsager): in particular there is no Hall conductivity. -/
theorem C141_ac (hw : WF s) (hf : ArraysFresh s) (hs : RealHops s) {L : Lind} {ext : ℝ} (hL : CalcOf L s ext) (hz : ZheevSpec L.D)
    {w w' : World} (hn : w.size ≤ L.numKpt) (hn' : w'.size ≤ L.numKpt) {buf buf' : ℕ → Buf} {fortran fortran' : Bool} (a b : Fin 3)
    {x x' : ℕ → ℕ → ℂ} (hok : L.acCond w buf fortran s.posAt s.hopRows (some (a, b)) = .ok x)
    (hok' : L.acCond w' buf' fortran' s.posAt s.hopRows (some (b, a)) = .ok x') (r : ℕ) (hr : r < w.size) (r' : ℕ) (hr' : r' < w'.size) :
    x' r' = x r := by
  have hm := numKpt_pos L (lt_of_lt_of_le w.pos hn)
  have h1 := ac_run L w buf fortran s.posAt s.arrEng s.hopRows (some (a, b)) hn r hr
  have h2 := ac_run L w' buf' fortran' s.posAt s.arrEng s.hopRows (some (b, a)) hn' r' hr'
  rw [hok] at h1
  rw [hok'] at h2
  replace h1 := h1.symm
  replace h2 := h2.symm
  unfold acSpec at h1 h2
  obtain ⟨km, hkm, h1⟩ := ok_split h1
  obtain ⟨km', hkm', h2⟩ := ok_split h2
  obtain rfl : km = km' := Except.ok.inj (hkm.symm.trans hkm')
  obtain ⟨_, hc, h1⟩ := ok_split h1
  cases hc
  obtain ⟨_, hc, h2⟩ := ok_split h2
  cases hc
  obtain ⟨u, hu, h1⟩ := ok_split h1
  obtain ⟨u', hu', h2⟩ := ok_split h2
  obtain rfl : u = u' := Except.ok.inj (hu.symm.trans hu')
  refine (Except.ok.inj h2).symm.trans (Eq.trans ?_ (Except.ok.inj h1))
  funext iw
  cases L.omegas[iw]? with
  | none => rfl
  | some om => simp only [kubo_rev hw hf hs hL.solver hz hm (C77_mesh L km hkm).2 hu a b]

end Real

section Case

variable {Λ : Type}

/-- C141: a cell to which only real hoppings have been added has real hoppings. -/
theorem C141_built (hops : List (List ℤ × ℤ × ℤ × ℂ)) (hh : ∀ q ∈ hops, star q.2.2.2 = q.2.2.2) (s : PrimCell ℝ ℂ Λ)
    (hs : s.hops.get = hops.foldl (fun m q => HopMap.add m (cellOf q.1) q.2.1 q.2.2.1 q.2.2.2) (fun _ _ _ => none)) : RealHops s := by
  have key : ∀ (l : List (List ℤ × ℤ × ℤ × ℂ)) (m : Cell → ℤ → ℤ → Option ℂ), (∀ q ∈ l, star q.2.2.2 = q.2.2.2) →
      (∀ R i j t, m R i j = some t → star t = t) → ∀ R i j t,
      l.foldl (fun m q => HopMap.add m (cellOf q.1) q.2.1 q.2.2.1 q.2.2.2) m R i j = some t → star t = t := by
    intro l
    induction l with
    | nil => intro m _ hm R i j t h; exact hm R i j t h
    | cons q l ih =>
      intro m hl hm
      refine ih _ (fun p hp => hl p (List.mem_cons_of_mem _ hp)) ?_
      have hq := hl q List.mem_cons_self
      intro R i j t h
      simp only [HopMap.add] at h
      split_ifs at h
      · obtain rfl := Option.some.inj h
        exact hq
      · obtain rfl := Option.some.inj h
        rw [hq, hq]
      · exact hm R i j t h
  intro R i j t h
  rw [hs] at h
  exact key hops _ hh (fun _ _ _ _ h => by cases h) R i j t h

/-- The hypotheses of C141 are met by graphene with a real hopping on every mesh, and all calculations run to their ends. -/
theorem C141_example (H : HashFns ℝ ℂ String) (hO : ∀ l, l ≠ [] → H.orb l ≠ H.orb []) (hP : ∀ l, l ≠ [] → H.hop l ≠ H.hop []) (lat : Mat3 ℝ)
    (hdet : lat.det ≠ 0) (t : ℝ) (mesh : ℕ × ℕ × ℕ) (w : World) (hw : w.size = 1) (buf : ℕ → Buf) (fortran : Bool) (Q : Vec3 ℝ) (a b : Fin 3)
    (hn : w.size ≤ mesh.1 * (mesh.2.1 * mesh.2.2)) :
    ∃ s d d' x x', runOk H (init H lat 0) (Materials.diamondCalls t) = .ok s ∧ RealHops (syncArray H s) ∧
      (anyCalc (syncArray H s) 1 mesh).dynPolArbitrary w buf fortran [Q] = .ok d ∧
      (anyCalc (syncArray H s) 1 mesh).dynPolArbitrary w buf fortran [-Q] = .ok d' ∧
      (anyCalc (syncArray H s) 1 mesh).acCond w buf fortran (syncArray H s).posAt (syncArray H s).hopRows (some (a, b)) = .ok x ∧
      (anyCalc (syncArray H s) 1 mesh).acCond w buf fortran (syncArray H s).posAt (syncArray H s).hopRows (some (b, a)) = .ok x' ∧
      d' 0 = d 0 ∧ x' 0 = x 0 := by
  obtain ⟨s, h1, hl, -, h4, h5, h6, h7, -, h8, h9⟩ := build_spec H lat 0 [([0, 0], 0, "C_pz"), ([1/3, 1/3], 0, "C_pz")]
    [([0, 0], 0, 1, (t : ℂ)), ([1, 0], 1, 0, (t : ℂ)), ([0, 1], 1, 0, (t : ℂ))]
    (by intro q hq; fin_cases hq <;> simp [checkLen]) (by intro q hq; fin_cases hq <;> simp [HopOk, checkLen, cellOf])
    (Materials.diamondCalls t) rfl
  have hws : WF s := h6 ▸ WF_run H (WF_init H _ _) _ h7
  have hg : s.hops.get 0 0 1 ≠ none := by
    rw [h5]
    simp only [List.foldl_cons, List.foldl_nil, HopMap.add, cellOf, checkLen, Option.getD_some]
    simp
    split_ifs with a1 a2 a3
    · simp
    · simp
    · simp
    · exact absurd rfl a3
  obtain ⟨g1, g2, g3, g4, g5, g6, -⟩ := build_ham (H := H) (s := s) hws hO hP h8 h9 (by rw [h4]; simp) 0 0 1 hg
  obtain ⟨ham, hham⟩ := g6 0 2 (Or.inr rfl)
  obtain ⟨n1, n2⟩ := dense_nonempty hham
  have hr : RealHops (syncArray H s) := by
    refine C141_built _ ?_ _ (g4.trans h5)
    intro q hq
    fin_cases hq <;> exact Complex.conj_ofReal _
  have hd : (syncArray H s).lat.det ≠ 0 := by rw [g5, hl]; exact hdet
  have hk : w.size ≤ (anyCalc (syncArray H s) 1 mesh).numKpt := by
    show w.size ≤ (buildKmeshGrid mesh).length
    rw [kmesh_length]
    exact hn
  obtain ⟨d, -, -, e1, -⟩ := anyCalc_run n1 n2 hd 1 mesh w hw hk buf fortran Q
  obtain ⟨d', -, -, e2, -⟩ := anyCalc_run n1 n2 hd 1 mesh w hw hk buf fortran (-Q)
  obtain ⟨x, e3⟩ := any_ac n1 n2 hd 1 mesh w hk buf fortran (a, b)
  obtain ⟨x', e4⟩ := any_ac n1 n2 hd 1 mesh w hk buf fortran (b, a)
  exact ⟨s, d, d', x, x', h1, hr, e1, e2, e3, e4,
    C141_dyn_arbitrary g1 g2 hr (anyCalc_of _ 1 mesh) (anySolver_zheev _) (Or.inr rfl) hk e1 e2 0 w.pos,
    C141_ac g1 g2 hr (anyCalc_of _ 1 mesh) (anySolver_zheev _) hk hk a b e3 e4 0 w.pos 0 w.pos⟩

end Case

end Verif.Props

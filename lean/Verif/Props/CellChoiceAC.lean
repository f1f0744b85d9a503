import Verif.Proof.CellChoiceAC

/-! # C140: the AC conductivity of a cell and of an extension of it -/

namespace Verif.Props

open PrimCell Materials

section Extended

variable {Λ : Type} {H : HashFns ℝ ℂ Λ} {lat : Mat3 ℝ} {o : Vec3 ℝ} {cs : List (Call ℝ ℂ Λ)} {ext : ℝ} {d : Cell} {t : PCObj ℝ ℂ Λ}

/-- The Cartesian coordinates of a fractional wave vector. -/
noncomputable def cartOf (A : Mat3 ℝ) (k : Vec3 ℝ) : Vec3 ℝ := A⁻¹.mulVec fun x => 2 * Real.pi * k x

theorem cartOf_frac {A : Mat3 ℝ} (hdet : A.det ≠ 0) (k : Vec3 ℝ) (x : Fin 3) : dotProduct (A x) (cartOf A k) / (2 * Real.pi) = k x := by
  have hp : (2 * Real.pi) ≠ 0 := by positivity
  have h : A.mulVec (cartOf A k) = fun x => 2 * Real.pi * k x := by
    rw [cartOf, Matrix.mulVec_mulVec, Matrix.mul_nonsing_inv _ (isUnit_iff_ne_zero.2 hdet), Matrix.one_mulVec]
  have := congrFun h x
  simp only [Matrix.mulVec] at this
  rw [this]
  field_simp

theorem cartOf_unique {A : Mat3 ℝ} (hdet : A.det ≠ 0) {K k : Vec3 ℝ} (h : ∀ x, dotProduct (A x) K / (2 * Real.pi) = k x) : K = cartOf A k := by
  have hp : (2 * Real.pi) ≠ 0 := by positivity
  have h1 : A.mulVec K = fun x => 2 * Real.pi * k x := by
    funext x
    rw [← h x]
    simp only [Matrix.mulVec]
    field_simp
  rw [cartOf, ← h1, Matrix.mulVec_mulVec, Matrix.nonsing_inv_mul _ (isUnit_iff_ne_zero.2 hdet), Matrix.one_mulVec]

theorem dense_nonempty {s : PrimCell ℝ ℂ Λ} {k : Vec3 ℝ} {conv : ℤ} {h : IMat} (hok : setHamDense s k conv = .ok h) :
    s.numOrb ≠ 0 ∧ s.hops.numHop ≠ 0 := by
  unfold setHamDense at hok
  split_ifs at hok with h1 h2 h3
  exact ⟨h2, h3⟩

/-- The Kubo-Greenwood sums of the two cells are equal. -/
theorem kubo_fold (hr : InRange H (init H lat o) cs) (hf : ArraysFresh (run H (init H lat o) cs)) (hd : 1 ≤ d.1 ∧ 1 ≤ d.2.1 ∧ 1 ≤ d.2.2)
    (ht : extendPrimCell H ⟨run H (init H lat o) cs, ext⟩ [d.1, d.2.1, d.2.2] = .ok t) (hft : ArraysFresh (syncArray H t.cell))
    {L L' : Lind} (hL : CalcOf L (run H (init H lat o) cs) ext) (hL' : CalcOf L' (syncArray H t.cell) t.ext) (hs : SameSetup d L L')
    (hz : ZheevSpec L.D) (hz' : ZheevSpec L'.D) (hm' : 0 < L'.mesh.1 ∧ 0 < L'.mesh.2.1 ∧ 0 < L'.mesh.2.2)
    (hlat : ∀ x y, L'.lat x y = cellAt d x * L.lat x y) (hdet : L.lat.det ≠ 0)
    {kc kc' : ℕ → Vec3 ℝ} (hkc : ∀ i < L.numKpt, ∀ j, dotProduct (L.lat j) (kc i) / (2 * Real.pi) = L.kFrac i j)
    (hkc' : ∀ i < L'.numKpt, ∀ j, dotProduct (L'.lat j) (kc' i) / (2 * Real.pi) = L'.kFrac i j)
    {u u' : (ℕ → ℕ → ℝ) × Arr3 ℂ} (hu : statesSpec L.D L.numKpt L.kFrac 1 = .ok u) (hu' : statesSpec L'.D L'.numKpt L'.kFrac 1 = .ok u')
    (comp : Fin 3 × Fin 3) (om : ℝ) :
    kuboSum L' (syncArray H t.cell).posAt (syncArray H t.cell).arrEng (syncArray H t.cell).hopRows comp u' kc' om =
      kuboSum L (run H (init H lat o) cs).posAt (run H (init H lat o) cs).arrEng (run H (init H lat o) cs).hopRows comp u kc om := by
  have hfac : kuboFactor L' om = kuboFactor L om := by
    funext e e'
    unfold kuboFactor
    rw [hs.beta, hs.mu, hs.delta]
  have hrow : ∀ {D : Diag} {n : ℕ} {kp : ℕ → Vec3 ℝ} {s : (ℕ → ℕ → ℝ) × Arr3 ℂ}, statesSpec D n kp 1 = .ok s → ∀ i < n, rowOf s i = eigVal D (kp i) 1 := by
    intro D n kp s h i hi
    rw [eigVal, states_rows h i hi]
    rfl
  have hok : ∀ {D : Diag} {n : ℕ} {kp : ℕ → Vec3 ℝ} {s : (ℕ → ℕ → ℝ) × Arr3 ℂ}, statesSpec D n kp 1 = .ok s → ∀ i < n,
      eigen D (kp i) 1 = .ok (eigVal D (kp i) 1) := by
    intro D n kp s h i hi
    rw [eigVal, states_rows h i hi]
    rfl
  unfold kuboSum
  simp only [kubo_pairs]
  let g := fun y : Vec3 ℝ => pairSum L.D.nb (kuboFactor L om)
      (fun a b => velocity L.lat (run H (init H lat o) cs).posAt (run H (init H lat o) cs).arrEng (run H (init H lat o) cs).hopRows (cartOf L.lat y) comp.1 a b)
      (fun a b => velocity L.lat (run H (init H lat o) cs).posAt (run H (init H lat o) cs).arrEng (run H (init H lat o) cs).hopRows (cartOf L.lat y) comp.2 a b)
      (eigVal L.D y 1) (eigVal L.D y 1)
  have hR : ∑ k ∈ Finset.range L.numKpt, pairSum L.D.nb (kuboFactor L om)
      (fun a b => velocity L.lat (run H (init H lat o) cs).posAt (run H (init H lat o) cs).arrEng (run H (init H lat o) cs).hopRows (kc k) comp.1 a b)
      (fun a b => velocity L.lat (run H (init H lat o) cs).posAt (run H (init H lat o) cs).arrEng (run H (init H lat o) cs).hopRows (kc k) comp.2 a b)
      (rowOf u k) (rowOf u k) = ∑ k ∈ Finset.range L.numKpt, g (L.kFrac k) :=
    Finset.sum_congr rfl fun k hk => by
      show _ = pairSum _ _ _ _ _ _
      rw [hrow hu k (Finset.mem_range.1 hk), cartOf_unique hdet (hkc k (Finset.mem_range.1 hk))]
  rw [hR, mesh_fold hd hm' hs.mesh g]
  refine Finset.sum_congr rfl fun i hi => ?_
  have hi := Finset.mem_range.1 hi
  have hpt := mesh_point hd hm' hs.mesh i hi
  have hq : ∀ m, InBox d m → eigen L.D (fun x => (L'.kFrac i x + cellAt m x) / cellAt d x) 1 =
      .ok (eigVal L.D (fun x => (L'.kFrac i x + cellAt m x) / cellAt d x) 1) := by
    intro m hm
    obtain ⟨x, hx, e⟩ := hpt m hm
    have := hok hu x hx
    rw [e] at this
    exact this
  obtain ⟨hN, M1, a1, a2⟩ := fold_eigen H lat o cs hr hf ext hd t ht hft hL.solver hL'.solver hz hz' (k := L'.kFrac i) (conv := 1)
    (q := fun m => eigVal L.D (fun x => (L'.kFrac i x + cellAt m x) / cellAt d x) 1) (hok hu' i hi) hq
  obtain ⟨n1, n2⟩ : (run H (init H lat o) cs).numOrb ≠ 0 ∧ (run H (init H lat o) cs).hops.numHop ≠ 0 := by
    obtain ⟨M, g, -⟩ := eigen_ok L.D hL.solver.plain _ _ _ (hq 0 ⟨⟨le_refl _, by show (0:ℤ) < _; omega⟩, ⟨le_refl _, by show (0:ℤ) < _; omega⟩,
      ⟨le_refl _, by show (0:ℤ) < _; omega⟩⟩)
    exact dense_nonempty (hL.solver.ham _ _ _ g)
  obtain ⟨n1', n2'⟩ : (syncArray H t.cell).numOrb ≠ 0 ∧ (syncArray H t.cell).hops.numHop ≠ 0 := by
    obtain ⟨M, g, -⟩ := eigen_ok L'.D hL'.solver.plain _ _ _ (hok hu' i hi)
    exact dense_nonempty (hL'.solver.ham _ _ _ g)
  rw [hrow hu' i hi, pair_unique _ _ _ a1 a2 a1 a2, hfac]
  have hvel : ∀ c m, InBox d m → ∀ I, InBox d I → ∀ a < L.D.nb, ∀ b < L.D.nb, ∑ J ∈ boxSet d,
      velocity L'.lat (syncArray H t.cell).posAt (syncArray H t.cell).arrEng (syncArray H t.cell).hopRows (kc' i) c (idx d L.D.nb I a) (idx d L.D.nb J b) *
        extPhase (run H (init H lat o) cs) 1 d (L'.kFrac i) m J b = extPhase (run H (init H lat o) cs) 1 d (L'.kFrac i) m I a *
      velocity L.lat (run H (init H lat o) cs).posAt (run H (init H lat o) cs).arrEng (run H (init H lat o) cs).hopRows
        (cartOf L.lat fun x => (L'.kFrac i x + cellAt m x) / cellAt d x) c a b := by
    intro c m hm I hI a ha b hb
    rw [hL.solver.nb] at ha hb ⊢
    exact vel_fold hr hf hd ht hft n1 n2 n1' n2' hlat _ m I hI (fun x => by rw [cartOf_frac hdet, hkc' i hi]) c ha hb
  refine pair_fold hd hN _ (fun m m' hm hm' j hj l hl => ?_) (fun m hm j hj l hl => ?_)
  · exact op_fold hd hN (A := fun m a b => velocity L.lat (run H (init H lat o) cs).posAt (run H (init H lat o) cs).arrEng (run H (init H lat o) cs).hopRows
        (cartOf L.lat fun x => (L'.kFrac i x + cellAt m x) / cellAt d x) comp.1 a b)
      (fun m m' hm hm' i' _ => extPhase_orth hd _ 1 _ hm hm' i') (hvel comp.1) hm hm' hj hl
  · have := op_fold hd hN (A' := fun a b => velocity L'.lat (syncArray H t.cell).posAt (syncArray H t.cell).arrEng (syncArray H t.cell).hopRows (kc' i) comp.2 a b)
      (A := fun m a b => velocity L.lat (run H (init H lat o) cs).posAt (run H (init H lat o) cs).arrEng (run H (init H lat o) cs).hopRows
        (cartOf L.lat fun x => (L'.kFrac i x + cellAt m x) / cellAt d x) comp.2 a b)
      (q := fun m => eigVal L.D (fun x => (L'.kFrac i x + cellAt m x) / cellAt d x) 1)
      (u := fun m => eigVal L.D (fun x => (L'.kFrac i x + cellAt m x) / cellAt d x) 1)
      (fun m m' hm hm' i' _ => extPhase_orth hd _ 1 _ hm hm' i') (hvel comp.2) hm hm hl hj
    rw [if_pos rfl] at this
    exact this

theorem size_fold {L L' : Lind} (hd : 1 ≤ d.1 ∧ 1 ≤ d.2.1 ∧ 1 ≤ d.2.2) (hs : SameSetup d L L') (hlat : ∀ x y, L'.lat x y = cellAt d x * L.lat x y)
    (hdim : L.dim = 2 → d.2.2 = 1) : cellSize L' * L'.numKpt = cellSize L * L.numKpt := by
  have hdx : ∀ x, (0 : ℝ) < cellAt d x := by
    intro x
    have : 0 < cellAt d x := by fin_cases x <;> simp [cellAt] <;> omega
    exact_mod_cast this
  have h0 := hdx 0
  have h1 := hdx 1
  have h2 := hdx 2
  have hdet : L'.lat.det = cellAt d 0 * cellAt d 1 * cellAt d 2 * L.lat.det := by
    rw [Matrix.det_fin_three, Matrix.det_fin_three]
    simp only [hlat]
    ring
  have hcr : crossProduct (L'.lat 0) (L'.lat 1) = fun y => ((cellAt d 0 : ℝ) * cellAt d 1) * crossProduct (L.lat 0) (L.lat 1) y := by
    funext y
    fin_cases y <;> simp [cross_apply, hlat] <;> ring
  have m1 : (L.mesh.1 : ℝ) = cellAt d 0 * L'.mesh.1 := by exact_mod_cast hs.mesh.1
  have m2 : (L.mesh.2.1 : ℝ) = cellAt d 1 * L'.mesh.2.1 := by exact_mod_cast hs.mesh.2.1
  have m3 : (L.mesh.2.2 : ℝ) = cellAt d 2 * L'.mesh.2.2 := by exact_mod_cast hs.mesh.2.2
  have hk : ∀ L : Lind, (L.numKpt : ℝ) = L.mesh.1 * (L.mesh.2.1 * L.mesh.2.2) := by
    intro L
    rw [Lind.numKpt, kmesh_length]
    push_cast
    ring
  rw [hk L, hk L', m1, m2, m3]
  unfold cellSize
  rw [hs.dim]
  split_ifs with h
  · have : (cellAt d 2 : ℝ) = 1 := by
      have := hdim h
      simp [cellAt, this]
    rw [hcr, norm3_smul, abs_of_pos (by positivity), this]
    ring
  · rw [hdet, abs_mul, abs_of_pos (by positivity : (0 : ℝ) < cellAt d 0 * cellAt d 1 * cellAt d 2)]
    ring

/-- C140 (partial): the AC conductivity of an extension of a cell, with a mesh coarser by the same factors and any numbers of processes, should
be equal to that of the cell.  It is smaller by the factor `da*db*dc`, since both are divided by `extended`.  In two dimensions the extension is
one along the layer. -/
theorem C140_ac_partial (hr : InRange H (init H lat o) cs) (hf : ArraysFresh (run H (init H lat o) cs)) (hd : 1 ≤ d.1 ∧ 1 ≤ d.2.1 ∧ 1 ≤ d.2.2)
    (ht : extendPrimCell H ⟨run H (init H lat o) cs, ext⟩ [d.1, d.2.1, d.2.2] = .ok t) (hft : ArraysFresh (syncArray H t.cell))
    {L L' : Lind} (hL : CalcOf L (run H (init H lat o) cs) ext) (hL' : CalcOf L' (syncArray H t.cell) t.ext) (hs : SameSetup d L L')
    (hz : ZheevSpec L.D) (hz' : ZheevSpec L'.D) (hdim : L.dim = 2 → d.2.2 = 1) {w w' : World} (hn : w.size ≤ L.numKpt) (hn' : w'.size ≤ L'.numKpt)
    {buf buf' : ℕ → Buf} {fortran fortran' : Bool} {comp : Option (Fin 3 × Fin 3)} {x x' : ℕ → ℕ → ℂ}
    (hok : L.acCond w buf fortran (run H (init H lat o) cs).posAt (run H (init H lat o) cs).hopRows comp = .ok x)
    (hok' : L'.acCond w' buf' fortran' (syncArray H t.cell).posAt (syncArray H t.cell).hopRows comp = .ok x') (r : ℕ) (hrk : r < w.size)
    (r' : ℕ) (hrk' : r' < w'.size) (iw : ℕ) : x r iw = ((d.1 * d.2.1 * d.2.2 : ℤ) : ℂ) * x' r' iw := by
  have hm' := numKpt_pos L' (lt_of_lt_of_le w'.pos hn')
  have h1 := ac_run L w buf fortran (run H (init H lat o) cs).posAt (run H (init H lat o) cs).arrEng (run H (init H lat o) cs).hopRows comp hn r hrk
  have h2 := ac_run L' w' buf' fortran' (syncArray H t.cell).posAt (syncArray H t.cell).arrEng (syncArray H t.cell).hopRows comp hn' r' hrk'
  rw [hok] at h1
  rw [hok'] at h2
  obtain ⟨hext, hlat⟩ : L'.ext = L.ext * ((d.1 * d.2.1 * d.2.2 : ℤ) : ℝ) ∧ ∀ x y, L'.lat x y = cellAt d x * L.lat x y := by
    obtain ⟨t1, g1, g2, -, g4, -⟩ := C33_extend H lat o cs hr ext d hd [d.1, d.2.1, d.2.2] (Or.inl rfl)
    rw [g1] at ht
    obtain rfl := Except.ok.inj ht
    refine ⟨by rw [hL'.ext, hL.ext, g2]; push_cast; ring, fun x y => ?_⟩
    rw [hL'.lat, hL.lat, (sync_geom H t1.cell).1, g4]
  replace h1 := h1.symm
  replace h2 := h2.symm
  unfold acSpec at h1 h2
  obtain ⟨km, hkm, h1⟩ := ok_split h1
  obtain ⟨km', hkm', h2⟩ := ok_split h2
  cases comp with
  | none => cases h1
  | some cp =>
  obtain ⟨_, hc, h1⟩ := ok_split h1
  cases hc
  obtain ⟨_, hc, h2⟩ := ok_split h2
  cases hc
  obtain ⟨u, hu, h1⟩ := ok_split h1
  obtain ⟨u', hu', h2⟩ := ok_split h2
  have hdet : L.lat.det ≠ 0 := by
    intro hdet
    simp [Lind.frac2cart, genReciprocal, hdet] at hkm
  have hk := fun om => kubo_fold hr hf hd ht hft hL hL' hs hz hz' hm' hlat hdet (C77_mesh L km hkm).2 (C77_mesh L' km' hkm').2 hu hu' cp om
  have e1 := congrFun (Except.ok.inj h1) iw
  have e2 := congrFun (Except.ok.inj h2) iw
  simp only at e1 e2
  rw [← e1, ← e2, hs.omegas]
  cases L.omegas[iw]? with
  | none => simp
  | some om =>
    simp only [hk, size_fold hd hs hlat hdim, hext, hs.gs]
    have hne : ((d.1 * d.2.1 * d.2.2 : ℤ) : ℂ) ≠ 0 := by
      have : d.1 * d.2.1 * d.2.2 ≠ 0 := by
        have h1 := hd.1; have h2 := hd.2.1; have h3 := hd.2.2
        positivity
      exact_mod_cast this
    rw [Complex.ofReal_mul L.ext, Complex.ofReal_intCast, div_mul_eq_div_div, mul_div_cancel₀ _ hne]

end Extended

section Case

variable {Λ : Type}

theorem any_eigen_one {s : PrimCell ℝ ℂ Λ} (h1 : s.numOrb ≠ 0) (h2 : s.hops.numHop ≠ 0) (k : Vec3 ℝ) : ∃ q, eigen (anySolver s) k 1 = .ok q := by
  have hm : (anySolver s).setHam k 1 (fun _ _ => 0) = .ok (setHam s.posAt s.arrEng s.hopRows 1 k fun _ _ => 0) := by
    show hamInto s k 1 _ = _
    unfold hamInto
    rw [if_neg (by simp), if_neg h1, if_neg h2]
  have hex := eigenpairs_exist (C09_hermitian s.posAt s.arrEng s.hopRows 1 k s.numOrb)
  have hq : (anySolver s).zheev (setHam s.posAt s.arrEng s.hopRows 1 k fun _ _ => 0) = some hex.choose := by
    show anyZheev _ _ = _
    unfold anyZheev
    exact dif_pos hex
  refine ⟨hex.choose, ?_⟩
  unfold eigen
  rw [hm]
  simp only [hq]
  rfl

/-- The conductivity can be calculated for every cell with orbitals, hoppings and independent lattice vectors. -/
theorem any_ac {s : PrimCell ℝ ℂ Λ} (h1 : s.numOrb ≠ 0) (h2 : s.hops.numHop ≠ 0) (hdet : s.lat.det ≠ 0) (ext : ℝ) (mesh : ℕ × ℕ × ℕ) (w : World)
    (hn : w.size ≤ (anyCalc s ext mesh).numKpt) (buf : ℕ → Buf) (fortran : Bool) (comp : Fin 3 × Fin 3) :
    ∃ x, (anyCalc s ext mesh).acCond w buf fortran s.posAt s.hopRows (some comp) = .ok x := by
  have h := ac_run (anyCalc s ext mesh) w buf fortran s.posAt s.arrEng s.hopRows (some comp) hn 0 w.pos
  obtain ⟨u, hu⟩ : ∃ u, statesSpec (anyCalc s ext mesh).D (anyCalc s ext mesh).numKpt (anyCalc s ext mesh).kFrac 1 = .ok u := by
    have : firstErr (fun i => eigen (anyCalc s ext mesh).D ((anyCalc s ext mesh).kFrac i) 1) (List.range (anyCalc s ext mesh).numKpt) = none := by
      rw [firstErr_none]
      exact fun i _ => any_eigen_one h1 h2 _
    exact ⟨_, by rw [statesSpec_eq, this]; rfl⟩
  have hdet' : (anyCalc s ext mesh).lat.det ≠ 0 := hdet
  simp only [acSpec, Lind.frac2cart, recip_some _ hdet', hu, bind, Except.bind] at h
  cases hx : (anyCalc s ext mesh).acCond w buf fortran s.posAt s.hopRows (some comp) with
  | error e => rw [hx] at h; cases h
  | ok x => exact ⟨x, rfl⟩

/-- The hypotheses of C140 are met by every cell with orbitals, hoppings and independent lattice vectors whose arrays are up to date, and by every
extension, if the hash functions distinguish it from an empty cell: the calculations for both run to their ends. -/
theorem C140_ac_example (H : HashFns ℝ ℂ Λ) (hO : ∀ l, l ≠ [] → H.orb l ≠ H.orb []) (hP : ∀ l, l ≠ [] → H.hop l ≠ H.hop []) (lat : Mat3 ℝ) (o : Vec3 ℝ)
    (cs : List (Call ℝ ℂ Λ)) (hr : InRange H (init H lat o) cs) (hf : ArraysFresh (run H (init H lat o) cs)) (h1 : (run H (init H lat o) cs).numOrb ≠ 0)
    (h2 : (run H (init H lat o) cs).hops.numHop ≠ 0) (hdet : (run H (init H lat o) cs).lat.det ≠ 0) (a b c x y z : ℕ) (hd : 0 < a ∧ 0 < b ∧ 0 < c)
    (w : World) (hn : w.size ≤ x * (y * z)) (buf : ℕ → Buf) (comp : Fin 3 × Fin 3) :
    ∃ t v v', extendPrimCell H ⟨run H (init H lat o) cs, 1⟩ [a, b, c] = .ok t ∧ ArraysFresh (syncArray H t.cell) ∧
      (anyCalc (run H (init H lat o) cs) 1 (a * x, b * y, c * z)).acCond w buf false (run H (init H lat o) cs).posAt (run H (init H lat o) cs).hopRows (some comp) = .ok v ∧
      (anyCalc (syncArray H t.cell) t.ext (x, y, z)).acCond w buf true (syncArray H t.cell).posAt (syncArray H t.cell).hopRows (some comp) = .ok v' ∧
      ∀ r < w.size, v r 0 = ((a * b * c : ℕ) : ℂ) * v' r 0 := by
  have hwf := WF_run H (WF_init H lat o) cs hr
  have hd' : 1 ≤ ((a : ℤ), (b : ℤ), (c : ℤ)).1 ∧ 1 ≤ ((a : ℤ), (b : ℤ), (c : ℤ)).2.1 ∧ 1 ≤ ((a : ℤ), (b : ℤ), (c : ℤ)).2.2 := by
    simp only
    omega
  obtain ⟨t, g1, g2, g3, g4, g5, -, -, -, -, g6⟩ := C33_extend H lat o cs hr 1 ((a : ℤ), (b : ℤ), (c : ℤ)) hd' [(a : ℤ), (b : ℤ), (c : ℤ)] (Or.inl rfl)
  have hpos : (0 : ℤ) < (a : ℤ) * b * c := by
    have := hd.1; have := hd.2.1; have := hd.2.2
    positivity
  have ht1 : t.cell.orbs ≠ [] := by
    intro h
    have : (0 : ℤ) < t.cell.numOrb := by
      rw [g5]
      exact mul_pos hpos (by omega)
    rw [numOrb, h] at this
    simp at this
  have ht2 : t.cell.hops.toList ≠ [] := by
    rw [← numHop_pos_iff]
    have : (0 : ℤ) < t.cell.hops.numHop := by
      rw [g6]
      exact mul_pos hpos (by omega)
    exact_mod_cast this
  have hs1 : (syncArray H t.cell).numOrb ≠ 0 := by
    rw [numOrb, syncArray_numOrb]
    exact fun h => ht1 (List.length_eq_zero_iff.1 h)
  have hs2 : (syncArray H t.cell).hops.numHop ≠ 0 := by
    have : (syncArray H t.cell).hops.toList = t.cell.hops.toList := by
      unfold syncArray syncHop syncOrb
      simp only
      split_ifs <;> first | rfl | exact toList_purge _
    rw [← Nat.pos_iff_ne_zero, numHop_pos_iff, this]
    exact ht2
  have hft : ArraysFresh (syncArray H t.cell) := by
    obtain ⟨t', ht', e1, e2⟩ := extend_hash H _ 1 hwf ((a : ℤ), (b : ℤ), (c : ℤ)) hd' [(a : ℤ), (b : ℤ), (c : ℤ)] rfl
    rw [g1] at ht'
    obtain rfl := Except.ok.inj ht'
    have p1 : t.cell.hashOrb ≠ H.orb t.cell.orbs := by rw [e1]; exact fun h => hO _ ht1 h.symm
    have p2 : t.cell.hashHop ≠ H.hop t.cell.hops.toList := by rw [e2]; exact fun h => hP _ ht2 h.symm
    constructor <;> simp [syncArray, syncHop, syncOrb, p1, p2, toList_purge]
  have hlat : (syncArray H t.cell).lat.det ≠ 0 := by
    rw [(sync_geom H t.cell).1]
    have : t.cell.lat.det = ((a : ℤ) * b * c : ℤ) * (run H (init H lat o) cs).lat.det := by
      rw [Matrix.det_fin_three, Matrix.det_fin_three]
      simp only [g4, cellAt]
      push_cast
      ring
    rw [this]
    exact mul_ne_zero (by exact_mod_cast hpos.ne') hdet
  have hk' : w.size ≤ (anyCalc (syncArray H t.cell) t.ext (x, y, z)).numKpt := by
    rw [Lind.numKpt, kmesh_length]
    exact hn
  have hk : w.size ≤ (anyCalc (run H (init H lat o) cs) 1 (a * x, b * y, c * z)).numKpt := by
    rw [Lind.numKpt, kmesh_length]
    exact hn.trans (Nat.mul_le_mul (Nat.le_mul_of_pos_left _ hd.1) (Nat.mul_le_mul (Nat.le_mul_of_pos_left _ hd.2.1) (Nat.le_mul_of_pos_left _ hd.2.2)))
  obtain ⟨v, hv⟩ := any_ac h1 h2 hdet 1 (a * x, b * y, c * z) w hk buf false comp
  obtain ⟨v', hv'⟩ := any_ac hs1 hs2 hlat t.ext (x, y, z) w hk' buf true comp
  refine ⟨t, v, v', g1, hft, hv, hv', fun r hrk => ?_⟩
  have := C140_ac_partial hr hf hd' g1 hft (anyCalc_of _ _ _) (anyCalc_of _ _ _) ⟨rfl, rfl, rfl, rfl, rfl, rfl, by simp [anyCalc]⟩ (anySolver_zheev _)
    (anySolver_zheev _) (by intro h; cases h) hk hk' hv hv' r hrk r hrk 0
  rw [this]
  push_cast
  ring

end Case

end Verif.Props

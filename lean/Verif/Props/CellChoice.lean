import Verif.Proof.CellChoice

/-! # C140: results for a cell and for an extension of it -/

namespace Verif.Props

open PrimCell Materials

section Extended

variable {Λ : Type} {H : HashFns ℝ ℂ Λ} {lat : Mat3 ℝ} {o : Vec3 ℝ} {cs : List (Call ℝ ℂ Λ)} {ext : ℝ} {d : Cell} {t : PCObj ℝ ℂ Λ}

/-- Sums over all levels. -/
theorem level_fold (hr : InRange H (init H lat o) cs) (hf : ArraysFresh (run H (init H lat o) cs)) (hd : 1 ≤ d.1 ∧ 1 ≤ d.2.1 ∧ 1 ≤ d.2.2)
    (ht : extendPrimCell H ⟨run H (init H lat o) cs, ext⟩ [d.1, d.2.1, d.2.2] = .ok t) (hft : ArraysFresh (syncArray H t.cell))
    {D D' : Diag} (hD : SolvesCell D (run H (init H lat o) cs)) (hD' : SolvesCell D' (syncArray H t.cell)) (hz : ZheevSpec D) (hz' : ZheevSpec D')
    {k : Vec3 ℝ} {conv : ℤ} {q' : (ℕ → ℝ) × (ℕ → ℕ → ℂ)} {q : Cell → (ℕ → ℝ) × (ℕ → ℕ → ℂ)} (hq' : eigen D' k conv = .ok q')
    (hq : ∀ m, InBox d m → eigen D (fun x => (k x + cellAt m x) / cellAt d x) conv = .ok (q m)) (φ : ℝ → ℝ) :
    ∑ J ∈ Finset.range D'.nb, φ (q'.1 J) = ∑ m ∈ boxSet d, ∑ j ∈ Finset.range D.nb, φ ((q m).1 j) := by
  obtain ⟨hN, M', h1, h2⟩ := fold_eigen H lat o cs hr hf ext hd t ht hft hD hD' hz hz' hq' hq
  have h3 := weight_unique (q := fun _ => q') (p := fun _ => foldStates d D.nb (extPhase (run H (init H lat o) cs) conv d k) q) (k := 0) h1 h2 φ none
    (by simp)
  simp only [stateWeight, mul_one] at h3
  rw [h3]
  have h4 := sum_ext hd D.nb (fun J => ((φ ((foldStates d D.nb (extPhase (run H (init H lat o) cs) conv d k) q).1 J) : ℝ) : ℂ)) D'.nb hN
  have h5 : ∑ J ∈ Finset.range D'.nb, φ ((foldStates d D.nb (extPhase (run H (init H lat o) cs) conv d k) q).1 J) =
      ∑ m ∈ boxSet d, ∑ j ∈ Finset.range D.nb, φ ((foldStates d D.nb (extPhase (run H (init H lat o) cs) conv d k) q).1 (extIdx d D.nb m j).toNat) := by
    exact_mod_cast h4
  rw [h5]
  refine Finset.sum_congr rfl fun m hm => Finset.sum_congr rfl fun j hj => ?_
  have e := dec_idx (d := d) ((mem_boxSet _ _).1 hm) (Finset.mem_range.1 hj)
  rw [show (extIdx d D.nb m j).toNat = idx d D.nb m j from rfl]
  unfold foldStates
  simp only [e]

/-- The mesh of `gen_kmesh` as that of a calculator. -/
theorem genKmesh_frac {L : Lind} {kp : List (Vec3 ℝ)} (h : genKmesh [L.mesh.1, L.mesh.2.1, L.mesh.2.2] = some kp) :
    kp.length = L.numKpt ∧ ∀ i < L.numKpt, kp.getD i 0 = L.kFrac i := by
  have h1 := (C39_kmesh h).1
  have h2 : kp = (buildKmeshGrid L.mesh).map L.grid2frac := by
    rw [h1, buildKmeshGrid]
    simp only [List.map_flatMap, List.map_map]
    rfl
  have h3 : kp.length = L.numKpt := by rw [h2, List.length_map]; rfl
  refine ⟨h3, fun i hi => ?_⟩
  have hi' : i < (buildKmeshGrid L.mesh).length := hi
  rw [h2, List.getD_eq_getElem?_getD, List.getElem?_map, List.getElem?_eq_getElem hi', Lind.kFrac, List.getD_eq_getElem?_getD,
    List.getElem?_eq_getElem hi']
  rfl

theorem genKmesh_pos {a b c : ℕ} {kp : List (Vec3 ℝ)} (h : genKmesh [a, b, c] = some kp) : 0 < a ∧ 0 < b ∧ 0 < c := by
  simp only [genKmesh] at h
  split_ifs at h with h0
  omega

theorem min_mem {l l' : List ℝ} (h : ∀ x, x ∈ l ↔ x ∈ l') : l.min? = l'.min? := by
  cases hl : l.min? with
  | none =>
    rw [List.min?_eq_none_iff] at hl
    subst hl
    have : l' = [] := List.eq_nil_iff_forall_not_mem.2 fun x hx => by simpa using (h x).2 hx
    rw [this]; rfl
  | some a =>
    rw [List.min?_eq_some_iff] at hl
    symm
    rw [List.min?_eq_some_iff]
    exact ⟨(h a).1 hl.1, fun b hb => hl.2 b ((h b).2 hb)⟩

theorem max_mem {l l' : List ℝ} (h : ∀ x, x ∈ l ↔ x ∈ l') : l.max? = l'.max? := by
  cases hl : l.max? with
  | none =>
    rw [List.max?_eq_none_iff] at hl
    subst hl
    have : l' = [] := List.eq_nil_iff_forall_not_mem.2 fun x hx => by simpa using (h x).2 hx
    rw [this]; rfl
  | some a =>
    rw [List.max?_eq_some_iff] at hl
    symm
    rw [List.max?_eq_some_iff]
    exact ⟨(h a).1 hl.1, fun b hb => hl.2 b ((h b).2 hb)⟩

/-- A run of `calc_dos` seen through its bands. -/
theorem dos_parts {D : Diag} (hs : SortSpec D.nb D.argsort) {w : World} {buf : ℕ → Buf} {n : ℕ} {kpts : ℕ → Vec3 ℝ} {conv : ℤ} {emin emax : Option ℝ}
    {step sigma gs : ℝ} {basis : ℝ → ℝ → ℝ → ℝ} {f : ℕ → List ℝ × (ℕ → ℝ)}
    (hf : calcDos D w buf n kpts conv none emin emax step sigma basis gs = .ok f) {r : ℕ} (hr : r < w.size) :
    (∀ i < n, eigen D (kpts i) conv = .ok (eigVal D (kpts i) conv)) ∧ ∃ u : ℕ → ℕ → ℝ, dosGrid n D.nb u emin emax step = .ok (f r).1 ∧
      (∀ E, E ∈ flat2 n D.nb u ↔ ∃ i < n, ∃ j < D.nb, (eigVal D (kpts i) conv).1 j = E) ∧
      ∀ x, (f r).2 x = gs * (∑ k ∈ Finset.range n, ∑ j ∈ Finset.range D.nb, basis ((f r).1.getD x 0) ((eigVal D (kpts k) conv).1 j) sigma) / (n * D.nb) := by
  obtain ⟨bd, hbd, hg⟩ : ∃ bd, calcBands D w buf n kpts conv none = .ok bd ∧ dosGrid n D.nb (bd r).1 emin emax step = .ok (f r).1 := by
    have h1 := dos_spec D w buf n kpts conv none emin emax step sigma basis gs r hr
    have h2 := bands_spec D w buf n kpts conv none r hr
    rw [hf] at h1
    unfold dosSpec at h1
    cases h3 : calcBands D w buf n kpts conv none with
    | error e =>
      rw [h3] at h2
      rw [← h2] at h1
      simp [Except.map] at h1
    | ok bd =>
      rw [h3] at h2
      rw [← h2] at h1
      simp only [Except.map] at h1
      cases h4 : dosGrid n D.nb (bd r).1 emin emax step with
      | error e => rw [h4] at h1; simp at h1
      | ok g =>
        rw [h4] at h1
        simp only [Except.ok.injEq] at h1
        exact ⟨bd, rfl, by rw [h4, h1]⟩
  have hq : ∀ i < n, eigen D (kpts i) conv = .ok (eigVal D (kpts i) conv) ∧
      ((List.range D.nb).map fun b => (bd r).1 i b).Perm ((List.range D.nb).map (eigVal D (kpts i) conv).1) := by
    intro i hi
    obtain ⟨q, hq, hp, -⟩ := C44_bands_sorted D w buf n kpts conv none r hr (fun ev => (hs ev).1) (fun ev => (hs ev).2) bd hbd i hi
    have e : eigVal D (kpts i) conv = q := by rw [eigVal, hq]; rfl
    rw [e]
    exact ⟨hq, hp⟩
  refine ⟨fun i hi => (hq i hi).1, (bd r).1, hg, fun E => ?_, fun x => ?_⟩
  · unfold flat2
    rw [List.mem_flatMap]
    constructor
    · rintro ⟨i, hi, hE⟩
      have hi := List.mem_range.1 hi
      rw [(hq i hi).2.mem_iff] at hE
      obtain ⟨j, hj, e⟩ := List.mem_map.1 hE
      exact ⟨i, hi, j, List.mem_range.1 hj, e⟩
    · rintro ⟨i, hi, j, hj, e⟩
      refine ⟨i, List.mem_range.2 hi, ?_⟩
      rw [(hq i hi).2.mem_iff]
      exact List.mem_map.2 ⟨j, List.mem_range.2 hj, e⟩
  · have := dos_levels D (fun ev => (hs ev).1) n kpts conv (fun i => eigVal D (kpts i) conv) (fun i hi => (hq i hi).1) none w buf _ _ step sigma basis gs f hf r hr x
    simp only [stateWeight, mul_one] at this
    exact this

/-- C140: the density of states (per orbital) does not depend on whether it is calculated for a cell or for an extension of it with a mesh coarser
by the same factors; whatever eigensolvers, numbers of processes and conventions are used, and whether the range of energies is given or found. -/
theorem C140_dos (hr : InRange H (init H lat o) cs) (hf : ArraysFresh (run H (init H lat o) cs)) (hd : 1 ≤ d.1 ∧ 1 ≤ d.2.1 ∧ 1 ≤ d.2.2)
    (ht : extendPrimCell H ⟨run H (init H lat o) cs, ext⟩ [d.1, d.2.1, d.2.2] = .ok t) (hft : ArraysFresh (syncArray H t.cell))
    {D D' : Diag} (hD : SolvesCell D (run H (init H lat o) cs)) (hD' : SolvesCell D' (syncArray H t.cell)) (hz : ZheevSpec D) (hz' : ZheevSpec D')
    (hs : SortSpec D.nb D.argsort) (hs' : SortSpec D'.nb D'.argsort) {a b c a' b' c' : ℕ}
    (hmesh : (a : ℤ) = d.1 * a' ∧ (b : ℤ) = d.2.1 * b' ∧ (c : ℤ) = d.2.2 * c') {kp kp' : List (Vec3 ℝ)} (hkp : genKmesh [a, b, c] = some kp)
    (hkp' : genKmesh [a', b', c'] = some kp') {w w' : World} {buf buf' : ℕ → Buf} {conv : ℤ} {emin emax : Option ℝ} {step sigma gs : ℝ}
    {basis : ℝ → ℝ → ℝ → ℝ} {f f' : ℕ → List ℝ × (ℕ → ℝ)}
    (hok : calcDos D w buf kp.length (fun i => kp.getD i 0) conv none emin emax step sigma basis gs = .ok f)
    (hok' : calcDos D' w' buf' kp'.length (fun i => kp'.getD i 0) conv none emin emax step sigma basis gs = .ok f')
    (r : ℕ) (hrk : r < w.size) (r' : ℕ) (hrk' : r' < w'.size) : (f' r').1 = (f r).1 ∧ ∀ x, (f' r').2 x = (f r).2 x := by
  -- calculators with these meshes
  let L : Lind := ⟨D, lat, fun _ => 0, (a, b, c), [], 0, 0, 0, 0, 0, 3⟩
  let L' : Lind := ⟨D', lat, fun _ => 0, (a', b', c'), [], 0, 0, 0, 0, 0, 3⟩
  obtain ⟨hl, hk⟩ := genKmesh_frac (L := L) hkp
  obtain ⟨hl', hk'⟩ := genKmesh_frac (L := L') hkp'
  obtain ⟨g1, u, g2, g3, g4⟩ := dos_parts hs hok hrk
  obtain ⟨g1', u', g2', g3', g4'⟩ := dos_parts hs' hok' hrk'
  have hsum : ∀ φ : ℝ → ℝ, ∑ k ∈ Finset.range kp'.length, ∑ J ∈ Finset.range D'.nb, φ ((eigVal D' (kp'.getD k 0) conv).1 J) =
      ∑ k ∈ Finset.range kp.length, ∑ j ∈ Finset.range D.nb, φ ((eigVal D (kp.getD k 0) conv).1 j) := by
    intro φ
    have hpt := mesh_point (L := L) (L' := L') hd (genKmesh_pos hkp') hmesh
    rw [hl, hl']
    have hR : ∑ k ∈ Finset.range L.numKpt, ∑ j ∈ Finset.range D.nb, φ ((eigVal D (kp.getD k 0) conv).1 j) =
        ∑ k ∈ Finset.range L.numKpt, ∑ j ∈ Finset.range D.nb, φ ((eigVal D (L.kFrac k) conv).1 j) :=
      Finset.sum_congr rfl fun k hk0 => by rw [hk k (Finset.mem_range.1 hk0)]
    rw [hR, mesh_fold (L := L) (L' := L') hd (genKmesh_pos hkp') hmesh fun y => ∑ j ∈ Finset.range D.nb, φ ((eigVal D y conv).1 j)]
    refine Finset.sum_congr rfl fun i hi => ?_
    have hi := Finset.mem_range.1 hi
    rw [hk' i hi]
    refine level_fold (k := L'.kFrac i) (conv := conv) (q := fun m => eigVal D (fun x => (L'.kFrac i x + cellAt m x) / cellAt d x) conv) hr hf hd ht hft hD hD' hz hz' ?_ ?_ φ
    · have := g1' i (by rw [hl']; exact hi)
      rw [hk' i hi] at this
      exact this
    · intro m hm
      obtain ⟨x, hx, e⟩ := hpt i hi m hm
      have := g1 x (by rw [hl]; exact hx)
      rw [hk x hx, e] at this
      exact this
  have hgrid : (f' r').1 = (f r).1 := by
    have hmem : ∀ E, E ∈ flat2 kp.length D.nb u ↔ E ∈ flat2 kp'.length D'.nb u' := by
      classical
      intro E
      rw [g3, g3']
      have key : ∀ (D : Diag) (kp : List (Vec3 ℝ)), (∃ i < kp.length, ∃ j < D.nb, (eigVal D (kp.getD i 0) conv).1 j = E) ↔
          (∑ k ∈ Finset.range kp.length, ∑ j ∈ Finset.range D.nb, if (eigVal D (kp.getD k 0) conv).1 j = E then (1 : ℝ) else 0) ≠ 0 := by
        intro D kp
        rw [← not_iff_not, not_not, Finset.sum_eq_zero_iff_of_nonneg fun i _ => Finset.sum_nonneg fun j _ => by split_ifs <;> simp]
        constructor
        · intro h i hi
          refine Finset.sum_eq_zero fun j hj => if_neg fun e => h ⟨i, Finset.mem_range.1 hi, j, Finset.mem_range.1 hj, e⟩
        · rintro h ⟨i, hi, j, hj, e⟩
          have h1 := h i (Finset.mem_range.2 hi)
          rw [Finset.sum_eq_zero_iff_of_nonneg fun j _ => by split_ifs <;> simp] at h1
          have h2 := h1 j (Finset.mem_range.2 hj)
          rw [if_pos e] at h2
          exact one_ne_zero h2
      rw [key, key, hsum fun y => if y = E then (1 : ℝ) else 0]
    have : dosGrid kp.length D.nb u emin emax step = dosGrid kp'.length D'.nb u' emin emax step := by
      unfold dosGrid
      rw [min_mem hmem, max_mem hmem]
    rw [this, g2'] at g2
    exact Except.ok.inj g2
  refine ⟨hgrid, fun x => ?_⟩
  rw [g4, g4', hgrid, hsum fun y => basis ((f r).1.getD x 0) y sigma]
  congr 1
  have hnb : (D'.nb : ℤ) = d.1 * d.2.1 * d.2.2 * D.nb := by
    obtain ⟨t1, h1, -, -, -, h5, -⟩ := C33_extend H lat o cs hr ext d hd [d.1, d.2.1, d.2.2] (Or.inl rfl)
    rw [h1] at ht
    obtain rfl := Except.ok.inj ht
    rw [hD'.nb, hD.nb, numOrb, syncArray_numOrb]
    exact h5
  have hlen : (kp.length : ℤ) = d.1 * d.2.1 * d.2.2 * kp'.length := by
    rw [(C39_kmesh hkp).2.1, (C39_kmesh hkp').2.1]
    push_cast
    rw [hmesh.1, hmesh.2.1, hmesh.2.2]
    ring
  have : ((kp'.length * D'.nb : ℕ) : ℤ) = (kp.length * D.nb : ℕ) := by
    push_cast
    rw [hnb, hlen]
    ring
  exact_mod_cast this

theorem sync_geom (H : HashFns ℝ ℂ Λ) (s : PrimCell ℝ ℂ Λ) : (syncArray H s).lat = s.lat ∧ (syncArray H s).origin = s.origin := by
  unfold syncArray syncHop syncOrb
  constructor <;> (simp only; split_ifs <;> rfl)

/-- Fractional coordinates of given wave vectors. -/
theorem cart_frac {L : Lind} {qs qf : List (Vec3 ℝ)} (h : L.cart2frac qs = .ok qf) :
    L.lat.det ≠ 0 ∧ qf = qs.map fun Q x => (∑ y, L.lat x y * Q y) / (2 * Real.pi) := by
  have hp : (2 * Real.pi) ≠ 0 := by positivity
  by_cases hdet : L.lat.det = 0
  · rw [Lind.cart2frac, genReciprocal, if_pos hdet] at h
    cases h
  refine ⟨hdet, ?_⟩
  rw [Lind.cart2frac, recip_some _ hdet] at h
  simp only [cart2frac] at h
  split_ifs at h with h0
  · simp only [Except.ok.injEq] at h
    rw [← h]
    refine List.map_congr_left fun Q _ => ?_
    have hB : (Matrix.of fun i j => 2 * Real.pi * L.lat⁻¹ j i : Mat3 ℝ).transpose = (2 * Real.pi) • L.lat⁻¹ := by
      ext i j; simp
    have hinv : ((2 * Real.pi) • L.lat⁻¹)⁻¹ = (2 * Real.pi)⁻¹ • L.lat := by
      apply Matrix.inv_eq_right_inv
      rw [Matrix.smul_mul, Matrix.mul_smul, smul_smul, mul_inv_cancel₀ hp, one_smul,
        Matrix.nonsing_inv_mul _ (isUnit_iff_ne_zero.2 hdet)]
    unfold cart2fracRow
    rw [hB, hinv, sub_zero, Matrix.smul_mulVec]
    funext x
    simp only [Pi.smul_apply, smul_eq_mul, Matrix.mulVec, dotProduct]
    ring

theorem factor_fold {L L' : Lind} (hd : 1 ≤ d.1 ∧ 1 ≤ d.2.1 ∧ 1 ≤ d.2.2) (hs : SameSetup d L L') (hlat : ∀ x y, L'.lat x y = cellAt d x * L.lat x y) :
    lindhardFactor L' = lindhardFactor L := by
  have hdx : ∀ x, (0 : ℝ) < cellAt d x := by
    intro x
    have : 0 < cellAt d x := by fin_cases x <;> simp [cellAt] <;> omega
    exact_mod_cast this
  have h0 := hdx 0
  have h1 := hdx 1
  have h2 := hdx 2
  have hdet : L'.lat.det = cellAt d 0 * cellAt d 1 * cellAt d 2 * L.lat.det := by
    rw [Matrix.det_fin_three, Matrix.det_fin_three]
    simp only [hlat]
    ring
  have hn : norm3 (L'.lat 2) = cellAt d 2 * norm3 (L.lat 2) := by
    rw [show L'.lat 2 = fun y => (cellAt d 2 : ℝ) * L.lat 2 y from funext fun y => hlat 2 y, norm3_smul, abs_of_pos h2]
  have m1 : (L.mesh.1 : ℝ) = cellAt d 0 * L'.mesh.1 := by exact_mod_cast hs.mesh.1
  have m2 : (L.mesh.2.1 : ℝ) = cellAt d 1 * L'.mesh.2.1 := by exact_mod_cast hs.mesh.2.1
  have m3 : (L.mesh.2.2 : ℝ) = cellAt d 2 * L'.mesh.2.2 := by exact_mod_cast hs.mesh.2.2
  unfold lindhardFactor
  rw [hs.dim, hs.gs, hdet, hn, abs_mul, abs_of_pos (by positivity : (0 : ℝ) < cellAt d 0 * cellAt d 1 * cellAt d 2), m1, m2, m3]
  split_ifs
  · rw [show L.gs * (cellAt d 2 * norm3 (L.lat 2)) = cellAt d 2 * (L.gs * norm3 (L.lat 2)) by ring,
      show (cellAt d 0 : ℝ) * cellAt d 1 * cellAt d 2 * |L.lat.det| * (L'.mesh.1 * L'.mesh.2.1) =
        cellAt d 2 * (|L.lat.det| * (cellAt d 0 * L'.mesh.1 * (cellAt d 1 * L'.mesh.2.1))) by ring, mul_div_mul_left _ _ h2.ne']
  · congr 1
    ring

/-- The Lindhard sums of the two cells are equal. -/
theorem lindhard_fold (hr : InRange H (init H lat o) cs) (hf : ArraysFresh (run H (init H lat o) cs)) (hd : 1 ≤ d.1 ∧ 1 ≤ d.2.1 ∧ 1 ≤ d.2.2)
    (ht : extendPrimCell H ⟨run H (init H lat o) cs, ext⟩ [d.1, d.2.1, d.2.2] = .ok t) (hft : ArraysFresh (syncArray H t.cell))
    {L L' : Lind} (hL : CalcOf L (run H (init H lat o) cs) ext) (hL' : CalcOf L' (syncArray H t.cell) t.ext) (hs : SameSetup d L L')
    (hz : ZheevSpec L.D) (hz' : ZheevSpec L'.D) (hm' : 0 < L'.mesh.1 ∧ 0 < L'.mesh.2.1 ∧ 0 < L'.mesh.2.2)
    {Q f f' : Vec3 ℝ} (hQ : ∀ x, ∑ y, L.lat x y * Q y = 2 * Real.pi * f x) (hf' : ∀ x, f' x = cellAt d x * f x)
    {u v u' v' : (ℕ → ℕ → ℝ) × Arr3 ℂ} (hu : statesSpec L.D L.numKpt L.kFrac 2 = .ok u) (hv : statesSpec L.D L.numKpt (fun i => L.kFrac i + f) 2 = .ok v)
    (hu' : statesSpec L'.D L'.numKpt L'.kFrac 2 = .ok u') (hv' : statesSpec L'.D L'.numKpt (fun i => L'.kFrac i + f') 2 = .ok v') (om : ℝ) :
    lindhardSum L' L'.numKpt u' v' Q om = lindhardSum L L.numKpt u v Q om := by
  have hdx : ∀ x, (cellAt d x : ℝ) ≠ 0 := by
    intro x
    have : cellAt d x ≠ 0 := by fin_cases x <;> simp [cellAt] <;> omega
    exact_mod_cast this
  rw [lindhard_pairs, lindhard_pairs]
  have hfac : lindFactor L' om = lindFactor L om := by
    funext e e'
    unfold lindFactor
    rw [hs.beta, hs.mu, hs.delta]
  rw [hfac]
  -- rows as functions of the points
  have hrow : ∀ {D : Diag} {n : ℕ} {kp : ℕ → Vec3 ℝ} {s : (ℕ → ℕ → ℝ) × Arr3 ℂ}, statesSpec D n kp 2 = .ok s → ∀ i < n, rowOf s i = eigVal D (kp i) 2 := by
    intro D n kp s h i hi
    rw [eigVal, states_rows h i hi]
    rfl
  have hR : ∑ k ∈ Finset.range L.numKpt, pairSum L.D.nb (lindFactor L om) (waveOp Q L.orbPos) (fun a b => star (waveOp Q L.orbPos a b)) (rowOf u k) (rowOf v k) =
      ∑ k ∈ Finset.range L.numKpt, pairSum L.D.nb (lindFactor L om) (waveOp Q L.orbPos) (fun a b => star (waveOp Q L.orbPos a b))
        (eigVal L.D (L.kFrac k) 2) (eigVal L.D (L.kFrac k + f) 2) :=
    Finset.sum_congr rfl fun k hk => by rw [hrow hu k (Finset.mem_range.1 hk), hrow hv k (Finset.mem_range.1 hk)]
  rw [hR, mesh_fold hd hm' hs.mesh fun y => pairSum L.D.nb (lindFactor L om) (waveOp Q L.orbPos) (fun a b => star (waveOp Q L.orbPos a b))
        (eigVal L.D y 2) (eigVal L.D (y + f) 2)]
  refine Finset.sum_congr rfl fun i hi => ?_
  have hi := Finset.mem_range.1 hi
  have hpt := mesh_point hd hm' hs.mesh i hi
  have hok : ∀ {D : Diag} {n : ℕ} {kp : ℕ → Vec3 ℝ} {s : (ℕ → ℕ → ℝ) × Arr3 ℂ}, statesSpec D n kp 2 = .ok s → ∀ i < n,
      eigen D (kp i) 2 = .ok (eigVal D (kp i) 2) := by
    intro D n kp s h i hi
    rw [eigVal, states_rows h i hi]
    rfl
  obtain ⟨hN, M1, a1, a2⟩ := fold_eigen H lat o cs hr hf ext hd t ht hft hL.solver hL'.solver hz hz' (k := L'.kFrac i) (conv := 2)
    (q := fun m => eigVal L.D (fun x => (L'.kFrac i x + cellAt m x) / cellAt d x) 2) (hok hu' i hi) (by
      intro m hm
      obtain ⟨x, hx, e⟩ := hpt m hm
      have := hok hu x hx
      rw [e] at this
      exact this)
  have hshift : ∀ m : Cell, (fun x => ((L'.kFrac i + f') x + cellAt m x) / cellAt d x) = (fun x => (L'.kFrac i x + cellAt m x) / cellAt d x) + f := by
    intro m
    funext x
    have := hdx x
    simp only [Pi.add_apply, hf']
    field_simp
    ring
  obtain ⟨-, M2, b1, b2⟩ := fold_eigen H lat o cs hr hf ext hd t ht hft hL.solver hL'.solver hz hz' (k := L'.kFrac i + f') (conv := 2)
    (q := fun m => eigVal L.D ((fun x => (L'.kFrac i x + cellAt m x) / cellAt d x) + f) 2) (hok hv' i hi) (by
      intro m hm
      obtain ⟨x, hx, e⟩ := hpt m hm
      have := hok hv x hx
      simp only [e] at this
      rw [hshift]
      exact this)
  rw [hrow hu' i hi, hrow hv' i hi, pair_unique _ _ _ a1 a2 b1 b2]
  refine wave_fold hd hN _ _ (lat := L.lat) (pos := L.orbPos) ?_ hQ (fun x => by simp [hf'])
  intro I hI j hj y
  obtain ⟨t1, h1, -, -, -, -, h6, -⟩ := C33_extend H lat o cs hr ext d hd [d.1, d.2.1, d.2.2] (Or.inl rfl)
  rw [h1] at ht
  obtain rfl := Except.ok.inj ht
  rw [hL.solver.nb] at hj
  have hob : (run H (init H lat o) cs).orbs[j]? = some (run H (init H lat o) cs).orbs[j] := List.getElem?_eq_getElem hj
  obtain ⟨ob', g1, -, -, -, g5⟩ := h6 I j _ hI hob
  rw [idx, hL.solver.nb, hL'.pos _ ob' (by rw [syncArray_numOrb]; exact g1), hL.pos j _ hob, (sync_geom H t1.cell).1, (sync_geom H t1.cell).2, g5 y, hL.lat]

/-- C140 (partial): the dynamical polarization of an extension of a cell, with a mesh coarser by the same factors and with the same number of
processes, should be equal to that of the cell.  It is smaller by the factor `da*db*dc`: both are divided by `extended`, although the sum with its
prefactor is independent of the cell already.  So the result times `extended` is independent of the cell. -/
theorem C140_dyn_pol_partial (hr : InRange H (init H lat o) cs) (hf : ArraysFresh (run H (init H lat o) cs)) (hd : 1 ≤ d.1 ∧ 1 ≤ d.2.1 ∧ 1 ≤ d.2.2)
    (ht : extendPrimCell H ⟨run H (init H lat o) cs, ext⟩ [d.1, d.2.1, d.2.2] = .ok t) (hft : ArraysFresh (syncArray H t.cell))
    {L L' : Lind} (hL : CalcOf L (run H (init H lat o) cs) ext) (hL' : CalcOf L' (syncArray H t.cell) t.ext) (hs : SameSetup d L L')
    (hz : ZheevSpec L.D) (hz' : ZheevSpec L'.D) (hdim : L.dim = 2 ∨ L.dim = 3) {w : World} (hn : w.size ≤ L'.numKpt)
    {buf buf' : ℕ → Buf} {fortran fortran' : Bool} {qs : List (Vec3 ℝ)} {x x' : ℕ → ℕ → ℕ → ℂ}
    (hok : L.dynPolArbitrary w buf fortran qs = .ok x) (hok' : L'.dynPolArbitrary w buf' fortran' qs = .ok x') (r : ℕ) (hrk : r < w.size)
    (iq iw : ℕ) : x r iq iw = ((d.1 * d.2.1 * d.2.2 : ℤ) : ℂ) * x' r iq iw := by
  have hm' := numKpt_pos L' (lt_of_lt_of_le w.pos hn)
  have hnn : w.size ≤ L.numKpt := by
    refine hn.trans ?_
    rw [Lind.numKpt, Lind.numKpt, kmesh_length, kmesh_length]
    have le : ∀ {a b : ℕ} {c : ℤ}, 1 ≤ c → (a : ℤ) = c * b → b ≤ a := by
      intro a b c hc h
      have : (b : ℤ) ≤ a := by rw [h]; nlinarith
      exact_mod_cast this
    exact Nat.mul_le_mul (le hd.1 hs.mesh.1) (Nat.mul_le_mul (le hd.2.1 hs.mesh.2.1) (le hd.2.2 hs.mesh.2.2))
  have h1 := arbitrary_run L w buf fortran qs hdim hnn r hrk
  have h2 := arbitrary_run L' w buf' fortran' qs (by rw [hs.dim]; exact hdim) hn r hrk
  rw [hok] at h1
  rw [hok'] at h2
  obtain ⟨hext, hlat⟩ : L'.ext = L.ext * ((d.1 * d.2.1 * d.2.2 : ℤ) : ℝ) ∧ ∀ x y, L'.lat x y = cellAt d x * L.lat x y := by
    obtain ⟨t1, g1, g2, -, g4, -⟩ := C33_extend H lat o cs hr ext d hd [d.1, d.2.1, d.2.2] (Or.inl rfl)
    rw [g1] at ht
    obtain rfl := Except.ok.inj ht
    refine ⟨by rw [hL'.ext, hL.ext, g2]; push_cast; ring, fun x y => ?_⟩
    rw [hL'.lat, hL.lat, (sync_geom H t1.cell).1, g4]
  have key : ∀ a a', arbSpec L qs = .ok a → arbSpec L' qs = .ok a' → a iq iw = ((d.1 * d.2.1 * d.2.2 : ℤ) : ℂ) * a' iq iw := by
    intro a a' ha ha'
    unfold arbSpec at ha ha'
    obtain ⟨qf, hqf, ha⟩ := ok_split ha
    obtain ⟨u, hu, ha⟩ := ok_split ha
    obtain ⟨vv, hvv, ha⟩ := ok_split ha
    obtain ⟨qf', hqf', ha'⟩ := ok_split ha'
    obtain ⟨u', hu', ha'⟩ := ok_split ha'
    obtain ⟨vv', hvv', ha'⟩ := ok_split ha'
    obtain rfl := Except.ok.inj ha
    obtain rfl := Except.ok.inj ha'
    obtain ⟨-, rfl⟩ := cart_frac hqf
    obtain ⟨-, rfl⟩ := cart_frac hqf'
    have l1 := mapM_size _ _ _ hvv
    have l2 := mapM_size _ _ _ hvv'
    rw [List.length_map] at l1 l2
    unfold lindhardTable
    rw [hs.omegas]
    by_cases hq : iq < qs.length
    · have hqx : qs[iq]? = some qs[iq] := List.getElem?_eq_getElem hq
      obtain ⟨y, hy, hy'⟩ := mapM_get _ _ _ hvv iq _ (by rw [List.getElem?_map, hqx]; rfl)
      obtain ⟨z, hz1, hz2⟩ := mapM_get _ _ _ hvv' iq _ (by rw [List.getElem?_map, hqx]; rfl)
      have e1 : (qs.zip vv)[iq]? = some (qs[iq], y) := List.getElem?_zip_eq_some.2 ⟨hqx, hy'⟩
      have e2 : (qs.zip vv')[iq]? = some (qs[iq], z) := List.getElem?_zip_eq_some.2 ⟨hqx, hz2⟩
      rw [e1, e2]
      cases ho : L.omegas[iw]? with
      | none => simp
      | some om =>
        simp only
        have hp : (2 * Real.pi) ≠ 0 := by positivity
        have := lindhard_fold hr hf hd ht hft hL hL' hs hz hz' hm' (Q := qs[iq]) (fun x => by field_simp) (fun x => by
          simp only [hlat, Fin.sum_univ_three]; ring) hu hy hu' hz1 om
        rw [this, factor_fold hd hs hlat, hext]
        have hne : ((d.1 * d.2.1 * d.2.2 : ℤ) : ℂ) ≠ 0 := by
          have : d.1 * d.2.1 * d.2.2 ≠ 0 := by
            have h1 := hd.1; have h2 := hd.2.1; have h3 := hd.2.2
            positivity
          exact_mod_cast this
        rw [Complex.ofReal_mul, Complex.ofReal_intCast, div_mul_eq_div_div, mul_div_cancel₀ _ hne]
    · have e1 : (qs.zip vv)[iq]? = none := by rw [List.getElem?_eq_none_iff, List.length_zip]; omega
      have e2 : (qs.zip vv')[iq]? = none := by rw [List.getElem?_eq_none_iff, List.length_zip]; omega
      rw [e1, e2]
      simp
  cases ha : arbSpec L qs with
  | error e => rw [ha] at h1; simp [Except.map] at h1
  | ok a =>
    cases ha' : arbSpec L' qs with
    | error e => rw [ha'] at h2; simp [Except.map] at h2
    | ok a' =>
      rw [ha] at h1
      rw [ha'] at h2
      simp only [Except.map, Except.ok.injEq] at h1 h2
      rw [h1, h2]
      unfold scaleRows
      rw [key a a' ha ha']
      ring

/-- C140 fails in the code: wherever the dynamical polarization of the cell does not vanish, that of a true extension is another number. -/
theorem C140_dyn_pol_wrong (hr : InRange H (init H lat o) cs) (hf : ArraysFresh (run H (init H lat o) cs)) (hd : 1 ≤ d.1 ∧ 1 ≤ d.2.1 ∧ 1 ≤ d.2.2)
    (ht : extendPrimCell H ⟨run H (init H lat o) cs, ext⟩ [d.1, d.2.1, d.2.2] = .ok t) (hft : ArraysFresh (syncArray H t.cell))
    {L L' : Lind} (hL : CalcOf L (run H (init H lat o) cs) ext) (hL' : CalcOf L' (syncArray H t.cell) t.ext) (hs : SameSetup d L L')
    (hz : ZheevSpec L.D) (hz' : ZheevSpec L'.D) (hdim : L.dim = 2 ∨ L.dim = 3) {w : World} (hn : w.size ≤ L'.numKpt)
    {buf buf' : ℕ → Buf} {fortran fortran' : Bool} {qs : List (Vec3 ℝ)} {x x' : ℕ → ℕ → ℕ → ℂ}
    (hok : L.dynPolArbitrary w buf fortran qs = .ok x) (hok' : L'.dynPolArbitrary w buf' fortran' qs = .ok x') (r : ℕ) (hrk : r < w.size)
    (iq iw : ℕ) (hne : x r iq iw ≠ 0) (hd1 : d ≠ (1, 1, 1)) : x' r iq iw ≠ x r iq iw := by
  intro e
  have h := C140_dyn_pol_partial hr hf hd ht hft hL hL' hs hz hz' hdim hn hok hok' r hrk iq iw
  rw [e] at h
  have h1 : (((d.1 * d.2.1 * d.2.2 : ℤ) : ℂ) - 1) * x r iq iw = 0 := by linear_combination -h
  have h2 := (mul_eq_zero.1 h1).resolve_right hne
  have h3 : d.1 * d.2.1 * d.2.2 = 1 := by
    have : ((d.1 * d.2.1 * d.2.2 : ℤ) : ℂ) = ((1 : ℤ) : ℂ) := by rw [Int.cast_one]; linear_combination h2
    exact_mod_cast this
  apply hd1
  obtain ⟨a, b, c⟩ := d
  obtain ⟨p1, p2, p3⟩ := hd
  simp only at p1 p2 p3 h3
  have q1 : a ≤ 1 := Int.le_of_dvd (by norm_num) ⟨b * c, by linear_combination -h3⟩
  have q2 : b ≤ 1 := Int.le_of_dvd (by norm_num) ⟨a * c, by linear_combination -h3⟩
  have : a = 1 := by omega
  have : b = 1 := by omega
  subst_vars
  simp at h3
  simp [h3]

end Extended

section Case

variable {Λ : Type}

theorem eigenpairs_exist {n : ℕ} {h : IMat} (hh : (toMatrix n h).IsHermitian) : ∃ q, Eigenpairs n n h q := by
  obtain ⟨ev, vec, g⟩ := genEig_exists h (fun a b => if a = b then 1 else 0) hh 1 (by
    ext i j
    simp only [toMatrix, Matrix.of_apply, Matrix.conjTranspose_one, Matrix.mul_one, Matrix.one_apply, Nat.cast_inj, Fin.val_inj]) (by simp)
  refine ⟨(ev, vec), ⟨fun j hj o ho => ?_, fun j hj j' hj' => ?_⟩⟩
  · have := g.1 j hj o ho
    simpa [Finset.sum_ite_eq, ho] using this
  · have := g.2 j hj j' hj'
    rw [← this]
    refine Finset.sum_congr rfl fun m hm => ?_
    simp [Finset.mem_range.1 hm]

/-- An eigensolver that keeps LAPACK's promise. -/
noncomputable def anyZheev (n : ℕ) (h : IMat) : Option ((ℕ → ℝ) × (ℕ → ℕ → ℂ)) :=
  open Classical in if g : ∃ q, Eigenpairs n n h q then some g.choose else none

theorem anyZheev_spec {n : ℕ} {h : IMat} {q : (ℕ → ℝ) × (ℕ → ℕ → ℂ)} (hq : anyZheev n h = some q) : Eigenpairs n n h q := by
  unfold anyZheev at hq
  split_ifs at hq with g
  rw [← Option.some.inj hq]
  exact g.choose_spec

/-- The solver of a synchronised cell. -/
noncomputable def anySolver (s : PrimCell ℝ ℂ Λ) : Diag where
  nb := s.numOrb
  setHam := hamInto s
  zheev := anyZheev s.numOrb
  argsort := sortedIdx s.numOrb

theorem anySolver_solves (s : PrimCell ℝ ℂ Λ) : SolvesCell (anySolver s) s :=
  ⟨rfl, rfl, fun _ _ _ h => (hamInto_zero _ _ _ _).1 h⟩

theorem anySolver_zheev (s : PrimCell ℝ ℂ Λ) : ZheevSpec (anySolver s) := fun _ _ hq => anyZheev_spec hq

theorem anySolver_eigen {s : PrimCell ℝ ℂ Λ} (h1 : s.numOrb ≠ 0) (h2 : s.hops.numHop ≠ 0) (k : Vec3 ℝ) :
    eigen (anySolver s) k 2 = .ok (eigVal (anySolver s) k 2) ∧
      Eigenpairs s.numOrb s.numOrb (setHam s.posAt s.arrEng s.hopRows 2 k fun _ _ => 0) (eigVal (anySolver s) k 2) := by
  have hm : (anySolver s).setHam k 2 (fun _ _ => 0) = .ok (setHam s.posAt s.arrEng s.hopRows 2 k fun _ _ => 0) := by
    show hamInto s k 2 _ = _
    unfold hamInto
    rw [if_neg (by simp), if_neg h1, if_neg h2]
  have hex := eigenpairs_exist (C09_hermitian s.posAt s.arrEng s.hopRows 2 k s.numOrb)
  obtain ⟨q, hq⟩ : ∃ q, (anySolver s).zheev (setHam s.posAt s.arrEng s.hopRows 2 k fun _ _ => 0) = some q := by
    refine ⟨hex.choose, ?_⟩
    show anyZheev _ _ = _
    unfold anyZheev
    exact dif_pos hex
  have he : eigen (anySolver s) k 2 = .ok q := by
    unfold eigen
    rw [hm]
    simp only [hq]
    rfl
  have hv : eigVal (anySolver s) k 2 = q := by rw [eigVal, he]; rfl
  rw [hv]
  exact ⟨he, anyZheev_spec hq⟩

theorem anySolver_states {s : PrimCell ℝ ℂ Λ} (h1 : s.numOrb ≠ 0) (h2 : s.hops.numHop ≠ 0) (n : ℕ) (kp : ℕ → Vec3 ℝ) :
    ∃ u, statesSpec (anySolver s) n kp 2 = .ok u := by
  have : firstErr (fun i => eigen (anySolver s) (kp i) 2) (List.range n) = none := by
    rw [firstErr_none]
    exact fun i _ => ⟨_, (anySolver_eigen h1 h2 _).1⟩
  exact ⟨_, by rw [statesSpec_eq, this]; rfl⟩

/-- A calculator for a synchronised cell, with a given mesh. -/
noncomputable def anyCalc (s : PrimCell ℝ ℂ Λ) (ext : ℝ) (mesh : ℕ × ℕ × ℕ) : Lind where
  D := anySolver s
  lat := s.lat
  orbPos i := frac2cartRow s.lat s.origin (orbFrac s i)
  mesh := mesh
  omegas := [0]
  beta := 1
  mu := 0
  delta := 1
  gs := 1
  ext := ext
  dim := 3

theorem anyCalc_of (s : PrimCell ℝ ℂ Λ) (ext : ℝ) (mesh : ℕ × ℕ × ℕ) : CalcOf (anyCalc s ext mesh) s ext :=
  ⟨anySolver_solves s, rfl, fun i ob h => by simp [anyCalc, orbFrac, h], rfl⟩

theorem cart_ok (L : Lind) (hdet : L.lat.det ≠ 0) (qs : List (Vec3 ℝ)) : ∃ qf, L.cart2frac qs = .ok qf := by
  have hBd : (Matrix.of fun i j => 2 * Real.pi * L.lat⁻¹ j i : Mat3 ℝ).transpose.det ≠ 0 := by
    have hB : (Matrix.of fun i j => 2 * Real.pi * L.lat⁻¹ j i : Mat3 ℝ).transpose = (2 * Real.pi) • L.lat⁻¹ := by
      ext i j; simp
    rw [hB, Matrix.det_smul, Matrix.det_nonsing_inv, Ring.inverse_eq_inv']
    exact mul_ne_zero (by positivity) (inv_ne_zero hdet)
  refine ⟨qs.map (cart2fracRow (Matrix.of fun i j => 2 * Real.pi * L.lat⁻¹ j i : Mat3 ℝ) 0), ?_⟩
  simp only [Lind.cart2frac, recip_some _ hdet, cart2frac, if_neg hBd]

/-- The calculation for one q-point on one process. -/
theorem anyCalc_run {s : PrimCell ℝ ℂ Λ} (h1 : s.numOrb ≠ 0) (h2 : s.hops.numHop ≠ 0) (hdet : s.lat.det ≠ 0) (ext : ℝ) (mesh : ℕ × ℕ × ℕ) (w : World)
    (hw : w.size = 1) (hn : w.size ≤ (anyCalc s ext mesh).numKpt) (buf : ℕ → Buf) (fortran : Bool) (Q : Vec3 ℝ) :
    ∃ x u v, (anyCalc s ext mesh).dynPolArbitrary w buf fortran [Q] = .ok x ∧
      statesSpec (anySolver s) (anyCalc s ext mesh).numKpt (anyCalc s ext mesh).kFrac 2 = .ok u ∧
      statesSpec (anySolver s) (anyCalc s ext mesh).numKpt
        (fun i => (anyCalc s ext mesh).kFrac i + fun x => (∑ y, s.lat x y * Q y) / (2 * Real.pi)) 2 = .ok v ∧
      x 0 0 0 = lindhardSum (anyCalc s ext mesh) (anyCalc s ext mesh).numKpt u v Q 0 * (lindhardFactor (anyCalc s ext mesh) : ℂ) / (ext : ℂ) := by
  obtain ⟨u, hu⟩ := anySolver_states h1 h2 (anyCalc s ext mesh).numKpt (anyCalc s ext mesh).kFrac
  obtain ⟨v, hv⟩ := anySolver_states h1 h2 (anyCalc s ext mesh).numKpt
    (fun i => (anyCalc s ext mesh).kFrac i + fun x => (∑ y, s.lat x y * Q y) / (2 * Real.pi))
  have h := (C45_partial (anyCalc s ext mesh) w buf fortran (Or.inr rfl) hn 0 (by omega)).2 [Q] (Or.inl hw)
  obtain ⟨qf, hqf⟩ := cart_ok (anyCalc s ext mesh) hdet [Q]
  obtain ⟨-, hq⟩ := cart_frac hqf
  have hspec : arbSpec (anyCalc s ext mesh) [Q] = .ok (lindhardTable (anyCalc s ext mesh) u [(Q, v)]) := by
    have hv' : [fun x => (∑ y, s.lat x y * Q y) / (2 * Real.pi)].mapM (fun q => statesSpec (anySolver s) (anyCalc s ext mesh).numKpt
        (fun i => (anyCalc s ext mesh).kFrac i + q) 2) = .ok [v] := by
      simp only [List.mapM_cons, List.mapM_nil, hv]
      rfl
    have hu' : statesSpec (anyCalc s ext mesh).D (anyCalc s ext mesh).numKpt (anyCalc s ext mesh).kFrac 2 = .ok u := hu
    have hq' : qf = [fun x => (∑ y, s.lat x y * Q y) / (2 * Real.pi)] := hq
    have hv'' : qf.mapM (fun q => statesSpec (anyCalc s ext mesh).D (anyCalc s ext mesh).numKpt
        (fun i => (anyCalc s ext mesh).kFrac i + q) 2) = .ok [v] := by rw [hq']; exact hv'
    simp only [arbSpec, hqf, hu', hv'', bind, Except.bind]
    rfl
  rw [hspec] at h
  cases hx : (anyCalc s ext mesh).dynPolArbitrary w buf fortran [Q] with
  | error e => rw [hx] at h; cases h
  | ok x =>
    rw [hx] at h
    have h' : x 0 = lindhardTable (anyCalc s ext mesh) u [(Q, v)] := Except.ok.inj h
    exact ⟨x, u, v, rfl, hu, hv, by rw [h']; rfl⟩

/-- The chain: one orbital, hopping 1 to the next cell along the first lattice vector. -/
theorem chain_cell (H : HashFns ℝ ℂ Λ) (hO : ∀ l, l ≠ [] → H.orb l ≠ H.orb []) (hP : ∀ l, l ≠ [] → H.hop l ≠ H.hop []) (label : Λ) :
    ∃ cs, InRange H (init H 1 0) cs ∧ ArraysFresh (run H (init H 1 0) cs) ∧ (run H (init H 1 0) cs).lat = 1 ∧
      (run H (init H 1 0) cs).orbs = [⟨0, 0, label⟩] ∧ (run H (init H 1 0) cs).hops.numHop ≠ 0 ∧
      ∀ R, (run H (init H 1 0) cs).hops.get R 0 0 = if R = (1, 0, 0) ∨ R = (-1, 0, 0) then some 1 else none := by
  obtain ⟨s, -, hl, ho, horb, hget, hrun, hir, -, e1, e2⟩ := build_spec H 1 0 [([0, 0, 0], 0, label)] [([1, 0, 0], 0, 0, 1)]
    (by simp [checkLen]) (by simp [HopOk, checkLen]; decide) _ rfl
  have hget' : ∀ R, s.hops.get R 0 0 = if R = (1, 0, 0) ∨ R = (-1, 0, 0) then some 1 else none := by
    intro R
    rw [hget]
    have hc : cellOf [1, 0, 0] = ((1, 0, 0) : Cell) := rfl
    have hc' : -((1, 0, 0) : Cell) = (-1, 0, 0) := by decide
    simp only [List.foldl_cons, List.foldl_nil, HopMap.add, hc, hc', and_true, star_one]
    by_cases g1 : R = (1, 0, 0)
    · simp [g1]
    · by_cases g2 : R = (-1, 0, 0) <;> simp [g1, g2]
  have hwf : WF s := by rw [hrun]; exact WF_run H (WF_init H 1 0) _ hir
  have horb' : s.orbs = [⟨0, 0, label⟩] := by
    rw [horb]
    have : vec3 ((checkLen 0 ([0, 0, 0] : List ℝ)).getD 0) = 0 := by
      funext x
      fin_cases x <;> simp [checkLen, vec3]
    simp only [List.map_cons, List.map_nil, this]
  obtain ⟨hw', hf, g1, g2, g3, g4, -⟩ := build_ham hwf hO hP e1 e2 (by rw [horb']; simp) (1, 0, 0) 0 0 (by rw [hget']; simp)
  set ops : List (Op ℝ ℂ Λ) := [.addOrbital [0, 0, 0] 0 label, .addHopping [1, 0, 0] 0 0 1] with hops
  refine ⟨List.map Sum.inl ops ++ [.inr (.syncOrb false), .inr (.syncHop false)], ?_⟩
  have hrun : s = run H (init H 1 0) (List.map Sum.inl ops) := hrun
  have hrs : run H (init H 1 0) (List.map Sum.inl ops ++ [.inr (.syncOrb false), .inr (.syncHop false)]) = syncArray H s := by
    unfold run at hrun ⊢
    rw [List.foldl_append, ← hrun]
    rfl
  rw [hrs]
  refine ⟨?_, hf, g3.trans hl, g1.trans horb', ?_, fun R => by rw [g2]; exact hget' R⟩
  · intro pre op post he
    have hm : (Sum.inl op : Call ℝ ℂ Λ) ∈ List.map Sum.inl ops ++ [.inr (.syncOrb false), .inr (.syncHop false)] := by rw [he]; simp
    simp only [hops, List.map_cons, List.map_nil, List.cons_append, List.nil_append, List.mem_cons, Sum.inl.injEq, reduceCtorEq, List.not_mem_nil, or_false] at hm
    rcases hm with rfl | rfl <;> trivial
  · obtain ⟨ham, hham⟩ := g4 0 1 (Or.inl rfl)
    unfold setHamDense at hham
    split_ifs at hham with q1 q2 q3
    exact q3

/-- Its bands. -/
theorem chain_eigen {s : PrimCell ℝ ℂ Λ} {label : Λ} (hw : WF s) (hf : ArraysFresh s) (h1 : s.orbs = [⟨0, 0, label⟩]) (h2 : s.hops.numHop ≠ 0)
    (h3 : ∀ R, s.hops.get R 0 0 = if R = (1, 0, 0) ∨ R = (-1, 0, 0) then some 1 else none) (k : Vec3 ℝ) :
    ∃ q, eigen (anySolver s) k 2 = .ok q ∧ q.1 0 = 2 * Real.cos (2 * Real.pi * k 0) ∧ ‖q.2 0 0‖ = 1 := by
  have hn : s.numOrb = 1 := by rw [numOrb, h1]; rfl
  obtain ⟨g1, g2⟩ := anySolver_eigen (s := s) (by omega) h2 k
  refine ⟨_, g1, ?_⟩
  generalize eigVal (anySolver s) k 2 = q at g2
  rw [hn] at g2
  have o1 := g2.orthonormal 0 Nat.one_pos 0 Nat.one_pos
  have e1 := g2.eigen 0 Nat.one_pos 0 Nat.one_pos
  simp only [Finset.sum_range_one, if_true] at o1 e1
  have hv : q.2 0 0 ≠ 0 := by
    intro h
    rw [h] at o1
    simp at o1
  have e2 := mul_right_cancel₀ hv e1
  have hok : setHamDense s k 2 = .ok (setHam s.posAt s.arrEng s.hopRows 2 k fun _ _ => 0) := by
    unfold setHamDense
    rw [if_neg (by simp), if_neg (by omega), if_neg h2]
    rfl
  have e3 := ham_entry hw hf k 2 _ hok 0 0 ⟨0, 0, label⟩ ⟨0, 0, label⟩ (by rw [h1]; rfl) (by rw [h1]; rfl) {(1, 0, 0), (-1, 0, 0)} (by
    intro R hR
    rw [Nat.cast_zero, h3] at hR
    by_contra hc
    simp only [Finset.mem_insert, Finset.mem_singleton] at hc
    exact hR (if_neg hc))
  refine ⟨?_, ?_⟩
  · have : ((q.1 0 : ℝ) : ℂ) = ((2 * Real.cos (2 * Real.pi * k 0) : ℝ) : ℂ) := by
      rw [← e2, e3, Finset.sum_pair (by decide)]
      simp [h3, eiPhase, Fin.sum_univ_three, cellAt, Complex.cos]
      ring_nf
    exact_mod_cast this
  · have h4 : ((‖q.2 0 0‖ ^ 2 : ℝ) : ℂ) = ((1 : ℝ) : ℂ) := by
      rw [Complex.ofReal_one, ← o1]
      push_cast
      exact (Complex.conj_mul' (q.2 0 0)).symm
    have h5 : ‖q.2 0 0‖ ^ 2 = 1 := by exact_mod_cast h4
    nlinarith [norm_nonneg (q.2 0 0)]

theorem chain_states {s : PrimCell ℝ ℂ Λ} {label : Λ} (hw : WF s) (hf : ArraysFresh s) (h1 : s.orbs = [⟨0, 0, label⟩]) (h2 : s.hops.numHop ≠ 0)
    (h3 : ∀ R, s.hops.get R 0 0 = if R = (1, 0, 0) ∨ R = (-1, 0, 0) then some 1 else none) {n : ℕ} {kp : ℕ → Vec3 ℝ} {u : (ℕ → ℕ → ℝ) × Arr3 ℂ}
    (hu : statesSpec (anySolver s) n kp 2 = .ok u) (i : ℕ) (hi : i < n) :
    u.1 i 0 = 2 * Real.cos (2 * Real.pi * kp i 0) ∧ ‖u.2 i 0 0‖ = 1 := by
  rw [statesSpec_eq, rowsOut_ok] at hu
  obtain ⟨q, g1, g2, g3⟩ := chain_eigen hw hf h1 h2 h3 (kp i)
  have hv : eigVal (anySolver s) (kp i) 2 = q := by rw [eigVal, g1]; rfl
  rw [← hu.2]
  simp only [if_pos hi, hv]
  exact ⟨g2, g3⟩

theorem one_kpt (s : PrimCell ℝ ℂ Λ) (ext : ℝ) (mesh : ℕ × ℕ × ℕ) (h : 0 < mesh.1 ∧ 0 < mesh.2.1 ∧ 0 < mesh.2.2) : 1 ≤ (anyCalc s ext mesh).numKpt := by
  rw [Lind.numKpt, kmesh_length]
  exact Nat.mul_pos h.1 (Nat.mul_pos h.2.1 h.2.2)

/-- The chain and its double cell. -/
theorem chain_double (H : HashFns ℝ ℂ Λ) (hO : ∀ l, l ≠ [] → H.orb l ≠ H.orb []) (hP : ∀ l, l ≠ [] → H.hop l ≠ H.hop []) (label : Λ) :
    ∃ cs t, InRange H (init H 1 0) cs ∧ ArraysFresh (run H (init H 1 0) cs) ∧ (run H (init H 1 0) cs).lat = 1 ∧
      (run H (init H 1 0) cs).orbs = [⟨0, 0, label⟩] ∧ (run H (init H 1 0) cs).hops.numHop ≠ 0 ∧
      (∀ R, (run H (init H 1 0) cs).hops.get R 0 0 = if R = (1, 0, 0) ∨ R = (-1, 0, 0) then some 1 else none) ∧
      extendPrimCell H ⟨run H (init H 1 0) cs, 1⟩ [2, 1, 1] = .ok t ∧ ArraysFresh (syncArray H t.cell) ∧
      (syncArray H t.cell).numOrb ≠ 0 ∧ (syncArray H t.cell).hops.numHop ≠ 0 ∧ (syncArray H t.cell).lat.det ≠ 0 := by
  obtain ⟨cs, hr, hf, hl, h1, h2, h3⟩ := chain_cell H hO hP label
  have hwf := WF_run H (WF_init H 1 0) cs hr
  obtain ⟨t, g1, g2, g3, g4, g5, -, -, -, -, g6⟩ := C33_extend H 1 0 cs hr 1 (2, 1, 1) (by norm_num) [2, 1, 1] (Or.inl rfl)
  have hn : (run H (init H 1 0) cs).numOrb = 1 := by rw [numOrb, h1]; rfl
  have ht1 : t.cell.orbs ≠ [] := by
    intro h
    rw [numOrb, h, hn] at g5
    simp at g5
  have ht2 : t.cell.hops.toList ≠ [] := by
    rw [← numHop_pos_iff]
    have : (0 : ℤ) < t.cell.hops.numHop := by
      rw [g6]
      have : 0 < (run H (init H 1 0) cs).hops.numHop := Nat.pos_of_ne_zero h2
      simp only
      omega
    exact_mod_cast this
  have hs1 : (syncArray H t.cell).numOrb ≠ 0 := by
    have : (syncArray H t.cell).orbs = t.cell.orbs := by
      unfold syncArray syncHop syncOrb
      simp only
      split_ifs <;> rfl
    rw [numOrb, this]
    exact fun h => ht1 (List.length_eq_zero_iff.1 h)
  have hs2 : (syncArray H t.cell).hops.numHop ≠ 0 := by
    have : (syncArray H t.cell).hops.toList = t.cell.hops.toList := by
      unfold syncArray syncHop syncOrb
      simp only
      split_ifs <;> first | rfl | exact toList_purge _
    rw [← Nat.pos_iff_ne_zero, numHop_pos_iff, this]
    exact ht2
  have hft : ArraysFresh (syncArray H t.cell) := by
    obtain ⟨t', ht', e1, e2⟩ := extend_hash H _ 1 hwf (2, 1, 1) (by norm_num) [2, 1, 1] rfl
    rw [g1] at ht'
    obtain rfl := Except.ok.inj ht'
    have p1 : t.cell.hashOrb ≠ H.orb t.cell.orbs := by rw [e1]; exact fun h => hO _ ht1 h.symm
    have p2 : t.cell.hashHop ≠ H.hop t.cell.hops.toList := by rw [e2]; exact fun h => hP _ ht2 h.symm
    constructor <;> simp [syncArray, syncHop, syncOrb, p1, p2, toList_purge]
  have hlat : (syncArray H t.cell).lat.det ≠ 0 := by
    rw [(sync_geom H t.cell).1]
    have : t.cell.lat = Matrix.diagonal ![2, 1, 1] := by
      ext x y
      rw [g4, hl]
      fin_cases x <;> fin_cases y <;> simp [cellAt, Matrix.diagonal]
    rw [this, Matrix.det_diagonal]
    simp [Fin.prod_univ_three]
  exact ⟨cs, t, hr, hf, hl, h1, h2, h3, g1, hft, hs1, hs2, hlat⟩

theorem any_dos {s : PrimCell ℝ ℂ Λ} (h1 : s.numOrb ≠ 0) (h2 : s.hops.numHop ≠ 0) (n : ℕ) (kp : ℕ → Vec3 ℝ) (w : World) (buf : ℕ → Buf) (sigma gs : ℝ)
    (basis : ℝ → ℝ → ℝ → ℝ) : ∃ f, calcDos (anySolver s) w buf n kp 2 none (some 0) (some 1) 1 sigma basis gs = .ok f ∧ (f 0).1 = [0, 1] := by
  have h := C44_dos (anySolver s) w buf n kp 2 none (some 0) (some 1) 1 sigma basis gs 0 w.pos
  have hs : eigens (anySolver s) n kp 2 = .ok ((List.range n).map fun i => eigVal (anySolver s) (kp i) 2) :=
    mapM_ok _ _ _ fun i _ => (anySolver_eigen h1 h2 _).1
  have hg : ∀ b, dosGrid n (anySolver s).nb b (some 0) (some 1) 1 = .ok [0, 1] := by
    intro b
    unfold dosGrid
    simp only
    have h0 : ((1 : ℝ) - 0) / 1 = 1 := by norm_num
    have h1 : ⌊(1 : ℝ)⌋ = 1 := Int.floor_one
    simp only [h0, if_pos (zero_le_one' ℝ), h1]
    norm_num [npLinspace, List.range_succ]
  unfold dosSpec bandsSpec at h
  rw [hs] at h
  simp only [Except.map, hg] at h
  cases hc : calcDos (anySolver s) w buf n kp 2 none (some 0) (some 1) 1 sigma basis gs with
  | error e => rw [hc] at h; cases h
  | ok f =>
    rw [hc] at h
    refine ⟨f, rfl, ?_⟩
    have := Except.ok.inj h
    rw [this]

/-- A concrete case of C140: the density of states of the chain with 6 k-points and of its double cell with 3, on any numbers of processes. -/
theorem C140_dos_example (H : HashFns ℝ ℂ Λ) (hO : ∀ l, l ≠ [] → H.orb l ≠ H.orb []) (hP : ∀ l, l ≠ [] → H.hop l ≠ H.hop []) (label : Λ)
    (w w' : World) (buf buf' : ℕ → Buf) (sigma : ℝ) :
    ∃ cs t kp kp' f f', extendPrimCell H ⟨run H (init H 1 0) cs, 1⟩ [2, 1, 1] = .ok t ∧ genKmesh [6, 1, 1] = some kp ∧ genKmesh [3, 1, 1] = some kp' ∧
      calcDos (anySolver (run H (init H 1 0) cs)) w buf kp.length (fun i => kp.getD i 0) 2 none (some 0) (some 1) 1 sigma gaussian 1 = .ok f ∧
      calcDos (anySolver (syncArray H t.cell)) w' buf' kp'.length (fun i => kp'.getD i 0) 2 none (some 0) (some 1) 1 sigma gaussian 1 = .ok f' ∧
      (f 0).1 = [0, 1] ∧ (f' 0).2 0 = (f 0).2 0 ∧ (f' 0).2 1 = (f 0).2 1 := by
  obtain ⟨cs, t, hr, hf, hl, h1, h2, h3, g1, hft, hs1, hs2, hlat⟩ := chain_double H hO hP label
  obtain ⟨kp, hk⟩ : ∃ kp, genKmesh [6, 1, 1] = some kp := by simp [genKmesh]
  obtain ⟨kp', hk'⟩ : ∃ kp, genKmesh [3, 1, 1] = some kp := by simp [genKmesh]
  have hn : (run H (init H 1 0) cs).numOrb ≠ 0 := by rw [numOrb, h1]; simp
  obtain ⟨f, e1, e2⟩ := any_dos hn h2 kp.length (fun i => kp.getD i 0) w buf sigma 1 gaussian
  obtain ⟨f', e1', -⟩ := any_dos hs1 hs2 kp'.length (fun i => kp'.getD i 0) w' buf' sigma 1 gaussian
  have := C140_dos hr hf (d := (2, 1, 1)) (by norm_num) g1 hft (anySolver_solves _) (anySolver_solves _) (anySolver_zheev _) (anySolver_zheev _)
    (sortedIdx_spec _) (sortedIdx_spec _) (by norm_num) hk hk' e1 e1' 0 w.pos 0 w'.pos
  exact ⟨cs, t, kp, kp', f, f', g1, hk, hk', e1, e1', e2, this.2 0, this.2 1⟩

/-- A concrete case of C140: the chain and its double cell, one q-point at half a reciprocal vector.  All hypotheses hold and the response
is not zero, so that the results differ. -/
theorem C140_dyn_pol_example (H : HashFns ℝ ℂ Λ) (hO : ∀ l, l ≠ [] → H.orb l ≠ H.orb []) (hP : ∀ l, l ≠ [] → H.hop l ≠ H.hop []) (label : Λ)
    (w : World) (hw : w.size = 1) (buf : ℕ → Buf) (fortran : Bool) :
    ∃ cs t x x', InRange H (init H 1 0) cs ∧ extendPrimCell H ⟨run H (init H 1 0) cs, 1⟩ [2, 1, 1] = .ok t ∧
      (anyCalc (run H (init H 1 0) cs) 1 (2, 1, 1)).dynPolArbitrary w buf fortran [![Real.pi, 0, 0]] = .ok x ∧
      (anyCalc (syncArray H t.cell) t.ext (1, 1, 1)).dynPolArbitrary w buf fortran [![Real.pi, 0, 0]] = .ok x' ∧
      x 0 0 0 = 2 * x' 0 0 0 ∧ x 0 0 0 ≠ 0 ∧ x' 0 0 0 ≠ x 0 0 0 := by
  obtain ⟨cs, t, hr, hf, hl, h1, h2, h3, g1, hft, hs1, hs2, hlat⟩ := chain_double H hO hP label
  have hwf := WF_run H (WF_init H 1 0) cs hr
  have hn : (run H (init H 1 0) cs).numOrb = 1 := by rw [numOrb, h1]; rfl
  obtain ⟨x, u, v, r1, r2, r3, r4⟩ := anyCalc_run (s := run H (init H 1 0) cs) (by omega) h2 (by rw [hl]; simp) 1 (2, 1, 1) w hw (by rw [hw]; exact one_kpt _ _ _ (by norm_num))
    buf fortran ![Real.pi, 0, 0]
  obtain ⟨x', u', v', r1', r2', r3', r4'⟩ := anyCalc_run (s := syncArray H t.cell) hs1 hs2 hlat t.ext (1, 1, 1) w hw
    (by rw [hw]; exact one_kpt _ _ _ (by norm_num)) buf fortran ![Real.pi, 0, 0]
  have hx : x 0 0 0 ≠ 0 := by
    rw [r4]
    have hg : buildKmeshGrid (2, 1, 1) = [(0, 0, 0), (1, 0, 0)] := by decide
    have hk : (anyCalc (run H (init H 1 0) cs) 1 (2, 1, 1)).numKpt = 2 := by
      show (buildKmeshGrid (2, 1, 1)).length = 2
      rw [hg]; rfl
    rw [hk] at r2 r3 ⊢
    have k0 : (anyCalc (run H (init H 1 0) cs) 1 (2, 1, 1)).kFrac 0 0 = 0 := by
      simp [Lind.kFrac, anyCalc, hg, Lind.grid2frac]
    have k1 : (anyCalc (run H (init H 1 0) cs) 1 (2, 1, 1)).kFrac 1 0 = 1 / 2 := by
      simp [Lind.kFrac, anyCalc, hg, Lind.grid2frac]
    have hq : (∑ y, (run H (init H 1 0) cs).lat 0 y * (![Real.pi, 0, 0] : Vec3 ℝ) y) / (2 * Real.pi) = 1 / 2 := by
      rw [hl]
      have := Real.pi_ne_zero
      simp [Fin.sum_univ_three]
      field_simp
    have a0 := chain_states hwf hf h1 h2 h3 r2 0 (by norm_num)
    have a1 := chain_states hwf hf h1 h2 h3 r2 1 (by norm_num)
    have b0 := chain_states hwf hf h1 h2 h3 r3 0 (by norm_num)
    have b1 := chain_states hwf hf h1 h2 h3 r3 1 (by norm_num)
    simp only [Pi.add_apply, k0, k1, hq] at a0 a1 b0 b1
    rw [mul_zero, Real.cos_zero] at a0
    rw [show 2 * Real.pi * (1 / 2) = Real.pi by ring, Real.cos_pi] at a1
    rw [show 2 * Real.pi * (0 + 1 / 2) = Real.pi by ring, Real.cos_pi] at b0
    rw [show 2 * Real.pi * (1 / 2 + 1 / 2) = 2 * Real.pi by ring, Real.cos_two_pi] at b1
    have hnb : (anyCalc (run H (init H 1 0) cs) 1 (2, 1, 1)).D.nb = 1 := hn
    have hov : ∀ (p : ℕ → Vec3 ℝ) (a b : ℕ → ℂ), ‖a 0‖ = 1 → ‖b 0‖ = 1 → overlapSq 1 ![Real.pi, 0, 0] p a b = 1 := by
      intro p a b ha hb
      simp only [overlapSq, Finset.sum_range_one, norm_mul, norm_star, ha, hb]
      rw [mul_comm Complex.I, Complex.norm_exp_ofReal_mul_I]
      norm_num
    have hfac : lindhardFactor (anyCalc (run H (init H 1 0) cs) 1 (2, 1, 1)) = 1 / 2 := by
      simp [lindhardFactor, anyCalc, hl]
    have hsum : lindhardSum (anyCalc (run H (init H 1 0) cs) 1 (2, 1, 1)) 2 u v ![Real.pi, 0, 0] 0 =
        ((8 / 17 * (1 / (1 + Real.exp 2) - 1 / (1 + Real.exp (-2))) : ℝ) : ℂ) := by
      simp only [lindhardSum, hnb, Finset.sum_range_succ, Finset.sum_range_zero, zero_add]
      rw [hov _ _ _ b0.2 a0.2, hov _ _ _ b1.2 a1.2, a0.1, a1.1, b0.1, b1.1]
      simp only [anyCalc, one_mul, sub_zero, mul_one]
      rw [show (2 : ℝ) * -1 = -2 by norm_num, show (2 : ℝ) - -2 + 0 = 4 by norm_num, show (-2 : ℝ) - 2 + 0 = -4 by norm_num]
      generalize 1 / (1 + Real.exp 2) = y
      generalize 1 / (1 + Real.exp (-2)) = z
      push_cast
      have h1 : (4 + Complex.I * 1 : ℂ) ≠ 0 := by
        intro h; have := congrArg Complex.im h; simp at this
      have h2 : (-4 + Complex.I * 1 : ℂ) ≠ 0 := by
        intro h; have := congrArg Complex.im h; simp at this
      rw [div_add_div _ _ h1 h2, div_eq_iff (mul_ne_zero h1 h2)]
      linear_combination (-8 / 17) * ((y : ℂ) - z) * Complex.I_sq
    have hne : 8 / 17 * (1 / (1 + Real.exp 2) - 1 / (1 + Real.exp (-2))) ≠ 0 := by
      have h1 : Real.exp (-2) < Real.exp 2 := Real.exp_lt_exp.2 (by norm_num)
      have h2 : 1 / (1 + Real.exp 2) < 1 / (1 + Real.exp (-2)) :=
        one_div_lt_one_div_of_lt (by positivity) (by linarith)
      intro h
      nlinarith
    rw [hsum, hfac]
    refine div_ne_zero (mul_ne_zero (Complex.ofReal_ne_zero.2 hne) ?_) ?_ <;> norm_num
  have hss : SameSetup (2, 1, 1) (anyCalc (run H (init H 1 0) cs) 1 (2, 1, 1)) (anyCalc (syncArray H t.cell) t.ext (1, 1, 1)) :=
    ⟨rfl, rfl, rfl, rfl, rfl, rfl, by simp [anyCalc]⟩
  refine ⟨cs, t, x, x', hr, g1, r1, r1', ?_, hx, ?_⟩
  · have := C140_dyn_pol_partial hr hf (d := (2, 1, 1)) (by norm_num) g1 hft (anyCalc_of _ _ _) (anyCalc_of _ _ _) hss (anySolver_zheev _)
      (anySolver_zheev _) (Or.inr rfl) (w := w) (by rw [hw]; exact one_kpt _ _ _ (by norm_num)) r1 r1' 0 (by omega) 0 0
    simpa using this
  · exact C140_dyn_pol_wrong hr hf (d := (2, 1, 1)) (by norm_num) g1 hft (anyCalc_of _ _ _) (anyCalc_of _ _ _) hss (anySolver_zheev _)
      (anySolver_zheev _) (Or.inr rfl) (w := w) (by rw [hw]; exact one_kpt _ _ _ (by norm_num)) r1 r1' 0 (by omega) 0 0 hx (by decide)

end Case

end Verif.Props

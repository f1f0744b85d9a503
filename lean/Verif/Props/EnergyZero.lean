import Verif.Proof.EnergyZero
import Verif.Props.BipartiteBands
import Verif.Props.LindhardAC

/-! # C139: results do not depend on the zero of energy nor on the choice of the eigenvectors -/

namespace Verif.Props

open PrimCell Materials

section Solver

variable {c : ℝ} {D D' : Diag}

theorem shift_pairs (h : ShiftedBy c D D') (hz : ZheevSpec D) (hz' : ZheevSpec D') {k : Vec3 ℝ} {conv : ℤ} {q q' : (ℕ → ℝ) × (ℕ → ℕ → ℂ)}
    (hq : eigen D k conv = .ok q) (hq' : eigen D' k conv = .ok q') :
    ∃ m, Eigenpairs D.nb D.nb m q ∧ Eigenpairs D.nb D.nb m (fun j => q'.1 j - c, q'.2) := by
  obtain ⟨m, hm, hzm⟩ := eigen_ok D h.plain.1 _ _ q hq
  obtain ⟨m', hm', hzm'⟩ := eigen_ok D' h.plain.2 _ _ q' hq'
  have h2 := hz' m' q' hzm'
  rw [h.nb] at h2
  exact ⟨m, hz m q hzm, eigenpairs_shift (h.ham k conv m m' hm hm') h2⟩

/-- C139: adding `c` to all energies adds `c` to the bands. -/
theorem C139_bands (h : ShiftedBy c D D') (hz : ZheevSpec D) (hz' : ZheevSpec D') (hs : SortSpec D.nb D.argsort) (hs' : SortSpec D'.nb D'.argsort)
    {w w' : World} {buf buf' : ℕ → Buf} {n : ℕ} {kpts : ℕ → Vec3 ℝ} {conv : ℤ} {orbs orbs' : Option (List ℕ)}
    {bd bd' : ℕ → (ℕ → ℕ → ℝ) × (ℕ → ℕ → ℝ)} (hok : calcBands D w buf n kpts conv orbs = .ok bd)
    (hok' : calcBands D' w' buf' n kpts conv orbs' = .ok bd') (r : ℕ) (hr : r < w.size) (r' : ℕ) (hr' : r' < w'.size) (i : ℕ) (hi : i < n)
    (b : ℕ) (hb : b < D.nb) : (bd' r').1 i b = (bd r).1 i b + c := by
  obtain ⟨q, hq, hp, hd⟩ := C44_bands_sorted D w buf n kpts conv orbs r hr (fun ev => (hs ev).1) (fun ev => (hs ev).2) bd hok i hi
  obtain ⟨q', hq', hp', hd'⟩ := C44_bands_sorted D' w' buf' n kpts conv orbs' r' hr' (fun ev => (hs' ev).1) (fun ev => (hs' ev).2) bd' hok' i hi
  obtain ⟨m, h1, h2⟩ := shift_pairs h hz hz' hq hq'
  have hl := levels_unique h1 h2
  rw [h.nb] at hp' hd'
  have := roots_unique (n := D.nb) (f := (bd r).1 i) (g := fun b => (bd' r').1 i b - c) hd
    (fun a b hab hb => by have := hd' a b hab hb; linarith) (fun z => by
      have hprod : ∀ u : ℕ → ℝ, ∏ b ∈ Finset.range D.nb, (z - (u b : ℂ)) = (((List.range D.nb).map u).map fun x : ℝ => z - (x : ℂ)).prod := by
        intro u
        rw [List.map_map, Finset.prod_range, ← List.prod_ofFn, List.ofFn_eq_map, ← List.map_coe_finRange_eq_range, List.map_map]
        rfl
      rw [hprod, hprod fun b => (bd' r').1 i b - c]
      refine List.Perm.prod_eq (List.Perm.map _ ?_)
      refine hp.trans (hl.trans ?_)
      have := hp'.map (fun x : ℝ => x - c)
      rw [List.map_map, List.map_map] at this
      exact this.symm) b hb
  linarith

theorem min_shift (l : List ℝ) (c : ℝ) : (l.map (· + c)).min? = l.min?.map (· + c) := by
  cases l with
  | nil => rfl
  | cons a l =>
    rw [List.map_cons, List.min?_cons', List.min?_cons', Option.map_some, Option.some_inj]
    induction l generalizing a with
    | nil => rfl
    | cons b l ih => rw [List.map_cons, List.foldl_cons, List.foldl_cons, ← ih, min_add_add_right]

theorem max_shift (l : List ℝ) (c : ℝ) : (l.map (· + c)).max? = l.max?.map (· + c) := by
  cases l with
  | nil => rfl
  | cons a l =>
    rw [List.map_cons, List.max?_cons', List.max?_cons', Option.map_some, Option.some_inj]
    induction l generalizing a with
    | nil => rfl
    | cons b l ih => rw [List.map_cons, List.foldl_cons, List.foldl_cons, ← ih, max_add_add_right]

/-- The energies of the DOS move with the bands. -/
theorem grid_shift {n nb : ℕ} {u v : ℕ → ℕ → ℝ} (huv : ∀ i < n, ∀ b < nb, v i b = u i b + c) (emin emax : Option ℝ) (step : ℝ) :
    dosGrid n nb v (emin.map (· + c)) (emax.map (· + c)) step = (dosGrid n nb u emin emax step).map fun l => l.map (· + c) := by
  have hfl : flat2 n nb v = (flat2 n nb u).map (· + c) := by
    unfold flat2
    rw [List.map_flatMap]
    refine List.flatMap_congr fun i hi => ?_
    rw [List.map_map]
    exact List.map_congr_left fun b hb => huv i (List.mem_range.1 hi) b (List.mem_range.1 hb)
  have core : ∀ a b : ℝ, (let m : ℤ := if 0 ≤ (b + c - (a + c)) / step then ⌊(b + c - (a + c)) / step⌋ else ⌈(b + c - (a + c)) / step⌉
      if m < -1 then .error .value else if m = -1 then .ok [] else .ok (npLinspace (a + c) (b + c) m.toNat) : Except ParErr (List ℝ)) =
      (let m : ℤ := if 0 ≤ (b - a) / step then ⌊(b - a) / step⌋ else ⌈(b - a) / step⌉
      if m < -1 then .error .value else if m = -1 then .ok [] else .ok (npLinspace a b m.toNat) : Except ParErr (List ℝ)).map fun l => l.map (· + c) := by
    intro a b
    have hl : ∀ m, npLinspace (a + c) (b + c) m = (npLinspace a b m).map (· + c) := by
      intro m
      unfold npLinspace
      rw [List.map_map]
      refine List.map_congr_left fun i _ => ?_
      simp only [Function.comp, add_sub_add_right_eq_sub]
      ring
    simp only [add_sub_add_right_eq_sub, hl]
    split_ifs <;> rfl
  unfold dosGrid
  cases emin with
  | some a =>
    cases emax with
    | some b => exact core a b
    | none =>
      simp only [Option.map_some, Option.map_none, hfl, max_shift]
      cases (flat2 n nb u).max? with
      | none => rfl
      | some b => exact core a b
  | none =>
    cases emax with
    | some b =>
      simp only [Option.map_some, Option.map_none, hfl, min_shift]
      cases (flat2 n nb u).min? with
      | none => rfl
      | some a => exact core a b
    | none =>
      simp only [Option.map_none, hfl, min_shift, max_shift]
      cases (flat2 n nb u).min? with
      | none => rfl
      | some a =>
        cases (flat2 n nb u).max? with
        | none => rfl
        | some b => exact core a b

/-- C139: the DOS, and the part of it on any orbitals, moves with the bands; whether the range of energies is given (and moved) or found. -/
theorem C139_dos (h : ShiftedBy c D D') (hz : ZheevSpec D) (hz' : ZheevSpec D') (hs : SortSpec D.nb D.argsort) (hs' : SortSpec D'.nb D'.argsort)
    {w w' : World} {buf buf' : ℕ → Buf} {n : ℕ} {kpts : ℕ → Vec3 ℝ} {conv : ℤ} {orbs : Option (List ℕ)}
    (ho : ∀ os, orbs = some os → ∀ o ∈ os, o < D.nb) {emin emax : Option ℝ} {step sigma gs : ℝ} {basis : ℝ → ℝ → ℝ → ℝ}
    (hbs : basis = gaussian ∨ basis = lorentzian) {f f' : ℕ → List ℝ × (ℕ → ℝ)}
    (hf : calcDos D w buf n kpts conv orbs emin emax step sigma basis gs = .ok f)
    (hf' : calcDos D' w' buf' n kpts conv orbs (emin.map (· + c)) (emax.map (· + c)) step sigma basis gs = .ok f')
    (r : ℕ) (hr : r < w.size) (r' : ℕ) (hr' : r' < w'.size) :
    (f' r').1 = (f r).1.map (· + c) ∧ ∀ x < (f r).1.length, (f' r').2 x = (f r).2 x := by
  have hband : ∀ (D : Diag) (w : World) (buf : ℕ → Buf) (emin emax : Option ℝ) (f : ℕ → List ℝ × (ℕ → ℝ)),
      calcDos D w buf n kpts conv orbs emin emax step sigma basis gs = .ok f → ∀ r < w.size,
      ∃ bd, calcBands D w buf n kpts conv orbs = .ok bd ∧ dosGrid n D.nb (bd r).1 emin emax step = .ok (f r).1 := by
    intro D w buf emin emax f hf r hr
    have h1 := dos_spec D w buf n kpts conv orbs emin emax step sigma basis gs r hr
    have h2 := bands_spec D w buf n kpts conv orbs r hr
    rw [hf] at h1
    unfold dosSpec at h1
    cases h3 : calcBands D w buf n kpts conv orbs with
    | error e =>
      rw [h3] at h2
      rw [← h2] at h1
      simp [Except.map] at h1
    | ok bd =>
      rw [h3] at h2
      rw [← h2] at h1
      simp only [Except.map] at h1
      cases h4 : dosGrid n D.nb (bd r).1 emin emax step with
      | error e => rw [h4] at h1; simp at h1
      | ok g =>
        rw [h4] at h1
        simp only [Except.ok.injEq] at h1
        exact ⟨bd, rfl, by rw [h4, h1]⟩
  obtain ⟨bd, hbd, hg⟩ := hband D w buf emin emax f hf r hr
  obtain ⟨bd', hbd', hg'⟩ := hband D' w' buf' _ _ f' hf' r' hr'
  have hgrid : (f' r').1 = (f r).1.map (· + c) := by
    rw [h.nb, grid_shift (u := (bd r).1) (fun i hi b hb => C139_bands h hz hz' hs hs' hbd hbd' r hr r' hr' i hi b hb), hg] at hg'
    exact (Except.ok.inj hg').symm
  refine ⟨hgrid, fun x hx => ?_⟩
  have hex : ∀ i, ∃ q, i < n → eigen D (kpts i) conv = .ok q := by
    intro i
    by_cases hi : i < n
    · obtain ⟨q, hq, -⟩ := C44_bands_sorted D w buf n kpts conv orbs r hr (fun ev => (hs ev).1) (fun ev => (hs ev).2) bd hbd i hi
      exact ⟨q, fun _ => hq⟩
    · exact ⟨(0, 0), fun h => absurd h hi⟩
  have hex' : ∀ i, ∃ q, i < n → eigen D' (kpts i) conv = .ok q := by
    intro i
    by_cases hi : i < n
    · obtain ⟨q, hq, -⟩ := C44_bands_sorted D' w' buf' n kpts conv orbs r' hr' (fun ev => (hs' ev).1) (fun ev => (hs' ev).2) bd' hbd' i hi
      exact ⟨q, fun _ => hq⟩
    · exact ⟨(0, 0), fun h => absurd h hi⟩
  choose q hq using hex
  choose q' hq' using hex'
  have hE : (f' r').1.getD x 0 = (f r).1.getD x 0 + c := by
    rw [hgrid, List.getD_eq_getElem?_getD, List.getD_eq_getElem?_getD, List.getElem?_map, List.getElem?_eq_getElem hx]
    rfl
  rw [dos_levels D (fun ev => (hs ev).1) n kpts conv q (fun i hi => hq i hi) orbs w buf _ _ step sigma basis gs f hf r hr,
    dos_levels D' (fun ev => (hs' ev).1) n kpts conv q' (fun i hi => hq' i hi) orbs w' buf' _ _ step sigma basis gs f' hf' r' hr', h.nb, hE]
  congr 2
  refine Finset.sum_congr rfl fun k hk => ?_
  obtain ⟨m, h1, h2⟩ := shift_pairs h hz hz' (hq k (Finset.mem_range.1 hk)) (hq' k (Finset.mem_range.1 hk))
  rw [weight_unique (p := fun k => (fun j => (q' k).1 j - c, (q' k).2)) h1 h2 (fun y => basis ((f r).1.getD x 0) y sigma) orbs ho]
  refine Finset.sum_congr rfl fun j _ => ?_
  congr 1
  have e : ∀ u v : ℝ, u + c - v = u - (v - c) := fun u v => by ring
  rcases hbs with rfl | rfl
  · simp only [gaussian, e]
  · simp only [lorentzian, e]

end Solver

section Response

variable {c : ℝ} {L : Lind} {D' : Diag}

theorem rows_pairs (h : ShiftedBy c L.D D') (hz : ZheevSpec L.D) (hz' : ZheevSpec D') {n : ℕ} {kpts : ℕ → Vec3 ℝ} {conv : ℤ}
    {s t : (ℕ → ℕ → ℝ) × Arr3 ℂ} (hs : statesSpec L.D n kpts conv = .ok s) (ht : statesSpec D' n kpts conv = .ok t) (k : ℕ) (hk : k < n) :
    ∃ m, Eigenpairs L.D.nb L.D.nb m (rowOf s k) ∧ Eigenpairs L.D.nb L.D.nb m (rowDown c t k) :=
  shift_pairs h hz hz' (states_rows hs k hk) (states_rows ht k hk)

theorem mapM_size {ε X Y : Type*} (f : X → Except ε Y) (l : List X) (r : List Y) (h : l.mapM f = .ok r) : r.length = l.length := by
  induction l generalizing r with
  | nil => rw [List.mapM_nil] at h; cases h; rfl
  | cons a l ih =>
    rw [List.mapM_cons] at h
    cases ha : f a with
    | error e => rw [ha] at h; cases h
    | ok y =>
      cases hl : l.mapM f with
      | error e => rw [ha, hl] at h; cases h
      | ok ys =>
        rw [ha, hl] at h
        cases h
        rw [List.length_cons, List.length_cons, ih ys hl]

theorem table_unique (h : ShiftedBy c L.D D') (hz : ZheevSpec L.D) (hz' : ZheevSpec D') {s t : (ℕ → ℕ → ℝ) × Arr3 ℂ} {kp : ℕ → Vec3 ℝ}
    (hs : statesSpec L.D L.numKpt kp 2 = .ok s) (ht : statesSpec D' L.numKpt kp 2 = .ok t) {X : Type} (l : List X) (kq : X → ℕ → Vec3 ℝ)
    (qc : List (Vec3 ℝ)) {ss tt : List ((ℕ → ℕ → ℝ) × Arr3 ℂ)} (hss : l.mapM (fun x => statesSpec L.D L.numKpt (kq x) 2) = .ok ss)
    (htt : l.mapM (fun x => statesSpec D' L.numKpt (kq x) 2) = .ok tt) :
    lindhardTable (L.withSolver D' c) t (qc.zip tt) = lindhardTable L s (qc.zip ss) := by
  funext iq iw
  unfold lindhardTable
  have h1 := mapM_size _ _ _ hss
  have h2 := mapM_size _ _ _ htt
  have hom : (L.withSolver D' c).omegas = L.omegas := rfl
  rw [hom]
  cases ho : L.omegas[iw]? with
  | none => cases (qc.zip tt)[iq]? <;> cases (qc.zip ss)[iq]? <;> rfl
  | some om =>
    by_cases hl : iq < l.length
    · by_cases hq : iq < qc.length
      · have hx : l[iq]? = some l[iq] := List.getElem?_eq_getElem hl
        have hqx : qc[iq]? = some qc[iq] := List.getElem?_eq_getElem hq
        obtain ⟨y, hy, hy'⟩ := mapM_get _ _ _ hss _ _ hx
        obtain ⟨z, hz1, hz2⟩ := mapM_get _ _ _ htt _ _ hx
        have e1 : (qc.zip ss)[iq]? = some (qc[iq], y) := List.getElem?_zip_eq_some.2 ⟨hqx, hy'⟩
        have e2 : (qc.zip tt)[iq]? = some (qc[iq], z) := List.getElem?_zip_eq_some.2 ⟨hqx, hz2⟩
        rw [e1, e2]
        have := lindhard_unique (n := L.numKpt) L h.nb (fun k hk => rows_pairs h hz hz' hs ht k hk) (fun k hk => rows_pairs h hz hz' hy hz1 k hk) qc[iq] om
        exact congrArg (fun v : ℂ => v * ((lindhardFactor L : ℝ) : ℂ) / (L.ext : ℂ)) this
      · have e1 : (qc.zip ss)[iq]? = none := by rw [List.getElem?_eq_none_iff, List.length_zip]; omega
        have e2 : (qc.zip tt)[iq]? = none := by rw [List.getElem?_eq_none_iff, List.length_zip]; omega
        rw [e1, e2]
    · have e1 : (qc.zip ss)[iq]? = none := by rw [List.getElem?_eq_none_iff, List.length_zip]; omega
      have e2 : (qc.zip tt)[iq]? = none := by rw [List.getElem?_eq_none_iff, List.length_zip]; omega
      rw [e1, e2]

theorem ok_split {ε : Type*} {A B : Type} {x : Except ε A} {f : A → Except ε B} {b : B} (h : (x >>= f) = .ok b) : ∃ a, x = .ok a ∧ f a = .ok b := by
  cases x with
  | error e => cases h
  | ok a => exact ⟨a, rfl, h⟩

/-- C139: the dynamical polarization at points of the mesh does not depend on the zero of energy and on the eigenvectors. -/
theorem C139_dyn_regular (h : ShiftedBy c L.D D') (hz : ZheevSpec L.D) (hz' : ZheevSpec D') (hd : L.dim = 2 ∨ L.dim = 3) {w : World}
    (hn : w.size ≤ L.numKpt) {buf buf' : ℕ → Buf} {fortran fortran' : Bool} {qs : List Grid} {d d' : ℕ → ℕ → ℕ → ℂ}
    (hok : L.dynPolRegular w buf fortran qs = .ok d) (hok' : (L.withSolver D' c).dynPolRegular w buf' fortran' qs = .ok d')
    (r : ℕ) (hr : r < w.size) : d' r = d r := by
  have h1 := regular_run L w buf fortran qs hd hn r hr
  have h2 := regular_run (L.withSolver D' c) w buf' fortran' qs hd hn r hr
  rw [hok] at h1
  rw [hok'] at h2
  have key : ∀ t t', regSpec L qs = .ok t → regSpec (L.withSolver D' c) qs = .ok t' → t' = t := by
    intro t t' ht ht'
    unfold regSpec at ht ht'
    obtain ⟨qc, hqc, ht⟩ := ok_split ht
    obtain ⟨s, hs, ht⟩ := ok_split ht
    obtain ⟨ss, hss, ht⟩ := ok_split ht
    obtain ⟨qc', hqc', ht'⟩ := ok_split ht'
    obtain ⟨u, hu, ht'⟩ := ok_split ht'
    obtain ⟨uu, huu, ht'⟩ := ok_split ht'
    obtain rfl := Except.ok.inj ht
    obtain rfl := Except.ok.inj ht'
    have : qc' = qc := by
      have e : (L.withSolver D' c).frac2cart (qs.map (L.withSolver D' c).grid2frac) = L.frac2cart (qs.map L.grid2frac) := rfl
      rw [e, hqc] at hqc'
      exact (Except.ok.inj hqc').symm
    subst this
    exact table_unique h hz hz' hs hu qs _ qc' hss huu
  cases ht : regSpec L qs with
  | error e => rw [ht] at h1; simp [Except.map] at h1
  | ok t =>
    cases ht' : regSpec (L.withSolver D' c) qs with
    | error e => rw [ht'] at h2; simp [Except.map] at h2
    | ok t' =>
      rw [ht] at h1
      rw [ht', key t t' ht ht'] at h2
      simp only [Except.map, Except.ok.injEq] at h1 h2
      rw [h1, h2]

/-- C139: likewise at any points. -/
theorem C139_dyn_arbitrary (h : ShiftedBy c L.D D') (hz : ZheevSpec L.D) (hz' : ZheevSpec D') (hd : L.dim = 2 ∨ L.dim = 3) {w : World}
    (hn : w.size ≤ L.numKpt) {buf buf' : ℕ → Buf} {fortran fortran' : Bool} {qs : List (Vec3 ℝ)} {d d' : ℕ → ℕ → ℕ → ℂ}
    (hok : L.dynPolArbitrary w buf fortran qs = .ok d) (hok' : (L.withSolver D' c).dynPolArbitrary w buf' fortran' qs = .ok d')
    (r : ℕ) (hr : r < w.size) : d' r = d r := by
  have h1 := arbitrary_run L w buf fortran qs hd hn r hr
  have h2 := arbitrary_run (L.withSolver D' c) w buf' fortran' qs hd hn r hr
  rw [hok] at h1
  rw [hok'] at h2
  have key : ∀ t t', arbSpec L qs = .ok t → arbSpec (L.withSolver D' c) qs = .ok t' → t' = t := by
    intro t t' ht ht'
    unfold arbSpec at ht ht'
    obtain ⟨qf, hqf, ht⟩ := ok_split ht
    obtain ⟨s, hs, ht⟩ := ok_split ht
    obtain ⟨ss, hss, ht⟩ := ok_split ht
    obtain ⟨qf', hqf', ht'⟩ := ok_split ht'
    obtain ⟨u, hu, ht'⟩ := ok_split ht'
    obtain ⟨uu, huu, ht'⟩ := ok_split ht'
    obtain rfl := Except.ok.inj ht
    obtain rfl := Except.ok.inj ht'
    have : qf' = qf := by
      have e : (L.withSolver D' c).cart2frac qs = L.cart2frac qs := rfl
      rw [e, hqf] at hqf'
      exact (Except.ok.inj hqf').symm
    subst this
    exact table_unique h hz hz' hs hu qf' _ qs hss huu
  cases ht : arbSpec L qs with
  | error e => rw [ht] at h1; simp [Except.map] at h1
  | ok t =>
    cases ht' : arbSpec (L.withSolver D' c) qs with
    | error e => rw [ht'] at h2; simp [Except.map] at h2
    | ok t' =>
      rw [ht] at h1
      rw [ht', key t t' ht ht'] at h2
      simp only [Except.map, Except.ok.injEq] at h1 h2
      rw [h1, h2]

/-- C139: the AC conductivity does not depend on the zero of energy and on the eigenvectors. -/
theorem C139_ac (h : ShiftedBy c L.D D') (hz : ZheevSpec L.D) (hz' : ZheevSpec D') {w w' : World}
    (hn : w.size ≤ L.numKpt) (hn' : w'.size ≤ L.numKpt) {buf buf' : ℕ → Buf} {fortran fortran' : Bool} {pos : ℤ → Vec3 ℝ}
    {hops : List (Cell × Pair × ℂ)} {comp : Option (Fin 3 × Fin 3)} {d d' : ℕ → ℕ → ℂ} (hok : L.acCond w buf fortran pos hops comp = .ok d)
    (hok' : (L.withSolver D' c).acCond w' buf' fortran' pos hops comp = .ok d') (r : ℕ) (hr : r < w.size) (r' : ℕ) (hr' : r' < w'.size) :
    d' r' = d r := by
  have h1 := ac_run L w buf fortran pos [] hops comp hn r hr
  have h2 := ac_run (L.withSolver D' c) w' buf' fortran' pos [] hops comp hn' r' hr'
  rw [hok] at h1
  rw [hok'] at h2
  replace h1 := h1.symm
  replace h2 := h2.symm
  unfold acSpec at h1 h2
  obtain ⟨km, hkm, h1⟩ := ok_split h1
  obtain ⟨km', hkm', h2⟩ := ok_split h2
  cases comp with
  | none => cases h1
  | some cp =>
  obtain ⟨_, hc, h1⟩ := ok_split h1
  cases hc
  obtain ⟨_, hc, h2⟩ := ok_split h2
  cases hc
  obtain ⟨s, hs, h1⟩ := ok_split h1
  obtain ⟨u, hu, h2⟩ := ok_split h2
  have ekm : km' = km := by
    have e : (L.withSolver D' c).frac2cart ((buildKmeshGrid (L.withSolver D' c).mesh).map (L.withSolver D' c).grid2frac) =
      L.frac2cart ((buildKmeshGrid L.mesh).map L.grid2frac) := rfl
    rw [e, hkm] at hkm'
    exact (Except.ok.inj hkm').symm
  subst ekm
  refine (Except.ok.inj h2).symm.trans (Eq.trans ?_ (Except.ok.inj h1))
  funext iw
  have hk : ∀ om, kuboSum (L.withSolver D' c) pos [] hops cp u (fun i => km'.getD i 0) om = kuboSum L pos [] hops cp s (fun i => km'.getD i 0) om :=
    fun om => kubo_unique L h.nb pos [] hops cp _ om fun k hk => rows_pairs h hz hz' hs hu k hk
  have hom : (L.withSolver D' c).omegas = L.omegas := rfl
  rw [hom]
  cases L.omegas[iw]? with
  | none => rfl
  | some om =>
    simp only [hk]
    rfl

end Response

section Cell

variable {Λ : Type}

/-- C139: adding `c` to the energies of all orbitals of a cell adds `c` to the diagonal of its Hamiltonian, in either convention. -/
theorem C139_cell {s s' : PrimCell ℝ ℂ Λ} (hw : WF s) (hf : ArraysFresh s) (hw' : WF s') (hf' : ArraysFresh s') {c : ℝ}
    (ho : s'.orbs = s.orbs.map fun o => { o with energy := o.energy + c }) (hh : s'.hops.get = s.hops.get) (k : Vec3 ℝ) (conv : ℤ) (ham ham' : IMat)
    (hok : setHamDense s k conv = .ok ham) (hok' : setHamDense s' k conv = .ok ham') (i : ℕ) (hi : i < s.numOrb) (j : ℕ) (hj : j < s.numOrb) :
    ham' i j = ham i j + if i = j then (c : ℂ) else 0 := by
  have hi' : s.orbs[i]? = some s.orbs[i] := List.getElem?_eq_getElem hi
  have hj' : s.orbs[j]? = some s.orbs[j] := List.getElem?_eq_getElem hj
  rw [ham_entry hw hf k conv ham hok i j _ _ hi' hj'
    ((C07_neighbours_finite s.hops (i : ℕ)).image Prod.fst).toFinset (fun R hR => (Set.Finite.mem_toFinset _).2 ⟨(R, (j : ℕ)), hR, rfl⟩),
    ham_entry hw' hf' k conv ham' hok' i j { s.orbs[i] with energy := s.orbs[i].energy + c } { s.orbs[j] with energy := s.orbs[j].energy + c }
      (by rw [ho, List.getElem?_map, hi']; rfl) (by rw [ho, List.getElem?_map, hj']; rfl)
    ((C07_neighbours_finite s.hops (i : ℕ)).image Prod.fst).toFinset (fun R hR => (Set.Finite.mem_toFinset _).2 ⟨(R, (j : ℕ)), by rw [hh] at hR; exact hR, rfl⟩)]
  rw [hh]
  by_cases hij : i = j
  · subst hij
    simp only [if_true]
    push_cast
    ring
  · simp only [if_neg hij, add_zero]

/-- C139: the solvers of the two cells then differ by the zero of energy only, whatever eigensolvers they use. -/
theorem C139_solver (H : HashFns ℝ ℂ Λ) {s s' : PrimCell ℝ ℂ Λ} (hw : WF (syncArray H s)) (hf : ArraysFresh (syncArray H s))
    (hw' : WF (syncArray H s')) (hf' : ArraysFresh (syncArray H s')) {c : ℝ} (hn : (syncArray H s).orbs = s.orbs)
    (hn' : (syncArray H s').orbs = s'.orbs) (ho : s'.orbs = s.orbs.map fun o => { o with energy := o.energy + c })
    (hh : (syncArray H s').hops.get = (syncArray H s).hops.get)
    (zheev zheev' : IMat → Option ((ℕ → ℝ) × (ℕ → ℕ → ℂ))) (zhegv zhegv' : IMat → IMat → Option ((ℕ → ℝ) × (ℕ → ℕ → ℂ)))
    (argsort argsort' : (ℕ → ℝ) → List ℕ) : ShiftedBy c (cellSolver H s none zheev zhegv argsort) (cellSolver H s' none zheev' zhegv' argsort') := by
  refine ⟨by simp [cellSolver, numOrb, ho], ⟨rfl, rfl⟩, fun k conv m m' hm hm' i hi j hj => ?_⟩
  have e : (syncArray H s).numOrb = (cellSolver H s none zheev zhegv argsort).nb := by simp [cellSolver, numOrb, hn]
  rw [← e] at hi hj
  exact C139_cell hw hf hw' hf' (by rw [hn', hn, ho]) hh k conv m m' ((hamInto_zero _ _ _ _).1 hm) ((hamInto_zero _ _ _ _).1 hm') i hi j hj

/-- A case: graphene whose orbitals have energy 0 or `c`, with any two eigensolvers that keep LAPACK's promise. -/
example (H : HashFns ℝ ℂ String) (hO : ∀ l, l ≠ [] → H.orb l ≠ H.orb []) (hP : ∀ l, l ≠ [] → H.hop l ≠ H.hop []) (lat : Mat3 ℝ) (t : ℂ) (c : ℝ) :
    ∃ s s', runOk H (init H lat 0) (diamondCalls t) = .ok s ∧
      runOk H (init H lat 0) [.addOrbital [0, 0] c "C_pz", .addOrbital [1/3, 1/3] c "C_pz",
        .addHopping [0, 0] 0 1 t, .addHopping [1, 0] 1 0 t, .addHopping [0, 1] 1 0 t] = .ok s' ∧
      ∀ zheev zheev' zhegv zhegv' argsort argsort', ShiftedBy c (cellSolver H s none zheev zhegv argsort)
        (cellSolver H s' none zheev' zhegv' argsort') := by
  have B := fun e : ℝ => build_spec H lat 0 [([0, 0], e, "C_pz"), ([1/3, 1/3], e, "C_pz")]
    [([0, 0], 0, 1, t), ([1, 0], 1, 0, t), ([0, 1], 1, 0, t)]
    (by intro q hq; fin_cases hq <;> simp [checkLen]) (by intro q hq; fin_cases hq <;> simp [HopOk, checkLen, cellOf])
    [.addOrbital [0, 0] e "C_pz", .addOrbital [1/3, 1/3] e "C_pz",
        .addHopping [0, 0] 0 1 t, .addHopping [1, 0] 1 0 t, .addHopping [0, 1] 1 0 t] rfl
  obtain ⟨s, h1, -, -, h4, h5, h6, h7, -, h8, h9⟩ := B 0
  obtain ⟨s', h1', -, -, h4', h5', h6', h7', -, h8', h9'⟩ := B c
  refine ⟨s, s', h1, h1', fun zheev zheev' zhegv zhegv' argsort argsort' => ?_⟩
  have hws : WF s := h6 ▸ WF_run H (WF_init H _ _) _ h7
  have hws' : WF s' := h6' ▸ WF_run H (WF_init H _ _) _ h7'
  have hg : s.hops.get 0 0 1 ≠ none := by
    rw [h5]
    simp only [List.foldl_cons, List.foldl_nil, HopMap.add, cellOf, checkLen, Option.getD_some]
    simp
    split_ifs with a1 a2 a3
    · simp
    · simp
    · simp
    · exact absurd rfl a3
  obtain ⟨g1, g2, g3, g4, -, -, -⟩ := build_ham (H := H) (s := s) hws hO hP h8 h9 (by rw [h4]; simp) 0 0 1 hg
  obtain ⟨g1', g2', g3', g4', -, -, -⟩ := build_ham (H := H) (s := s') hws' hO hP h8' h9' (by rw [h4']; simp) 0 0 1 (by rw [h5', ← h5]; exact hg)
  exact C139_solver H g1 g2 g1' g2' g3 g3' (by rw [h4, h4']; simp) (by rw [g4, g4', h5, h5']) _ _ _ _ _ _

end Cell

/-- A chain with one orbital of energy `c`; `v` is the eigenvector its eigensolver returns. -/
noncomputable def oneBand (c : ℝ) (v : ℂ) : Diag where
  nb := 1
  setHam k _ h := .ok fun a b => h a b + if a = 0 ∧ b = 0 then ((2 * Real.cos (2 * Real.pi * k 0) + c : ℝ) : ℂ) else 0
  zheev h := if (h 0 0).im = 0 then some (fun _ => (h 0 0).re, fun _ _ => v) else none
  argsort _ := [0]

theorem oneBand_zheev (c : ℝ) (v : ℂ) (hv : star v * v = 1) : ZheevSpec (oneBand c v) := by
  intro h q hq
  have hq' : (if (h 0 0).im = 0 then some ((fun _ => (h 0 0).re : ℕ → ℝ), (fun _ _ => v : ℕ → ℕ → ℂ)) else none) = some q := hq
  split_ifs at hq' with him
  obtain rfl := Option.some.inj hq'
  have hr : h 0 0 = ((h 0 0).re : ℂ) := Complex.ext rfl (by simp [him])
  refine ⟨fun j hj o ho => ?_, fun j hj j' hj' => ?_⟩
  · have : o = 0 := by simpa [oneBand] using ho
    subst this
    simp only [oneBand, Finset.sum_range_one, Nat.cast_zero]
    rw [← hr]
  · have e1 : j = 0 := by simpa [oneBand] using hj
    have e2 : j' = 0 := by simpa [oneBand] using hj'
    subst e1 e2
    simp only [oneBand, Finset.sum_range_one, hv, if_true]

/-- A case: two solvers of a chain, the second with all energies larger by `c` and with other eigenvectors.  Both can treat every k-point. -/
example (c : ℝ) : ShiftedBy c (oneBand 0 1) (oneBand c Complex.I) ∧ ZheevSpec (oneBand 0 1) ∧ ZheevSpec (oneBand c Complex.I) ∧
    (∀ k conv, ∃ q, eigen (oneBand 0 1) k conv = .ok q) ∧ ∀ k conv, ∃ q, eigen (oneBand c Complex.I) k conv = .ok q := by
  have he : ∀ (c : ℝ) (v : ℂ) (k : Vec3 ℝ) conv, ∃ q, eigen (oneBand c v) k conv = .ok q := by
    intro c v k conv
    refine ⟨(fun _ => 2 * Real.cos (2 * Real.pi * k 0) + c, fun _ _ => v), ?_⟩
    have h0 : (oneBand c v).zheev (fun a b => (0 : ℂ) + if a = 0 ∧ b = 0 then ((2 * Real.cos (2 * Real.pi * k 0) + c : ℝ) : ℂ) else 0) =
        some (fun _ => 2 * Real.cos (2 * Real.pi * k 0) + c, fun _ _ => v) := by
      simp only [oneBand, true_and, and_self, if_true, zero_add, Complex.ofReal_im, Complex.ofReal_re]
    unfold eigen
    rw [show (oneBand c v).setHam k conv (fun _ _ => 0) = .ok fun a b => (0 : ℂ) + if a = 0 ∧ b = 0 then ((2 * Real.cos (2 * Real.pi * k 0) + c : ℝ) : ℂ) else 0 from rfl]
    simp only [h0]
    rfl
  refine ⟨⟨rfl, ⟨rfl, rfl⟩, fun k conv m m' hm hm' i hi j hj => ?_⟩, oneBand_zheev _ _ (by simp), oneBand_zheev _ _ (by simp), he _ _, he _ _⟩
  have e1 : i = 0 := by simpa [oneBand] using hi
  have e2 : j = 0 := by simpa [oneBand] using hj
  subst e1 e2
  obtain rfl := Except.ok.inj hm
  obtain rfl := Except.ok.inj hm'
  simp

end Verif.Props

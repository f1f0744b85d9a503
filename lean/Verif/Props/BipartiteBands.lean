import Verif.Props.Bipartite

/-! # C134: electron-hole symmetry of bands and DOS -/

namespace Verif.Props

open PrimCell Verif.Tbpm Materials

variable {Λ : Type*}

/-- C134: the Bloch matrices of a cell without on-site energies whose hopping terms join orbitals of different kinds. -/
theorem C134_cell {s : PrimCell ℝ ℂ Λ} (hw : WF s) (hf : ArraysFresh s) (c : ℕ → Bool) (he : ∀ o ∈ s.orbs, o.energy = 0)
    (hh : ∀ (R : Cell) (i j : ℕ), c i = c j → (s.hops.get R i j).getD 0 = 0) (k : Vec3 ℝ) (conv : ℤ) (ham : IMat)
    (hok : setHamDense s k conv = .ok ham) : Bipartite (toMatrix s.numOrb ham) (fun i => c i) := by
  intro i j hij
  have hi : (i : ℕ) < s.orbs.length := i.2
  have hj : (j : ℕ) < s.orbs.length := j.2
  change ham i j = 0
  rw [ham_entry hw hf k conv ham hok i j _ _ (List.getElem?_eq_getElem hi) (List.getElem?_eq_getElem hj)
    ((C07_neighbours_finite s.hops (i : ℕ)).image Prod.fst).toFinset
    (fun R hR => (Set.Finite.mem_toFinset _).2 ⟨(R, (j : ℕ)), hR, rfl⟩), he _ (List.getElem_mem hi), Finset.sum_eq_zero]
  · simp
  · intro R _
    rw [hh R i j hij, zero_mul]

/-- C134: the bands are symmetric: what is above zero is, with the opposite sign, below. -/
theorem C134_bands (D : Diag) (hov : D.setOvl = none) (hz : ZheevSpec D) (hsort : SortSpec D.nb D.argsort) (w : World) (buf : ℕ → Buf)
    (n : ℕ) (kpts : ℕ → Vec3 ℝ) (conv : ℤ) (orbs : Option (List ℕ)) (c : ℕ → Bool)
    (hb : ∀ i < n, ∀ m, D.setHam (kpts i) conv (fun _ _ => 0) = .ok m → Bipartite (toMatrix D.nb m) (fun i => c i))
    (bd : ℕ → (ℕ → ℕ → ℝ) × (ℕ → ℕ → ℝ)) (hok : calcBands D w buf n kpts conv orbs = .ok bd) (r : ℕ) (hr : r < w.size)
    (i : ℕ) (hi : i < n) (b : ℕ) (hbn : b < D.nb) : (bd r).1 i (D.nb - 1 - b) = -(bd r).1 i b := by
  obtain ⟨q, hq, hp, hd⟩ := C44_bands_sorted D w buf n kpts conv orbs r hr (fun ev => (hsort ev).1) (fun ev => (hsort ev).2) bd hok i hi
  obtain ⟨m, hm, hzm⟩ := eigen_ok D hov _ _ q hq
  have hl := levels_perm (hz m q hzm) (hb i hi m hm)
  set f := (bd r).1 i with hfdef
  have h := roots_unique (n := D.nb) (f := f) (g := fun b => -f (D.nb - 1 - b)) hd
    (fun a b hab hbn => by
      have := hd (D.nb - 1 - b) (D.nb - 1 - a) (by omega) (by omega)
      linarith) (fun z => by
      have hprod : ∀ u : ℕ → ℝ, ∏ b ∈ Finset.range D.nb, (z - (u b : ℂ)) = (((List.range D.nb).map u).map fun x : ℝ => z - (x : ℂ)).prod := by
        intro u
        rw [List.map_map, Finset.prod_range, ← List.prod_ofFn, List.ofFn_eq_map, ← List.map_coe_finRange_eq_range, List.map_map]
        rfl
      rw [Finset.prod_range_reflect (fun b => (z - ((-f b : ℝ) : ℂ))) D.nb, hprod, hprod (fun b => -f b)]
      refine List.Perm.prod_eq (List.Perm.map _ ?_)
      refine hp.trans (hl.symm.trans ?_)
      have := hp.map (fun x : ℝ => -x)
      rw [List.map_map, List.map_map] at this
      exact this.symm) b hbn
  linarith

/-- C134: the DOS, and the part of it on any orbitals, is the same at opposite energies. -/
theorem C134_dos (D : Diag) (hov : D.setOvl = none) (hz : ZheevSpec D) (hsort : SortSpec D.nb D.argsort) (w : World) (buf : ℕ → Buf)
    (n : ℕ) (kpts : ℕ → Vec3 ℝ) (conv : ℤ) (orbs : Option (List ℕ)) (ho : ∀ os, orbs = some os → ∀ o ∈ os, o < D.nb) (c : ℕ → Bool)
    (hb : ∀ i < n, ∀ m, D.setHam (kpts i) conv (fun _ _ => 0) = .ok m → Bipartite (toMatrix D.nb m) (fun i => c i))
    (a step sigma gs : ℝ) (hstep : 0 < step) (ha : step ≤ 2 * a) (basis : ℝ → ℝ → ℝ → ℝ) (hbs : basis = gaussian ∨ basis = lorentzian)
    (f : ℕ → List ℝ × (ℕ → ℝ)) (hf : calcDos D w buf n kpts conv orbs (some (-a)) (some a) step sigma basis gs = .ok f)
    (r : ℕ) (hr : r < w.size) (x : ℕ) (hx : x < (f r).1.length) :
    (f r).1.getD ((f r).1.length - 1 - x) 0 = -(f r).1.getD x 0 ∧ (f r).2 ((f r).1.length - 1 - x) = (f r).2 x := by
  obtain ⟨m, d, -, -, -, hmd, hE⟩ := C125_energies D n kpts conv orbs w buf (-a) a step sigma gs hstep (by linarith) basis f hf r hr
  have hlen : (f r).1.length = m + 1 := by rw [hE]; simp
  have hval : ∀ y ≤ m, (f r).1.getD y 0 = -a + y * d := by
    intro y hy
    rw [hE, List.getD_eq_getElem?_getD, List.getElem?_map, List.getElem?_range (by omega)]
    rfl
  have hmir : (f r).1.getD ((f r).1.length - 1 - x) 0 = -(f r).1.getD x 0 := by
    rw [hlen, hval _ (by omega), hval _ (by omega), show m + 1 - 1 - x = m - x by omega, Nat.cast_sub (by omega)]
    linarith
  refine ⟨hmir, ?_⟩
  have hbd : ∃ bd, calcBands D w buf n kpts conv orbs = .ok bd := by
    unfold calcDos at hf
    cases h : calcBands D w buf n kpts conv orbs with
    | error e => rw [h] at hf; cases hf
    | ok bd => exact ⟨bd, rfl⟩
  obtain ⟨bd, hbd⟩ := hbd
  have hex : ∀ i, ∃ q, i < n → eigen D (kpts i) conv = .ok q := by
    intro i
    by_cases hi : i < n
    · obtain ⟨q, hq, -⟩ := C44_bands_sorted D w buf n kpts conv orbs r hr (fun ev => (hsort ev).1) (fun ev => (hsort ev).2) bd hbd i hi
      exact ⟨q, fun _ => hq⟩
    · exact ⟨(0, 0), fun h => absurd h hi⟩
  choose q hq using hex
  rw [dos_levels D (fun ev => (hsort ev).1) n kpts conv q (fun i hi => hq i hi) orbs w buf _ _ step sigma basis gs f hf r hr,
    dos_levels D (fun ev => (hsort ev).1) n kpts conv q (fun i hi => hq i hi) orbs w buf _ _ step sigma basis gs f hf r hr, hmir]
  congr 2
  refine Finset.sum_congr rfl fun k hk => ?_
  obtain ⟨mk, hmk, hzk⟩ := eigen_ok D hov _ _ (q k) (hq k (Finset.mem_range.1 hk))
  have := weight_flip (q := q) (hz mk _ hzk) (hb k (Finset.mem_range.1 hk) mk hmk) (fun y => basis ((f r).1.getD x 0) y sigma) orbs ho
  rw [← this]
  refine Finset.sum_congr rfl fun j _ => ?_
  congr 1
  have e : ∀ u v : ℝ, (-u - v) ^ 2 = (u - -v) ^ 2 := fun u v => by ring
  rcases hbs with rfl | rfl
  · simp only [gaussian, e]
  · simp only [lorentzian, e]

/-- A case: graphene, in either convention and with any eigensolver that keeps LAPACK's promise. -/
example (H : HashFns ℝ ℂ String) (hO : ∀ l, l ≠ [] → H.orb l ≠ H.orb []) (hP : ∀ l, l ≠ [] → H.hop l ≠ H.hop []) (h : ℝ) (t : ℂ) :
    ∃ s, grapheneDiamond H h t = .ok s ∧ ∀ zheev zhegv argsort, ZheevSpec (cellSolver H s none zheev zhegv argsort) → SortSpec 2 argsort →
      ∀ w buf n kpts conv bd, calcBands (cellSolver H s none zheev zhegv argsort) w buf n kpts conv none = .ok bd →
        ∀ r < w.size, ∀ i < n, (bd r).1 i 1 = -(bd r).1 i 0 := by
  obtain ⟨s, h1, -, -, h4, h5, h6, h7, h8, h9⟩ := diamond_spec H h t
  refine ⟨s, h1, fun zheev zhegv argsort hz hs w buf n kpts conv bd hbd r hr i hi => ?_⟩
  have hws : WF s := h6 ▸ WF_run H (WF_init H _ _) _ h7
  obtain ⟨g1, g2, g3, g4, -, -, -⟩ := build_ham (H := H) (s := s) hws hO hP h8 h9 (by rw [h4]; simp) 0 0 1 (by rw [h5]; simp)
  have hnb : (cellSolver H s none zheev zhegv argsort).nb = 2 := by simp [cellSolver, numOrb, h4]
  have := C134_bands (cellSolver H s none zheev zhegv argsort) rfl hz (by rw [hnb]; exact hs) w buf n kpts conv none (fun i => decide (i = 1)) (by
    intro i _ m hm
    have hm' := (hamInto_zero _ _ _ _).1 hm
    have := C134_cell g1 g2 (fun i => decide (i = 1)) (by rw [g3, h4]; simp) (by
      intro R i j hij
      rw [g4, h5]
      have : (i = 1 ↔ j = 1) := by simpa using hij
      split_ifs with a1 a2
      · exfalso; omega
      · exfalso; omega
      · rfl) (kpts i) conv m hm'
    have e : (syncArray H s).numOrb = (cellSolver H s none zheev zhegv argsort).nb := by simp [cellSolver, numOrb, g3]
    rw [← e]
    exact this) bd hbd r hr i hi 0 (by rw [hnb]; norm_num)
  rw [hnb] at this
  simpa using this

end Verif.Props

import Verif.Proof.Arpack
import Verif.Props.ParallelRun
import Verif.Props.DosDensity

/-! # C131: bands and density of states with the sparse solver -/

open Verif.Props

namespace Verif

theorem eigen_ok (D : Diag) (hov : D.setOvl = none) (p : Vec3 ℝ) (conv : ℤ) (q : (ℕ → ℝ) × (ℕ → ℕ → ℂ)) (h : eigen D p conv = .ok q) :
    ∃ m, D.setHam p conv (fun _ _ => 0) = .ok m ∧ D.zheev m = some q := by
  unfold eigen at h
  split at h
  · cases h
  · rename_i m hm
    rw [hov] at h
    simp only at h
    split at h
    · cases h
    · rename_i r hr
      cases h
      exact ⟨m, hm, hr⟩

theorem eigen_pair (D : Diag) (hov : D.setOvl = none) (hz : ZheevSpec D) (eigsh : Eigsh) (he : EigshSpec D.nb eigsh)
    (argsort : ℕ → (ℕ → ℝ) → List ℕ) (k : ℕ) (p : Vec3 ℝ) (conv : ℤ) (q s : (ℕ → ℝ) × (ℕ → ℕ → ℂ)) (hq : eigen D p conv = .ok q)
    (hs : eigen (sparseDiag D eigsh argsort k) p conv = .ok s) :
    ∃ m, Eigenpairs D.nb D.nb m q ∧ Eigenpairs D.nb k m s ∧ 0 < k ∧ k < D.nb := by
  obtain ⟨m, h1, h2⟩ := eigen_ok D hov p conv q hq
  obtain ⟨m', h3, h4⟩ := eigen_ok _ (by rfl) p conv s hs
  have : m' = m := by
    simp only [sparseDiag] at h3
    rw [h1] at h3
    cases h3
    rfl
  subst this
  obtain ⟨a, b, c⟩ := he _ _ _ h4
  exact ⟨_, hz _ _ h2, c, a, b⟩

/-- C131: at every k-point, the energies found by the sparse solver are a part (with multiplicities, in the same order) of those of the
dense one, on any numbers of processes, whatever either was used for before. -/
theorem C131_bands (D : Diag) (hov : D.setOvl = none) (hz : ZheevSpec D) (hsort : SortSpec D.nb D.argsort) (eigsh : Eigsh)
    (he : EigshSpec D.nb eigsh) (argsort : ℕ → (ℕ → ℝ) → List ℕ) (hsort' : ∀ m, SortSpec m (argsort m)) (k : Option ℕ) (n : ℕ)
    (kpts : ℕ → Vec3 ℝ) (conv : ℤ) (orbs orbs' : Option (List ℕ)) (w w' : World) (buf buf' : ℕ → Buf)
    {f f' : ℕ → (ℕ → ℕ → ℝ) × (ℕ → ℕ → ℝ)} (hf : calcBands D w buf n kpts conv orbs = .ok f)
    (hf' : calcBandsSparse D eigsh argsort k w' buf' n kpts conv orbs' = .ok f') (r r' : ℕ) (hr : r < w.size) (hr' : r' < w'.size)
    (i : ℕ) (hi : i < n) :
    ((List.range (sparseBands D.nb k)).map ((f' r').1 i)).Sublist ((List.range D.nb).map ((f r).1 i)) := by
  obtain ⟨q, h1, h2, h3⟩ := C44_bands_sorted D w buf n kpts conv orbs r hr (fun ev => (hsort ev).1) (fun ev => (hsort ev).2) f hf i hi
  obtain ⟨s, g1, g2, g3⟩ := C44_bands_sorted (sparseDiag D eigsh argsort (sparseBands D.nb k)) w' buf' n kpts conv orbs' r' hr'
    (fun ev => (hsort' _ ev).1) (fun ev => (hsort' _ ev).2) f' hf' i hi
  obtain ⟨m, a, b, -, -⟩ := eigen_pair D hov hz eigsh he argsort _ _ conv q s h1 g1
  have hsub := eigenvalues_subperm a b
  have hsub' : ((List.range (sparseBands D.nb k)).map ((f' r').1 i)).Subperm ((List.range D.nb).map ((f r).1 i)) :=
    (g2.subperm.trans hsub).trans h2.symm.subperm
  have hpw : ∀ (m : ℕ) (g : ℕ → ℝ), (∀ a b, a ≤ b → b < m → g b ≤ g a) → ((List.range m).map g).Pairwise (· ≥ ·) := by
    intro m g hg
    rw [List.pairwise_map]
    exact (List.pairwise_lt_range (n := m)).imp_of_mem fun {a b} ha hb hab => hg a b hab.le (List.mem_range.1 hb)
  exact List.sublist_of_subperm_of_pairwise hsub' (hpw _ _ g3) (hpw _ _ h3)

/-- C131: the density of states of the sparse solver is that of the states it found, divided by their number instead of the number of
orbitals: `k` times it is at most `num_orb` times that of the dense solver, at the same energies. -/
theorem C131_dos_partial (D : Diag) (hov : D.setOvl = none) (hz : ZheevSpec D) (hsort : SortSpec D.nb D.argsort) (eigsh : Eigsh)
    (he : EigshSpec D.nb eigsh) (argsort : ℕ → (ℕ → ℝ) → List ℕ) (hsort' : ∀ m, SortSpec m (argsort m)) (k : Option ℕ) (n : ℕ)
    (kpts : ℕ → Vec3 ℝ) (conv : ℤ) (q s : ℕ → (ℕ → ℝ) × (ℕ → ℕ → ℂ)) (hq : ∀ i < n, eigen D (kpts i) conv = .ok (q i))
    (hs : ∀ i < n, eigen (sparseDiag D eigsh argsort (sparseBands D.nb k)) (kpts i) conv = .ok (s i))
    (orbs : Option (List ℕ)) (hos : ∀ os, orbs = some os → ∀ o ∈ os, o < D.nb) (w w' : World) (buf buf' : ℕ → Buf)
    (a b step sigma gs : ℝ) (hsig : 0 < sigma) (hgs : 0 ≤ gs) {basis : ℝ → ℝ → ℝ → ℝ} (hb : basis = gaussian ∨ basis = lorentzian)
    {f f' : ℕ → List ℝ × (ℕ → ℝ)}
    (hf : calcDos D w buf n kpts conv orbs (some a) (some b) step sigma basis gs = .ok f)
    (hf' : calcDosSparse D eigsh argsort k w' buf' n kpts conv orbs (some a) (some b) step sigma basis gs = .ok f')
    (r r' : ℕ) (hr : r < w.size) (hr' : r' < w'.size) :
    (f' r').1 = (f r).1 ∧ ∀ x, sparseBands D.nb k * (f' r').2 x ≤ D.nb * (f r).2 x := by
  have e1 := dos_grid_eq D n kpts conv _ w buf a b step sigma basis gs f hf r hr
  have e2 := dos_grid_eq _ n kpts conv _ w' buf' a b step sigma basis gs f' hf' r' hr'
  have hgrid : (f' r').1 = (f r).1 := by
    rw [e1] at e2
    exact (Except.ok.inj e2).symm
  refine ⟨hgrid, fun x => ?_⟩
  rw [dos_levels D (fun ev => (hsort ev).1) n kpts conv q hq orbs w buf _ _ step sigma basis gs f hf r hr x,
    dos_levels _ (fun ev => (hsort' _ ev).1) n kpts conv s hs orbs w' buf' _ _ step sigma basis gs f' hf' r' hr' x, hgrid]
  have hnb : (sparseDiag D eigsh argsort (sparseBands D.nb k)).nb = sparseBands D.nb k := rfl
  rw [hnb]
  rcases Nat.eq_zero_or_pos n with h0 | h0
  · subst h0; simp
  obtain ⟨-, -, -, hk0, hk1⟩ := eigen_pair D hov hz eigsh he argsort _ _ conv _ _ (hq 0 h0) (hs 0 h0)
  have hkr : (0 : ℝ) < sparseBands D.nb k := by exact_mod_cast hk0
  have hnr : (0 : ℝ) < D.nb := by exact_mod_cast (hk0.trans hk1)
  have hn : (0 : ℝ) < n := by exact_mod_cast h0
  set E := (f r).1.getD x 0
  have hpos : ∀ y, 0 ≤ basis E y sigma := by
    intro y
    rcases hb with rfl | rfl
    · unfold gaussian; positivity
    · unfold lorentzian; positivity
  have hsum : ∀ i ∈ Finset.range n, ∑ j ∈ Finset.range (sparseBands D.nb k), basis E ((s i).1 j) sigma * stateWeight s orbs i j ≤
      ∑ j ∈ Finset.range D.nb, basis E ((q i).1 j) sigma * stateWeight q orbs i j := by
    intro i hi
    rw [Finset.mem_range] at hi
    obtain ⟨m, h1, h2, -, -⟩ := eigen_pair D hov hz eigsh he argsort _ _ conv _ _ (hq i hi) (hs i hi)
    unfold stateWeight
    cases orbs with
    | none =>
      simp only [mul_one]
      exact some_le_all_sum h1 h2 (fun y => basis E y sigma) hpos
    | some os =>
      have hos' := hos os rfl
      simp only
      have hlist : ∀ (m : ℕ) (p : (ℕ → ℝ) × (ℕ → ℕ → ℂ)), ∑ j ∈ Finset.range m, basis E (p.1 j) sigma * (os.map fun o => ‖p.2 o j‖ ^ 2).sum =
          (os.map fun o => ∑ j ∈ Finset.range m, basis E (p.1 j) sigma * ‖p.2 o j‖ ^ 2).sum := by
        intro m p
        clear hos' hos hf hf'
        induction os with
        | nil => simp
        | cons o os ih =>
          simp only [List.map_cons, List.sum_cons, mul_add, Finset.sum_add_distrib]
          rw [ih]
      rw [hlist, hlist]
      exact List.sum_le_sum fun o ho => some_le_all h1 h2 (fun y => basis E y sigma) hpos o (hos' o ho)
  calc (sparseBands D.nb k : ℝ) * (gs * (∑ i ∈ Finset.range n, ∑ j ∈ Finset.range (sparseBands D.nb k),
        basis E ((s i).1 j) sigma * stateWeight s orbs i j) / (n * sparseBands D.nb k)) =
        gs * (∑ i ∈ Finset.range n, ∑ j ∈ Finset.range (sparseBands D.nb k), basis E ((s i).1 j) sigma * stateWeight s orbs i j) / n := by
        field_simp
    _ ≤ gs * (∑ i ∈ Finset.range n, ∑ j ∈ Finset.range D.nb, basis E ((q i).1 j) sigma * stateWeight q orbs i j) / n := by
        gcongr with i hi
        exact hsum i hi
    _ = _ := by field_simp

/-- C131: the default number of bands is what `eigsh` accepts for two or more orbitals; a model with one orbital always fails. -/
theorem C131_default (D : Diag) (eigsh : Eigsh) (he : EigshSpec D.nb eigsh) (argsort : ℕ → (ℕ → ℝ) → List ℕ) :
    (2 ≤ D.nb ↔ 0 < sparseBands D.nb none ∧ sparseBands D.nb none < D.nb) ∧
    ∀ (n : ℕ) (_ : 0 < n) (w : World) (buf : ℕ → Buf) (kpts : ℕ → Vec3 ℝ) (conv : ℤ) (orbs : Option (List ℕ)), D.nb = 1 → ∀ k,
      ∀ f, calcBandsSparse D eigsh argsort k w buf n kpts conv orbs ≠ .ok f := by
  refine ⟨by unfold sparseBands; simp only [Option.getD_none]; omega, ?_⟩
  intro n hn w buf kpts conv orbs h1 k f hf
  have h := C44_bands (sparseDiag D eigsh argsort (sparseBands D.nb k)) w buf n kpts conv orbs 0 w.pos
  have hf2 : calcBands (sparseDiag D eigsh argsort (sparseBands D.nb k)) w buf n kpts conv orbs = .ok f := hf
  rw [hf2] at h
  unfold bandsSpec at h
  rw [eigens_eq, rowsOut_map] at h
  cases hfe : firstErr (fun i => eigen (sparseDiag D eigsh argsort (sparseBands D.nb k)) (kpts i) conv) (List.range n) with
  | some e => rw [hfe] at h; simp [rowsOut, Except.map] at h
  | none =>
    unfold firstErr at hfe
    rw [List.findSome?_eq_none_iff] at hfe
    have := hfe 0 (List.mem_range.2 hn)
    cases hq : eigen (sparseDiag D eigsh argsort (sparseBands D.nb k)) (kpts 0) conv with
    | error e => simp [hq] at this
    | ok q =>
      obtain ⟨m, -, h3⟩ := eigen_ok _ (by rfl) _ conv q hq
      obtain ⟨a, b, -⟩ := he _ _ _ h3
      omega

/-! ## Cases -/

/-- Sorting by `mergeSort`. -/
noncomputable def sortedIdx (m : ℕ) (ev : ℕ → ℝ) : List ℕ := (List.range m).mergeSort fun a b => decide (ev a ≤ ev b)

theorem sortedIdx_spec (m : ℕ) : SortSpec m (sortedIdx m) := by
  intro ev
  refine ⟨List.mergeSort_perm _ _, ?_⟩
  rw [List.pairwise_map]
  have := List.pairwise_mergeSort (le := fun a b => decide (ev a ≤ ev b)) (fun a b c h1 h2 => by
    simp only [decide_eq_true_eq] at *
    exact h1.trans h2) (fun a b => by
    simp only [Bool.or_eq_true, decide_eq_true_eq]
    exact le_total _ _) (List.range m)
  exact this.imp fun h => by simpa using h

/-- Levels at 0 and 1. -/
def sparseTwoMat : IMat := fun a b => if a = 1 ∧ b = 1 then 1 else 0

open Classical in
/-- A model with two orbitals without hoppings, and LAPACK. -/
noncomputable def sparseTwo : Diag where
  nb := 2
  setHam _ _ _ := .ok sparseTwoMat
  zheev h := if h = sparseTwoMat then some (fun i => i, fun o i => if o = i then 1 else 0) else none
  argsort := sortedIdx 2

open Classical in
/-- `eigsh` finding the lower level. -/
noncomputable def twoEigsh : Eigsh := fun h k =>
  if h = sparseTwoMat ∧ k = 1 then some (fun _ => 0, fun o _ => if o = 0 then 1 else 0) else none

theorem two_zheev : ZheevSpec sparseTwo := by
  intro h q hq
  simp only [sparseTwo] at hq
  split_ifs at hq with hm
  subst hm
  cases hq
  constructor
  · intro j hj o ho
    simp only [sparseTwo] at hj ho ⊢
    interval_cases j <;> interval_cases o <;> simp [Finset.sum_range_succ, sparseTwoMat]
  · intro j hj j' hj'
    simp only [sparseTwo] at hj hj' ⊢
    interval_cases j <;> interval_cases j' <;> simp [Finset.sum_range_succ]

theorem two_eigsh : EigshSpec sparseTwo.nb twoEigsh := by
  intro h k q hq
  simp only [twoEigsh] at hq
  split_ifs at hq with hm
  obtain ⟨rfl, rfl⟩ := hm
  cases hq
  refine ⟨by norm_num, by norm_num [sparseTwo], ?_, ?_⟩
  · intro j hj o ho
    simp only [sparseTwo] at ho ⊢
    interval_cases o <;> simp [Finset.sum_range_succ, sparseTwoMat]
  · intro j hj j' hj'
    simp only [sparseTwo] at ⊢
    interval_cases j
    interval_cases j'
    simp [Finset.sum_range_succ]

theorem two_eigen (p : Vec3 ℝ) (conv : ℤ) : eigen sparseTwo p conv = .ok (fun i => i, fun o i => if o = i then 1 else 0) := by
  unfold eigen sparseTwo
  simp

theorem two_sparse (p : Vec3 ℝ) (conv : ℤ) :
    eigen (sparseDiag sparseTwo twoEigsh sortedIdx 1) p conv = .ok (fun _ => 0, fun o _ => if o = 0 then 1 else 0) := by
  unfold eigen sparseDiag sparseTwo twoEigsh
  simp

/-- A calculation with given range of energies succeeds if the k-point can be diagonalised. -/
theorem dos_runs (D : Diag) (kpts : ℕ → Vec3 ℝ) (conv : ℤ) (q : (ℕ → ℝ) × (ℕ → ℕ → ℂ)) (hq : eigen D (kpts 0) conv = .ok q)
    (w : World) (buf : ℕ → Buf) (sigma gs : ℝ) (basis : ℝ → ℝ → ℝ → ℝ) :
    ∃ f, calcDos D w buf 1 kpts conv none (some 0) (some 1) 1 sigma basis gs = .ok f ∧ (f 0).1 = [0, 1] := by
  have h := C44_dos D w buf 1 kpts conv none (some 0) (some 1) 1 sigma basis gs 0 w.pos
  have hs : eigens D 1 kpts conv = .ok [q] := by
    unfold eigens
    simp only [List.range_one, List.mapM_cons, hq, List.mapM_nil]
    rfl
  have hg : ∀ b, dosGrid 1 D.nb b (some 0) (some 1) 1 = .ok [0, 1] := by
    intro b
    unfold dosGrid
    simp only
    have h0 : ((1 : ℝ) - 0) / 1 = 1 := by norm_num
    have h1 : ⌊(1 : ℝ)⌋ = 1 := Int.floor_one
    simp only [h0, if_pos (zero_le_one' ℝ), h1]
    norm_num [npLinspace, List.range_succ]
  unfold dosSpec bandsSpec at h
  rw [hs] at h
  simp only [Except.map, hg] at h
  cases hc : calcDos D w buf 1 kpts conv none (some 0) (some 1) 1 sigma basis gs with
  | error e => rw [hc] at h; cases h
  | ok f =>
    rw [hc] at h
    refine ⟨f, rfl, ?_⟩
    have := Except.ok.inj h
    rw [this]

theorem basis_drop {basis : ℝ → ℝ → ℝ → ℝ} (hb : basis = gaussian ∨ basis = lorentzian) {sigma : ℝ} (hs : 0 < sigma) :
    basis 0 1 sigma < basis 0 0 sigma := by
  rcases hb with rfl | rfl
  · unfold gaussian
    refine mul_lt_mul_of_pos_left ?_ (by positivity)
    rw [Real.exp_lt_exp]
    have : 0 < 1 / (2 * sigma ^ 2) := by positivity
    have e1 : -((0 : ℝ) - 1) ^ 2 / (2 * sigma ^ 2) = -(1 / (2 * sigma ^ 2)) := by ring
    have e2 : -((0 : ℝ) - 0) ^ 2 / (2 * sigma ^ 2) = 0 := by simp
    rw [e1, e2]
    linarith
  · unfold lorentzian
    refine mul_lt_mul_of_pos_left ?_ (by positivity)
    rw [div_lt_div_iff₀ (by positivity) (by positivity)]
    have : 0 < sigma ^ 2 := by positivity
    nlinarith

/-- C131 (the violated part): the density of states depends on the solver.  With levels at 0 and 1, of which `eigsh` finds the lower
one, the densities at the energy 0 differ, for every broadening and both basis functions. -/
theorem C131_dos_wrong {basis : ℝ → ℝ → ℝ → ℝ} (hb : basis = gaussian ∨ basis = lorentzian) (sigma : ℝ) (hs : 0 < sigma) (w : World)
    (buf : ℕ → Buf) (kpts : ℕ → Vec3 ℝ) (conv : ℤ) :
    ∃ f f', calcDos sparseTwo w buf 1 kpts conv none (some 0) (some 1) 1 sigma basis 1 = .ok f ∧
      calcDosSparse sparseTwo twoEigsh sortedIdx none w buf 1 kpts conv none (some 0) (some 1) 1 sigma basis 1 = .ok f' ∧
      (f 0).1 = [0, 1] ∧ (f' 0).1 = [0, 1] ∧ (f 0).2 0 < (f' 0).2 0 := by
  have hk : sparseBands sparseTwo.nb none = 1 := rfl
  obtain ⟨f, h1, h2⟩ := dos_runs sparseTwo kpts conv _ (two_eigen _ conv) w buf sigma 1 basis
  obtain ⟨f', h3, h4⟩ := dos_runs (sparseDiag sparseTwo twoEigsh sortedIdx 1) kpts conv _ (two_sparse _ conv) w buf sigma 1 basis
  refine ⟨f, f', h1, h3, h2, h4, ?_⟩
  rw [dos_levels sparseTwo (fun ev => (sortedIdx_spec 2 ev).1) 1 kpts conv (fun _ => _) (fun i _ => two_eigen _ conv) none w buf _ _ 1 sigma
      basis 1 f h1 0 w.pos 0,
    dos_levels _ (fun ev => (sortedIdx_spec 1 ev).1) 1 kpts conv (fun _ => _) (fun i _ => two_sparse _ conv) none w buf _ _ 1 sigma
      basis 1 f' h3 0 w.pos 0, h2, h4]
  have hd := basis_drop hb hs
  simp [stateWeight, sparseTwo, sparseDiag, Finset.sum_range_succ]
  linarith

/-- The hypotheses of the other theorems are met by this case. -/
example (w : World) (buf : ℕ → Buf) (kpts : ℕ → Vec3 ℝ) (sigma : ℝ) (hs : 0 < sigma) :
    ∃ f f', calcDos sparseTwo w buf 1 kpts 1 none (some 0) (some 1) 1 sigma gaussian 1 = .ok f ∧
      calcDosSparse sparseTwo twoEigsh sortedIdx none w buf 1 kpts 1 none (some 0) (some 1) 1 sigma gaussian 1 = .ok f' ∧
      ∀ x, 1 * (f' 0).2 x ≤ 2 * (f 0).2 x := by
  obtain ⟨f, f', h1, h2, -⟩ := C131_dos_wrong (Or.inl rfl) sigma hs w buf kpts 1
  refine ⟨f, f', h1, h2, fun x => ?_⟩
  have := (C131_dos_partial sparseTwo rfl two_zheev (sortedIdx_spec 2) twoEigsh two_eigsh sortedIdx sortedIdx_spec none 1 kpts 1 (fun _ => _)
    (fun _ => _) (fun i _ => two_eigen _ 1) (fun i _ => two_sparse _ 1) none (fun _ h => by cases h) w w buf buf 0 1 1 sigma 1 hs
    zero_le_one (Or.inl rfl) h1 h2 0 0 w.pos w.pos).2 x
  simpa [sparseTwo, sparseBands] using this

end Verif

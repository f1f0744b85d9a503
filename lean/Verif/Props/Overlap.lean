import Verif.Proof.Overlap
import Verif.Props.ParallelRun
import Verif.Props.Extend

/-! # Properties of orbital overlaps and of calculations with them: C104 -/

namespace Verif.Props

open Verif PrimCell Matrix

variable {Λ : Type*}

theorem ham_star (pos : ℤ → Vec3 ℝ) (eng : List ℝ) (hops : List (Cell × Pair × ℂ)) (conv : ℤ) (k : Vec3 ℝ) (a b : ℤ) :
    star (setHam pos eng hops conv k IMat.zero b a) = setHam pos eng hops conv k IMat.zero a b := by
  rw [setHam_apply, setHam_apply, star_add, setDiag_star, star_list_sum, List.map_map]
  congr 2
  exact List.map_congr_left (fun t _ => hopTerm_star pos conv k a b t)

/-! ## The overlap as a container -/

/-- A call of the interface of an overlap: `set_onsite`, `add_offsite`, or a synchronisation of arrays. -/
inductive OvlCall where
  | onsite (i : ℤ) (x : ℝ)
  | offsite (rn : List ℤ) (i j : ℤ) (x : ℂ)
  | sync (r : PrimCell.Read)

/-- The state after a history of such calls, failing calls included. -/
noncomputable def ovlRun (H : HashFns ℝ ℂ Λ) (o : PrimCell ℝ ℂ Λ) (cs : List OvlCall) : PrimCell ℝ ℂ Λ :=
  cs.foldl (fun o c => match c with
    | .onsite i x => (Overlap.setOnsite o i x).1
    | .offsite rn i j x => (Overlap.addOffsite o rn i j x).1
    | .sync r => PrimCell.read H o r) o

/-- The same history as calls of a cell. -/
def OvlCall.toCall : OvlCall → Call ℝ ℂ Λ
  | .onsite i x => .inl (.setOrbital i none (some x) none)
  | .offsite rn i j x => .inl (.addHopping rn i j x)
  | .sync r => .inr r

theorem ovlRun_eq (H : HashFns ℝ ℂ Λ) (o : PrimCell ℝ ℂ Λ) (cs : List OvlCall) :
    ovlRun H o cs = run H o (cs.map OvlCall.toCall) := by
  induction cs generalizing o with
  | nil => rfl
  | cons c cs ih =>
    unfold ovlRun run at ih ⊢
    rw [List.map_cons, List.foldl_cons, List.foldl_cons, ih]
    cases c <;> rfl

/-- A new overlap is a new cell with the orbitals of the model added one by one. -/
theorem overlap_init_run (H : HashFns ℝ ℂ Λ) (m : PrimCell ℝ ℂ Λ) :
    Overlap.init H m = run H (init H m.lat m.origin)
      (m.orbs.map fun o => .inl (.addOrbital [o.position 0, o.position 1, o.position 2] 1 o.label)) := by
  have key : ∀ (l : List (Orbital ℝ Λ)) (s : PrimCell ℝ ℂ Λ), s.locked = false →
      run H s (l.map fun o => .inl (.addOrbital [o.position 0, o.position 1, o.position 2] 1 o.label)) =
        { s with orbs := s.orbs ++ l.map fun o => ⟨o.position, 1, o.label⟩ } := by
    intro l
    induction l with
    | nil => intro s _; simp [run]
    | cons o l ih =>
      intro s hs
      have h1 : (step H s (.addOrbital [o.position 0, o.position 1, o.position 2] 1 o.label)).1 =
          { s with orbs := s.orbs ++ [⟨o.position, 1, o.label⟩] } := by
        have : ![o.position 0, o.position 1, o.position 2] = o.position := by
          funext x; fin_cases x <;> rfl
        simp [step, addOrbital, hs, checkLen, vec3, this]
      unfold run at ih ⊢
      rw [List.map_cons, List.foldl_cons]
      simp only [call]
      rw [h1]
      exact (ih { s with orbs := s.orbs ++ [⟨o.position, 1, o.label⟩] } hs).trans (by simp)
  rw [key _ _ rfl]
  simp [Overlap.init, PrimCell.init]

theorem positions_call (H : HashFns ℝ ℂ Λ) (o : PrimCell ℝ ℂ Λ) (c : OvlCall) :
    (call H o c.toCall).orbs.map Orbital.position = o.orbs.map Orbital.position ∧
      (call H o c.toCall).orbs.map Orbital.label = o.orbs.map Orbital.label := by
  cases c with
  | onsite i x =>
    simp only [OvlCall.toCall, call, step, setOrbital, setOrbitalAt]
    split_ifs
    · exact ⟨rfl, rfl⟩
    · cases pyIndex o.numOrb i with
      | none => exact ⟨rfl, rfl⟩
      | some k =>
        constructor <;>
        · simp only [Option.getD_none]
          apply List.ext_getElem?
          intro j
          simp only [List.getElem?_map, List.getElem?_modify]
          cases o.orbs[j]? with
          | none => rfl
          | some q => simp only [Option.map_some]; split_ifs <;> rfl
  | offsite rn i j x =>
    simp only [OvlCall.toCall, call, step, addHopping]
    split_ifs
    · exact ⟨rfl, rfl⟩
    · cases checkHopIndex o rn i j <;> exact ⟨rfl, rfl⟩
  | sync r =>
    cases r with
    | syncOrb f =>
      simp only [OvlCall.toCall, call, PrimCell.read]
      rw [(syncOrb_orbs H o f).1]
      exact ⟨rfl, rfl⟩
    | syncHop f =>
      simp only [OvlCall.toCall, call, PrimCell.read]
      have : (syncHop H o f).orbs = o.orbs := by unfold syncHop; simp only; split_ifs <;> rfl
      rw [this]
      exact ⟨rfl, rfl⟩

/-- **C104 (container).** A new overlap has the lattice, the orbital positions and the labels of the model, on-site overlaps one
and no off-site overlap.  Whatever calls follow, positions and labels stay; the matrix the overlap gives is Hermitian and its
elements are the on-site overlap plus the sum over all cells of the off-site overlaps, which `get_hopping` shows, times the Bloch
phases. -/
theorem C104_container (H : HashFns ℝ ℂ Λ) (m : PrimCell ℝ ℂ Λ) :
    ((Overlap.init H m).lat = m.lat ∧ (Overlap.init H m).origin = m.origin ∧
      (Overlap.init H m).orbs.map Orbital.position = m.orbs.map Orbital.position ∧
      (Overlap.init H m).orbs.map Orbital.label = m.orbs.map Orbital.label ∧
      (∀ q ∈ (Overlap.init H m).orbs, q.energy = 1) ∧ ∀ R i j, (Overlap.init H m).hops.get R i j = none) ∧
    ∀ cs : List OvlCall,
      (ovlRun H (Overlap.init H m) cs).orbs.map Orbital.position = m.orbs.map Orbital.position ∧
      (ovlRun H (Overlap.init H m) cs).orbs.map Orbital.label = m.orbs.map Orbital.label ∧
      ∀ (k : Vec3 ℝ) (conv : ℤ) (S : IMat), ArraysFresh (ovlRun H (Overlap.init H m) cs) →
        Overlap.setOverlapDense (ovlRun H (Overlap.init H m) cs) k conv = .ok S →
        (∀ a b, S a b = star (S b a)) ∧
        Overlap.setOverlapCsr (ovlRun H (Overlap.init H m) cs) k conv = .ok S ∧
        ∀ (a b : ℕ) (oa ob : Orbital ℝ Λ), (ovlRun H (Overlap.init H m) cs).orbs[a]? = some oa →
          (ovlRun H (Overlap.init H m) cs).orbs[b]? = some ob → ∀ C : Finset Cell,
          (∀ R, (ovlRun H (Overlap.init H m) cs).hops.get R a b ≠ none → R ∈ C) →
          S a b = (if a = b then (oa.energy : ℂ) else 0) +
            ∑ R ∈ C, ((ovlRun H (Overlap.init H m) cs).hops.get R a b).getD 0 *
              Complex.exp (2 * Real.pi * Complex.I *
                ((k 0 * (R.1 + (if conv = 1 then ob.position 0 - oa.position 0 else 0)) +
                  k 1 * (R.2.1 + (if conv = 1 then ob.position 1 - oa.position 1 else 0)) +
                  k 2 * (R.2.2 + (if conv = 1 then ob.position 2 - oa.position 2 else 0)) : ℝ) : ℂ)) := by
  refine ⟨⟨rfl, rfl, by simp [Overlap.init, Function.comp_def], by simp [Overlap.init, Function.comp_def], ?_, ?_⟩, ?_⟩
  · simp [Overlap.init]
  · intro R i j
    rw [IntraHop.get_eq_look']
    simp [Overlap.init, PrimCell.init, IntraHop.look, IntraHop.empty]
  · intro cs
    have hp : (ovlRun H (Overlap.init H m) cs).orbs.map Orbital.position = m.orbs.map Orbital.position ∧
        (ovlRun H (Overlap.init H m) cs).orbs.map Orbital.label = m.orbs.map Orbital.label := by
      rw [ovlRun_eq]
      induction cs using List.reverseRecOn with
      | nil => simp [run, Overlap.init, Function.comp_def]
      | append_singleton cs c ih =>
        have : run H (Overlap.init H m) ((cs ++ [c]).map OvlCall.toCall) =
            call H (run H (Overlap.init H m) (cs.map OvlCall.toCall)) c.toCall := by
          simp [run]
        rw [this, (positions_call H _ c).1, (positions_call H _ c).2]
        exact ih
    refine ⟨hp.1, hp.2, fun k conv S hf hok => ⟨?_, ?_, ?_⟩⟩
    · unfold Overlap.setOverlapDense setHamDense at hok
      split_ifs at hok
      simp only [Except.ok.injEq] at hok
      subst hok
      intro a b
      exact (ham_star _ _ _ conv k a b).symm
    · rw [Overlap.setOverlapCsr, C13_dense_eq_csr _ hf]
      exact hok
    · intro a b oa ob ha hb C hC
      rw [ovlRun_eq, overlap_init_run] at *
      have hrun : ∀ xs ys, run H (run H (init H m.lat m.origin) xs) ys = run H (init H m.lat m.origin) (xs ++ ys) := by
        intro xs ys; simp [run]
      rw [hrun] at *
      refine C12_fourier_sum H m.lat m.origin _ ?_ hf k conv S hok a b oa ob ha hb C hC
      intro pre op post he
      have hmem : (Sum.inl op : Call ℝ ℂ Λ) ∈ (m.orbs.map fun o => (Sum.inl (Op.addOrbital [o.position 0, o.position 1, o.position 2] 1 o.label) : Call ℝ ℂ Λ)) ++
          cs.map OvlCall.toCall := by rw [he]; simp
      rcases List.mem_append.1 hmem with h | h
      · obtain ⟨q, -, hq⟩ := List.mem_map.1 h
        simp only [Sum.inl.injEq] at hq
        subst hq
        trivial
      · obtain ⟨c, -, hq⟩ := List.mem_map.1 h
        cases c <;> simp only [OvlCall.toCall, Sum.inl.injEq, reduceCtorEq] at hq <;> subst hq <;> trivial

/-- **C104 (calls).** `set_onsite` with an index in range sets this on-site overlap and nothing else; `add_offsite` sets the overlap
of orbital `i` in cell 0 and `j` in cell `R`, and with it the conjugate one, and nothing else.  A call with orbitals that do not
exist, or for the overlap of an orbital with itself, is refused and changes nothing. -/
theorem C104_calls (o : PrimCell ℝ ℂ Λ) (hl : o.locked = false) :
    (∀ (i : ℕ) (x : ℝ), i < o.numOrb → (Overlap.setOnsite o i x).2 = .ok () ∧ (Overlap.setOnsite o i x).1.hops = o.hops ∧
      ∀ j : ℕ, (Overlap.setOnsite o i x).1.orbs[j]? =
        (o.orbs[j]?).map fun q => if j = i then { q with energy := x } else q) ∧
    (∀ (R : Cell) (i j : ℤ) (x : ℂ), (0 ≤ i ∧ i < o.numOrb) → (0 ≤ j ∧ j < o.numOrb) → ¬ (R = 0 ∧ i = j) →
      (Overlap.addOffsite o [R.1, R.2.1, R.2.2] i j x).2 = .ok () ∧
      (Overlap.addOffsite o [R.1, R.2.1, R.2.2] i j x).1.orbs = o.orbs ∧
      ∀ R' i' j', (Overlap.addOffsite o [R.1, R.2.1, R.2.2] i j x).1.hops.get R' i' j' =
        if R' = R ∧ i' = i ∧ j' = j then some x else if R' = -R ∧ i' = j ∧ j' = i then some (star x) else o.hops.get R' i' j') ∧
    (∀ (R : Cell) (i j : ℤ) (x : ℂ), ¬ (0 ≤ i ∧ i < o.numOrb) ∨ ¬ (0 ≤ j ∧ j < o.numOrb) ∨ (R = 0 ∧ i = j) →
      (Overlap.addOffsite o [R.1, R.2.1, R.2.2] i j x).2 ≠ .ok () ∧ (Overlap.addOffsite o [R.1, R.2.1, R.2.2] i j x).1 = o) ∧
    ∀ (i : ℕ) (x : ℝ), o.numOrb ≤ i → Overlap.setOnsite o i x = (o, .error .pcOrbIndex) := by
  refine ⟨?_, ?_, ?_, ?_⟩
  · intro i x hi
    have hp : pyIndex o.numOrb i = some i := by
      rw [pyIndex, if_pos ⟨by omega, by omega⟩]
      simp
    simp only [Overlap.setOnsite, setOrbital, setOrbitalAt, hl, hp, Bool.false_eq_true, if_false]
    refine ⟨trivial, trivial, fun j => ?_⟩
    rw [List.getElem?_modify]
    cases o.orbs[j]? with
    | none => rfl
    | some q =>
      simp only [Option.map_some, Option.getD_none, Option.getD_some]
      by_cases h : j = i
      · subst h; simp
      · have h' : ¬ i = j := fun e => h e.symm
        simp [h, h']
  · intro R i j x h1 h2 h3
    obtain ⟨e1, e2, e3⟩ := C05_add_hopping o R i j x
    have hok := e1.2 ⟨hl, h1, h2, h3⟩
    refine ⟨hok, ?_, ?_⟩
    · unfold Overlap.addOffsite addHopping
      split_ifs
      · rfl
      · cases checkHopIndex o [R.1, R.2.1, R.2.2] i j <;> rfl
    · intro R' i' j'
      rw [Overlap.addOffsite, e2 hok, HopMap.add]
  · intro R i j x h
    obtain ⟨e1, e2, e3⟩ := C05_add_hopping o R i j x
    have : (Overlap.addOffsite o [R.1, R.2.1, R.2.2] i j x).2 ≠ .ok () := by
      intro hok
      obtain ⟨-, a1, a2, a3⟩ := e1.1 hok
      rcases h with h | h | h
      · exact h a1
      · exact h a2
      · exact a3 h
    exact ⟨this, e3 this⟩
  · intro i x hi
    have hp : pyIndex o.numOrb i = none := by
      rw [pyIndex, if_neg (by omega), if_neg (by omega)]
    simp [Overlap.setOnsite, setOrbital, setOrbitalAt, hl, hp]

/-! ## Calculations with overlaps -/

theorem syncArray_numOrb (H : HashFns ℝ ℂ Λ) (s : PrimCell ℝ ℂ Λ) : (syncArray H s).orbs = s.orbs := by
  have : (syncHop H (syncOrb H s false) false).orbs = (syncOrb H s false).orbs := by
    unfold syncHop; simp only; split_ifs <;> rfl
  rw [syncArray, this, (syncOrb_orbs H s false).1]

theorem hamInto_zero (s : PrimCell ℝ ℂ Λ) (k : Vec3 ℝ) (conv : ℤ) (h : IMat) :
    hamInto s k conv (fun _ _ => 0) = .ok h ↔ setHamDense s k conv = .ok h := by
  unfold hamInto setHamDense
  split_ifs
  · simp
  · simp
  · simp only [Except.ok.injEq]
    exact Iff.rfl
  · constructor <;> intro h <;> cases h

/-- What an eigensystem of the solver is. -/
theorem solver_eigen (H : HashFns ℝ ℂ Λ) (s o : PrimCell ℝ ℂ Λ) (zheev zhegv argsort) (hz : ZhegvOk s.numOrb zhegv)
    (k : Vec3 ℝ) (conv : ℤ) (q : (ℕ → ℝ) × (ℕ → ℕ → ℂ))
    (hq : eigen (cellSolver H s (some o) zheev zhegv argsort) k conv = .ok q) :
    ∃ hm sm, setHamDense (syncArray H s) k conv = .ok hm ∧ setHamDense (syncArray H o) k conv = .ok sm ∧
      GenEig s.numOrb hm sm q.1 q.2 := by
  simp only [eigen, cellSolver, Option.map_some] at hq
  cases h1 : hamInto (syncArray H s) k conv (fun _ _ => 0) with
  | error e => rw [h1] at hq; simp at hq
  | ok hm =>
    rw [h1] at hq
    simp only at hq
    cases h2 : hamInto (syncArray H o) k conv (fun _ _ => 0) with
    | error e => rw [h2] at hq; simp at hq
    | ok sm =>
      rw [h2] at hq
      simp only at hq
      cases h3 : zhegv hm sm with
      | none => rw [h3] at hq; simp at hq
      | some r =>
        rw [h3] at hq
        simp only [Except.ok.injEq] at hq
        subst hq
        rw [hamInto_zero] at h1 h2
        refine ⟨hm, sm, h1, h2, hz hm sm ?_ ?_ r.1 r.2 h3⟩
        all_goals
          intro i _ j _
        · unfold setHamDense at h1
          split_ifs at h1
          simp only [Except.ok.injEq] at h1
          rw [← h1, ham_star]
        · unfold setHamDense at h2
          split_ifs at h2
          simp only [Except.ok.injEq] at h2
          rw [← h2, ham_star]

/-- **C104 (bands).** Bands calculated with an overlap, on any process of any run, are in descending order and are exactly the
solutions of `det(E S(k) - H(k)) = 0` with their multiplicities, where `H(k)` is the matrix of the cell and `S(k)` that of the
overlap. -/
theorem C104_bands (H : HashFns ℝ ℂ Λ) (s o : PrimCell ℝ ℂ Λ) (zheev zhegv argsort) (hz : ZhegvOk s.numOrb zhegv)
    (ha : ArgsortOk s.numOrb argsort) (w : World) (buf : ℕ → Buf) (n : ℕ) (kpts : ℕ → Vec3 ℝ) (conv : ℤ)
    (orbs : Option (List ℕ)) (bd : ℕ → (ℕ → ℕ → ℝ) × (ℕ → ℕ → ℝ))
    (hok : calcBands (cellSolver H s (some o) zheev zhegv argsort) w buf n kpts conv orbs = .ok bd)
    (r : ℕ) (hr : r < w.size) (i : ℕ) (hi : i < n) :
    ∃ hm sm, setHamDense (syncArray H s) (kpts i) conv = .ok hm ∧
      Overlap.setOverlapDense (syncArray H o) (kpts i) conv = .ok sm ∧
      (toMatrix s.numOrb sm).det ≠ 0 ∧
      (∀ E : ℂ, (E • toMatrix s.numOrb sm - toMatrix s.numOrb hm).det =
        (toMatrix s.numOrb sm).det * ∏ b ∈ Finset.range s.numOrb, (E - (bd r).1 i b)) ∧
      ∀ a b, a ≤ b → b < s.numOrb → (bd r).1 i b ≤ (bd r).1 i a := by
  obtain ⟨q, hq, hp, hd⟩ := C44_bands_sorted (cellSolver H s (some o) zheev zhegv argsort) w buf n kpts conv orbs r hr
    (fun ev => (ha ev).1) (fun ev => (ha ev).2) bd hok i hi
  obtain ⟨hm, sm, h1, h2, h3⟩ := solver_eigen H s o zheev zhegv argsort hz _ _ q hq
  obtain ⟨p1, p2, -⟩ := pencil_det h3
  refine ⟨hm, sm, h1, h2, p1, fun E => ?_, hd⟩
  rw [p2 E]
  congr 1
  have : ∀ u : ℕ → ℝ, ∏ b ∈ Finset.range s.numOrb, (E - (u b : ℂ)) = (((List.range s.numOrb).map u).map fun x : ℝ => E - (x : ℂ)).prod := by
    intro u
    rw [List.map_map, Finset.prod_range, ← List.prod_ofFn, List.ofFn_eq_map, ← List.map_coe_finRange_eq_range, List.map_map]
    rfl
  rw [this, this]
  exact ((hp.map _).prod_eq).symm

theorem pencil_conj {n : ℕ} (U A B : Matrix (Fin n) (Fin n) ℂ) (hU : U ∈ Matrix.unitaryGroup (Fin n) ℂ) (z : ℂ) :
    (z • (Uᴴ * A * U) - Uᴴ * B * U).det = (z • A - B).det ∧ (Uᴴ * A * U).det = A.det := by
  have h2 : Uᴴ * U = 1 := Matrix.mem_unitaryGroup_iff'.1 hU
  have hd : Uᴴ.det * U.det = 1 := by rw [← det_mul, h2, det_one]
  constructor
  · have : z • (Uᴴ * A * U) - Uᴴ * B * U = Uᴴ * (z • A - B) * U := by
      rw [Matrix.mul_sub, Matrix.sub_mul, Matrix.mul_smul, Matrix.smul_mul]
    rw [this, det_mul, det_mul]
    linear_combination (z • A - B).det * hd
  · rw [det_mul, det_mul]
    linear_combination A.det * hd

theorem phaseMatrix_congr {n : ℕ} {pos pos' : ℤ → Vec3 ℝ} (h : ∀ i : Fin n, pos i = pos' i) (k : Vec3 ℝ) :
    phaseMatrix n pos k = phaseMatrix n pos' k := by
  unfold phaseMatrix
  congr 1
  funext j
  rw [h j]

/-- The pencil of matrices with the same positions, at equivalent k-points and in either convention. -/
theorem pencil_same {n : ℕ} {pos pos' : ℤ → Vec3 ℝ} (h : ∀ i : Fin n, pos i = pos' i) (eng eng' : List ℝ)
    (hops hops' : List (Cell × Pair × ℂ)) (k : Vec3 ℝ) (G : Fin 3 → ℤ) (conv : ℤ) (hc : conv = 1 ∨ conv = 2) (z : ℂ) :
    (z • toMatrix n (setHam pos' eng' hops' conv (fun x => k x + G x) IMat.zero) -
        toMatrix n (setHam pos eng hops conv (fun x => k x + G x) IMat.zero)).det =
      (z • toMatrix n (setHam pos' eng' hops' 2 k IMat.zero) - toMatrix n (setHam pos eng hops 2 k IMat.zero)).det ∧
    (toMatrix n (setHam pos' eng' hops' conv (fun x => k x + G x) IMat.zero)).det =
      (toMatrix n (setHam pos' eng' hops' 2 k IMat.zero)).det := by
  have h2 := fun p e hp => (C11_periodic p e hp k G n).1
  rcases hc with rfl | rfl
  · obtain ⟨hu, e1, -⟩ := C10_conventions_same_spectrum pos eng hops (fun x => k x + G x) n
    obtain ⟨-, e2, -⟩ := C10_conventions_same_spectrum pos' eng' hops' (fun x => k x + G x) n
    rw [e1, e2, ← phaseMatrix_congr h, h2, h2]
    exact pencil_conj _ _ _ hu z
  · rw [h2, h2]
    exact ⟨rfl, rfl⟩

/-- **C104 (what bands do not depend on).** For a cell and an overlap with the same orbital positions, the bands are the same in
both conventions, at k-points that differ by reciprocal lattice vectors, for any two eigensolvers that keep LAPACK's promise, and in
runs on different numbers of processes. -/
theorem C104_invariant (H : HashFns ℝ ℂ Λ) (s o : PrimCell ℝ ℂ Λ) (hs : ArraysFresh (syncArray H s)) (ho : ArraysFresh (syncArray H o))
    (hpos : o.orbs.map Orbital.position = s.orbs.map Orbital.position)
    (zheev zhegv argsort) (hz : ZhegvOk s.numOrb zhegv) (ha : ArgsortOk s.numOrb argsort)
    (zheev' zhegv' argsort') (hz' : ZhegvOk s.numOrb zhegv') (ha' : ArgsortOk s.numOrb argsort')
    (w w' : World) (buf buf' : ℕ → Buf) (n : ℕ) (kpts kpts' : ℕ → Vec3 ℝ) (conv conv' : ℤ)
    (orbs orbs' : Option (List ℕ)) (bd bd' : ℕ → (ℕ → ℕ → ℝ) × (ℕ → ℕ → ℝ))
    (hk : ∀ i < n, ∃ G : Fin 3 → ℤ, kpts' i = fun x => kpts i x + G x)
    (hok : calcBands (cellSolver H s (some o) zheev zhegv argsort) w buf n kpts conv orbs = .ok bd)
    (hok' : calcBands (cellSolver H s (some o) zheev' zhegv' argsort') w' buf' n kpts' conv' orbs' = .ok bd')
    (r r' : ℕ) (hr : r < w.size) (hr' : r' < w'.size) (i : ℕ) (hi : i < n) (b : ℕ) (hb : b < s.numOrb) :
    (bd' r').1 i b = (bd r).1 i b := by
  obtain ⟨hm, sm, h1, h2, h3, h4, h5⟩ := C104_bands H s o zheev zhegv argsort hz ha w buf n kpts conv orbs bd hok r hr i hi
  obtain ⟨hm', sm', h1', h2', h3', h4', h5'⟩ := C104_bands H s o zheev' zhegv' argsort' hz' ha' w' buf' n kpts' conv' orbs' bd' hok' r' hr' i hi
  obtain ⟨G, hG⟩ := hk i hi
  have hp : ∀ j : Fin s.numOrb, (syncArray H s).posAt j = (syncArray H o).posAt j := by
    intro j
    simp only [posAt, hs.pos, ho.pos, syncArray_numOrb, hpos]
  unfold Overlap.setOverlapDense at h2 h2'
  unfold setHamDense at h1 h2 h1' h2'
  split_ifs at h1 h2 h1' h2'
  simp only [Except.ok.injEq] at h1 h2 h1' h2'
  subst h1 h2 h1' h2'
  have k0 : kpts i = fun x => kpts i x + ((0 : Fin 3 → ℤ) x : ℝ) := by funext x; simp
  refine roots_unique h5' h5 (fun z => ?_) b hb
  have p1 := pencil_same hp (syncArray H s).arrEng (syncArray H o).arrEng (syncArray H s).hopRows (syncArray H o).hopRows
    (kpts i) 0 conv (by assumption) z
  have p2 := pencil_same hp (syncArray H s).arrEng (syncArray H o).arrEng (syncArray H s).hopRows (syncArray H o).hopRows
    (kpts i) G conv' (by assumption) z
  rw [← k0] at p1
  rw [← hG] at p2
  have e := (h4 z).symm.trans ((p1.1.trans p2.1.symm).trans (h4' z))
  rw [p1.2, p2.2] at e
  rw [p1.2] at h3
  exact (mul_left_cancel₀ h3 e).symm

/-- **C104 (no off-site overlaps).** A calculation with an overlap that has no off-site term is refused, so an overlap just created,
which stands for orthonormal orbitals, cannot be used. -/
theorem C104_empty_refused (H : HashFns ℝ ℂ Λ) (s : PrimCell ℝ ℂ Λ) (zheev zhegv argsort) (w : World) (buf : ℕ → Buf) (n : ℕ)
    (hn : 0 < n) (kpts : ℕ → Vec3 ℝ) (conv : ℤ) (orbs : Option (List ℕ)) :
    ∃ e, calcBands (cellSolver H s (some (Overlap.init H s)) zheev zhegv argsort) w buf n kpts conv orbs = .error e := by
  set D := cellSolver H s (some (Overlap.init H s)) zheev zhegv argsort with hD
  have he : ∀ k, ∃ e, eigen D k conv = .error e := by
    intro k
    simp only [eigen, hD, cellSolver, Option.map_some]
    cases h1 : hamInto (syncArray H s) k conv (fun _ _ => 0) with
    | error e => exact ⟨e, rfl⟩
    | ok hm =>
      have : ∃ e, hamInto (syncArray H (Overlap.init H s)) k conv (fun _ _ => 0) = .error e := by
        have e1 : (syncOrb H (Overlap.init H s) false).hops = (IntraHop.empty : IntraHop ℂ) := by
          unfold syncOrb; simp only; split_ifs <;> rfl
        have e2 : (syncArray H (Overlap.init H s)).hops = ((syncOrb H (Overlap.init H s) false).hops).purge := by
          rw [syncArray]
          generalize syncOrb H (Overlap.init H s) false = s1
          unfold syncHop; simp only; split_ifs <;> rfl
        have e3 : (syncArray H (Overlap.init H s)).hops.numHop = 0 := by rw [e2, e1]; rfl
        rw [hamInto, if_pos e3]
        split_ifs
        · exact ⟨_, rfl⟩
        · exact ⟨_, rfl⟩
        · exact ⟨_, rfl⟩
      obtain ⟨e, h2⟩ := this
      exact ⟨e, by simp only [h2]⟩
  have h := C44_bands D w buf n kpts conv orbs 0 w.pos
  obtain ⟨e, he0⟩ := he (kpts 0)
  have hs : ∃ e, bandsSpec D n kpts conv orbs = .error e := by
    unfold bandsSpec
    rw [eigens_eq, rowsOut_map]
    have : ∃ e, firstErr (fun i => eigen D (kpts i) conv) (List.range n) = some e := by
      unfold firstErr
      rw [← Option.isSome_iff_exists, List.findSome?_isSome_iff]
      exact ⟨0, List.mem_range.2 hn, by simp [he0]⟩
    obtain ⟨e, h⟩ := this
    exact ⟨e, by rw [h]; rfl⟩
  obtain ⟨e', hs⟩ := hs
  rw [hs] at h
  cases hc : calcBands D w buf n kpts conv orbs with
  | error e => exact ⟨e, rfl⟩
  | ok bd => rw [hc] at h; simp [Except.map] at h

theorem sum_list_swap {α : Type*} (n : ℕ) (f : α → ℕ → ℝ) (l : List α) :
    ∑ j ∈ Finset.range n, (l.map fun a => f a j).sum = (l.map fun a => ∑ j ∈ Finset.range n, f a j).sum := by
  induction l with
  | nil => simp
  | cons a l ih => simp only [List.map_cons, List.sum_cons, Finset.sum_add_distrib, ih]

/-- **C104 (projections).** The projections on a set of orbitals, summed over all bands of a k-point, give the diagonal elements of
the INVERSE of the overlap matrix, not the number of orbitals: `calc_bands` sums `|c|²` although the states are normalised by
`cᴴ S c = 1`. -/
theorem C104_projection (H : HashFns ℝ ℂ Λ) (s o : PrimCell ℝ ℂ Λ) (zheev zhegv argsort) (hz : ZhegvOk s.numOrb zhegv)
    (ha : ArgsortOk s.numOrb argsort) (w : World) (buf : ℕ → Buf) (n : ℕ) (kpts : ℕ → Vec3 ℝ) (conv : ℤ)
    (os : List (Fin s.numOrb)) (bd : ℕ → (ℕ → ℕ → ℝ) × (ℕ → ℕ → ℝ))
    (hok : calcBands (cellSolver H s (some o) zheev zhegv argsort) w buf n kpts conv (some (os.map Fin.val)) = .ok bd)
    (r : ℕ) (hr : r < w.size) (i : ℕ) (hi : i < n) :
    ∃ sm, Overlap.setOverlapDense (syncArray H o) (kpts i) conv = .ok sm ∧
      ((∑ b ∈ Finset.range s.numOrb, (bd r).2 i b : ℝ) : ℂ) = (os.map fun a => (toMatrix s.numOrb sm)⁻¹ a a).sum := by
  set D := cellSolver H s (some o) zheev zhegv argsort with hD
  have h := C44_bands D w buf n kpts conv (some (os.map Fin.val)) r hr
  rw [hok] at h
  unfold bandsSpec at h
  rw [eigens_eq, rowsOut_map] at h
  cases he : firstErr (fun i => eigen D (kpts i) conv) (List.range n) with
  | some e => rw [he] at h; simp [rowsOut, Except.map] at h
  | none =>
    rw [he] at h
    simp only [rowsOut, Except.map, Except.ok.injEq] at h
    have hq : eigen D (kpts i) conv = .ok (eigVal D (kpts i) conv) := by
      unfold firstErr at he
      rw [List.findSome?_eq_none_iff] at he
      have := he i (List.mem_range.2 hi)
      rcases diag_eigen D (kpts i) conv with ⟨e, h1, h2⟩ | ⟨b, h1, h2⟩
      · simp [h2] at this
      · exact h2
    obtain ⟨hm, sm, h1, h2, h3⟩ := solver_eigen H s o zheev zhegv argsort hz _ _ _ hq
    obtain ⟨-, -, p3⟩ := pencil_det h3
    set q := eigVal D (kpts i) conv with hqd
    refine ⟨sm, h2, ?_⟩
    have hperm : (argsort q.1).reverse.Perm (List.range s.numOrb) := (List.reverse_perm _).trans (ha q.1).1
    have hlen : (argsort q.1).reverse.length = s.numOrb := by rw [hperm.length_eq, List.length_range]
    have hrow : ∀ b, (bd r).2 i b = match (argsort q.1).reverse[b]? with
        | some j => ((os.map Fin.val).map fun o => ‖q.2 o j‖ ^ 2).sum
        | none => 0 := by
      intro b
      rw [h]
      simp only [List.getElem?_map, List.getElem?_range hi, Option.map_some, ← hqd]
      rfl
    have hsum : ∑ b ∈ Finset.range s.numOrb, (bd r).2 i b =
        ∑ j ∈ Finset.range s.numOrb, (os.map fun a : Fin s.numOrb => ‖q.2 a j‖ ^ 2).sum := by
      have e : ∀ u : ℕ → ℝ, ∑ j ∈ Finset.range s.numOrb, u j = ((List.range s.numOrb).map u).sum := by
        intro u
        rw [Finset.sum_range, ← List.sum_ofFn, List.ofFn_eq_map, ← List.map_coe_finRange_eq_range, List.map_map]
        rfl
      rw [e, e, ← (hperm.map fun j => (os.map fun a : Fin s.numOrb => ‖q.2 a j‖ ^ 2).sum).sum_eq]
      congr 1
      apply List.ext_getElem
      · rw [List.length_map, List.length_map, hlen, List.length_range]
      · intro b hb1 hb2
        simp only [List.getElem_map, List.getElem_range]
        rw [hrow, List.getElem?_eq_getElem (by simpa using hb2)]
        simp only [List.map_map]
        rfl
    rw [hsum, ← p3, sum_list_swap, ← Complex.ofRealHom_eq_coe, map_list_sum, List.map_map]
    congr 1
    apply List.map_congr_left
    intro a _
    rw [mul_apply, Function.comp_apply, map_sum, Finset.sum_range]
    refine Finset.sum_congr rfl fun j _ => ?_
    simp only [vecMatrix, conjTranspose_apply, of_apply, Complex.ofRealHom_eq_coe]
    rw [← Complex.normSq_eq_norm_sq, Complex.normSq_eq_conj_mul_self, mul_comm]
    rfl

/-! ## A pair of orbitals -/

/-- Hash by length. -/
def ovlHash : HashFns ℝ ℂ Unit := ⟨fun l => l.length, fun l => l.length⟩

/-- Two orbitals at `0` and `x` of the `a` axis with hopping `1`. -/
noncomputable def pairCell (x : ℝ) : PrimCell ℝ ℂ Unit :=
  run ovlHash (init ovlHash 1 0) [.inl (.addOrbital [0, 0, 0] 0 ()), .inl (.addOrbital [x, 0, 0] 0 ()), .inl (.addHopping [0, 0, 0] 0 1 1)]

/-- Their overlap `1/2`. -/
noncomputable def pairOvl (x : ℝ) : PrimCell ℝ ℂ Unit := ovlRun ovlHash (Overlap.init ovlHash (pairCell x)) [.offsite [0, 0, 0] 0 1 (1 / 2)]

theorem pair_ovl (x : ℝ) (c : ℂ) (k : Vec3 ℝ) (conv : ℤ) (hc : conv = 1 ∨ conv = 2) :
    setHamDense (syncArray ovlHash (ovlRun ovlHash (Overlap.init ovlHash (pairCell x)) [.offsite [0, 0, 0] 0 1 c])) k conv =
      .ok (setHam (fun i => [![0, 0, 0], ![x, 0, 0]].getD i.toNat 0) [1, 1] [((0, 0, 0), (0, 1), c)] conv k IMat.zero) := by
  have e0 : (Overlap.init ovlHash (pairCell x)) = { init ovlHash 1 0 with orbs := [⟨![0, 0, 0], 1, ()⟩, ⟨![x, 0, 0], 1, ()⟩] } := rfl
  have e1 : ovlRun ovlHash (Overlap.init ovlHash (pairCell x)) [.offsite [0, 0, 0] 0 1 c] =
      { init ovlHash 1 0 with orbs := [⟨![0, 0, 0], 1, ()⟩, ⟨![x, 0, 0], 1, ()⟩], hops := [((0, 0, 0), [((0, 1), c)])] } := by
    rw [e0]
    simp [ovlRun, Overlap.addOffsite, addHopping, checkHopIndex, checkLen, init, numOrb]
    rfl
  have e2 : syncArray ovlHash { init ovlHash 1 0 with orbs := [⟨![0, 0, 0], 1, ()⟩, ⟨![x, 0, 0], 1, ()⟩], hops := [((0, 0, 0), [((0, 1), c)])] } =
      ⟨false, 1, 0, [⟨![0, 0, 0], 1, ()⟩, ⟨![x, 0, 0], 1, ()⟩], [((0, 0, 0), [((0, 1), c)])], 2, 1, [![0, 0, 0], ![x, 0, 0]], [1, 1],
        [((0, 0, 0), (0, 1))], [c]⟩ := rfl
  rw [e1, e2, setHamDense, if_neg (not_not.2 hc)]
  rfl

theorem pair_ham (x : ℝ) (k : Vec3 ℝ) (conv : ℤ) (hc : conv = 1 ∨ conv = 2) :
    ∃ hm sm, setHamDense (syncArray ovlHash (pairCell x)) k conv = .ok hm ∧ setHamDense (syncArray ovlHash (pairOvl x)) k conv = .ok sm ∧
      hm 0 0 = 0 ∧ hm 1 1 = 0 ∧ hm 0 1 = eiPhase (2 * Real.pi * (if conv = 1 then k 0 * x else 0)) ∧
      sm 0 0 = 1 ∧ sm 1 1 = 1 ∧ sm 0 1 = 1 / 2 * eiPhase (2 * Real.pi * (if conv = 1 then k 0 * x else 0)) := by
  have e1 : setHamDense (syncArray ovlHash (pairCell x)) k conv =
      .ok (setHam (fun i => [![0, 0, 0], ![x, 0, 0]].getD i.toNat 0) [0, 0] [((0, 0, 0), (0, 1), 1)] conv k IMat.zero) := by
    rw [setHamDense, if_neg (not_not.2 hc)]
    rfl
  have e2 : setHamDense (syncArray ovlHash (pairOvl x)) k conv =
      .ok (setHam (fun i => [![0, 0, 0], ![x, 0, 0]].getD i.toNat 0) [1, 1] [((0, 0, 0), (0, 1), 1 / 2)] conv k IMat.zero) := pair_ovl x (1 / 2) k conv hc
  refine ⟨_, _, e1, e2, ?_, ?_, ?_, ?_, ?_, ?_⟩ <;>
  simp [setHam, setDiag, addHop, IMat.put, IMat.zero, hopPhase, kDotR]

/-- A calculation succeeds if every k-point does. -/
theorem bands_succeed (D : Diag) (w : World) (buf : ℕ → Buf) (n : ℕ) (kpts : ℕ → Vec3 ℝ) (conv : ℤ) (orbs : Option (List ℕ))
    (h : ∀ i < n, ∃ q, eigen D (kpts i) conv = .ok q) : ∃ bd, calcBands D w buf n kpts conv orbs = .ok bd := by
  have h1 := C44_bands D w buf n kpts conv orbs 0 w.pos
  have h2 : firstErr (fun i => eigen D (kpts i) conv) (List.range n) = none := by
    unfold firstErr
    rw [List.findSome?_eq_none_iff]
    intro i hi
    obtain ⟨q, hq⟩ := h i (List.mem_range.1 hi)
    simp [hq]
  cases hc : calcBands D w buf n kpts conv orbs with
  | ok bd => exact ⟨bd, rfl⟩
  | error e =>
    rw [hc] at h1
    unfold bandsSpec at h1
    rw [eigens_eq, rowsOut_map, h2] at h1
    simp [Except.map, rowsOut] at h1

/-- The calculation for a pair of orbitals, with the overlap made for a pair at another distance, succeeds. -/
theorem pair_eigen (x y : ℝ) (k : Vec3 ℝ) (conv : ℤ) (hc : conv = 1 ∨ conv = 2) (zheev argsort) :
    ∃ q, eigen (cellSolver ovlHash (pairCell y) (some (pairOvl x)) zheev (idealZhegv 2) argsort) k conv = .ok q := by
  obtain ⟨hm, -, h1, -⟩ := pair_ham y k conv hc
  obtain ⟨-, sm, -, h2, -, -, -, s00, s11, s01⟩ := pair_ham x k conv hc
  have hh : ∀ a b, hm a b = star (hm b a) := by
    have h1' := h1
    unfold setHamDense at h1'
    split_ifs at h1'
    simp only [Except.ok.injEq] at h1'
    intro a b
    rw [← h1', ham_star]
  have hs : ∀ a b, sm a b = star (sm b a) := by
    have h1' := h2
    unfold setHamDense at h1'
    split_ifs at h1'
    simp only [Except.ok.injEq] at h1'
    intro a b
    rw [← h1', ham_star]
  have hx : ∃ ev vec, GenEig 2 hm sm ev vec := by
    refine genEig_exists hm sm ?_ !![1, sm 0 1; 0, ((Real.sqrt 3 / 2 : ℝ) : ℂ)] ?_ ?_
    · ext a b
      simp only [conjTranspose_apply, toMatrix, of_apply]
      exact (hh a b).symm
    · have h3 : ((Real.sqrt 3 / 2 : ℝ) : ℂ) * ((Real.sqrt 3 / 2 : ℝ) : ℂ) = 3 / 4 := by
        rw [← Complex.ofReal_mul, div_mul_div_comm, Real.mul_self_sqrt (by norm_num)]
        push_cast; norm_num
      have h4 : star (sm 0 1) * sm 0 1 = 1 / 4 := by
        rw [s01, star_mul']
        have := eiPhase_mul_star (2 * Real.pi * (if conv = 1 then k 0 * x else 0))
        have e2 : star (1 / 2 : ℂ) = 1 / 2 := by simp
        rw [e2]
        linear_combination (1 / 4) * this
      ext a b
      fin_cases a <;> fin_cases b <;>
        simp only [toMatrix, of_apply, mul_apply, conjTranspose_apply, Fin.sum_univ_two, Fin.mk_zero, Fin.mk_one, Fin.zero_eta, Fin.isValue,
          cons_val', cons_val_zero, cons_val_one, cons_val_fin_one, Fin.val_zero, Fin.val_one, Nat.cast_zero, Nat.cast_one, star_one, star_zero, mul_zero,
          zero_mul, add_zero, one_mul, mul_one, s00, s11, h4]
      · rw [hs 1 0]
      · rw [Complex.star_def, Complex.conj_ofReal, h3]; norm_num
    · rw [det_fin_two_of]
      have : Real.sqrt 3 / 2 ≠ 0 := by positivity
      simp only [one_mul, mul_zero, sub_zero]
      exact_mod_cast this
  obtain ⟨r, hr⟩ := idealZhegv_some hx
  rw [← hamInto_zero] at h1 h2
  exact ⟨r, by simp only [eigen, cellSolver, Option.map_some, h1, h2, hr]⟩

/-- **C104 fails for projections.** For two orbitals with overlap `1/2` the projections on both orbitals, summed over the two bands,
give `8/3`, not `2`, in every calculation that succeeds, at every k-point; calculations do succeed. -/
theorem C104_projection_not_one (kpts : ℕ → Vec3 ℝ) (n : ℕ) (conv : ℤ) (hc : conv = 1 ∨ conv = 2) (w : World) (buf : ℕ → Buf) (zheev) :
    (∃ bd, calcBands (cellSolver ovlHash (pairCell (1 / 2)) (some (pairOvl (1 / 2))) zheev (idealZhegv 2) (idealArgsort 2)) w buf n kpts conv
      (some [0, 1]) = .ok bd) ∧
    ∀ zhegv argsort bd, ZhegvOk 2 zhegv → ArgsortOk 2 argsort →
      calcBands (cellSolver ovlHash (pairCell (1 / 2)) (some (pairOvl (1 / 2))) zheev zhegv argsort) w buf n kpts conv (some [0, 1]) = .ok bd →
      ∀ r < w.size, ∀ i < n, (bd r).2 i 0 + (bd r).2 i 1 = 8 / 3 := by
  refine ⟨bands_succeed _ _ _ _ _ _ _ fun i _ => pair_eigen _ _ _ _ hc _ _, ?_⟩
  intro zhegv argsort bd hz ha hok r hr i hi
  obtain ⟨sm, h1, h2⟩ := C104_projection ovlHash (pairCell (1 / 2)) (pairOvl (1 / 2)) zheev zhegv argsort hz ha w buf n kpts conv
    [⟨0, by decide⟩, ⟨1, by decide⟩] bd hok r hr i hi
  obtain ⟨-, sm', -, h3, -, -, -, s00, s11, s01⟩ := pair_ham (1 / 2) (kpts i) conv hc
  have : sm = sm' := by
    rw [Overlap.setOverlapDense, h3] at h1
    injection h1 with h1
    exact h1.symm
  subst this
  have hs : sm 1 0 = star (sm 0 1) := by
    unfold setHamDense at h3
    split_ifs at h3
    simp only [Except.ok.injEq] at h3
    rw [← h3, ham_star]
  have h4 : sm 0 1 * sm 1 0 = 1 / 4 := by
    rw [hs, s01, star_mul']
    have := eiPhase_mul_star (2 * Real.pi * (if conv = 1 then kpts i 0 * (1 / 2) else 0))
    have e2 : star (1 / 2 : ℂ) = 1 / 2 := by simp
    rw [e2]
    linear_combination (1 / 4) * this
  have h2' : (((bd r).2 i 0 + (bd r).2 i 1 : ℝ) : ℂ) = (toMatrix 2 sm)⁻¹ 0 0 + (toMatrix 2 sm)⁻¹ 1 1 := by
    have e : Finset.range (pairCell (1 / 2)).numOrb = Finset.range 2 := rfl
    rw [e, Finset.sum_range_succ, Finset.sum_range_one] at h2
    rw [h2]
    simp only [List.map_cons, List.map_nil, List.sum_cons, List.sum_nil, add_zero]
    rfl
  have hd : (toMatrix 2 sm).det = 3 / 4 := by
    rw [det_fin_two]
    simp only [toMatrix, of_apply, Fin.val_zero, Fin.val_one, Nat.cast_zero, Nat.cast_one]
    rw [s00, s11, h4]; norm_num
  rw [Matrix.inv_def, hd, adjugate_fin_two] at h2'
  simp only [toMatrix, of_apply, Matrix.smul_apply, cons_val', cons_val_zero, cons_val_one, cons_val_fin_one, Fin.val_zero, Fin.val_one, Nat.cast_zero,
    Nat.cast_one, s00, s11, smul_eq_mul, Ring.inverse_eq_inv'] at h2'
  have h5 : (((bd r).2 i 0 + (bd r).2 i 1 : ℝ) : ℂ) = ((8 / 3 : ℝ) : ℂ) := by
    rw [h2']; push_cast; norm_num
  exact_mod_cast h5

/-- **C104 fails if the model is changed after the overlap was made.** The overlap keeps the positions of the orbitals it was made
with: two orbitals at `0` and `1/2`, an overlap made for them, then the second orbital of the model moved to `1/4`.  The bands at `k = (1, 0, 0)` of any two
successful calculations in the two conventions differ; there are such calculations. -/
theorem C104_moved_orbital (w : World) (buf : ℕ → Buf) (zheev) :
    ∃ s, setOrbital (pairCell (1 / 2)) 1 (some [1 / 4, 0, 0]) none none = (s, .ok ()) ∧
    (∀ conv, conv = 1 ∨ conv = 2 → ∃ bd, calcBands (cellSolver ovlHash s (some (pairOvl (1 / 2))) zheev (idealZhegv 2) (idealArgsort 2)) w buf 1
      (fun _ => ![1, 0, 0]) conv none = .ok bd) ∧
    ∀ zhegv argsort bd bd', ZhegvOk 2 zhegv → ArgsortOk 2 argsort →
      calcBands (cellSolver ovlHash s (some (pairOvl (1 / 2))) zheev zhegv argsort) w buf 1 (fun _ => ![1, 0, 0]) 1 none = .ok bd →
      calcBands (cellSolver ovlHash s (some (pairOvl (1 / 2))) zheev zhegv argsort) w buf 1 (fun _ => ![1, 0, 0]) 2 none = .ok bd' →
      ∀ r < w.size, ∃ b < 2, (bd r).1 0 b ≠ (bd' r).1 0 b := by
  have hmv : setOrbital (pairCell (1 / 2)) 1 (some [1 / 4, 0, 0]) none none = (pairCell (1 / 4), .ok ()) := rfl
  refine ⟨pairCell (1 / 4), hmv, fun conv hc => bands_succeed _ _ _ _ _ _ _ fun i _ => pair_eigen _ _ _ _ hc _ _, ?_⟩
  intro zhegv argsort bd bd' hz ha hok hok' r hr
  have key : ∀ conv, conv = 1 ∨ conv = 2 → ∀ bd, calcBands (cellSolver ovlHash (pairCell (1 / 4)) (some (pairOvl (1 / 2))) zheev zhegv argsort) w buf 1
      (fun _ => ![1, 0, 0]) conv none = .ok bd → (3 / 4 : ℂ) * ((1 - (bd r).1 0 0) * (1 - (bd r).1 0 1)) = if conv = 1 then -1 / 4 else 3 / 4 := by
    intro conv hc bd hok
    obtain ⟨hm, sm, h1, h2, -, h4, -⟩ := C104_bands ovlHash (pairCell (1 / 4)) (pairOvl (1 / 2)) zheev zhegv argsort hz ha w buf 1 _ conv none bd hok r hr 0 (by omega)
    obtain ⟨hm', -, g1, -, m00, m11, m01, -⟩ := pair_ham (1 / 4) ![1, 0, 0] conv hc
    obtain ⟨-, sm', -, g2, -, -, -, s00, s11, s01⟩ := pair_ham (1 / 2) ![1, 0, 0] conv hc
    have e1 : hm = hm' := by rw [g1] at h1; injection h1 with h1; exact h1.symm
    have e2 : sm = sm' := by rw [Overlap.setOverlapDense, g2] at h2; injection h2 with h2; exact h2.symm
    subst e1 e2
    have hs : sm 1 0 = star (sm 0 1) := by
      unfold setHamDense at g2
      split_ifs at g2
      simp only [Except.ok.injEq] at g2
      rw [← g2, ham_star]
    have hh : hm 1 0 = star (hm 0 1) := by
      unfold setHamDense at g1
      split_ifs at g1
      simp only [Except.ok.injEq] at g1
      rw [← g1, ham_star]
    have h5 := h4 1
    have e : Finset.range (pairCell (1 / 4)).numOrb = Finset.range 2 := rfl
    rw [e, Finset.prod_range_succ, Finset.prod_range_one] at h5
    change ((1 : ℂ) • toMatrix 2 sm - toMatrix 2 hm).det = (toMatrix 2 sm).det * _ at h5
    rw [det_fin_two, det_fin_two] at h5
    simp only [one_smul, Matrix.sub_apply, toMatrix, of_apply, Fin.val_zero, Fin.val_one, Nat.cast_zero, Nat.cast_one, m00, m11, s00, s11, hs, hh] at h5
    rcases hc with rfl | rfl
    · simp only [if_true] at m01 s01 ⊢
      have p1 : hm 0 1 = Complex.I := by
        rw [m01, show 2 * Real.pi * (![(1 : ℝ), 0, 0] 0 * (1 / 4)) = Real.pi / 2 by simp; ring]
        simp [eiPhase]
      have p2 : sm 0 1 = -(1 / 2) := by
        rw [s01, show 2 * Real.pi * (![(1 : ℝ), 0, 0] 0 * (1 / 2)) = Real.pi by simp; ring]
        simp [eiPhase]
      rw [p1, p2] at h5
      simp only [star_neg, Complex.star_def, Complex.conj_I, map_div₀, map_one, map_ofNat] at h5
      linear_combination (-1) * h5 + Complex.I_sq
    · simp only [show ¬ ((2 : ℤ) = 1) by decide, if_false] at m01 s01 ⊢
      have p1 : hm 0 1 = 1 := by rw [m01]; simp [eiPhase]
      have p2 : sm 0 1 = 1 / 2 := by rw [s01]; simp [eiPhase]
      rw [p1, p2] at h5
      simp only [Complex.star_def, map_div₀, map_one, map_ofNat] at h5
      linear_combination (-1) * h5
  have k1 := key 1 (.inl rfl) bd hok
  have k2 := key 2 (.inr rfl) bd' hok'
  by_contra hno
  push Not at hno
  rw [hno 0 (by omega), hno 1 (by omega), k2] at k1
  norm_num at k1

/-- The hypotheses of `C104_invariant` hold for the pair with its overlap: in both conventions calculations succeed. -/
example : ArraysFresh (syncArray ovlHash (pairCell (1 / 2))) ∧ ArraysFresh (syncArray ovlHash (pairOvl (1 / 2))) ∧
    (pairOvl (1 / 2)).orbs.map Orbital.position = (pairCell (1 / 2)).orbs.map Orbital.position ∧
    ∀ conv, conv = 1 ∨ conv = 2 → ∃ bd, calcBands (cellSolver ovlHash (pairCell (1 / 2)) (some (pairOvl (1 / 2))) (fun _ => none) (idealZhegv 2)
      (idealArgsort 2)) World.one (fun _ => (none, none)) 5 (fun i => ![i / 4, 0, 0]) conv none = .ok bd :=
  ⟨⟨rfl, rfl, rfl, rfl⟩, ⟨rfl, rfl, rfl, rfl⟩, rfl, fun conv hc => bands_succeed _ _ _ _ _ _ _ fun i _ => pair_eigen _ _ _ _ hc _ _⟩

end Verif.Props

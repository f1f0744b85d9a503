import Verif.Proof.ParallelDiag
import Mathlib.Data.List.Pairwise
import Mathlib.Data.Int.Basic

/-! # Properties of runs on several processes: C44, C46 -/

namespace Verif.Props

open Verif

/-! ## C44: bands, states and DOS do not depend on the number of processes -/

/-- **C44 (states).** `calc_states` gives on every process of every run, with or without MPI and for any number of processes,
the eigensystems of the k-points in order, independent of what the solver was used for before; it fails if and only if
some k-point fails, with the exception of the first such k-point. -/
theorem C44_states (D : Diag) (w : World) (buf : ℕ → Buf) (n : ℕ) (kpts : ℕ → Vec3 ℝ) (conv : ℤ)
    (r : ℕ) (hr : r < w.size) :
    (calcStates D w buf n kpts conv true).map (fun f => f r) = statesSpec D n kpts conv :=
  states_spec D w buf n kpts conv r hr

/-- **C44 (states, not collected).** With `all_reduce=False` process `r` has the rows of its own range, zero elsewhere. -/
theorem C44_states_local (D : Diag) (w : World) (buf : ℕ → Buf) (n : ℕ) (kpts : ℕ → Vec3 ℝ) (conv : ℤ)
    (r : ℕ) (hr : r < w.size) :
    (calcStates D w buf n kpts conv false).map (fun f => f r) =
      (statesSpec D n kpts conv).map fun s =>
        (fun i => if (distRange w n r).1 ≤ i ∧ i < (distRange w n r).2 then s.1 i else 0,
         fun i => if (distRange w n r).1 ≤ i ∧ i < (distRange w n r).2 then s.2 i else 0) := by
  obtain ⟨st, h1, h2⟩ := states_local D w buf n kpts conv
  unfold calcStates statesSpec
  rw [h1, eigens_eq]
  simp only [rowsOut_map, Bool.false_eq_true, if_false]
  apply rowsOut_congr
  intro _
  have hmem : ∀ i, i ∈ rangeElems (distRange w n r) ↔ (distRange w n r).1 ≤ i ∧ i < (distRange w n r).2 := by
    intro i
    unfold rangeElems
    rw [List.mem_range'_1]
    omega
  have hn : ∀ i, i ∈ rangeElems (distRange w n r) → i < n := by
    intro i hi
    have : i ∈ ((List.range w.size).map fun r => rangeElems (distRange w n r)).flatten :=
      List.mem_flatten.2 ⟨_, List.mem_map.2 ⟨r, List.mem_range.2 hr, rfl⟩, hi⟩
    rw [dist_flat] at this
    exact List.mem_range.1 this
  rw [h2 r hr]
  congr 1 <;>
  · funext i
    by_cases hi : i ∈ rangeElems (distRange w n r)
    · rw [if_pos hi, if_pos ((hmem i).1 hi)]
      have := hn i hi
      simp [this]
    · rw [if_neg hi, if_neg (fun h => hi ((hmem i).2 h))]

/-- **C44 (bands).** The same for `calc_bands`: energies in the order of `argsort()[::-1]`, and projections in the same order. -/
theorem C44_bands (D : Diag) (w : World) (buf : ℕ → Buf) (n : ℕ) (kpts : ℕ → Vec3 ℝ) (conv : ℤ)
    (orbs : Option (List ℕ)) (r : ℕ) (hr : r < w.size) :
    (calcBands D w buf n kpts conv orbs).map (fun f => f r) = bandsSpec D n kpts conv orbs :=
  bands_spec D w buf n kpts conv orbs r hr

/-- **C44 (order of bands).** If `argsort` sorts, every row of the bands is a descending rearrangement of the eigenvalues. -/
theorem C44_bands_sorted (D : Diag) (w : World) (buf : ℕ → Buf) (n : ℕ) (kpts : ℕ → Vec3 ℝ) (conv : ℤ)
    (orbs : Option (List ℕ)) (r : ℕ) (hr : r < w.size)
    (hperm : ∀ ev, (D.argsort ev).Perm (List.range D.nb))
    (hsort : ∀ ev, ((D.argsort ev).map ev).Pairwise (· ≤ ·))
    (bd : ℕ → (ℕ → ℕ → ℝ) × (ℕ → ℕ → ℝ)) (hok : calcBands D w buf n kpts conv orbs = .ok bd) (i : ℕ) (hi : i < n) :
    ∃ q, eigen D (kpts i) conv = .ok q ∧
      ((List.range D.nb).map ((bd r).1 i)).Perm ((List.range D.nb).map q.1) ∧
      ∀ a b, a ≤ b → b < D.nb → (bd r).1 i b ≤ (bd r).1 i a := by
  have h := C44_bands D w buf n kpts conv orbs r hr
  rw [hok] at h
  unfold bandsSpec at h
  rw [eigens_eq, rowsOut_map] at h
  cases he : firstErr (fun i => eigen D (kpts i) conv) (List.range n) with
  | some e => rw [he] at h; simp [rowsOut, Except.map] at h
  | none =>
    rw [he] at h
    simp only [rowsOut, Except.map, Except.ok.injEq] at h
    have hq : eigen D (kpts i) conv = .ok (eigVal D (kpts i) conv) := by
      unfold firstErr at he
      rw [List.findSome?_eq_none_iff] at he
      have := he i (List.mem_range.2 hi)
      rcases diag_eigen D (kpts i) conv with ⟨e, h1, h2⟩ | ⟨b, h1, h2⟩
      · simp [h2] at this
      · exact h2
    set q := eigVal D (kpts i) conv with hqd
    have hlen : (D.argsort q.1).length = D.nb := by rw [(hperm q.1).length_eq, List.length_range]
    have hrow : ∀ b, b < D.nb → ∃ h : b < ((D.argsort q.1).reverse.map q.1).length,
        (bd r).1 i b = ((D.argsort q.1).reverse.map q.1)[b] := by
      intro b hb
      have hb' : b < (D.argsort q.1).reverse.length := by simpa [hlen] using hb
      refine ⟨by simpa using hb', ?_⟩
      rw [h]
      simp only [List.getElem?_map, List.getElem?_range hi, Option.map_some, ← hqd,
        List.getElem?_eq_getElem hb', List.getElem_map]
    refine ⟨q, hq, ?_, ?_⟩
    · have e : (List.range D.nb).map ((bd r).1 i) = (D.argsort q.1).reverse.map q.1 := by
        apply List.ext_getElem
        · simp [hlen]
        · intro b h1 h2
          simp only [List.getElem_map, List.getElem_range]
          obtain ⟨_, e⟩ := hrow b (by simpa using h1)
          rw [e, List.getElem_map]
      rw [e]
      exact ((List.reverse_perm _).trans (hperm q.1)).map _
    · intro a b hab hb
      obtain ⟨ha1, ea⟩ := hrow a (by omega)
      obtain ⟨hb1, eb⟩ := hrow b hb
      rw [ea, eb]
      have hp : ((D.argsort q.1).reverse.map q.1).Pairwise (· ≥ ·) := by
        rw [List.map_reverse, List.pairwise_reverse]
        exact hsort q.1
      rcases Nat.lt_or_ge a b with hlt | hge
      · exact List.pairwise_iff_getElem.1 hp a b ha1 hb1 hlt
      · have : a = b := by omega
        subst this; exact le_refl _

/-- **C44 (density of states).** The same for `calc_dos`: the energy grid and the normalised sum over all k-points and bands. -/
theorem C44_dos (D : Diag) (w : World) (buf : ℕ → Buf) (n : ℕ) (kpts : ℕ → Vec3 ℝ) (conv : ℤ)
    (orbs : Option (List ℕ)) (emin emax : Option ℝ) (step sigma : ℝ) (basis : ℝ → ℝ → ℝ → ℝ) (gs : ℝ)
    (r : ℕ) (hr : r < w.size) :
    (calcDos D w buf n kpts conv orbs emin emax step sigma basis gs).map (fun f => f r) =
      dosSpec D n kpts conv orbs emin emax step sigma basis gs :=
  dos_spec D w buf n kpts conv orbs emin emax step sigma basis gs r hr

/-- **C44 (any two runs).** Two runs with different numbers of processes agree process by process. -/
theorem C44_process_count (D : Diag) (w w' : World) (buf buf' : ℕ → Buf) (n : ℕ) (kpts : ℕ → Vec3 ℝ) (conv : ℤ)
    (orbs : Option (List ℕ)) (emin emax : Option ℝ) (step sigma : ℝ) (basis : ℝ → ℝ → ℝ → ℝ) (gs : ℝ)
    (r r' : ℕ) (hr : r < w.size) (hr' : r' < w'.size) :
    (calcStates D w buf n kpts conv true).map (fun f => f r) = (calcStates D w' buf' n kpts conv true).map (fun f => f r') ∧
    (calcBands D w buf n kpts conv orbs).map (fun f => f r) = (calcBands D w' buf' n kpts conv orbs).map (fun f => f r') ∧
    (calcDos D w buf n kpts conv orbs emin emax step sigma basis gs).map (fun f => f r) =
      (calcDos D w' buf' n kpts conv orbs emin emax step sigma basis gs).map (fun f => f r') :=
  ⟨(C44_states D w buf n kpts conv r hr).trans (C44_states D w' buf' n kpts conv r' hr').symm,
   (C44_bands D w buf n kpts conv orbs r hr).trans (C44_bands D w' buf' n kpts conv orbs r' hr').symm,
   (C44_dos D w buf n kpts conv orbs emin emax step sigma basis gs r hr).trans
    (C44_dos D w' buf' n kpts conv orbs emin emax step sigma basis gs r' hr').symm⟩

/-- A one-orbital model with energy `k_x`, set up by adding to the matrix it is given. -/
noncomputable def kxDiag : Diag where
  nb := 1
  setHam k _ h := .ok (fun a b => h a b + if a = 0 ∧ b = 0 then (k 0 : ℂ) else 0)
  zheev h := some (fun _ => (h 0 0).re, fun _ _ => 1)
  argsort _ := [0]

/-- Three processes, two k-points, dirty buffers: the last process has nothing to do and still gets all energies. -/
example (m : IMat) : ∃ f, calcStates kxDiag ⟨true, 3, by decide, by decide⟩ (fun _ => (some m, some m)) 2
    (fun i _ => (i : ℝ) + 5) 2 true = .ok f ∧ (f 2).1 0 0 = 5 ∧ (f 2).1 1 0 = 6 := by
  have h := C44_states kxDiag ⟨true, 3, by decide, by decide⟩ (fun _ => (some m, some m)) 2
    (fun i _ => (i : ℝ) + 5) 2 2 (by decide)
  have hs : eigens kxDiag 2 (fun i _ => (i : ℝ) + 5) 2 =
      .ok [(fun _ => 5, fun _ _ => 1), (fun _ => 6, fun _ _ => 1)] := by
    have : ∀ i : ℕ, eigen kxDiag (fun _ => (i : ℝ) + 5) 2 = .ok (fun _ => (i : ℝ) + 5, fun _ _ => 1) := by
      intro i
      unfold eigen kxDiag
      simp
    unfold eigens
    simp only [this]
    show Except.ok _ = _
    norm_num
  unfold statesSpec at h
  rw [hs] at h
  cases hc : calcStates kxDiag ⟨true, 3, by decide, by decide⟩ (fun _ => (some m, some m)) 2
    (fun i _ => (i : ℝ) + 5) 2 true with
  | error e => rw [hc] at h; simp [Except.map] at h
  | ok f =>
    rw [hc] at h
    simp only [Except.map, Except.ok.injEq] at h
    exact ⟨f, rfl, by rw [h]; rfl, by rw [h]; rfl⟩

/-! ## C46: random samples -/

theorem raiseSample_spec (size n : ℕ) (h : 0 < size) :
    size ∣ raiseSample size n ∧ n ≤ raiseSample size n ∧
      ∀ m, size ∣ m → n ≤ m → raiseSample size n ≤ m := by
  fun_induction raiseSample size n with
  | case1 n h0 =>
    have : n % size = 0 := h0.resolve_left (by omega)
    exact ⟨Nat.dvd_of_mod_eq_zero this, le_refl _, fun m _ hm => hm⟩
  | case2 n h0 ih =>
    push Not at h0
    obtain ⟨a, b, c⟩ := ih
    refine ⟨a, by omega, fun m hm hle => c m hm ?_⟩
    rcases Nat.lt_or_ge n m with h | h
    · exact h
    · have : m = n := by omega
      subst this
      exact absurd (Nat.mod_eq_zero_of_dvd hm) h0.2

/-- **C46 (number of samples).** The number of samples left in the configuration is the smallest multiple of the number of
processes which is at least the requested number, and every process gets an equal share of it. -/
theorem C46_samples (w : World) (n : ℕ) :
    (distSample w n).2 * w.size = (distSample w n).1 ∧ n ≤ (distSample w n).1 ∧
    ∀ m, w.size ∣ m → n ≤ m → (distSample w n).1 ≤ m := by
  unfold distSample
  split
  · obtain ⟨a, b, c⟩ := raiseSample_spec w.size n w.pos
    exact ⟨Nat.div_mul_cancel a, b, c⟩
  · rename_i h
    have : w.size = 1 := w.serial (by simpa using h)
    rw [this]
    exact ⟨by simp, le_refl _, fun m _ hm => hm⟩

example : distSample ⟨true, 4, by decide, by decide⟩ 10 = (12, 3) := by
  have := C46_samples ⟨true, 4, by decide, by decide⟩ 10
  simp only at this
  obtain ⟨a, b, c⟩ := this
  have c12 := c 12 (by decide) (by decide)
  rw [Prod.ext_iff]
  simp only
  omega

/-- **C46 (seeds).** With a non-zero seed all samples on all processes get different seeds. -/
theorem C46_seeds_distinct (seed : ℤ) (hs : seed ≠ 0) (m r r' i i' : ℕ)
    (hi : 1 ≤ i ∧ i ≤ m) (hi' : 1 ≤ i' ∧ i' ≤ m)
    (h : sampleSeed seed m r i = sampleSeed seed m r' i') : r = r' ∧ i = i' := by
  unfold sampleSeed at h
  have h1 := mul_left_cancel₀ hs h
  have h2 : i + r * m = i' + r' * m := by exact_mod_cast h1
  rcases lt_trichotomy r r' with hlt | heq | hlt
  · exfalso
    have : (r + 1) * m ≤ r' * m := Nat.mul_le_mul_right m hlt
    have e : (r + 1) * m = r * m + m := by ring
    omega
  · subst heq; exact ⟨rfl, by omega⟩
  · exfalso
    have : (r' + 1) * m ≤ r * m := Nat.mul_le_mul_right m hlt
    have e : (r' + 1) * m = r' * m + m := by ring
    omega

example : (sampleSeed 1337 3 0 3, sampleSeed 1337 3 1 1) = (4011, 5348) := by decide

/-- With seed zero all samples are the same. -/
theorem C46_seed_zero (m r r' i i' : ℕ) : sampleSeed 0 m r i = sampleSeed 0 m r' i' := by
  simp [sampleSeed]

variable {A : Type*} [AddCommGroup A] [Module ℂ A]

theorem sampleLoop_eq (f : ℤ → A) (seed : ℤ) (m r : ℕ) :
    sampleLoop f seed m r = (m : ℂ)⁻¹ • ((List.range m).map fun i : ℕ => f (seed * ((r * m + i + 1 : ℕ) : ℤ))).sum := by
  unfold sampleLoop
  rw [foldl_add_sum, zero_add, List.smul_sum, List.map_map, List.range'_eq_map_range, List.map_map]
  congr 1
  apply List.map_congr_left
  intro i _
  simp only [Function.comp, sampleSeed]
  congr 3
  push_cast
  ring

theorem sum_blocks (g : ℕ → A) (P m : ℕ) :
    ((List.range P).map fun r => ((List.range m).map fun i : ℕ => g (r * m + i)).sum).sum =
      ((List.range (P * m)).map g).sum := by
  induction P with
  | zero => simp
  | succ P ih =>
    rw [List.range_succ, List.map_append, List.sum_append, ih, Nat.succ_mul, List.range_add, List.map_append,
      List.sum_append, List.map_map]
    simp [Function.comp_def]

/-- **C46 (average).** On every process the averaged result is the mean of the contributions of the seeds `seed`, `2 seed`, …, `N seed`,
where `N` is the total number of samples: exactly what one process computes with `N` samples. -/
theorem C46_average (w : World) (f : ℤ → A) (seed : ℤ) (n r : ℕ) (hr : r < w.size) :
    corrRun w f seed n r =
      (((distSample w n).1 : ℕ) : ℂ)⁻¹ • ∑ j ∈ Finset.range (distSample w n).1, f (seed * (j + 1)) ∧
    corrRun w f seed n r = corrRun World.one f seed (distSample w n).1 0 := by
  have key : ∀ (w : World) (n r : ℕ), r < w.size → corrRun w f seed n r =
      (((distSample w n).1 : ℕ) : ℂ)⁻¹ • ∑ j ∈ Finset.range (distSample w n).1, f (seed * (j + 1)) := by
    intro w n r hr
    have hs := (C46_samples w n).1
    have e : mpiSum w.size (fun r => sampleLoop f seed (distSample w n).2 r) =
        ((distSample w n).2 : ℂ)⁻¹ • ∑ j ∈ Finset.range (distSample w n).1, f (seed * (j + 1)) := by
      unfold mpiSum
      have e1 : (fun r => sampleLoop f seed (distSample w n).2 r) = fun r => ((distSample w n).2 : ℂ)⁻¹ •
          ((List.range (distSample w n).2).map fun i : ℕ => (fun j : ℕ => f (seed * ((j + 1 : ℕ) : ℤ)))
            (r * (distSample w n).2 + i)).sum := by
        funext r
        rw [sampleLoop_eq]
      rw [e1]
      have e2 : ∀ (c : ℂ) (h : ℕ → A) (L : List ℕ), (L.map fun r => c • h r).sum = c • (L.map h).sum := by
        intro c h L
        rw [List.smul_sum, List.map_map]; rfl
      rw [e2, sum_blocks (fun j : ℕ => f (seed * ((j + 1 : ℕ) : ℤ))), Nat.mul_comm w.size, hs, list_sum_range]
      push_cast
      rfl
    unfold corrRun allAverage
    split
    · rw [e, smul_smul, ← hs]
      congr 1
      push_cast
      rw [mul_inv, mul_comm]
    · rename_i hm
      have hs1 : w.size = 1 := w.serial (by simpa using hm)
      have hr0 : r = 0 := by omega
      subst hr0
      have h2 : mpiSum w.size (fun r => sampleLoop f seed (distSample w n).2 r) =
          sampleLoop f seed (distSample w n).2 0 := by simp [mpiSum, hs1]
      rw [h2] at e
      show sampleLoop f seed (distSample w n).2 0 = _
      rw [e]
      congr 3
      rw [← hs, hs1, mul_one]
  refine ⟨key w n r hr, ?_⟩
  rw [key w n r hr, key World.one _ 0 (by decide)]
  rfl

end Verif.Props

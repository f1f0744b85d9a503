import Verif.Proof.Omp
import Verif.Props.Kernel
import Verif.Props.Fft

/-! # C137: parallel loops have no races -/

namespace Verif.Omp

open Verif.Tbpm

section

variable {L V T ι : Type*} [DecidableEq L] [DecidableEq T]

/-- C137: a parallel loop none of whose iterations writes what another one reads or writes: no execution goes on for ever, every execution
can be brought to its end, and the memory at the end is that of the loop done by a single thread in any order, whatever the number
of threads, the distribution of the iterations and the interleaving of the instructions. -/
theorem C137_loop [Fintype T] {R W : ι → Set L} {body : ι → Prog L V} {chunks : T → List ι} {its : List ι} (hc : Distributed chunks its)
    (hn : its.Nodup) (hw : ∀ i ∈ its, (body i).Within (R i) (W i)) (hr : RaceFree its R W) (m : L → V) :
    (∃ m', ParallelDo body chunks m m') ∧ (∀ m', ParallelDo body chunks m m' → ∀ its' : List ι, its'.Perm its → m' = serialDo body its' m) ∧
      ¬ ∃ s : ℕ → (T → Prog L V) × (L → V), ∀ k, Step (s k) (s (k + 1)) := by
  refine ⟨exec_end _, fun m' h its' hp => ?_, fun ⟨s, hs⟩ => ?_⟩
  · exact parallel_serial (hc.trans hp.symm) (hp.nodup_iff.2 hn) (fun i hi => hw i (hp.mem_iff.1 hi))
      (fun i hi j hj => hr i (hp.mem_iff.1 hi) j (hp.mem_iff.1 hj)) h
  · obtain ⟨_, ⟨k, rfl⟩, hk⟩ := step_wf.has_min (Set.range s) ⟨_, 0, rfl⟩
    exact hk _ ⟨k + 1, rfl⟩ (hs k)

/-- Loops whose iterations touch their own elements only. -/
theorem own_elements [Fintype T] {key : L → ι} {body : ι → Prog L V} {chunks : T → List ι} {its : List ι} (hc : Distributed chunks its)
    (hn : its.Nodup) (hw : ∀ i ∈ its, (body i).Within {l | key l = i} {l | key l = i}) {m m' : L → V} (h : ParallelDo body chunks m m') :
    (∀ i ∈ its, ∀ l, key l = i → m' l = (body i).run m l) ∧ ∀ l, key l ∉ its → m' l = m l := by
  obtain ⟨h1, h2⟩ := parallel_value (R := fun i => {l | key l = i}) (W := fun i => {l | key l = i}) hc hn hw (by
    intro i _ j _ hij
    rw [Set.disjoint_left]
    rintro l rfl (h | h) <;> exact hij h) h
  refine ⟨fun i hi l hl => h1 i hi l hl, fun l hl => h2 l ?_⟩
  rintro i hi rfl
  exact hl hi

end

/-! ## math.F90 -/

section Math

variable {V T B : Type*} [DecidableEq T] [Fintype T] [DecidableEq B] {n : ℕ} {chunks : T → List (Fin n)}
  (hc : Distributed chunks (List.finRange n))

include hc

/-- C137: the vector operations of the propagation: every element of the result is computed from the elements before the loop, also if arrays
are the same; no other array is changed. -/
theorem C137_vector (x y z w : B) {m m' : B × Fin n → V} :
    (∀ op, ParallelDo (unary op x w) chunks m m' → (∀ i, m' (w, i) = op (m (x, i))) ∧ ∀ b ≠ w, ∀ i, m' (b, i) = m (b, i)) ∧
    (∀ op, ParallelDo (binary op x y w) chunks m m' →
      (∀ i, m' (w, i) = op (m (x, i)) (m (y, i))) ∧ ∀ b ≠ w, ∀ i, m' (b, i) = m (b, i)) ∧
    (∀ op, ParallelDo (ternary op x y z w) chunks m m' →
      (∀ i, m' (w, i) = op (m (x, i)) (m (y, i)) (m (z, i))) ∧ ∀ b ≠ w, ∀ i, m' (b, i) = m (b, i)) := by
  refine ⟨fun op h => ?_, fun op h => ?_, fun op h => ?_⟩
  all_goals
    obtain ⟨h1, -⟩ := own_elements (key := Prod.snd) hc (List.nodup_finRange n)
      (fun i _ => by simp [unary, binary, ternary, Prog.Within]) h
    refine ⟨fun i => ?_, fun b hb i => ?_⟩
    · rw [h1 i (List.mem_finRange i) _ rfl]
      simp [unary, binary, ternary, Prog.run]
    · rw [h1 i (List.mem_finRange i) _ rfl]
      simp [unary, binary, ternary, Prog.run, hb]

end Math

/-! ## csr.F90 -/

section Csr

variable {T B : Type*} [DecidableEq T] [Fintype T] [DecidableEq B] {n : ℕ}

theorem loadAt_run (x : B) (k : ℕ) (c : ℂ → Prog (B × Fin n) ℂ) (mem : B → CVec n) :
    (loadAt x k c).run (flat mem) = (c (rd (mem x) k)).run (flat mem) := by
  unfold loadAt rd
  split_ifs <;> rfl

theorem flat_put (mem : B → CVec n) (p : B) (i : Fin n) (v : ℂ) : Function.update (flat mem) (p, i) v = flat (Mem.put mem p i v) := by
  funext ⟨b, j⟩
  unfold flat Mem.put
  by_cases hb : b = p
  · subst hb
    by_cases hj : j = i
    · subst hj; simp
    · simp [hj]
  · simp [hb]

theorem rowProg_run (a : ℂ) (m : FCsr) (pin pout : B) (i : Fin n) (mem : B → CVec n) :
    (rowProg a m pin pout i).run (flat mem) = flat ((m.rowRange i).foldl (fun mem j =>
      Mem.put mem pout i (a * m.values j * rd (mem pin) (m.indices j) + mem pout i)) mem) := by
  unfold rowProg
  rw [run_all, List.foldl_map]
  generalize m.rowRange i = l
  induction l generalizing mem with
  | nil => rfl
  | cons j l ih =>
    rw [List.foldl_cons, List.foldl_cons, ← ih]
    congr 1
    unfold entryProg
    rw [loadAt_run]
    exact flat_put mem pout i _

theorem serial_amxpy (a : ℂ) (m : FCsr) (pin pout : B) (ord : List (Fin n)) (mem : B → CVec n) :
    serialDo (rowProg a m pin pout) ord (flat mem) = flat (amxpy ord a m pin pout mem) := by
  unfold serialDo amxpy
  induction ord generalizing mem with
  | nil => rfl
  | cons i ord ih => rw [List.foldl_cons, List.foldl_cons, ← ih, rowProg_run]

theorem serial_amxpby (a b : ℂ) (m : FCsr) (pin pout : B) (ord : List (Fin n)) (mem : B → CVec n) :
    serialDo (rowProgB a m pin b pout) ord (flat mem) = flat (amxpby ord a m pin b pout mem) := by
  unfold serialDo amxpby
  induction ord generalizing mem with
  | nil => rfl
  | cons i ord ih =>
    rw [List.foldl_cons, List.foldl_cons, ← ih]
    congr 1
    change (rowProg a m pin pout i).run (Function.update (flat mem) (pout, i) (b * flat mem (pout, i))) = _
    rw [flat_put, rowProg_run]
    rfl

theorem row_within (a : ℂ) (m : FCsr) (pin pout : B) (i : Fin n) :
    (rowProg a m pin pout i).Within ({l | l.1 = pin} ∪ {(pout, i)}) {(pout, i)} := by
  refine within_all fun p hp => ?_
  obtain ⟨j, -, rfl⟩ := List.mem_map.1 hp
  unfold entryProg loadAt
  split_ifs <;> simp [Prog.Within]

theorem row_free {pin pout : B} (h : pin ≠ pout) (its : List (Fin n)) :
    RaceFree its (fun i => {l : B × Fin n | l.1 = pin} ∪ {(pout, i)}) (fun i => {(pout, i)}) := by
  intro i _ j _ hij
  rw [Set.disjoint_left]
  rintro l rfl h'
  simp [h.symm, hij] at h'

variable {chunks : T → List (Fin n)} (hc : Distributed chunks (List.finRange n))

include hc

/-- C137: the products with a sparse matrix (`amxpy`, `amxpby`; `csr_mv` and `amv` start with a new array of zeros) give
`a M x + y` and `a M x + b y` for every number of threads, distribution and interleaving, and change nothing else; input and output are
different arrays. -/
theorem C137_csr (a b : ℂ) (m : FCsr) (hm : m.Legal n) (pin pout : B) (hp : pin ≠ pout) (mem : B → CVec n) (mem' : B × Fin n → ℂ) :
    (ParallelDo (rowProg a m pin pout) chunks (flat mem) mem' → (∀ i, mem' (pout, i) = a * (m.toMatrix n).mulVec (mem pin) i + mem pout i) ∧
      ∀ p ≠ pout, ∀ i, mem' (p, i) = mem p i) ∧
    (ParallelDo (rowProgB a m pin b pout) chunks (flat mem) mem' →
      (∀ i, mem' (pout, i) = a * (m.toMatrix n).mulVec (mem pin) i + b * mem pout i) ∧ ∀ p ≠ pout, ∀ i, mem' (p, i) = mem p i) := by
  obtain ⟨h1, h2, h3⟩ := C69_update (List.finRange n) (List.Perm.refl _) a b m hm pin pout hp mem
  refine ⟨fun h => ?_, fun h => ?_⟩
  · rw [parallel_serial hc (List.nodup_finRange n) (fun i _ => row_within a m pin pout i) (row_free hp _) h, serial_amxpy]
    refine ⟨fun i => ?_, fun p hp i => ?_⟩
    · unfold flat; simp only; rw [h1]; rfl
    · unfold flat; simp only; rw [(h3 p hp).1]
  · have hw : ∀ i ∈ List.finRange n, (rowProgB a m pin b pout i).Within ({l | l.1 = pin} ∪ {(pout, i)}) {(pout, i)} :=
      fun i _ => ⟨Or.inr rfl, fun v => ⟨rfl, row_within a m pin pout i⟩⟩
    rw [parallel_serial hc (List.nodup_finRange n) hw (row_free hp _) h, serial_amxpby]
    refine ⟨fun i => ?_, fun p hp i => ?_⟩
    · unfold flat; simp only; rw [h2]; rfl
    · unfold flat; simp only; rw [(h3 p hp).2]

end Csr

/-! ## fft.F90 -/

section FFT

theorem strided_mod {n j ntmp i : ℕ} (hj : j < ntmp) (hi : i ∈ Fft.strided n j ntmp) : i % ntmp = j := by
  obtain ⟨q, -, rfl⟩ := List.mem_map.1 hi
  rw [Nat.add_mul_mod_self_right, Nat.mod_eq_of_lt hj]

theorem column_run (sgn : ℤ) (n ntmp ncur j : ℕ) (x : ℕ → ℂ) : (columnProg sgn n ntmp ncur j).run x = Fft.column sgn n ntmp ncur x j := by
  unfold columnProg Fft.column
  rw [run_all, List.foldl_map]
  rfl

theorem column_within (sgn : ℤ) (n ntmp ncur j : ℕ) (hj : j < ncur) (hn : 2 * ncur ≤ ntmp) :
    (columnProg sgn n ntmp ncur j).Within {l | l % ntmp = j ∨ l % ntmp = j + ncur} {l | l % ntmp = j ∨ l % ntmp = j + ncur} := by
  refine within_all fun p hp => ?_
  obtain ⟨i, hi, rfl⟩ := List.mem_map.1 hp
  have h1 := strided_mod (by omega) hi
  have h2 : (i + ncur) % ntmp = j + ncur := by
    rw [Nat.add_mod, h1, Nat.mod_eq_of_lt (a := ncur) (by omega), Nat.mod_eq_of_lt (by omega)]
  simp [butterflyProg, Prog.Within, h1, h2]

theorem column_free (ntmp ncur : ℕ) : RaceFree (List.range ncur) (fun j => {l | l % ntmp = j ∨ l % ntmp = j + ncur})
    (fun j => {l | l % ntmp = j ∨ l % ntmp = j + ncur}) := by
  intro i hi j hj hij
  rw [List.mem_range] at hi hj
  rw [Set.disjoint_left]
  intro l hl hl'
  simp only [Set.mem_setOf_eq, Set.mem_union, or_self] at hl hl'
  omega

theorem stages_parallel {sgn : ℤ} {n ncur : ℕ} {x y : ℕ → ℂ} (h : FftStages sgn n ncur x y) :
    y = Fft.stages List.range sgn n ncur x := by
  induction h with
  | last h => rw [Fft.stages, if_pos h]
  | @stage ncur k x x' y h chunks hc hx hy ih =>
    rw [Fft.stages, if_neg h, ih]
    congr 1
    rw [parallel_serial hc List.nodup_range (fun j hj => column_within sgn n ncur (ncur / 2) j (List.mem_range.1 hj) (by omega))
      (column_free _ _) hx]
    unfold serialDo
    congr 1
    funext x j
    exact column_run _ _ _ _ _ x

/-- C137: the Fourier transform in place is the discrete Fourier transform, for every number of threads in each of the stages, every
distribution and every interleaving. -/
theorem C137_fft (p : ℕ) (sgn : ℤ) (hs : Odd sgn) (x y : ℕ → ℂ) (h : FftStages sgn (2 ^ p) (2 ^ p) x y) :
    ∃ z, (Fft.permute (p + 1) (2 ^ p) y).map Prod.snd = some z ∧ ∀ k < 2 ^ p,
      z k = ∑ m ∈ Finset.range (2 ^ p), x m * Complex.exp (sgn * (2 * Real.pi * Complex.I) * k * m / (2 ^ p : ℕ)) := by
  rw [stages_parallel h]
  exact Fft.C63_dft List.range (fun k => List.Perm.refl _) p sgn hs x

end FFT

/-! ## tbpm.f90, kpm.f90, funcs.f90, lindhard.f90 -/

section Tbpm

variable {T : Type*} [DecidableEq T] [Fintype T]

theorem foldl_own {L V J : Type*} [DecidableEq L] (loc : J → L) (hloc : Function.Injective loc) (prog : J → Prog L V) (f : J → V → V)
    (hrun : ∀ j m, (prog j).run m = Function.update m (loc j) (f j (m (loc j)))) (js : List J) (hn : js.Nodup) (m : L → V) :
    (∀ j ∈ js, (Prog.all (js.map prog)).run m (loc j) = f j (m (loc j))) ∧ ∀ l, (∀ j ∈ js, l ≠ loc j) → (Prog.all (js.map prog)).run m l = m l := by
  rw [run_all, List.foldl_map]
  induction js generalizing m with
  | nil => simp
  | cons j js ih =>
    obtain ⟨hj, hn'⟩ := List.nodup_cons.1 hn
    obtain ⟨i1, i2⟩ := ih hn' (Function.update m (loc j) (f j (m (loc j))))
    rw [List.foldl_cons, hrun]
    refine ⟨fun k hk => ?_, fun l hl => ?_⟩
    · rcases List.mem_cons.1 hk with rfl | hk
      · rw [i2 _ (fun k' hk' e => hj (by rw [hloc e]; exact hk')), Function.update_self]
      · rw [i1 k hk, Function.update_of_ne (fun e => hj (by rw [← hloc e]; exact hk))]
    · rw [i2 l (fun k hk => hl k (by simp [hk])), Function.update_of_ne (hl j (by simp))]

/-- C137: the sums over time of the quasi-eigenstates: after the loop over the energies every one has the contributions of this time step,
for every number of threads, distribution and interleaving. -/
theorem C137_energies {n ne : ℕ} {chunks : T → List ℕ} (hc : Distributed chunks (List.range ne)) (P : ℕ → ℂ) (W : ℂ) (pos neg : CVec n)
    {m m' : ℕ × Fin n → ℂ} (h : ParallelDo (energyProg P W pos neg) chunks m m') :
    ∀ i j, m' (i, j) = if i < ne then m (i, j) + P i * pos j * W + star (P i) * neg j * W else m (i, j) := by
  have hw : ∀ i ∈ List.range ne, (energyProg P W pos neg i).Within {l : ℕ × Fin n | l.1 = i} {l | l.1 = i} := by
    intro i _
    refine within_all fun p hp => ?_
    obtain ⟨j, -, rfl⟩ := List.mem_map.1 hp
    simp [Prog.Within]
  obtain ⟨h1, h2⟩ := own_elements (key := Prod.fst) hc List.nodup_range hw h
  intro i j
  split_ifs with hi
  · rw [h1 i (List.mem_range.2 hi) _ rfl]
    exact (foldl_own (fun j : Fin n => (i, j)) (fun a b e => (Prod.mk.inj e).2) _
      (fun j a => a + P i * pos j * W + star (P i) * neg j * W) (fun j m => by simp [Prog.run]) (List.finRange n)
      (List.nodup_finRange n) m).1 j (List.mem_finRange j)
  · exact h2 _ (by simpa using hi)

/-- C137: the average of the Chebyshev moments: likewise. -/
theorem C137_moments {nk ns : ℕ} {chunks : T → List ℕ} (hc : Distributed chunks (List.range nk)) (g : ℕ → ℝ) (mu : ℕ → ℕ → ℂ)
    {m m' : ℕ × ℕ → ℂ} (h : ParallelDo (muProg g mu nk ns) chunks m m') :
    ∀ i j, m' (i, j) = if i < nk ∧ j < nk then m (i, j) + g i * g j * mu i j / ns else m (i, j) := by
  have hw : ∀ j ∈ List.range nk, (muProg g mu nk ns j).Within {l : ℕ × ℕ | l.2 = j} {l | l.2 = j} := by
    intro j _
    refine within_all fun p hp => ?_
    obtain ⟨i, -, rfl⟩ := List.mem_map.1 hp
    simp [Prog.Within]
  obtain ⟨h1, h2⟩ := own_elements (key := Prod.snd) hc List.nodup_range hw h
  intro i j
  by_cases hj : j < nk
  · rw [h1 j (List.mem_range.2 hj) _ rfl]
    obtain ⟨k1, k2⟩ := foldl_own (fun i : ℕ => (i, j)) (fun a b e => (Prod.mk.inj e).1) (fun i => Prog.load (i, j) fun a =>
      Prog.store (i, j) (a + g i * g j * mu i j / ns) .done) (fun i a => a + g i * g j * mu i j / ns) (fun i m => rfl) (List.range nk)
      List.nodup_range m
    by_cases hi : i < nk
    · rw [if_pos ⟨hi, hj⟩]
      exact k1 i (List.mem_range.2 hi)
    · rw [if_neg (by tauto)]
      exact k2 (i, j) (fun k hk e => hi (by rw [(Prod.mk.inj e).1]; exact List.mem_range.1 hk))
  · rw [if_neg (by tauto)]
    exact h2 _ (by simpa using hj)

/-- C137: loops which only write: if no element is written by two iterations, and none twice, then after the loop each of the elements has
the value given to it, and the others are unchanged. -/
theorem C137_write {L V ι : Type*} [DecidableEq L] {chunks : T → List ι} {its : List ι} (hc : Distributed chunks its) (hn : its.Nodup)
    (out : ι → List (L × V)) (hone : ∀ i ∈ its, ((out i).map Prod.fst).Nodup)
    (hown : ∀ i ∈ its, ∀ j ∈ its, ∀ a ∈ out i, ∀ b ∈ out j, a.1 = b.1 → i = j) {m m' : L → V} (h : ParallelDo (writeProg out) chunks m m') :
    (∀ i ∈ its, ∀ q ∈ out i, m' q.1 = q.2) ∧ ∀ l, (∀ i ∈ its, ∀ q ∈ out i, q.1 ≠ l) → m' l = m l := by
  obtain ⟨h1, h2⟩ := parallel_value (R := fun _ => ∅) (W := fun i => {l | ∃ q ∈ out i, q.1 = l}) hc hn (by
    intro i _
    refine within_all fun p hp => ?_
    obtain ⟨q, hq, rfl⟩ := List.mem_map.1 hp
    exact ⟨⟨q, hq, rfl⟩, trivial⟩) (by
    intro i hi j hj hij
    rw [Set.disjoint_left]
    rintro l ⟨a, ha, rfl⟩ (h | ⟨b, hb, e⟩)
    · exact h
    · exact hij (hown i hi j hj a ha b hb e.symm)) h
  refine ⟨fun i hi q hq => ?_, fun l hl => h2 l fun i hi ⟨q, hq, e⟩ => hl i hi q hq e⟩
  rw [h1 i hi q.1 ⟨q, hq, rfl⟩]
  have key : ∀ (l : List (L × V)) (m : L → V), (l.map Prod.fst).Nodup → ∀ q ∈ l,
      (Prog.all (l.map fun q => Prog.store q.1 q.2 .done)).run m q.1 = q.2 := by
    intro l m hl q hq
    rw [run_all, List.foldl_map]
    induction l generalizing m with
    | nil => simp at hq
    | cons a l ih =>
      rw [List.map_cons, List.nodup_cons] at hl
      rw [List.foldl_cons]
      rcases List.mem_cons.1 hq with rfl | hq
      · have := serial_other (R := fun _ => ∅) (W := fun a : L × V => {a.1}) (body := fun a : L × V => Prog.store a.1 a.2 .done) l
          (fun a _ => ⟨rfl, trivial⟩) (Function.update m q.1 q.2) q.1 (fun a ha e => hl.1 (by
            rw [Set.mem_singleton_iff.1 e]; exact List.mem_map_of_mem ha))
        rw [Function.update_self] at this
        exact this
      · exact ih _ hl.2 hq
  exact key (out i) m (hone i hi) q hq

end Tbpm

/-! ## Reductions -/

/-- C137: a loop with a reduction gives the sum over all iterations, for every number of threads, distribution and order in which the
threads come to the end. -/
theorem C137_reduction {V T ι : Type*} [AddCommMonoid V] [Fintype T] (terms : ι → List V) {chunks : T → List ι} {its : List ι}
    (hc : Distributed chunks its) {fin : List T} (hf : fin.Perm Finset.univ.toList) (s : V) :
    reduction terms chunks fin s = s + (its.map fun i => (terms i).sum).sum := by
  have h1 : ∀ (l : List V) (p : V), l.foldl (· + ·) p = p + l.sum := by
    intro l
    induction l with
    | nil => simp
    | cons a l ih => intro p; rw [List.foldl_cons, ih, List.sum_cons, add_assoc]
  have h2 : ∀ (l : List ι) (p : V), l.foldl (fun p i => (terms i).foldl (· + ·) p) p = p + (l.map fun i => (terms i).sum).sum := by
    intro l
    induction l with
    | nil => simp
    | cons a l ih => intro p; rw [List.foldl_cons, ih, h1, List.map_cons, List.sum_cons, add_assoc]
  have h3 : ∀ (l : List T) (p : V), l.foldl (fun s t => s + (chunks t).foldl (fun p i => (terms i).foldl (· + ·) p) 0) p =
      p + ((l.flatMap chunks).map fun i => (terms i).sum).sum := by
    intro l
    induction l with
    | nil => simp
    | cons a l ih => intro p; rw [List.foldl_cons, ih, h2, List.flatMap_cons, List.map_append, List.sum_append, zero_add, add_assoc]
  unfold reduction
  rw [h3, (((hf.flatMap_right chunks).trans hc).map _).sum_eq]

/-! ## What the `PRIVATE` clauses are for -/

/-- A thread can do all of its program while the others wait. -/
theorem finish {L V T : Type*} [DecidableEq L] [DecidableEq T] (t : T) : ∀ (q : Prog L V) (p : T → Prog L V) (m : L → V), p t = q →
    Relation.ReflTransGen Step (p, m) (Function.update p t .done, q.run m)
  | .done, p, m, h => by
    have : Function.update p t .done = p := by rw [← h, Function.update_eq_self]
    rw [this]
    exact .refl
  | .load l k, p, m, h => by
    have := finish t (k (m l)) (Function.update p t (k (m l))) m (by simp)
    rw [Function.update_idem] at this
    exact this.head (.load t h)
  | .store l v k, p, m, h => by
    have := finish t k (Function.update p t k) (Function.update m l v) (by simp)
    rw [Function.update_idem] at this
    exact this.head (.store t h)

/-- If the phase `P` in the loop over the energies were not private, the result would depend on the interleaving: two energies, two
threads, one orbital. -/
theorem C137_private_needed : ∃ (P : ℕ → ℂ) (W : ℂ) (pos neg : CVec 1) (chunks : Bool → List ℕ) (m m₁ m₂ : Option (ℕ × Fin 1) → ℂ),
    Distributed chunks (List.range 2) ∧ ParallelDo (energyShared P W pos neg) chunks m m₁ ∧
      ParallelDo (energyShared P W pos neg) chunks m m₂ ∧ m₁ (some (0, 0)) ≠ m₂ (some (0, 0)) := by
  let P : ℕ → ℂ := fun i => i
  let one : CVec 1 := fun _ => 1
  let body := energyShared P 1 one one
  let rest : ℕ → Prog (Option (ℕ × Fin 1)) ℂ := fun i => Prog.all ((List.finRange 1).map fun j =>
    .load (some (i, j)) fun a => .load none fun p => .store (some (i, j)) (a + p * one j * 1)
    (.load (some (i, j)) fun b => .load none fun p => .store (some (i, j)) (b + star p * one j * 1) .done))
  let chunks : Bool → List ℕ := fun b => if b then [1] else [0]
  let p0 : Bool → Prog (Option (ℕ × Fin 1)) ℂ := fun t => Prog.all ((chunks t).map body)
  have hd : ∀ p : Bool → Prog (Option (ℕ × Fin 1)) ℂ, Function.update (Function.update p false .done) true .done = fun _ => .done := by
    intro p
    funext b
    cases b <;> simp
  have e0 : p0 false = .store none (P 0) (rest 0) := rfl
  have e1 : p0 true = .store none (P 1) (rest 1) := rfl
  refine ⟨P, 1, one, one, chunks, fun _ => 0, (p0 true).run ((p0 false).run fun _ => 0),
    (rest 1).run ((rest 0).run (Function.update (Function.update (fun _ => 0) none (P 0)) none (P 1))), ?_, ?_, ?_, ?_⟩
  · have : (Finset.univ : Finset Bool).toList.Perm [true, false] := by
      refine (List.perm_ext_iff_of_nodup (Finset.nodup_toList _) (by simp)).2 fun b => ?_
      cases b <;> simp
    exact (this.flatMap_right chunks).trans (by decide)
  · exact (finish false (p0 false) p0 (fun _ => 0) rfl).trans (by
      have := finish true (p0 true) (Function.update p0 false .done) ((p0 false).run fun _ => 0) (by simp)
      rw [hd] at this
      exact this)
  · refine Relation.ReflTransGen.head (Step.store false e0) (Relation.ReflTransGen.head (Step.store true (by
      rw [Function.update_of_ne (by simp)]; exact e1)) ?_)
    refine (finish false (rest 0) _ _ (by simp)).trans ?_
    have := finish true (rest 1) (Function.update (Function.update (Function.update p0 false (rest 0)) true (rest 1)) false .done)
      ((rest 0).run (Function.update (Function.update (fun _ => 0) none (P 0)) none (P 1))) (by simp)
    rw [hd] at this
    exact this
  · rw [e0, e1]
    simp [rest, P, one, Prog.run, Prog.all, Prog.seq, List.finRange_succ]
    norm_num

/-! ### Concrete cases -/

/-- Three rows on two threads. -/
example : Distributed (T := Fin 2) (fun t => if t = 0 then [2, 0] else [1]) (List.finRange 3) := by
  have : (Finset.univ : Finset (Fin 2)).toList.Perm [0, 1] := by
    refine (List.perm_ext_iff_of_nodup (Finset.nodup_toList _) (by simp)).2 fun b => ?_
    fin_cases b <;> simp
  exact (this.flatMap_right _).trans (by decide)

/-- The rows of a product with a matrix on two threads: there is an execution, and all of them give the product. -/
example (mem : Bool → CVec 2) : ∃ mem', ParallelDo (T := Fin 2) (rowProg 1 dimer false true) (fun t => [t]) (flat mem) mem' ∧
    mem' (true, 0) = mem false 1 + mem true 0 := by
  obtain ⟨mem', h⟩ := exec_end (T := Fin 2) (fun t => Prog.all (([t] : List (Fin 2)).map (rowProg 1 dimer false true)), flat mem)
  refine ⟨mem', h, ?_⟩
  have hc : Distributed (T := Fin 2) (fun t => [t]) (List.finRange 2) := by
    have : (Finset.univ : Finset (Fin 2)).toList.Perm [0, 1] := by
      refine (List.perm_ext_iff_of_nodup (Finset.nodup_toList _) (by simp)).2 fun b => ?_
      fin_cases b <;> simp
    exact (this.flatMap_right _).trans (by decide)
  have := ((C137_csr hc 1 0 dimer dimer_legal false true (by simp) mem mem').1 h).1 0
  rw [this, dimer_matrix]
  simp [Matrix.mulVec, dotProduct, Fin.sum_univ_two]

/-- A transform of length four, with one thread. -/
example (x : ℕ → ℂ) : ∃ y, FftStages (-1) (2 ^ 2) (2 ^ 2) x y := by
  have hc : ∀ k, Distributed (T := Fin 1) (fun _ => List.range k) (List.range k) := fun k => by
    have : (Finset.univ : Finset (Fin 1)).toList = [0] := by simp
    unfold Distributed
    rw [this]
    simp
  obtain ⟨x1, h1⟩ := exec_end (T := Fin 1) (fun _ => Prog.all ((List.range (2 ^ 2 / 2)).map (columnProg (-1) (2 ^ 2) (2 ^ 2) (2 ^ 2 / 2))), x)
  obtain ⟨x2, h2⟩ := exec_end (T := Fin 1) (fun _ => Prog.all ((List.range (2 ^ 2 / 2 / 2)).map
    (columnProg (-1) (2 ^ 2) (2 ^ 2 / 2) (2 ^ 2 / 2 / 2))), x1)
  exact ⟨x2, .stage (by norm_num) _ (hc _) h1 (.stage (by norm_num) _ (hc _) h2 (.last (by norm_num)))⟩

end Verif.Omp

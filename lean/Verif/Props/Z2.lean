import Verif.Proof.Z2
import Verif.Proof.Z2Order
import Mathlib.Analysis.Real.Pi.Bounds

/-!
# C51–C53: Wilson loops, crossings and reordering of phases
-/

namespace Verif
open Verif.Z2

/-- The phases on every process are those of the eigenvalues of the Wilson loop matrix
`⟨u(a₀)|u(a₁)⟩⟨u(a₁)|u(a₂)⟩ ⋯ ⟨u(aₙ)|u(a₀)⟩` of the occupied states, for every number of processes and whatever the buffers hold. -/
theorem C51_loop (D : Diag) (nocc : ℕ) (geev : Matrix (Fin nocc) (Fin nocc) ℂ → List ℂ) (w : World)
    (buf : ℕ → Buf) (ka : List ℝ) (n : ℕ) (kb : ℕ → ℝ) (kc : ℝ) (hne : ka ≠ [])
    (h : ∀ i < n, ∀ a ∈ ka, ∃ q, eigen D ![a, kb i, kc] 1 = .ok q) (r : ℕ) (hr : r < w.size) :
    (calcPhases D nocc geev w buf ka n kb kc).map (fun f => f r) =
      .ok fun i j => if i < n then (phaseRow geev (loopMat (ka.map fun a => occ D nocc ![a, kb i, kc]))).getD j 0 else 0 := by
  rw [calcPhases_ok D nocc geev w buf ka n kb kc hne h r hr]
  congr 1
  funext i j
  split <;> simp

/-- The result, or the exception, is that of a single process with fresh buffers. -/
theorem C51_processes (D : Diag) (nocc : ℕ) (geev : Matrix (Fin nocc) (Fin nocc) ℂ → List ℂ) (w w' : World)
    (buf buf' : ℕ → Buf) (ka : List ℝ) (n : ℕ) (kb : ℕ → ℝ) (kc : ℝ) (r r' : ℕ) (hr : r < w.size) (hr' : r' < w'.size) :
    (calcPhases D nocc geev w buf ka n kb kc).map (fun f => f r) =
      (calcPhases D nocc geev w' buf' ka n kb kc).map (fun f => f r') := by
  rw [calcPhases_eq D nocc geev w buf ka n kb kc r hr, calcPhases_eq D nocc geev w' buf' ka n kb kc r' hr']

/-- An arbitrary unitary mixing of the occupied states at every k-point of the loop does not change the characteristic
polynomial of the Wilson loop matrix. -/
theorem C51_unitary {nb m : ℕ} (vs : List (Matrix (Fin nb) (Fin m) ℂ)) (U : ℕ → Matrix (Fin m) (Fin m) ℂ)
    (hU : ∀ i, (U i).conjTranspose * U i = 1) :
    (loopMat (vs.mapIdx fun i v => v * U i)).charpoly = (loopMat vs).charpoly := by
  apply loop_gauge
  rw [List.forall₂_iff_get]
  refine ⟨by simp, fun i h1 h2 => ⟨U i, hU i, by simp⟩⟩

/-- Two eigensolvers that return different orthonormal eigenvectors (in any order, with any mixing of degenerate states), two
sorting routines that break ties differently and two general eigensolvers give the same phases if the occupied states are
separated by a gap. -/
theorem C51_gauge (D : Diag) (zheev' : IMat → Option ((ℕ → ℝ) × (ℕ → ℕ → ℂ))) (argsort' : (ℕ → ℝ) → List ℕ) (nocc : ℕ)
    (geev geev' : Matrix (Fin nocc) (Fin nocc) ℂ → List ℂ) (hg : GeevOk geev) (hg' : GeevOk geev') (w w' : World)
    (buf buf' : ℕ → Buf) (ka : List ℝ) (n : ℕ) (kb : ℕ → ℝ) (kc : ℝ) (hne : ka ≠ [])
    (hs : Sorts D) (hs' : Sorts { D with zheev := zheev', argsort := argsort' })
    (hk : ∀ i < n, ∀ a ∈ ka, SolvedAt D ![a, kb i, kc])
    (hk' : ∀ i < n, ∀ a ∈ ka, SolvedAt { D with zheev := zheev', argsort := argsort' } ![a, kb i, kc])
    (hgap : ∀ i < n, ∀ a ∈ ka, GapAt D nocc ![a, kb i, kc]) (r r' : ℕ) (hr : r < w.size) (hr' : r' < w'.size) :
    (calcPhases { D with zheev := zheev', argsort := argsort' } nocc geev' w' buf' ka n kb kc).map (fun f => f r') =
      (calcPhases D nocc geev w buf ka n kb kc).map (fun f => f r) := by
  have he : ∀ D : Diag, ∀ k, SolvedAt D k → ∃ q, eigen D k 1 = .ok q := by
    rintro D k ⟨h0, h, ev, vec, h1, h2, _⟩
    exact ⟨(ev, vec), by simp only [eigen, h0, h1, h2]⟩
  rw [C51_loop _ nocc geev' w' buf' ka n kb kc hne (fun i hi a ha => he _ _ (hk' i hi a ha)) r' hr',
    C51_loop D nocc geev w buf ka n kb kc hne (fun i hi a ha => he _ _ (hk i hi a ha)) r hr]
  congr 1
  funext i j
  split
  · rename_i hi
    rw [phaseRow_congr geev geev' hg hg' (loopMat (ka.map fun a => occ D nocc ![a, kb i, kc]))]
    apply loop_gauge
    rw [List.forall₂_map_left_iff, List.forall₂_map_right_iff, List.forall₂_same]
    exact fun a ha => occ_gauged D zheev' argsort' hs hs' _ (hk i hi a ha) (hk' i hi a ha) nocc (hgap i hi a ha)
  · rfl

/-- The rows are sorted. -/
theorem C51_sorted {n : ℕ} (geev : Matrix (Fin n) (Fin n) ℂ → List ℂ) (d : Matrix (Fin n) (Fin n) ℂ) :
    (phaseRow geev d).Pairwise (· ≤ ·) ∧ (phaseRow geev d).Perm ((geev d).map evalPhase) := by
  constructor
  · have := List.pairwise_mergeSort (le := fun a b : ℝ => decide (a ≤ b)) (by
      intro a b c; simp only [decide_eq_true_eq]; exact le_trans) (by
      intro a b; simpa using le_total a b) ((dEigenvalues geev d).map evalPhase)
    simp only [decide_eq_true_eq] at this
    exact this
  · exact (List.mergeSort_perm _ _).trans ((List.mergeSort_perm _ _).map _)

/-- Every phase lies in (-π, π]; the zero eigenvalue has phase 0 and any other `z` with `|z| ≥ 1e-14` satisfies
`z = |z| exp(i phase)`. -/
theorem C51_phase (z : ℂ) : evalPhase z ∈ Set.Ioc (-Real.pi) Real.pi ∧ evalPhase 0 = 0 ∧
    (1.0e-14 ≤ ‖z‖ → z = ‖z‖ * Complex.exp (Complex.I * evalPhase z)) := by
  refine ⟨?_, by simp [evalPhase], fun h => ?_⟩
  · unfold evalPhase
    split
    · exact ⟨by linarith [Real.pi_pos], Real.pi_pos.le⟩
    · exact Complex.arg_mem_Ioc z
  · rw [evalPhase, if_neg (not_lt.2 h), mul_comm Complex.I, Complex.norm_mul_exp_arg_mul_I]

/-! ### A two-band loop with one occupied band -/

/-- Hamiltonian `diag(1, -1)` at every k-point. -/
def twoHam : IMat := fun i j => if i = j then (if i = 0 then 1 else if i = 1 then -1 else 0) else 0

/-- Eigenvalues 1, -1; the vectors carry the phases `p` and `q`. -/
noncomputable def twoDiag (p q : ℂ) : Diag where
  nb := 2
  setHam := fun _ _ _ => .ok twoHam
  zheev := fun _ => some (fun i => if i = 0 then 1 else -1, fun o i => if o = i then (if i = 0 then p else q) else 0)
  argsort := fun ev => if ev 0 ≤ ev 1 then [0, 1] else [1, 0]

theorem twoDiag_sorts (p q : ℂ) : Sorts (twoDiag p q) := by
  intro ev
  simp only [twoDiag]
  split
  · rename_i h
    exact ⟨List.Perm.refl _, by simp [h]⟩
  · rename_i h
    exact ⟨List.Perm.swap _ _ _, by simp; linarith⟩

theorem twoDiag_solved (p q : ℂ) (hp : star p * p = 1) (hq : star q * q = 1) (k : Vec3 ℝ) : SolvedAt (twoDiag p q) k := by
  refine ⟨rfl, twoHam, _, _, rfl, rfl, ?_, ?_⟩
  · intro i hi j hj
    simp only [twoDiag] at hi hj
    interval_cases i <;> interval_cases j <;> simp [twoDiag, Finset.sum_range_succ] <;> first | exact hp | exact hq
  · intro i hi o ho
    simp only [twoDiag] at hi ho
    interval_cases i <;> interval_cases o <;> simp [twoDiag, twoHam, Finset.sum_range_succ]

theorem twoDiag_gap (p q : ℂ) (k : Vec3 ℝ) : GapAt (twoDiag p q) 1 k := by
  refine ⟨_, _, rfl, 0, ?_, ?_⟩
  · simp only [twoDiag]
    rw [show (Finset.range 2).filter (fun i => (if i = 0 then (1 : ℝ) else -1) < 0) = {1} from by
      ext i
      simp only [Finset.mem_filter, Finset.mem_range, Finset.mem_singleton]
      constructor
      · rintro ⟨h1, h2⟩
        split at h2
        · linarith
        · omega
      · rintro rfl
        simp]
    rfl
  · intro i _
    simp only
    split <;> norm_num

/-- The eigenvalue of a 1×1 matrix. -/
def geevOne (m : Matrix (Fin 1) (Fin 1) ℂ) : List ℂ := [m 0 0]

theorem geevOne_ok : GeevOk geevOne := by
  intro d
  rw [geevOne, Matrix.charpoly, Matrix.det_fin_one, Matrix.charmatrix_apply]
  simp

/-- The hypotheses of `C51_gauge` hold for eigenvectors that differ by the phases `i` and `-1`, on one and on two processes, with a
buffer left over from earlier calculations. -/
example : (calcPhases (twoDiag Complex.I (-1)) 1 geevOne ⟨true, 2, by norm_num, by simp⟩ (fun _ => (some fun _ _ => 7, none)) [-1/2, 0, 1/2] 3 (fun i => i) 0).map
      (fun f => f 1) =
    (calcPhases (twoDiag 1 1) 1 geevOne World.one (fun _ => (none, none)) [-1/2, 0, 1/2] 3 (fun i => i) 0).map (fun f => f 0) :=
  C51_gauge (twoDiag 1 1) (twoDiag Complex.I (-1)).zheev (twoDiag Complex.I (-1)).argsort 1 geevOne geevOne geevOne_ok geevOne_ok _ _ _ _
    _ _ _ _ (by simp) (twoDiag_sorts 1 1) (twoDiag_sorts Complex.I (-1))
    (fun _ _ _ _ => twoDiag_solved 1 1 (by simp) (by simp) _)
    (fun _ _ _ _ => twoDiag_solved Complex.I (-1) (by simp) (by simp) _)
    (fun _ _ _ _ => twoDiag_gap 1 1 _) 0 1 Nat.one_pos (by norm_num)

/-! ### C52 -/

/-- If no phase equals the reference, the crossings counted for a single band are odd in number exactly if the first and the last
phase lie on opposite sides of the reference.  Missing: phases that equal the reference, where the statement fails. -/
theorem C52_parity_partial (nk : ℕ) (ph : ℕ → ℝ) (ref : ℝ) (h : ∀ ik < nk, ph ik ≠ ref) (hnk : 0 < nk) :
    Odd (countCrossing nk 1 (fun ik _ => ph ik) ref) ↔ (ph 0 < ref ∧ ref < ph (nk - 1)) ∨ (ref < ph 0 ∧ ph (nk - 1) < ref) := by
  rw [countCrossing_sum, Finset.sum_range_one, signs_parity (fun ik => ph ik - ref) (nk - 1) (fun i hi => sub_ne_zero.2 (h i (by omega)))]
  rw [mul_neg_iff]
  constructor
  · rintro (⟨a, b⟩ | ⟨a, b⟩)
    · exact .inr ⟨by linarith, by linarith⟩
    · exact .inl ⟨by linarith, by linarith⟩
  · rintro (⟨a, b⟩ | ⟨a, b⟩)
    · exact .inr ⟨by linarith, by linarith⟩
    · exact .inl ⟨by linarith, by linarith⟩

/-- The number of crossings of all bands is the sum of those of the single bands. -/
theorem C52_bands (nk nocc : ℕ) (ph : ℕ → ℕ → ℝ) (ref : ℝ) :
    countCrossing nk nocc ph ref = ∑ ib ∈ Finset.range nocc, countCrossing nk 1 (fun ik _ => ph ik ib) ref := by
  simp only [countCrossing_sum, Finset.sum_range_one]

/-- The parity of the total: it is odd exactly if an odd number of bands end on the other side. -/
theorem C52_total_partial (nk nocc : ℕ) (ph : ℕ → ℕ → ℝ) (ref : ℝ) (h : ∀ ik < nk, ∀ ib < nocc, ph ik ib ≠ ref) (hnk : 0 < nk) :
    Odd (countCrossing nk nocc ph ref) ↔
      Odd ((Finset.range nocc).filter fun ib => (ph 0 ib - ref) * (ph (nk - 1) ib - ref) < 0).card := by
  rw [countCrossing_sum, Finset.card_filter]
  induction nocc with
  | zero => simp
  | succ n ih =>
    rw [Finset.sum_range_succ, Finset.sum_range_succ, Nat.odd_add, Nat.odd_add, ih fun ik hik ib hib => h ik hik ib (by omega),
      ← Nat.not_odd_iff_even, ← Nat.not_odd_iff_even,
      signs_parity (fun ik => ph ik n - ref) (nk - 1) (fun i hi => sub_ne_zero.2 (h i (by omega) n (by omega)))]
    split <;> rename_i hc <;> simp [hc]

/-- A band that passes through the reference at a grid point is missed: the phases -1, 0, 1 cross the reference 0 without any
crossing being counted. -/
theorem C52_on_reference : ¬ ∀ (nk : ℕ) (ph : ℕ → ℝ) (ref : ℝ), 0 < nk →
    (Odd (countCrossing nk 1 (fun ik _ => ph ik) ref) ↔
      (ph 0 < ref ∧ ref < ph (nk - 1)) ∨ (ref < ph 0 ∧ ph (nk - 1) < ref)) := by
  intro h
  have := (h 3 (fun i => (i : ℝ) - 1) 0 (by norm_num)).2 (by left; constructor <;> norm_num)
  rw [countCrossing_sum] at this
  norm_num [Finset.sum_range_succ, -Finset.sum_boole] at this

/-- A band with three crossings. -/
example : Odd (countCrossing 4 1 (fun ik _ => (-1 : ℝ) ^ ik) 0) :=
  (C52_parity_partial 4 (fun ik => (-1 : ℝ) ^ ik) 0 (fun _ _ => by simp) (by norm_num)).2 (by right; norm_num)

/-! ### C53 -/

/-- Every phase of the result is one of the given phases of the same row, up to a multiple of 2π; the first row is unchanged.
Missing: that no phase is used twice, which is false (`C53_duplicates`). -/
theorem C53_values_partial (nk nocc : ℕ) (ph : ℕ → ℕ → ℝ) (th : ℝ) (smooth : Bool) :
    (∀ ik, ∀ j < nocc, ∃ j' < nocc, ∃ z : ℤ, reorderPhases nk nocc ph th smooth ik j = ph ik j' + z * (2 * Real.pi)) ∧
    reorderPhases nk nocc ph th smooth 0 = ph 0 := by
  refine ⟨fun ik j hj => reorder_inRow nk nocc ph th smooth ik j hj, ?_⟩
  have h1 := fold_untouched 1 _ (fixRow_other th nocc) (nk - 1) ph 0 (by omega)
  unfold reorderPhases
  cases smooth with
  | false => exact h1
  | true =>
    simp only [if_true]
    rw [fold_untouched 2 _ (smoothRow_other th nocc) (nk - 2) _ 0 (by omega), h1]

/-- Without smoothing an entry is changed only where it jumps by more than the threshold, and the new entry is within the threshold
of the entry before it. -/
theorem C53_continuity (nk nocc : ℕ) (ph : ℕ → ℕ → ℝ) (th : ℝ) (ik j : ℕ) (hik : ik + 1 < nk) :
    reorderPhases nk nocc ph th false (ik + 1) j = ph (ik + 1) j ∨
      (|reorderPhases nk nocc ph th false ik j - reorderPhases nk nocc ph th false (ik + 1) j| < th ∧
        th < |reorderPhases nk nocc ph th false ik j - ph (ik + 1) j|) := by
  unfold reorderPhases
  simp only [Bool.false_eq_true, if_false]
  rw [fix_rows th nocc ph (nk - 1) ik (by omega)]
  exact fixBand_close th _ nocc (ph (ik + 1), _) j

/-- A continuous table is left alone. -/
theorem C53_no_jumps (nk nocc : ℕ) (ph : ℕ → ℕ → ℝ) (th : ℝ) (h : ∀ ik, ik + 1 < nk → ∀ j, |ph ik j - ph (ik + 1) j| ≤ th)
    (ik : ℕ) (hik : ik < nk) : reorderPhases nk nocc ph th false ik = ph ik := by
  induction ik with
  | zero => exact (C53_values_partial nk nocc ph th false).2
  | succ ik ih =>
    funext j
    rcases C53_continuity nk nocc ph th ik j hik with e | ⟨_, e⟩
    · exact e
    · rw [ih (by omega)] at e
      exact absurd e (not_lt.2 (h ik hik j))

/-- A row in which every entry is changed is a rearrangement of the given row up to multiples of 2π (without smoothing).
Missing: rows that are changed in part. -/
theorem C53_permutation_partial (nk nocc : ℕ) (ph : ℕ → ℕ → ℝ) (th : ℝ) (ik : ℕ) (hik : ik + 1 < nk)
    (h : ∀ j < nocc, reorderPhases nk nocc ph th false (ik + 1) j ≠ ph (ik + 1) j) :
    ∃ S : List ℝ, S.Perm ((List.range nocc).map (ph (ik + 1))) ∧
      ∀ j < nocc, ∃ z : ℤ, reorderPhases nk nocc ph th false (ik + 1) j = S.getD j 0 + z * (2 * Real.pi) := by
  unfold reorderPhases at h ⊢
  simp only [Bool.false_eq_true, if_false] at h ⊢
  rw [fix_rows th nocc ph (nk - 1) ik (by omega)] at h ⊢
  obtain ⟨S, hl, hp, hS⟩ := fixBand_perm th _ _ nocc h
  refine ⟨S, ?_, hS⟩
  have hlen := hp.length_eq
  simp only [List.length_append, List.length_map, List.length_range, hl] at hlen
  generalize ((List.range nocc).foldl (fixBand th _) _).2 = T at hp hlen
  obtain rfl : T = [] := List.eq_nil_of_length_eq_zero (by omega)
  rwa [List.append_nil] at hp

/-- Phases 0, 0 at the first and 1, 0 at the second k-point. -/
def dupTable : ℕ → ℕ → ℝ := fun ik j => if ik = 1 ∧ j = 0 then 1 else 0

theorem dup_result (smooth : Bool) (j : ℕ) (hj : j < 2) : reorderPhases 2 2 dupTable (1/10) smooth 1 j = 0 := by
  have h0 : ∀ smooth, reorderPhases 2 2 dupTable (1/10) smooth = fixRow (1/10) 2 dupTable 0 := by
    intro s; cases s <;> rfl
  have hp : (3 : ℝ) < Real.pi := Real.pi_gt_three
  have a1 : ¬ |(0:ℝ) - (1 + (-2) * Real.pi)| < 1/10 := by rw [abs_lt]; intro h; linarith [h.1, h.2]
  have a2 : ¬ |(0:ℝ) - (1 + 0 * Real.pi)| < 1/10 := by norm_num
  have a3 : ¬ |(0:ℝ) - (1 + 2 * Real.pi)| < 1/10 := by rw [abs_lt]; intro h; linarith [h.1, h.2]
  have a4 : ¬ |(0:ℝ) - (0 + (-2) * Real.pi)| < 1/10 := by rw [abs_lt]; intro h; linarith [h.1, h.2]
  have a5 : |(0:ℝ) - (0 + 0 * Real.pi)| < 1/10 := by norm_num
  have a6 : ¬ |(0:ℝ) - (0 + 2 * Real.pi)| < 1/10 := by rw [abs_lt]; intro h; linarith [h.1, h.2]
  have hc : candidates (1/10) 0 [1, 0] = [((1, 0), 0)] := by
    simp only [candidates, List.zipIdx_cons, List.zipIdx_nil, List.flatMap_cons, List.flatMap_nil, List.filterMap_cons,
      List.filterMap_nil]
    push_cast
    simp only [a1, a2, a3, a4, a5, a6, if_true, if_false]
    simp
  have hm : minKey (candidates (1/10) 0 [1, 0]) = some (1, 0) := by
    rw [hc]
    simp [minKey, List.min?]
    norm_num
  have hb0 : fixBand (1/10) (dupTable 0) (dupTable 1, [1, 0]) 0 = (Function.update (dupTable 1) 0 0, [1]) := by
    unfold fixBand
    have e : dupTable 0 0 = 0 := by simp [dupTable]
    rw [if_pos (by simp [dupTable]; norm_num), e]
    simp only [hm]
    simp
  rw [h0, fixRow, Function.update_self]
  have hl : (List.range 2).map (dupTable 1) = [1, 0] := by simp [dupTable, List.range_succ]
  simp only [zero_add, hl]
  have hr : List.range 2 = [0, 1] := rfl
  rw [hr, List.foldl_cons, hb0, List.foldl_cons, List.foldl_nil]
  have hb1 : fixBand (1/10) (dupTable 0) (Function.update (dupTable 1) 0 0, [1]) 1 = (Function.update (dupTable 1) 0 0, [1]) := by
    unfold fixBand
    rw [if_neg]
    simp [dupTable]
  rw [hb1]
  interval_cases j <;> simp [dupTable]

/-- `reorder_phases` does not permute: for the rows (0, 0) and (1, 0) and the default threshold it returns (0, 0) for the second
row, so that the phase 1 is lost and the phase 0 is used twice, with and without smoothing. -/
theorem C53_duplicates (smooth : Bool) : ¬ ∀ (nk nocc : ℕ) (ph : ℕ → ℕ → ℝ) (th : ℝ) (ik : ℕ), ik < nk →
    ∃ S : List ℝ, S.Perm ((List.range nocc).map (ph ik)) ∧
      ∀ j < nocc, ∃ z : ℤ, reorderPhases nk nocc ph th smooth ik j = S.getD j 0 + z * (2 * Real.pi) := by
  intro h
  obtain ⟨S, hp, hS⟩ := h 2 2 dupTable (1/10) 1 (by norm_num)
  have hl : (List.range 2).map (dupTable 1) = [1, 0] := by simp [dupTable, List.range_succ]
  rw [hl] at hp
  have h1 : (1 : ℝ) ∈ S := hp.mem_iff.2 (by simp)
  obtain ⟨j, hj, e⟩ := List.getElem_of_mem h1
  have hj2 : j < 2 := by rw [hp.length_eq] at hj; exact hj
  obtain ⟨z, hz⟩ := hS j hj2
  rw [dup_result smooth j hj2, List.getD_eq_getElem _ _ hj, e] at hz
  have hpi : (3 : ℝ) < Real.pi := Real.pi_gt_three
  rcases lt_trichotomy z 0 with hz0 | hz0 | hz0
  · have : (z : ℝ) ≤ -1 := by exact_mod_cast (by omega : z ≤ -1)
    nlinarith
  · subst hz0; simp at hz
  · have : (1 : ℝ) ≤ z := by exact_mod_cast (by omega : 1 ≤ z)
    nlinarith

/-- The hypothesis of `C53_continuity` and its second alternative are met by the table above. -/
example : reorderPhases 2 2 dupTable (1/10) false 1 0 ≠ dupTable 1 0 ∧
    |reorderPhases 2 2 dupTable (1/10) false 0 0 - reorderPhases 2 2 dupTable (1/10) false 1 0| < 1/10 := by
  rw [dup_result false 0 (by norm_num), (C53_values_partial 2 2 dupTable (1/10) false).2]
  simp [dupTable]

end Verif

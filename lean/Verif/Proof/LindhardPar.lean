import Verif.Proof.Lindhard
import Verif.Props.ParallelRun
import Verif.Props.Parallel

/-! # The Lindhard calculator on several processes -/

namespace Verif
open Props

/-! ## Sums -/

theorem overlap_norm (nb : ℕ) (q : Vec3 ℝ) (pos : ℕ → Vec3 ℝ) (u' u : ℕ → ℂ) (x : ℝ) :
    overlapSum nb (qPhase q pos) u' u * star (overlapSum nb (qPhase q pos) u' u) * (x : ℂ) =
      ((overlapSq nb q pos u' u * x : ℝ) : ℂ) := by
  have h : overlapSum nb (qPhase q pos) u' u =
      ∑ b ∈ Finset.range nb, star (u' b) * u b * Complex.exp (Complex.I * ((∑ x, q x * pos b x : ℝ) : ℂ)) := by
    rw [overlapSum, foldl_add_sum, zero_add, list_sum_range]
    refine Finset.sum_congr rfl (fun b _ => ?_)
    rw [qPhase, eiPhase_eq_exp, Fin.sum_univ_three]
    congr 2
    ring
  rw [h, overlapSq]
  push_cast
  congr 1
  rw [← Complex.conj_mul', mul_comm]
  rfl

theorem kjlSum_eq (nb kmin kmax : ℕ) (f : ℕ → ℕ → ℕ → ℂ) :
    kjlSum nb kmin kmax f = ((List.range' kmin (kmax + 1 - kmin)).map fun k =>
      ∑ j ∈ Finset.range nb, ∑ l ∈ Finset.range nb, f k j l).sum := by
  simp only [kjlSum, foldl_add_sum, list_sum_range, zero_add]

theorem dynPolKernel_eq (nb : ℕ) (de : Arr3 ℝ) (pd : Arr3 ℂ) (om : List ℝ) (delta : ℝ) (kmin kmax iq : ℕ)
    (dp : ℕ → ℕ → ℂ) (i j : ℕ) :
    dynPolKernel nb de pd om delta kmin kmax iq dp i j =
      if i = iq then (match om[j]? with
        | some x => kjlSum nb kmin kmax fun ik jj ll =>
            pd ik jj ll / ((de ik jj ll : ℂ) + (x : ℂ) + Complex.I * (delta : ℂ))
        | none => dp i j) else dp i j := by
  rw [dynPolKernel, put2_foldl iq (fun x => kjlSum nb kmin kmax fun ik jj ll =>
            pd ik jj ll / ((de ik jj ll : ℂ) + (x : ℂ) + Complex.I * (delta : ℂ)))]
  simp only [Nat.zero_le, and_true, Nat.sub_zero]
  cases om[j]? <;> rfl

/-! ## Collective operations -/

theorem allReduce_apply {B : Type*} [AddCommMonoid B] (w : World) (d : ℕ → ℕ → B) (r i : ℕ) :
    allReduce w d r i = allReduce w (fun r => d r i) r := by
  unfold allReduce
  split
  · simp [mpiSum, list_sum_pi]
    rfl
  · rfl

theorem allReduce_const (w : World) (d : ℕ → ℂ) (c : ℂ) (h : ∀ r < w.size, d r = c) (r : ℕ) (hr : r < w.size) :
    allReduce w d r = w.size * c := by
  unfold allReduce
  split
  · have : (List.range w.size).map d = (List.range w.size).map fun _ => c :=
      List.map_congr_left (fun r hr => h r (List.mem_range.1 hr))
    simp only [mpiSum, this]
    simp
  · rename_i hm
    have := w.serial (by simpa using hm)
    rw [h r hr, this]
    simp

theorem onRanks_ok {A ε : Type*} [Inhabited A] (w : World) (f : ℕ → Except ε A) (g : ℕ → A)
    (h : ∀ r < w.size, f r = .ok (g r)) : ∃ k, onRanks w f = .ok k ∧ ∀ r < w.size, k r = g r := by
  refine ⟨fun r => ((List.range w.size).map g).getD r default, ?_, ?_⟩
  · rw [onRanks, mapM_ok f g _ (fun r hr => h r (List.mem_range.1 hr))]
    rfl
  · intro r hr
    simp [List.getD_eq_getElem?_getD, hr]

theorem bound_mem (w : World) (n r : ℕ) (hr : r < w.size) (hn : w.size ≤ n) :
    ∃ b : ℕ × ℕ, distBound w n r = .ok b ∧
      rangeElems (distRange w n r) = List.range' b.1 (b.2 + 1 - b.1) := by
  obtain ⟨a, b, h, _, h2⟩ := (C43_dist_bound w n r hr).2 (by omega)
  exact ⟨(a, b), h, by rw [h2, rangeElems]⟩

theorem dist_lt (w : World) (n r i : ℕ) (hr : r < w.size) (hi : i ∈ rangeElems (distRange w n r)) : i < n := by
  have h := dist_flat w n
  have : i ∈ ((List.range w.size).map fun r => rangeElems (distRange w n r)).flatten :=
    List.mem_flatten.2 ⟨_, List.mem_map.2 ⟨r, List.mem_range.2 hr, rfl⟩, hi⟩
  rw [h] at this
  exact List.mem_range.1 this

/-! ## One q-point -/

/-- The array after one q-point: a new row, the other rows multiplied by the number of processes. -/
def updRow (om : List ℝ) (P : ℂ) (S : ℝ → ℂ) (iq : ℕ) (dp : ℕ → ℕ → ℂ) : ℕ → ℕ → ℂ := fun i j =>
  if i = iq then (match om[j]? with | some x => S x | none => P * dp i j) else P * dp i j

theorem reduce_row (L : Lind) (w : World) (n : ℕ) (hn : w.size ≤ n) (bd : ℕ → ℕ × ℕ)
    (hbd : ∀ r < w.size, rangeElems (distRange w n r) = List.range' (bd r).1 ((bd r).2 + 1 - (bd r).1))
    (de : ℕ → Arr3 ℝ) (pd : ℕ → Arr3 ℂ) (s s' : (ℕ → ℕ → ℝ) × Arr3 ℂ) (q : Vec3 ℝ)
    (hde : ∀ r < w.size, ∀ i ∈ rangeElems (distRange w n r), ∀ j < L.D.nb, ∀ l < L.D.nb,
      de r i j l = s.1 i j - s'.1 i l)
    (hpd : ∀ r < w.size, ∀ i ∈ rangeElems (distRange w n r), ∀ j < L.D.nb, ∀ l < L.D.nb,
      pd r i j l = ((overlapSq L.D.nb q L.orbPos (s'.2 i l) (s.2 i j) *
        (fermiOcc L.beta L.mu (s.1 i j) - fermiOcc L.beta L.mu (s'.1 i l)) : ℝ) : ℂ))
    (iq : ℕ) (dp0 : ℕ → ℕ → ℂ) (dp : ℕ → ℕ → ℕ → ℂ) (hdp : ∀ r < w.size, dp r = dp0) (r : ℕ) (hr : r < w.size) :
    allReduce w (fun r => L.callDynPol false (de r) (pd r) (bd r) iq (dp r)) r =
      updRow L.omegas w.size (lindhardSum L n s s' q) iq dp0 := by
  funext i j
  rw [allReduce_apply, allReduce_apply]
  simp only [Lind.callDynPol, Bool.false_eq_true, if_false, dynPolKernel_eq, updRow]
  by_cases hi : i = iq
  · simp only [hi, if_true]
    cases L.omegas[j]? with
    | none => exact allReduce_const w _ _ (fun r hr => by simp only [hdp r hr]) r hr
    | some x =>
      simp only
      rw [allReduce_sums w n (fun k => ∑ j ∈ Finset.range L.D.nb, ∑ l ∈ Finset.range L.D.nb,
          ((overlapSq L.D.nb q L.orbPos (s'.2 k l) (s.2 k j) *
        (fermiOcc L.beta L.mu (s.1 k j) - fermiOcc L.beta L.mu (s'.1 k l)) : ℝ) : ℂ) /
          (((s.1 k j - s'.1 k l : ℝ) : ℂ) + x + Complex.I * (L.delta : ℂ))) _ _ r hr]
      · rw [list_sum_range, lindhardSum]
        refine Finset.sum_congr rfl fun k _ => Finset.sum_congr rfl fun j _ => Finset.sum_congr rfl fun l _ => ?_
        simp only [fermiOcc]
        push_cast
        ring
      · intro r hr
        rw [kjlSum_eq, hbd r hr]
        congr 1
        refine List.map_congr_left (fun k hk => ?_)
        rw [← hbd r hr] at hk
        refine Finset.sum_congr rfl fun j hj => Finset.sum_congr rfl fun l hl => ?_
        rw [hde r hr k hk j (Finset.mem_range.1 hj) l (Finset.mem_range.1 hl),
          hpd r hr k hk j (Finset.mem_range.1 hj) l (Finset.mem_range.1 hl)]
  · simp only [hi, if_false]
    exact allReduce_const w _ _ (fun r hr => by simp only [hdp r hr]) r hr

theorem regStep_row (L : Lind) (w : World) (hn : w.size ≤ L.numKpt) (bd : ℕ → ℕ × ℕ)
    (hbd : ∀ r < w.size, rangeElems (distRange w L.numKpt r) = List.range' (bd r).1 ((bd r).2 + 1 - (bd r).1))
    (bs : ℕ → (ℕ → ℕ → ℝ) × Arr3 ℂ) (s : (ℕ → ℕ → ℝ) × Arr3 ℂ) (hbs : ∀ r < w.size, bs r = s)
    (q : (Grid × Vec3 ℝ) × ℕ) (kq : ℕ → ℕ)
    (hkq : ∀ i, kq i = ((buildKqMap L.mesh (buildKmeshGrid L.mesh) q.1.1).getD i 0).toNat)
    (st : ℕ → Lind.Loc) (dp0 : ℕ → ℕ → ℂ) (hst : ∀ r < w.size, (st r).2.2 = dp0) (r : ℕ) (hr : r < w.size) :
    (L.regStep w false bs bd st q r).2.2 =
      updRow L.omegas w.size (lindhardSum L L.numKpt s (fun i => s.1 (kq i), fun i => s.2 (kq i)) q.1.2) q.2 dp0 := by
  have hpr : ∀ r < w.size, L.callProdDp false (bs r) (buildKqMap L.mesh (buildKmeshGrid L.mesh) q.1.1) q.1.2 (bd r)
      (fun i j l => (st r).1 i j l * 0, fun i j l => (st r).2.1 i j l * 0) =
      (fun i => if i ∈ rangeElems (distRange w L.numKpt r) then
          (fun j l => if j < L.D.nb ∧ l < L.D.nb then s.1 i j - s.1 (kq i) l else 0) else 0,
       fun i => if i ∈ rangeElems (distRange w L.numKpt r) then
          (fun j l => if j < L.D.nb ∧ l < L.D.nb then
            ((overlapSq L.D.nb q.1.2 L.orbPos (s.2 (kq i) l) (s.2 i j) *
        (fermiOcc L.beta L.mu (s.1 i j) - fermiOcc L.beta L.mu (s.1 (kq i) l)) : ℝ) : ℂ) else 0) else 0) := by
    intro r hr
    simp only [Lind.callProdDp, Bool.false_eq_true, if_false, prodDp, fill2_eq, hbd r hr, mem_bound, hbs r hr,
      overlap_norm, mul_zero, ← hkq]
    refine Prod.ext ?_ ?_ <;> funext i j l <;> by_cases h1 : (bd r).1 ≤ i ∧ i ≤ (bd r).2 <;>
      by_cases h2 : j < L.D.nb ∧ l < L.D.nb <;> simp [h1, h2]
  have hde := fun r hr => allReduce_rows w L.numKpt _ (fun r => (L.callProdDp false (bs r)
    (buildKqMap L.mesh (buildKmeshGrid L.mesh) q.1.1) q.1.2 (bd r)
      (fun i j l => (st r).1 i j l * 0, fun i j l => (st r).2.1 i j l * 0)).1) (fun r hr => by rw [hpr r hr]) r hr
  have hpd := fun r hr => allReduce_rows w L.numKpt _ (fun r => (L.callProdDp false (bs r)
    (buildKqMap L.mesh (buildKmeshGrid L.mesh) q.1.1) q.1.2 (bd r)
      (fun i j l => (st r).1 i j l * 0, fun i j l => (st r).2.1 i j l * 0)).2) (fun r hr => by rw [hpr r hr]) r hr
  simp only [Lind.regStep]
  refine reduce_row L w L.numKpt hn bd hbd _ _ s _ q.1.2 ?_ ?_ q.2 dp0 _ hst r hr
  · intro r hr i hi j hj l hl
    rw [hde r hr]
    simp [dist_lt w _ r i hr hi, hj, hl]
  · intro r hr i hi j hj l hl
    rw [hpd r hr]
    simp [dist_lt w _ r i hr hi, hj, hl]

theorem arbStep_row (L : Lind) (w : World) (hn : w.size ≤ L.numKpt) (bd : ℕ → ℕ × ℕ)
    (hbd : ∀ r < w.size, rangeElems (distRange w L.numKpt r) = List.range' (bd r).1 ((bd r).2 + 1 - (bd r).1))
    (bs bq : ℕ → (ℕ → ℕ → ℝ) × Arr3 ℂ) (s s' : (ℕ → ℕ → ℝ) × Arr3 ℂ)
    (hbs : ∀ r < w.size, ∀ i ∈ rangeElems (distRange w L.numKpt r), (bs r).1 i = s.1 i ∧ (bs r).2 i = s.2 i)
    (buf : ℕ → Buf) (q : (Vec3 ℝ × Vec3 ℝ) × ℕ)
    (hq : calcStates L.D w buf L.numKpt (fun i => L.kFrac i + q.1.2) 2 false = .ok bq)
    (hbq : ∀ r < w.size, ∀ i ∈ rangeElems (distRange w L.numKpt r), (bq r).1 i = s'.1 i ∧ (bq r).2 i = s'.2 i)
    (st : ℕ → Lind.Loc) (dp0 : ℕ → ℕ → ℂ) (hst : ∀ r < w.size, (st r).2.2 = dp0) :
    ∃ st', L.arbStep w buf false bs bd st q = .ok st' ∧ ∀ r < w.size,
      (st' r).2.2 = updRow L.omegas w.size (lindhardSum L L.numKpt s s' q.1.1) q.2 dp0 := by
  simp only [Lind.arbStep, hq]
  refine ⟨_, rfl, fun r hr => ?_⟩
  refine reduce_row L w L.numKpt hn bd hbd _ _ s s' q.1.1 ?_ ?_ q.2 dp0 _ hst r hr
  · intro r hr i hi j hj l hl
    have h1 := hi
    rw [hbd r hr, mem_bound] at h1
    simp [Lind.callProdDpArb, prodDpArb, fill2_eq, h1, hj, hl, (hbs r hr i hi).1, (hbq r hr i hi).1]
  · intro r hr i hi j hj l hl
    have h1 := hi
    rw [hbd r hr, mem_bound] at h1
    simp only [Lind.callProdDpArb, Bool.false_eq_true, if_false, prodDpArb, fill2_eq, h1, hj, hl, (hbs r hr i hi).1, (hbq r hr i hi).1,
      (hbs r hr i hi).2, (hbq r hr i hi).2, and_self, if_true, overlap_norm]

/-! ## All q-points -/

theorem updRow_foldl {Q : Type*} (om : List ℝ) (P : ℂ) (S : Q → ℝ → ℂ) (qs : List Q) (k : ℕ) (dp0 : ℕ → ℕ → ℂ) (i j : ℕ) :
    (qs.zipIdx k).foldl (fun dp q => updRow om P (S q.1) q.2 dp) dp0 i j =
      match (if k ≤ i then qs[i - k]? else none), om[j]? with
      | some q, some x => P ^ (k + qs.length - 1 - i) * S q x
      | _, _ => P ^ qs.length * dp0 i j := by
  induction qs generalizing k dp0 with
  | nil =>
    simp
  | cons q qs ih =>
    rw [List.zipIdx_cons, List.foldl_cons, ih]
    rcases Nat.lt_trichotomy i k with h | h | h
    · rw [if_neg (by omega), if_neg (by omega)]
      simp only [updRow, if_neg (Nat.ne_of_lt h), List.length_cons]
      ring
    · subst h
      rw [if_neg (by omega), if_pos le_rfl]
      simp only [updRow, if_true, Nat.sub_self, List.getElem?_cons_zero, List.length_cons]
      cases om[j]? with
      | none => simp only; ring
      | some x =>
        simp only
        congr 2
        omega
    · have h1 : i - k = (i - (k + 1)) + 1 := by omega
      rw [if_pos (by omega), if_pos (by omega), h1, List.getElem?_cons_succ]
      simp only [updRow, if_neg (Nat.ne_of_gt h), List.length_cons]
      rw [show k + 1 + qs.length - 1 - i = k + (qs.length + 1) - 1 - i by omega]
      cases qs[i - (k + 1)]? <;> cases om[j]? <;> simp only <;> ring

end Verif

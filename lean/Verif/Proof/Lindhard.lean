import Verif.Spec.Lindhard
import Verif.Proof.ParallelDiag
import Verif.Proof.Bloch
import Verif.Props.Base
import Mathlib.Tactic.FieldSimp
import Mathlib.LinearAlgebra.Matrix.Adjugate

/-! # Proofs about the Lindhard calculator -/

namespace Verif

/-! ## Loops -/

section Fill
variable {A B : Type*}

theorem fill_l (i j : ℕ) (f : ℕ → A) (g : ℕ → B) (L : List ℕ) (a : Arr3 A × Arr3 B) :
    L.foldl (fun (st : Arr3 A × Arr3 B) l => (put3 st.1 i j l (f l), put3 st.2 i j l (g l))) a =
      (fun i' j' l' => if i' = i ∧ j' = j ∧ l' ∈ L then f l' else a.1 i' j' l',
       fun i' j' l' => if i' = i ∧ j' = j ∧ l' ∈ L then g l' else a.2 i' j' l') := by
  induction L generalizing a with
  | nil => simp
  | cons x L ih =>
    rw [List.foldl_cons, ih]
    refine Prod.ext ?_ ?_ <;> funext i' j' l' <;> simp only [put3, List.mem_cons] <;>
      by_cases h1 : i' = i <;> by_cases h2 : j' = j <;> by_cases h3 : l' ∈ L <;> by_cases h4 : l' = x <;>
      simp [h1, h2, h3, h4]

theorem fill_jl (i : ℕ) (f : ℕ → ℕ → A) (g : ℕ → ℕ → B) (Lj L : List ℕ) (a : Arr3 A × Arr3 B) :
    Lj.foldl (fun st j => L.foldl (fun (st : Arr3 A × Arr3 B) l =>
        (put3 st.1 i j l (f j l), put3 st.2 i j l (g j l))) st) a =
      (fun i' j' l' => if i' = i ∧ j' ∈ Lj ∧ l' ∈ L then f j' l' else a.1 i' j' l',
       fun i' j' l' => if i' = i ∧ j' ∈ Lj ∧ l' ∈ L then g j' l' else a.2 i' j' l') := by
  induction Lj generalizing a with
  | nil => simp
  | cons x Lj ih =>
    rw [List.foldl_cons, ih, fill_l]
    refine Prod.ext ?_ ?_ <;> funext i' j' l' <;> simp only [List.mem_cons] <;>
      by_cases h1 : i' = i <;> by_cases h2 : j' ∈ Lj <;> by_cases h3 : l' ∈ L <;> by_cases h4 : j' = x <;>
      simp [h1, h2, h3, h4]

theorem fill_ijl (f : ℕ → ℕ → ℕ → A) (g : ℕ → ℕ → ℕ → B) (Li Lj L : List ℕ) (a : Arr3 A × Arr3 B) :
    Li.foldl (fun st i => Lj.foldl (fun st j => L.foldl (fun (st : Arr3 A × Arr3 B) l =>
        (put3 st.1 i j l (f i j l), put3 st.2 i j l (g i j l))) st) st) a =
      (fun i' j' l' => if i' ∈ Li ∧ j' ∈ Lj ∧ l' ∈ L then f i' j' l' else a.1 i' j' l',
       fun i' j' l' => if i' ∈ Li ∧ j' ∈ Lj ∧ l' ∈ L then g i' j' l' else a.2 i' j' l') := by
  induction Li generalizing a with
  | nil => simp
  | cons x Li ih =>
    rw [List.foldl_cons, ih, fill_jl]
    refine Prod.ext ?_ ?_ <;> funext i' j' l' <;> simp only [List.mem_cons] <;>
      by_cases h1 : i' ∈ Li <;> by_cases h2 : j' ∈ Lj <;> by_cases h3 : l' ∈ L <;> by_cases h4 : i' = x <;>
      simp [h1, h2, h3, h4]

/-- Exchange of the first and last index. -/
def rev3 (a : Arr3 A) : Arr3 A := fun l j i => a i j l

theorem rev3_put (a : Arr3 A) (i j l : ℕ) (v : A) : rev3 (put3 a i j l v) = put3 (rev3 a) l j i v := by
  funext l' j' i'
  simp only [rev3, put3]
  congr 1
  exact propext ⟨fun ⟨h1, h2, h3⟩ => ⟨h3, h2, h1⟩, fun ⟨h1, h2, h3⟩ => ⟨h3, h2, h1⟩⟩

theorem foldl_conj {S T X : Type*} (φ : S → T) (f : S → X → S) (g : T → X → T)
    (h : ∀ s x, φ (f s x) = g (φ s) x) (L : List X) (s : S) : φ (L.foldl f s) = L.foldl g (φ s) := by
  induction L generalizing s with
  | nil => rfl
  | cons x L ih => rw [List.foldl_cons, List.foldl_cons, ih, h]

theorem fill_rev (f : ℕ → ℕ → ℕ → A) (g : ℕ → ℕ → ℕ → B) (Li Lj L : List ℕ) (a : Arr3 A × Arr3 B) :
    Li.foldl (fun st i => Lj.foldl (fun st j => L.foldl (fun (st : Arr3 A × Arr3 B) l =>
        (put3 st.1 l j i (f i j l), put3 st.2 l j i (g i j l))) st) st) a =
      (fun l' j' i' => if i' ∈ Li ∧ j' ∈ Lj ∧ l' ∈ L then f i' j' l' else a.1 l' j' i',
       fun l' j' i' => if i' ∈ Li ∧ j' ∈ Lj ∧ l' ∈ L then g i' j' l' else a.2 l' j' i') := by
  have key := fill_ijl f g Li Lj L (rev3 a.1, rev3 a.2)
  have h := foldl_conj (fun (p : Arr3 A × Arr3 B) => (rev3 p.1, rev3 p.2))
    (fun st i => Lj.foldl (fun st j => L.foldl (fun (st : Arr3 A × Arr3 B) l =>
        (put3 st.1 i j l (f i j l), put3 st.2 i j l (g i j l))) st) st)
    (fun st i => Lj.foldl (fun st j => L.foldl (fun (st : Arr3 A × Arr3 B) l =>
        (put3 st.1 l j i (f i j l), put3 st.2 l j i (g i j l))) st) st)
    (fun s i => foldl_conj (fun (p : Arr3 A × Arr3 B) => (rev3 p.1, rev3 p.2)) _ _
      (fun s j => foldl_conj (fun (p : Arr3 A × Arr3 B) => (rev3 p.1, rev3 p.2)) _ _ (fun s l => by
      simp only [rev3_put]) L s) Lj s) Li (rev3 a.1, rev3 a.2)
  rw [key] at h
  exact h.symm

theorem mem_bound (kmin kmax i : ℕ) : i ∈ List.range' kmin (kmax + 1 - kmin) ↔ kmin ≤ i ∧ i ≤ kmax := by
  rw [List.mem_range'_1]
  omega

theorem fill2_eq (nb kmin kmax : ℕ) (f : ℕ → ℕ → ℕ → A) (g : ℕ → ℕ → ℕ → B) (a : Arr3 A × Arr3 B) :
    fill2 nb kmin kmax f g a =
      (fun i j l => if (kmin ≤ i ∧ i ≤ kmax) ∧ j < nb ∧ l < nb then f i j l else a.1 i j l,
       fun i j l => if (kmin ≤ i ∧ i ≤ kmax) ∧ j < nb ∧ l < nb then g i j l else a.2 i j l) := by
  simp only [fill2, fill_ijl, mem_bound, List.mem_range]

/-- The Fortran loops on transposed views do the same as the Cython loops. -/
theorem fill2F_eq (nb kmin kmax : ℕ) (f f' : ℕ → ℕ → ℕ → A) (g g' : ℕ → ℕ → ℕ → B) (a : Arr3 A × Arr3 B)
    (hf : ∀ i j l, f' (i + 1) (j + 1) (l + 1) = f i j l) (hg : ∀ i j l, g' (i + 1) (j + 1) (l + 1) = g i j l) :
    (ofF3 (fill2F nb (kmin + 1) (kmax + 1) f' g' (toF3 a.1, toF3 a.2)).1,
     ofF3 (fill2F nb (kmin + 1) (kmax + 1) f' g' (toF3 a.1, toF3 a.2)).2) = fill2 nb kmin kmax f g a := by
  simp only [fill2F, fill_rev, mem_bound, fill2_eq]
  refine Prod.ext ?_ ?_ <;> funext i j l <;>
    simp only [ofF3, toF3, hf, hg, Nat.add_sub_cancel, List.mem_range'_1] <;> congr 1 <;> apply propext <;> omega

end Fill

theorem foldl_shift {S : Type*} (f g : S → ℕ → S) (n k : ℕ) (h : ∀ s i, f s (i + 1) = g s i) (s : S) :
    (List.range' (k + 1) n).foldl f s = (List.range' k n).foldl g s := by
  induction n generalizing k s with
  | zero => rfl
  | succ n ih => rw [List.range'_succ, List.range'_succ, List.foldl_cons, List.foldl_cons, h, ih]

theorem foldl_shift0 {S : Type*} (f g : S → ℕ → S) (n : ℕ) (h : ∀ s i, f s (i + 1) = g s i) (s : S) :
    (List.range' 1 n).foldl f s = (List.range n).foldl g s := by
  rw [List.range_eq_range', foldl_shift f g n 0 h]

theorem overlapSumF_eq (nb : ℕ) (ph vq v : ℕ → ℂ) :
    overlapSumF nb (toF1 ph) (toF1 vq) (toF1 v) = overlapSum nb ph vq v :=
  foldl_shift0 _ _ nb (fun s i => by simp [toF1]) 0

theorem kjlSumF_eq (nb kmin kmax : ℕ) (f f' : ℕ → ℕ → ℕ → ℂ)
    (h : ∀ i j l, f' (i + 1) (j + 1) (l + 1) = f i j l) :
    kjlSumF nb (kmin + 1) (kmax + 1) f' = kjlSum nb kmin kmax f := by
  unfold kjlSumF kjlSum
  rw [show kmax + 1 + 1 - (kmin + 1) = kmax + 1 - kmin by omega]
  refine foldl_shift _ _ _ _ (fun s i => ?_) 0
  refine foldl_shift0 _ _ _ (fun s j => ?_) s
  exact foldl_shift0 _ _ _ (fun s l => by rw [h]) s

/-! ## The two backends -/

theorem qPhase_toF (q : Vec3 ℝ) (pos : ℕ → Vec3 ℝ) : qPhase q (toF1 pos) = toF1 (qPhase q pos) := rfl

theorem callProdDp_backend (L : Lind) (bs : (ℕ → ℕ → ℝ) × Arr3 ℂ) (kq : List ℤ) (q : Vec3 ℝ)
    (bd : ℕ × ℕ) (a : Arr3 ℝ × Arr3 ℂ) :
    L.callProdDp true bs kq q bd a = L.callProdDp false bs kq q bd a := by
  have hk : ∀ i, ((kq.map (· + 1)).getD i 0).toNat - 1 = (kq.getD i 0).toNat := by
    intro i
    rw [List.getD_eq_getElem?_getD, List.getD_eq_getElem?_getD, List.getElem?_map]
    cases kq[i]? with
    | none => rfl
    | some x => simp; omega
  simp only [Lind.callProdDp, if_true, prodDpF, prodDp]
  refine fill2F_eq L.D.nb bd.1 bd.2 _ _ _ _ a (fun i j l => ?_) (fun i j l => ?_)
  · simp only [toF2, toF1, Nat.add_sub_cancel, hk]
  · simp only [qPhase_toF]
    have h : overlapSumF L.D.nb (toF1 (qPhase q L.orbPos))
        (fun ib => toF3 bs.2 ib (l + 1) (toF1 (fun i => ((kq.map (· + 1)).getD i 0).toNat) (i + 1)))
        (fun ib => toF3 bs.2 ib (j + 1) (i + 1)) =
        overlapSum L.D.nb (qPhase q L.orbPos) (bs.2 (kq.getD i 0).toNat l) (bs.2 i j) := by
      rw [← overlapSumF_eq]
      congr 1
      funext ib
      simp only [toF3, toF1, Nat.add_sub_cancel, hk]
    rw [h]
    simp only [toF2, toF1, Nat.add_sub_cancel, hk]

theorem callProdDpArb_backend (L : Lind) (bs bq : (ℕ → ℕ → ℝ) × Arr3 ℂ) (q : Vec3 ℝ)
    (bd : ℕ × ℕ) (a : Arr3 ℝ × Arr3 ℂ) :
    L.callProdDpArb true bs bq q bd a = L.callProdDpArb false bs bq q bd a := by
  simp only [Lind.callProdDpArb, if_true, prodDpArbF, prodDpArb]
  refine fill2F_eq L.D.nb bd.1 bd.2 _ _ _ _ a (fun i j l => ?_) (fun i j l => ?_)
  · simp [toF2]
  · simp only [qPhase_toF]
    have h : overlapSumF L.D.nb (toF1 (qPhase q L.orbPos))
        (fun ib => toF3 bq.2 ib (l + 1) (i + 1)) (fun ib => toF3 bs.2 ib (j + 1) (i + 1)) =
        overlapSum L.D.nb (qPhase q L.orbPos) (bq.2 i l) (bs.2 i j) := by
      rw [← overlapSumF_eq]
      rfl
    rw [h]
    simp [toF2]

theorem put2_foldl {A : Type*} (iq : ℕ) (f : ℝ → A) (om : List ℝ) (k : ℕ) (dp : ℕ → ℕ → A) :
    (om.zipIdx k).foldl (fun dp w => put2 dp iq w.2 (f w.1)) dp =
      fun i j => if i = iq ∧ k ≤ j then (match om[j - k]? with | some x => f x | none => dp i j) else dp i j := by
  induction om generalizing k dp with
  | nil => simp
  | cons x om ih =>
    rw [List.zipIdx_cons, List.foldl_cons, ih]
    funext i j
    by_cases hi : i = iq
    · rcases Nat.lt_trichotomy j k with h | h | h
      · simp [hi, put2, Nat.not_le.2 h, Nat.not_le.2 (Nat.lt_succ_of_lt h), (Nat.ne_of_lt h)]
      · simp [hi, put2, h]
      · have h1 : j - k = (j - (k + 1)) + 1 := by omega
        rw [if_pos ⟨hi, h⟩, if_pos ⟨hi, h.le⟩, h1, List.getElem?_cons_succ]
        simp [put2, (Nat.ne_of_gt h)]
    · simp [hi, put2]

theorem put2_foldl' {A : Type*} (iq : ℕ) (f : ℝ → A) (om : List ℝ) (k : ℕ) (dp : ℕ → ℕ → A) :
    (om.zipIdx k).foldl (fun dp w => put2 dp w.2 iq (f w.1)) dp =
      fun j i => if i = iq ∧ k ≤ j then (match om[j - k]? with | some x => f x | none => dp j i) else dp j i := by
  have h := foldl_conj (fun (a : ℕ → ℕ → A) => fun j i => a i j) (fun dp w => put2 dp iq w.2 (f w.1))
    (fun dp (w : ℝ × ℕ) => put2 dp w.2 iq (f w.1)) (fun s x => by
      funext j i
      simp only [put2]
      congr 1
      exact propext and_comm) (om.zipIdx k) (fun i j => dp j i)
  rw [← h, put2_foldl]

theorem callDynPol_backend (L : Lind) (de : Arr3 ℝ) (pd : Arr3 ℂ) (bd : ℕ × ℕ) (iq : ℕ) (dp : ℕ → ℕ → ℂ) :
    L.callDynPol true de pd bd iq dp = L.callDynPol false de pd bd iq dp := by
  simp only [Lind.callDynPol, if_true, dynPolKernelF, dynPolKernel, Bool.false_eq_true, if_false]
  rw [put2_foldl' (iq + 1) (fun om => kjlSumF L.D.nb (bd.1 + 1) (bd.2 + 1) fun ik jj ll =>
      toF3 pd ll jj ik / (((toF3 de ll jj ik : ℝ) : ℂ) + (om : ℂ) + (0 + Complex.I * (L.delta : ℂ)))),
    put2_foldl iq (fun om => kjlSum L.D.nb bd.1 bd.2 fun ik jj ll =>
      pd ik jj ll / ((de ik jj ll : ℂ) + (om : ℂ) + Complex.I * (L.delta : ℂ)))]
  funext i j
  simp only [ofF2, toF2, Nat.add_sub_cancel, Nat.add_right_cancel_iff, Nat.le_add_left, and_true, Nat.zero_le,
    Nat.sub_zero]
  split
  · cases L.omegas[j]? with
    | none => rfl
    | some om =>
      refine kjlSumF_eq _ _ _ _ _ (fun i j l => ?_)
      simp [toF3]
  · rfl

theorem regStep_backend (L : Lind) (w : World) (bs : ℕ → (ℕ → ℕ → ℝ) × Arr3 ℂ) (bd : ℕ → ℕ × ℕ) :
    L.regStep w true bs bd = L.regStep w false bs bd := by
  funext st q r
  simp only [Lind.regStep, callProdDp_backend, callDynPol_backend]

theorem arbStep_backend (L : Lind) (w : World) (buf : ℕ → Buf) (bs : ℕ → (ℕ → ℕ → ℝ) × Arr3 ℂ) (bd : ℕ → ℕ × ℕ) :
    L.arbStep w buf true bs bd = L.arbStep w buf false bs bd := by
  funext st q
  simp only [Lind.arbStep, callProdDpArb_backend, callDynPol_backend]

end Verif

import Verif.Spec.LindhardAC
import Verif.Proof.LindhardRun
import Mathlib.Analysis.Calculus.Deriv.Star
import Mathlib.Analysis.SpecialFunctions.Trigonometric.Deriv

/-! # Proofs about the AC conductivity -/

namespace Verif
open Props

/-! ## Velocity -/

/-- Contribution of a hopping term to an element of the velocity matrix. -/
noncomputable def velTerm (k : Vec3 ℝ) (c : Fin 3) (a b : ℤ) (h : AcHop) : ℂ :=
  (if h.1 = (a, b) then Complex.I * (eiPhase (k 0 * h.2.2 0 + k 1 * h.2.2 1 + k 2 * h.2.2 2) * h.2.1) * (h.2.2 c : ℂ) else 0) +
  (if h.1 = (b, a) then - Complex.I * star (eiPhase (k 0 * h.2.2 0 + k 1 * h.2.2 1 + k 2 * h.2.2 2) * h.2.1) * (h.2.2 c : ℂ)
    else 0)

theorem velStep_apply (k : Vec3 ℝ) (c : Fin 3) (v : IMat) (h : AcHop) (a b : ℤ) :
    velStep k c v h a b = v a b + velTerm k c a b h := by
  obtain ⟨⟨i, j⟩, e, dr⟩ := h
  simp only [velStep, velTerm, IMat.put, Prod.mk.injEq]
  generalize eiPhase (k 0 * dr 0 + k 1 * dr 1 + k 2 * dr 2) * e = ph
  by_cases h1 : a = i ∧ b = j
  · obtain ⟨rfl, rfl⟩ := h1
    by_cases h2 : a = b
    · subst h2; simp; ring
    · have h2' : b ≠ a := Ne.symm h2
      simp [h2, h2']
  · by_cases h2 : a = j ∧ b = i
    · obtain ⟨rfl, rfl⟩ := h2
      have h3 : ¬ (b = a ∧ a = b) := fun hh => h1 ⟨hh.2, hh.1⟩
      have h4 : ¬ (a = b ∧ b = a) := h1
      simp [h3, h4]
      ring
    · have h1' : ¬ (i = a ∧ j = b) := fun hh => h1 ⟨hh.1.symm, hh.2.symm⟩
      have h2' : ¬ (i = b ∧ j = a) := fun hh => h2 ⟨hh.2.symm, hh.1.symm⟩
      simp only [h1, h2, h1', h2', if_false, add_zero]

theorem velMat_apply (hops : List AcHop) (k : Vec3 ℝ) (c : Fin 3) (a b : ℤ) :
    velMat hops k c a b = (hops.map (velTerm k c a b)).sum := by
  have : ∀ v : IMat, hops.foldl (velStep k c) v a b = v a b + (hops.map (velTerm k c a b)).sum := by
    induction hops with
    | nil => intro v; simp
    | cons h hops ih => intro v; rw [List.foldl_cons, ih, velStep_apply, List.map_cons, List.sum_cons]; ring
  rw [velMat, this, zero_add]

theorem phase_cart (lat : Mat3 ℝ) (pos : ℤ → Vec3 ℝ) (k : Vec3 ℝ) (t : Cell × Pair × ℂ) :
    hopPhase pos 1 (fun i => dotProduct (lat i) k / (2 * Real.pi)) t.1 t.2.1.1 t.2.1.2 =
      k 0 * hopDrNm lat pos t 0 + k 1 * hopDrNm lat pos t 1 + k 2 * hopDrNm lat pos t 2 := by
  have hp : (2 * Real.pi) ≠ 0 := by positivity
  simp only [hopPhase, kDotR, if_true, hopDrNm, frac2cartRow, Matrix.mulVec, dotProduct, Fin.sum_univ_three,
    Pi.add_apply, Pi.zero_apply, Matrix.transpose_apply, Matrix.cons_val_zero, Matrix.cons_val_one, Matrix.cons_val]
  field_simp
  ring

theorem eiPhase_deriv (u v : ℝ) (e : ℂ) :
    HasDerivAt (fun t : ℝ => e * eiPhase (u + t * v)) (Complex.I * (eiPhase u * e) * (v : ℂ)) 0 := by
  have h1 : HasDerivAt (fun t : ℝ => u + t * v) v 0 := by
    simpa using ((hasDerivAt_id (0 : ℝ)).mul_const v).const_add u
  have h2 := h1.cos.ofReal_comp
  have h3 := h1.sin.ofReal_comp
  have h4 := (h2.add (h3.const_mul Complex.I)).const_mul e
  refine h4.congr_deriv ?_
  simp only [zero_mul, add_zero, eiPhase]
  push_cast
  linear_combination (-e * Complex.sin u * v) * Complex.I_sq

theorem hopTerm_deriv (lat : Mat3 ℝ) (pos : ℤ → Vec3 ℝ) (k : Vec3 ℝ) (c : Fin 3) (a b : ℤ) (t : Cell × Pair × ℂ) :
    HasDerivAt (fun s : ℝ => hopTerm pos 1 (fun i => dotProduct (lat i) (k + s • (Pi.single c 1 : Vec3 ℝ)) / (2 * Real.pi)) a b t)
      (velTerm k c a b (t.2.1, t.2.2, hopDrNm lat pos t)) 0 := by
  have hlin : ∀ s : ℝ, (k + s • (Pi.single c 1 : Vec3 ℝ)) 0 * hopDrNm lat pos t 0 +
      (k + s • (Pi.single c 1 : Vec3 ℝ)) 1 * hopDrNm lat pos t 1 +
      (k + s • (Pi.single c 1 : Vec3 ℝ)) 2 * hopDrNm lat pos t 2 =
      (k 0 * hopDrNm lat pos t 0 + k 1 * hopDrNm lat pos t 1 + k 2 * hopDrNm lat pos t 2) + s * hopDrNm lat pos t c := by
    intro s
    fin_cases c <;> simp <;> ring
  have hd := eiPhase_deriv (k 0 * hopDrNm lat pos t 0 + k 1 * hopDrNm lat pos t 1 + k 2 * hopDrNm lat pos t 2)
    (hopDrNm lat pos t c) t.2.2
  have hs : HasDerivAt (fun s : ℝ => star (t.2.2 * eiPhase ((k 0 * hopDrNm lat pos t 0 + k 1 * hopDrNm lat pos t 1 +
      k 2 * hopDrNm lat pos t 2) + s * hopDrNm lat pos t c))) _ 0 := hd.star
  simp only [hopTerm, velTerm]
  refine HasDerivAt.add ?_ ?_
  · split
    · rename_i h
      have e1 : t.2.1.1 = a := by rw [h]
      have e2 : t.2.1.2 = b := by rw [h]
      subst e1 e2
      simp only [phase_cart, hlin]
      exact hd
    · exact hasDerivAt_const _ _
  · split
    · rename_i h
      have e1 : t.2.1.1 = b := by rw [h]
      have e2 : t.2.1.2 = a := by rw [h]
      subst e1 e2
      simp only [phase_cart, hlin]
      refine hs.congr_deriv ?_
      simp [mul_comm, mul_left_comm]
    · exact hasDerivAt_const _ _

theorem list_hasDeriv {X : Type*} (f : X → ℝ → ℂ) (f' : X → ℂ) (l : List X) (x : ℝ) (h : ∀ t ∈ l, HasDerivAt (f t) (f' t) x) :
    HasDerivAt (fun s => (l.map fun t => f t s).sum) (l.map f').sum x := by
  induction l with
  | nil => simpa using hasDerivAt_const x (0 : ℂ)
  | cons t l ih =>
    simp only [List.map_cons, List.sum_cons]
    exact (h t (by simp)).add (ih fun t ht => h t (by simp [ht]))

theorem vel_hasDeriv (lat : Mat3 ℝ) (pos : ℤ → Vec3 ℝ) (eng : List ℝ) (hops : List (Cell × Pair × ℂ)) (k : Vec3 ℝ)
    (c : Fin 3) (a b : ℤ) :
    HasDerivAt (fun t : ℝ => hamCart lat pos eng hops (k + t • (Pi.single c 1 : Vec3 ℝ)) a b)
      (velMat (acHops lat pos hops) k c a b) 0 := by
  have h := (list_hasDeriv (fun t s => hopTerm pos 1 (fun i => dotProduct (lat i) (k + s • (Pi.single c 1 : Vec3 ℝ)) /
    (2 * Real.pi)) a b t) (fun t => velTerm k c a b (t.2.1, t.2.2, hopDrNm lat pos t)) hops 0
    (fun t _ => hopTerm_deriv lat pos k c a b t)).const_add (setDiag eng IMat.zero a b)
  rw [velMat_apply, acHops, List.map_map]
  have e : ∀ s : ℝ, hamCart lat pos eng hops (k + s • (Pi.single c 1 : Vec3 ℝ)) a b = setDiag eng IMat.zero a b +
      (hops.map fun t => hopTerm pos 1 (fun i => dotProduct (lat i) (k + s • (Pi.single c 1 : Vec3 ℝ)) /
    (2 * Real.pi)) a b t).sum := fun s => setHam_apply _ _ _ _ _ _ _
  simp only [e]
  exact h

theorem velMat_eq (lat : Mat3 ℝ) (pos : ℤ → Vec3 ℝ) (eng : List ℝ) (hops : List (Cell × Pair × ℂ)) (k : Vec3 ℝ) (c : Fin 3) :
    velMat (acHops lat pos hops) k c = velocity lat pos eng hops k c := by
  funext a b
  exact (vel_hasDeriv lat pos eng hops k c a b).deriv.symm

theorem velTerm_star (k : Vec3 ℝ) (c : Fin 3) (a b : ℤ) (h : AcHop) : star (velTerm k c b a h) = velTerm k c a b h := by
  simp only [velTerm, star_add]
  rw [add_comm]
  congr 1 <;> split <;> simp

theorem velMat_star (hops : List AcHop) (k : Vec3 ℝ) (c : Fin 3) (a b : ℤ) :
    star (velMat hops k c b a) = velMat hops k c a b := by
  rw [velMat_apply, velMat_apply, star_list_sum, List.map_map]
  congr 1
  exact List.map_congr_left fun h _ => velTerm_star k c a b h

theorem velMat_shift (hops : List AcHop) (k : Vec3 ℝ) (c : Fin 3) (a b : ℤ) :
    velMat (shiftInd hops) k c (a + 1) (b + 1) = velMat hops k c a b := by
  rw [velMat_apply, velMat_apply, shiftInd, List.map_map]
  congr 1
  refine List.map_congr_left fun h _ => ?_
  simp only [velTerm, Function.comp, Prod.ext_iff, add_left_inj]

/-! ## Loops -/

section Fill
variable {A B : Type*} 

theorem fillC_l (i j : ℕ) (f : ℕ → A) (c : ℕ → Prop) [DecidablePred c] (g : ℕ → B) (L : List ℕ) (a : Arr3 A × Arr3 B) :
    L.foldl (fun (st : Arr3 A × Arr3 B) l => (put3 st.1 i j l (f l), if c l then put3 st.2 i j l (g l) else st.2)) a =
      (fun i' j' l' => if i' = i ∧ j' = j ∧ l' ∈ L then f l' else a.1 i' j' l',
       fun i' j' l' => if (i' = i ∧ j' = j ∧ l' ∈ L) ∧ c l' then g l' else a.2 i' j' l') := by
  induction L generalizing a with
  | nil => simp
  | cons x L ih =>
    rw [List.foldl_cons, ih]
    refine Prod.ext ?_ ?_ <;> funext i' j' l' <;> simp only [put3, List.mem_cons] <;>
      by_cases h5 : c x <;>
      by_cases h1 : i' = i <;> by_cases h2 : j' = j <;> by_cases h3 : l' ∈ L <;> by_cases h4 : l' = x <;>
      simp [h1, h2, h3, h4, h5, put3]

theorem fillC_jl (i : ℕ) (f : ℕ → ℕ → A) (c : ℕ → ℕ → Prop) [∀ j l, Decidable (c j l)] (g : ℕ → ℕ → B) (Lj L : List ℕ)
    (a : Arr3 A × Arr3 B) :
    Lj.foldl (fun st j => L.foldl (fun (st : Arr3 A × Arr3 B) l =>
        (put3 st.1 i j l (f j l), if c j l then put3 st.2 i j l (g j l) else st.2)) st) a =
      (fun i' j' l' => if i' = i ∧ j' ∈ Lj ∧ l' ∈ L then f j' l' else a.1 i' j' l',
       fun i' j' l' => if (i' = i ∧ j' ∈ Lj ∧ l' ∈ L) ∧ c j' l' then g j' l' else a.2 i' j' l') := by
  induction Lj generalizing a with
  | nil => simp
  | cons x Lj ih =>
    rw [List.foldl_cons, ih, fillC_l]
    refine Prod.ext ?_ ?_ <;> funext i' j' l' <;> simp only [List.mem_cons] <;>
      by_cases h1 : i' = i <;> by_cases h2 : j' ∈ Lj <;> by_cases h3 : l' ∈ L <;> by_cases h4 : j' = x <;>
      by_cases h5 : c j' l' <;> simp_all

theorem fillC_ijl (f : ℕ → ℕ → ℕ → A) (c : ℕ → ℕ → ℕ → Prop) [∀ i j l, Decidable (c i j l)] (g : ℕ → ℕ → ℕ → B)
    (Li Lj L : List ℕ) (a : Arr3 A × Arr3 B) :
    Li.foldl (fun st i => Lj.foldl (fun st j => L.foldl (fun (st : Arr3 A × Arr3 B) l =>
        (put3 st.1 i j l (f i j l), if c i j l then put3 st.2 i j l (g i j l) else st.2)) st) st) a =
      (fun i' j' l' => if i' ∈ Li ∧ j' ∈ Lj ∧ l' ∈ L then f i' j' l' else a.1 i' j' l',
       fun i' j' l' => if (i' ∈ Li ∧ j' ∈ Lj ∧ l' ∈ L) ∧ c i' j' l' then g i' j' l' else a.2 i' j' l') := by
  induction Li generalizing a with
  | nil => simp
  | cons x Li ih =>
    rw [List.foldl_cons, ih, fillC_jl]
    refine Prod.ext ?_ ?_ <;> funext i' j' l' <;> simp only [List.mem_cons] <;>
      by_cases h1 : i' ∈ Li <;> by_cases h2 : j' ∈ Lj <;> by_cases h3 : l' ∈ L <;> by_cases h4 : i' = x <;>
      by_cases h5 : c i' j' l' <;> simp_all

theorem fillC_rev (f : ℕ → ℕ → ℕ → A) (c : ℕ → ℕ → ℕ → Prop) [∀ i j l, Decidable (c i j l)] (g : ℕ → ℕ → ℕ → B)
    (Li Lj L : List ℕ) (a : Arr3 A × Arr3 B) :
    Li.foldl (fun st i => Lj.foldl (fun st j => L.foldl (fun (st : Arr3 A × Arr3 B) l =>
        (put3 st.1 l j i (f i j l), if c i j l then put3 st.2 l j i (g i j l) else st.2)) st) st) a =
      (fun l' j' i' => if i' ∈ Li ∧ j' ∈ Lj ∧ l' ∈ L then f i' j' l' else a.1 l' j' i',
       fun l' j' i' => if (i' ∈ Li ∧ j' ∈ Lj ∧ l' ∈ L) ∧ c i' j' l' then g i' j' l' else a.2 l' j' i') := by
  have key := fillC_ijl f c g Li Lj L (rev3 a.1, rev3 a.2)
  have h := foldl_conj (fun (p : Arr3 A × Arr3 B) => (rev3 p.1, rev3 p.2))
    (fun st i => Lj.foldl (fun st j => L.foldl (fun (st : Arr3 A × Arr3 B) l =>
        (put3 st.1 i j l (f i j l), if c i j l then put3 st.2 i j l (g i j l) else st.2)) st) st)
    (fun st i => Lj.foldl (fun st j => L.foldl (fun (st : Arr3 A × Arr3 B) l =>
        (put3 st.1 l j i (f i j l), if c i j l then put3 st.2 l j i (g i j l) else st.2)) st) st)
    (fun s i => foldl_conj (fun (p : Arr3 A × Arr3 B) => (rev3 p.1, rev3 p.2)) _ _
      (fun s j => foldl_conj (fun (p : Arr3 A × Arr3 B) => (rev3 p.1, rev3 p.2)) _ _ (fun s l => by
      split <;> simp only [rev3_put]) L s) Lj s) Li (rev3 a.1, rev3 a.2)
  rw [key] at h
  exact h.symm

theorem put1_foldl (f : ℝ → A) (om : List ℝ) (k : ℕ) (ac : ℕ → A) :
    (om.zipIdx k).foldl (fun ac w => put1 ac w.2 (f w.1)) ac =
      fun j => if k ≤ j then (match om[j - k]? with | some x => f x | none => ac j) else ac j := by
  induction om generalizing k ac with
  | nil => simp
  | cons x om ih =>
    rw [List.zipIdx_cons, List.foldl_cons, ih]
    funext j
    rcases Nat.lt_trichotomy j k with h | h | h
    · simp [put1, Nat.not_le.2 h, Nat.not_le.2 (Nat.lt_succ_of_lt h), (Nat.ne_of_lt h)]
    · simp [put1, h]
    · have h1 : j - k = (j - (k + 1)) + 1 := by omega
      rw [if_pos (Nat.succ_le_of_lt h), if_pos h.le, h1, List.getElem?_cons_succ]
      simp [put1, (Nat.ne_of_gt h)]

end Fill

theorem sandwichF_eq (nb : ℕ) (v v' : IMat) (hv : ∀ a b : ℤ, v' (a + 1) (b + 1) = v a b) (u u' : ℕ → ℂ) :
    sandwichF nb v' (toF1 u) (toF1 u') = sandwich nb v u u' := by
  refine foldl_shift0 _ _ _ (fun s i => ?_) 0
  refine foldl_shift0 _ _ _ (fun s j => ?_) s
  push_cast
  rw [hv]
  simp [toF1]

theorem sandwich_eq (nb : ℕ) (v : IMat) (u u' : ℕ → ℂ) : sandwich nb v u u' = matEl nb v u u' := by
  simp only [sandwich, matEl, foldl_add_sum, list_sum_range, zero_add]

theorem prodAc_backend (nb : ℕ) (bs : (ℕ → ℕ → ℝ) × Arr3 ℂ) (hops : List AcHop) (kmesh : ℕ → Vec3 ℝ) (beta mu : ℝ)
    (comp : Fin 3 × Fin 3) (bd : ℕ × ℕ) :
    (ofF3 (prodAcF nb (toF2 bs.1) (toF3 bs.2) (shiftInd hops) (toF1 kmesh) beta mu comp (bd.1 + 1) (bd.2 + 1)).1,
     ofF3 (prodAcF nb (toF2 bs.1) (toF3 bs.2) (shiftInd hops) (toF1 kmesh) beta mu comp (bd.1 + 1) (bd.2 + 1)).2) =
      prodAc nb bs.1 bs.2 hops kmesh beta mu comp bd.1 bd.2 (fun _ _ _ => 0, fun _ _ _ => 0) := by
  have hs : ∀ (c : Fin 3) (i m n : ℕ), sandwichF nb (velMat (shiftInd hops) (toF1 kmesh (i + 1)) c)
      (fun ib => toF3 bs.2 ib (n + 1) (i + 1)) (fun ib => toF3 bs.2 ib (m + 1) (i + 1)) =
      sandwich nb (velMat hops (kmesh i) c) (bs.2 i n) (bs.2 i m) := fun c i m n =>
    sandwichF_eq nb _ _ (fun a b => velMat_shift hops (kmesh i) c a b) (bs.2 i n) (bs.2 i m)
  simp only [prodAcF, prodAc, fillCF, fillC, fillC_rev, fillC_ijl, mem_bound, List.mem_range, List.mem_range'_1]
  refine Prod.ext ?_ ?_ <;> funext i j l <;> simp only [ofF3, hs, toF2, Nat.add_sub_cancel]
  · congr 1
    apply propext
    omega
  · congr 1
    apply propext
    refine and_congr ?_ Iff.rfl
    omega

theorem acLocal_backend (L : Lind) (bs : (ℕ → ℕ → ℝ) × Arr3 ℂ) (hops : List AcHop) (kmesh : ℕ → Vec3 ℝ)
    (comp : Fin 3 × Fin 3) (bd : ℕ × ℕ) :
    L.acLocal true bs hops kmesh comp bd = L.acLocal false bs hops kmesh comp bd := by
  have hp := prodAc_backend L.D.nb bs hops kmesh L.beta L.mu comp bd
  simp only [Lind.acLocal, if_true, Bool.false_eq_true, if_false, acCondKernelF, acCondKernel]
  rw [← hp]
  generalize prodAcF L.D.nb (toF2 bs.1) (toF3 bs.2) (shiftInd hops) (toF1 kmesh) L.beta L.mu comp (bd.1 + 1) (bd.2 + 1) = r
  rw [put1_foldl (fun om => kjlSumF L.D.nb (bd.1 + 1) (bd.2 + 1) fun ik mm nn =>
      r.2 nn mm ik / ((r.1 nn mm ik : ℂ) - (om : ℂ) - (0 + Complex.I * (L.delta : ℂ)))),
    put1_foldl (fun om => kjlSum L.D.nb bd.1 bd.2 fun ik mm nn =>
      (ofF3 r.1, ofF3 r.2).2 ik mm nn / ((((ofF3 r.1, ofF3 r.2) : Arr3 ℝ × Arr3 ℂ).1 ik mm nn : ℂ) - (om : ℂ) - Complex.I * (L.delta : ℂ)))]
  funext i
  simp only [Nat.le_add_left, if_true, Nat.add_sub_cancel, Nat.zero_le, Nat.sub_zero]
  cases L.omegas[i]? with
  | none => rfl
  | some om => exact kjlSumF_eq _ _ _ _ _ (fun i j l => by simp [ofF3])

/-! ## Sum over the processes -/

theorem acLocal_eq (L : Lind) (pos : ℤ → Vec3 ℝ) (eng : List ℝ) (hops : List (Cell × Pair × ℂ)) (s : (ℕ → ℕ → ℝ) × Arr3 ℂ)
    (kc : ℕ → Vec3 ℝ) (comp : Fin 3 × Fin 3) (bd : ℕ × ℕ) (iw : ℕ) :
    L.acLocal false s (acHops L.lat pos hops) kc comp bd iw = match L.omegas[iw]? with
      | some om => ((List.range' bd.1 (bd.2 + 1 - bd.1)).map fun k => kuboTerm L pos eng hops comp s kc om k).sum
      | none => 0 := by
  simp only [Lind.acLocal, Bool.false_eq_true, if_false, acCondKernel]
  rw [put1_foldl (fun om => kjlSum L.D.nb bd.1 bd.2 fun ik mm nn =>
      (prodAc L.D.nb s.1 s.2 (acHops L.lat pos hops) kc L.beta L.mu comp bd.1 bd.2 (fun _ _ _ => 0, fun _ _ _ => 0)).2 ik mm nn /
      (((prodAc L.D.nb s.1 s.2 (acHops L.lat pos hops) kc L.beta L.mu comp bd.1 bd.2
        (fun _ _ _ => 0, fun _ _ _ => 0)).1 ik mm nn : ℂ) - (om : ℂ) - Complex.I * (L.delta : ℂ)))]
  simp only [Nat.zero_le, if_true, Nat.sub_zero]
  cases L.omegas[iw]? with
  | none => rfl
  | some om =>
    simp only [kjlSum_eq]
    congr 1
    refine List.map_congr_left fun k hk => ?_
    rw [kuboTerm]
    rw [mem_bound] at hk
    refine Finset.sum_congr rfl fun m hm => Finset.sum_congr rfl fun n hn => ?_
    rw [Finset.mem_range] at hm hn
    simp only [prodAc, fillC, fillC_ijl, mem_bound, List.mem_range, hk, hm, hn, and_self, true_and, if_true]
    split
    · simp only [velMat_eq L.lat pos eng hops, sandwich_eq, fermiOcc]
      push_cast
      ring
    · simp

theorem ac_run (L : Lind) (w : World) (buf : ℕ → Buf) (fortran : Bool) (pos : ℤ → Vec3 ℝ) (eng : List ℝ)
    (hops : List (Cell × Pair × ℂ)) (comp : Option (Fin 3 × Fin 3)) (hn : w.size ≤ L.numKpt) (r : ℕ) (hr : r < w.size) :
    (L.acCond w buf fortran pos hops comp).map (fun d => d r) = acSpec L pos eng hops comp := by
  have hb : L.acLocal fortran = L.acLocal false := by
    cases fortran
    · rfl
    · funext bs hops kmesh comp bd; exact acLocal_backend L bs hops kmesh comp bd
  cases hk : L.frac2cart ((buildKmeshGrid L.mesh).map L.grid2frac) with
  | error e => simp [Lind.acCond, acSpec, hk, bind, Except.bind, Except.map]
  | ok km =>
  cases comp with
  | none => simp [Lind.acCond, acSpec, hk, bind, Except.bind, Except.map]
  | some comp =>
  have hst := fun r hr => C44_states_local L.D w buf L.numKpt L.kFrac 1 r hr
  cases hs : statesSpec L.D L.numKpt L.kFrac 1 with
  | error e =>
    have h0 := map_eq_error ((hst 0 w.pos).trans (by rw [hs]; rfl))
    simp [Lind.acCond, acSpec, hk, hs, h0, bind, Except.bind, Except.map]
  | ok s =>
    obtain ⟨bs, hbs, _⟩ := map_eq_ok ((hst 0 w.pos).trans (by rw [hs]; rfl))
    have hbs' : ∀ r < w.size, ∀ k ∈ rangeElems (distRange w L.numKpt r), (bs r).1 k = s.1 k ∧ (bs r).2 k = s.2 k := by
      intro r hr k hk
      obtain ⟨bs', h1, h2⟩ := map_eq_ok ((hst r hr).trans (by rw [hs]; rfl))
      rw [hbs] at h1
      cases h1
      have hk' : (distRange w L.numKpt r).1 ≤ k ∧ k < (distRange w L.numKpt r).2 := by
        rw [rangeElems, List.mem_range'_1] at hk
        omega
      rw [h2]
      simp only [hk', and_self, if_true]
    choose! g hg1 hg2 using fun r hr => bound_mem w L.numKpt r hr hn
    obtain ⟨bd, hbd, hbd'⟩ := onRanks_ok w (fun r => distBound w L.numKpt r) g hg1
    have hbd2 : ∀ r < w.size, rangeElems (distRange w L.numKpt r) = List.range' (bd r).1 ((bd r).2 + 1 - (bd r).1) := by
      intro r hr
      rw [hbd' r hr]
      exact hg2 r hr
    simp only [Lind.acCond, acSpec, hk, hs, hbs, hbd, hb, bind, Except.bind, Except.map]
    congr 1
    funext iw
    have hred : allReduce w (fun r => L.acLocal false (bs r) (acHops L.lat pos hops) (fun i => km.getD i 0) comp (bd r)) r iw =
        match L.omegas[iw]? with
        | some om => kuboSum L pos eng hops comp s (fun i => km.getD i 0) om
        | none => 0 := by
      rw [allReduce_apply]
      cases ho : L.omegas[iw]? with
      | none =>
        rw [allReduce_const w _ 0 (fun r _ => by simp only [acLocal_eq L pos eng hops, ho]) r hr]
        simp
      | some om =>
        rw [allReduce_sums w L.numKpt (fun k => kuboTerm L pos eng hops comp s (fun i => km.getD i 0) om k) _ _ r hr]
        · rw [list_sum_range]
          rfl
        · intro r hr
          simp only [acLocal_eq L pos eng hops, ho]
          rw [← hbd2 r hr]
          congr 1
          refine List.map_congr_left fun k hk => ?_
          rw [kuboTerm, kuboTerm, (hbs' r hr k hk).1, (hbs' r hr k hk).2]
    rw [hred]
    have hpre : (if L.dim = 2 then (L.gs : ℂ) * Complex.I / ((latticeArea L.lat 2 * L.numKpt : ℝ) : ℂ)
      else (L.gs : ℂ) * Complex.I / ((latticeVolume L.lat * L.numKpt : ℝ) : ℂ)) =
      (L.gs : ℂ) * Complex.I / ((cellSize L * L.numKpt : ℝ) : ℂ) := by
      unfold cellSize
      split
      · rfl
      · rw [(C38_volume_area L.lat).1]
    rw [hpre]
    cases L.omegas[iw]? with
    | none => simp
    | some om => simp only; ring

end Verif

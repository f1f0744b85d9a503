import Verif.Spec.Z2
import Verif.Proof.ParallelDiag
import Mathlib.LinearAlgebra.Matrix.Charpoly.Coeff
import Mathlib.Algebra.Polynomial.Roots

/-! # Proofs about the Wilson loop -/

namespace Verif.Z2
open Matrix

theorem charpoly_diag {n : ℕ} (E : Fin n → ℂ) : (Matrix.diagonal E).charpoly.roots = Finset.univ.val.map E := by
  rw [Matrix.charpoly_diagonal]
  have := Polynomial.roots_multiset_prod_X_sub_C (Finset.univ.val.map E)
  rw [Multiset.map_map] at this
  exact this

theorem spectrum_perm {n : ℕ} (H V : Matrix (Fin n) (Fin n) ℂ) (E : Fin n → ℂ) (hV : Vᴴ * V = 1)
    (hE : H * V = V * Matrix.diagonal E) : H.charpoly.roots = Finset.univ.val.map E := by
  have hV' : V * Vᴴ = 1 := mul_eq_one_comm.1 hV
  have h1 : H = V * Matrix.diagonal E * Vᴴ := by rw [← hE, mul_assoc, hV', mul_one]
  rw [h1, Matrix.charpoly_mul_comm, ← mul_assoc, hV, one_mul, charpoly_diag]

/-- Two eigensystems of a gapped matrix differ by a unitary matrix of the occupied states. -/
theorem gauge {n m : ℕ} (hm : m ≤ n) (H V V' : Matrix (Fin n) (Fin n) ℂ) (E E' : Fin n → ℝ) (hV : Vᴴ * V = 1)
    (hV' : V'ᴴ * V' = 1) (hE : H * V = V * Matrix.diagonal fun i => (E i : ℂ))
    (hE' : H * V' = V' * Matrix.diagonal fun i => (E' i : ℂ)) (μ : ℝ)
    (h1 : ∀ i : Fin n, m ≤ (i : ℕ) → μ < E i) (h2 : ∀ i : Fin n, (i : ℕ) < m → E' i < μ) :
    ∃ U : Matrix (Fin m) (Fin m) ℂ, Uᴴ * U = 1 ∧
      V'.submatrix id (Fin.castLE hm) = V.submatrix id (Fin.castLE hm) * U := by
  have hVV : V * Vᴴ = 1 := mul_eq_one_comm.1 hV
  have hVV' : V' * V'ᴴ = 1 := mul_eq_one_comm.1 hV'
  have hH : Vᴴ * H = (Matrix.diagonal fun i => (E i : ℂ)) * Vᴴ := by
    calc Vᴴ * H = Vᴴ * (H * (V * Vᴴ)) := by rw [hVV, mul_one]
      _ = Vᴴ * V * (Matrix.diagonal fun i => (E i : ℂ)) * Vᴴ := by rw [← mul_assoc H, hE]; simp only [mul_assoc]
      _ = _ := by rw [hV, one_mul]
  have hW : (Matrix.diagonal fun i => (E i : ℂ)) * (Vᴴ * V') = (Vᴴ * V') * Matrix.diagonal fun i => (E' i : ℂ) := by
    rw [← mul_assoc, ← hH, mul_assoc, hE', mul_assoc]
  have hz : ∀ i j : Fin n, m ≤ (i : ℕ) → (j : ℕ) < m → (Vᴴ * V') i j = 0 := by
    intro i j hi hj
    have := congrFun (congrFun hW i) j
    rw [Matrix.diagonal_mul, Matrix.mul_diagonal] at this
    have h3 : ((E i : ℂ) - E' j) * (Vᴴ * V') i j = 0 := by linear_combination this
    rcases mul_eq_zero.1 h3 with h4 | h4
    · exfalso
      have h5 : E i = E' j := by
        have := sub_eq_zero.1 h4
        exact_mod_cast this
      have := h1 i hi
      have := h2 j hj
      linarith
    · exact h4
  have hU : V' = V * (Vᴴ * V') := by rw [← mul_assoc, hVV, one_mul]
  have split : ∀ f : Fin n → ℂ, (∀ i : Fin n, m ≤ (i : ℕ) → f i = 0) → ∑ i, f i = ∑ i : Fin m, f (Fin.castLE hm i) := by
    intro f hf
    symm
    rw [← Finset.sum_image (f := f) (s := Finset.univ) (g := Fin.castLE hm) (fun a _ b _ h => Fin.castLE_injective hm h)]
    refine Finset.sum_subset (Finset.subset_univ _) fun i _ hi => hf i ?_
    by_contra hlt
    exact hi (Finset.mem_image.2 ⟨⟨i, by omega⟩, Finset.mem_univ _, rfl⟩)
  refine ⟨(Vᴴ * V').submatrix (Fin.castLE hm) (Fin.castLE hm), ?_, ?_⟩
  · have hWW : (Vᴴ * V')ᴴ * (Vᴴ * V') = 1 := by
      rw [Matrix.conjTranspose_mul, Matrix.conjTranspose_conjTranspose, mul_assoc, ← mul_assoc V, hVV, one_mul, hV']
    ext a b
    have := congrFun (congrFun hWW (Fin.castLE hm a)) (Fin.castLE hm b)
    rw [Matrix.mul_apply, split _ (fun i hi => by rw [hz i _ hi b.2, mul_zero])] at this
    rw [Matrix.mul_apply]
    simp only [Matrix.conjTranspose_apply, Matrix.submatrix_apply] at this ⊢
    rw [this, Matrix.one_apply, Matrix.one_apply]
    simp
  · ext o b
    have h3 : V' o (Fin.castLE hm b) = ∑ i, V o i * (Vᴴ * V') i (Fin.castLE hm b) := by
      rw [← Matrix.mul_apply, ← hU]
    rw [split _ (fun i hi => by rw [hz i _ hi b.2, mul_zero])] at h3
    rw [Matrix.mul_apply]
    exact h3

/-- A path of states and a path of gauge transformed states. -/
def Gauged {nb m : ℕ} (v v' : Matrix (Fin nb) (Fin m) ℂ) : Prop := ∃ U : Matrix (Fin m) (Fin m) ℂ, Uᴴ * U = 1 ∧ v' = v * U

theorem path_gauge {nb m : ℕ} (vs vs' : List (Matrix (Fin nb) (Fin m) ℂ)) (h : List.Forall₂ Gauged vs vs')
    (v v' z z' : Matrix (Fin nb) (Fin m) ℂ) (U W : Matrix (Fin m) (Fin m) ℂ) (hv : v' = v * U) (hz : z' = z * W) :
    pathMat v' vs' z' = Uᴴ * pathMat v vs z * W := by
  induction h generalizing v v' U with
  | nil => simp only [pathMat, overlap, hv, hz, Matrix.conjTranspose_mul, mul_assoc, Matrix.mul_assoc]
  | cons hab _ ih =>
    obtain ⟨T, hT, hT'⟩ := hab
    have hTT : T * Tᴴ = 1 := mul_eq_one_comm.1 hT
    rw [pathMat, pathMat, ih _ _ T hT']
    subst hT' hv
    simp only [overlap, Matrix.conjTranspose_mul, Matrix.mul_assoc]
    rw [← Matrix.mul_assoc T, hTT, Matrix.one_mul]

theorem loop_gauge {nb m : ℕ} (vs vs' : List (Matrix (Fin nb) (Fin m) ℂ)) (h : List.Forall₂ Gauged vs vs') :
    (loopMat vs').charpoly = (loopMat vs).charpoly := by
  cases h with
  | nil => rfl
  | cons hab h =>
    obtain ⟨T, hT, hT'⟩ := hab
    have hTT : T * Tᴴ = 1 := mul_eq_one_comm.1 hT
    rw [loopMat, loopMat, path_gauge _ _ h _ _ _ _ T T hT' hT', Matrix.mul_assoc, Matrix.charpoly_mul_comm,
      Matrix.mul_assoc, hTT, Matrix.mul_one]

theorem phaseRow_congr {n : ℕ} (geev geev' : Matrix (Fin n) (Fin n) ℂ → List ℂ) (h : GeevOk geev) (h' : GeevOk geev')
    (d d' : Matrix (Fin n) (Fin n) ℂ) (hd : d'.charpoly = d.charpoly) : phaseRow geev' d' = phaseRow geev d := by
  have hp : (geev' d').Perm (geev d) := Multiset.coe_eq_coe.1 (by rw [h, h', hd])
  have hp2 : ((dEigenvalues geev' d').map evalPhase).Perm ((dEigenvalues geev d).map evalPhase) :=
    (((List.mergeSort_perm _ _).trans hp).trans (List.mergeSort_perm _ _).symm).map _
  have tr : ∀ a b c : ℝ, decide (a ≤ b) = true → decide (b ≤ c) = true → decide (a ≤ c) = true := by
    intro a b c; simp only [decide_eq_true_eq]; exact le_trans
  have tot : ∀ a b : ℝ, (decide (a ≤ b) || decide (b ≤ a)) = true := by
    intro a b; simpa using le_total a b
  refine List.Perm.eq_of_pairwise (le := fun a b : ℝ => decide (a ≤ b) = true) ?_ (List.pairwise_mergeSort tr tot _) (List.pairwise_mergeSort tr tot _)
    (((List.mergeSort_perm _ _).trans hp2).trans (List.mergeSort_perm _ _).symm)
  intro a b _ _ h1 h2
  simp only [decide_eq_true_eq] at h1 h2
  exact le_antisymm h1 h2

/-! ## The loop of the code -/

theorem hEig_buf (D : Diag) (buf : Buf) (k : Vec3 ℝ) : hEigenstates D buf k = hEigenstates D (none, none) k := by
  simp only [hEigenstates, diagDense_buf D buf]

/-- The states of a k-point as an array. -/
def stArr (D : Diag) (k : Vec3 ℝ) : ℕ → ℕ → ℂ := fun o => fancy ((eigVal D k 1).2 o) (D.argsort (eigVal D k 1).1)

theorem hEig_cases (D : Diag) (k : Vec3 ℝ) :
    (∃ e, hEigenstates D (none, none) k = .error e ∧ eigen D k 1 = .error e) ∨
    ∃ b, hEigenstates D (none, none) k = .ok (b, stArr D k) ∧ eigen D k 1 = .ok (eigVal D k 1) := by
  rcases diag_eigen D k 1 with ⟨e, h1, h2⟩ | ⟨b, h1, h2⟩
  · exact .inl ⟨e, by rw [hEigenstates, h1], h2⟩
  · exact .inr ⟨b, by rw [hEigenstates, h1]; rfl, h2⟩

theorem occ_eq (D : Diag) (nocc : ℕ) (k : Vec3 ℝ) (h : eigen D k 1 = .ok (eigVal D k 1)) :
    occ D nocc k = Matrix.of fun (o : Fin D.nb) (i : Fin nocc) => stArr D k o i := by
  ext o i
  simp only [occ, Matrix.of_apply, h, stArr]

theorem fMat_eq (nb nocc : ℕ) (a b : ℕ → ℕ → ℂ) : fMat nb nocc a b =
    overlap (Matrix.of fun (o : Fin nb) (i : Fin nocc) => a o i) (Matrix.of fun o i => b o i) := by
  ext i j
  rw [fMat, overlap, Matrix.mul_apply, Matrix.of_apply, foldl_add_sum, zero_add, ← List.sum_ofFn]
  simp only [Matrix.conjTranspose_apply, Matrix.of_apply]
  rw [List.ofFn_eq_map, ← List.map_coe_finRange_eq_range, List.map_map]
  rfl

theorem eigen_val (D : Diag) (k : Vec3 ℝ) (q : (ℕ → ℝ) × (ℕ → ℕ → ℂ)) (h : eigen D k 1 = .ok q) : eigVal D k 1 = q := by
  rw [eigVal, h]; rfl

theorem hEig_ok (D : Diag) (buf : Buf) (k : Vec3 ℝ) (h : ∃ q, eigen D k 1 = .ok q) :
    ∃ b, hEigenstates D buf k = .ok (b, stArr D k) := by
  rw [hEig_buf]
  obtain ⟨q, hq⟩ := h
  rcases hEig_cases D k with ⟨e, h1, h2⟩ | ⟨b, h1, h2⟩
  · rw [hq] at h2; cases h2
  · exact ⟨b, h1⟩

theorem wilsonStep_fold (D : Diag) (nocc : ℕ) (kb kc : ℝ) (kas : List ℝ)
    (h : ∀ a ∈ kas, ∃ q, eigen D ![a, kb, kc] 1 = .ok q) (k0 z : Vec3 ℝ) (h0 : ∃ q, eigen D k0 1 = .ok q)
    (hz : ∃ q, eigen D z 1 = .ok q) (b : Buf) (M : Matrix (Fin nocc) (Fin nocc) ℂ) :
    ∃ st, kas.foldlM (wilsonStep D nocc kb kc) (b, M, stArr D k0) = .ok st ∧
      st.2.1 * fMat D.nb nocc st.2.2 (stArr D z) =
        M * pathMat (occ D nocc k0) (kas.map fun a => occ D nocc ![a, kb, kc]) (occ D nocc z) := by
  have ho : ∀ k, (∃ q, eigen D k 1 = .ok q) →
      (Matrix.of fun (o : Fin D.nb) (i : Fin nocc) => stArr D k o i) = occ D nocc k := by
    rintro k ⟨q, hq⟩
    rw [occ_eq D nocc k (by rw [eigen_val D k q hq, hq])]
  induction kas generalizing k0 b M with
  | nil => exact ⟨_, rfl, by rw [fMat_eq, ho _ h0, ho _ hz]; rfl⟩
  | cons a kas ih =>
    have ha := h a (by simp)
    obtain ⟨b', hb⟩ := hEig_ok D b ![a, kb, kc] ha
    obtain ⟨st, h1, h2⟩ := ih (fun x hx => h x (by simp [hx])) ![a, kb, kc] ha b' (M * fMat D.nb nocc (stArr D k0) (stArr D ![a, kb, kc]))
    refine ⟨st, ?_, ?_⟩
    · rw [List.foldlM_cons, wilsonStep]
      simp only [hb]
      exact h1
    · rw [h2, fMat_eq, ho _ h0, ho _ ha, Matrix.mul_assoc]
      rfl

theorem wilson_eq (D : Diag) (nocc : ℕ) (buf : Buf) (ka : List ℝ) (kb kc : ℝ) (hne : ka ≠ [])
    (h : ∀ a ∈ ka, ∃ q, eigen D ![a, kb, kc] 1 = .ok q) :
    ∃ b, wilson D nocc buf ka kb kc = .ok (b, loopMat (ka.map fun a => occ D nocc ![a, kb, kc])) := by
  cases ka with
  | nil => exact absurd rfl hne
  | cons a kas =>
    have ha := h a (by simp)
    obtain ⟨b, hb⟩ := hEig_ok D buf ![a, kb, kc] ha
    obtain ⟨st, h1, h2⟩ := wilsonStep_fold D nocc kb kc kas (fun x hx => h x (by simp [hx])) ![a, kb, kc] ![a, kb, kc] ha ha b 1
    refine ⟨st.1, ?_⟩
    simp only [wilson, hb, h1, h2, Matrix.one_mul]
    rfl

theorem wilson_buf (D : Diag) (nocc : ℕ) (buf : Buf) (ka : List ℝ) (kb kc : ℝ) :
    wilson D nocc buf ka kb kc = wilson D nocc (none, none) ka kb kc := by
  cases ka with
  | nil => rfl
  | cons a kas => simp only [wilson, hEig_buf D buf]

/-- The loop matrix of a row as the code computes it. -/
def wMat (D : Diag) (nocc : ℕ) (ka : List ℝ) (kb kc : ℝ) : Buf × Matrix (Fin nocc) (Fin nocc) ℂ :=
  (wilson D nocc (none, none) ka kb kc).toOption.getD ((none, none), 0)

theorem foldl_one {B D' : Type*} (c : ℕ → D') (v : ℕ → B) (L : List ℕ) (s : D' × (ℕ → B)) :
    (L.foldl (fun (st : D' × (ℕ → B)) i => (c i, Function.update st.2 i (v i))) s).2 =
      fun i => if i ∈ L then v i else s.2 i := by
  have h : ∀ s : D' × (ℕ → B), (L.foldl (fun (st : D' × (ℕ → B)) i => (c i, Function.update st.2 i (v i))) s).2 =
      L.foldl (fun st i => Function.update st i (v i)) s.2 := by
    induction L with
    | nil => intro s; rfl
    | cons i L ih => intro s; rw [List.foldl_cons, ih]; rfl
  rw [h, foldl_update]

theorem calcPhases_eq (D : Diag) (nocc : ℕ) (geev : Matrix (Fin nocc) (Fin nocc) ℂ → List ℂ) (w : World)
    (buf : ℕ → Buf) (ka : List ℝ) (n : ℕ) (kb : ℕ → ℝ) (kc : ℝ) (r : ℕ) (hr : r < w.size) :
    (calcPhases D nocc geev w buf ka n kb kc).map (fun f => f r) =
      rowsOut (firstErr (fun i => wilson D nocc (none, none) ka (kb i) kc) (List.range n))
        (fun i => if i < n then (fun j => (phaseRow geev (wMat D nocc ka (kb i) kc).2).getD j 0) else 0) := by
  let row : ℕ → Except ParErr (Buf × Matrix (Fin nocc) (Fin nocc) ℂ) := fun i => wilson D nocc (none, none) ka (kb i) kc
  let put : Buf × (ℕ → ℕ → ℝ) → ℕ → Buf × Matrix (Fin nocc) (Fin nocc) ℂ → Buf × (ℕ → ℕ → ℝ) :=
    fun st ib v => (v.1, Function.update st.2 ib fun i => (phaseRow geev v.2).getD i 0)
  have hstep : phasesStep D nocc geev ka kb kc = rowStep row put := by
    funext st ib
    unfold phasesStep rowStep
    rw [wilson_buf]
    simp only [row]
    cases wilson D nocc (none, none) ka (kb ib) kc <;> rfl
  have hval : ∀ i v, row i = .ok v → wMat D nocc ka (kb i) kc = v := by
    intro i v h
    simp only [row] at h
    rw [wMat, h]
    rfl
  unfold calcPhases
  rw [hstep, onRanks_rows w n row put (fun i => wMat D nocc ka (kb i) kc) hval, rowsOut_map, rowsOut_map]
  apply rowsOut_congr
  intro _
  apply allReduce_rows w n (fun i j => (phaseRow geev (wMat D nocc ka (kb i) kc).2).getD j 0) _ _ r hr
  intro r hr
  simp only
  rw [if_pos hr]
  exact foldl_one (fun i => (wMat D nocc ka (kb i) kc).1) (fun i j => (phaseRow geev (wMat D nocc ka (kb i) kc).2).getD j 0) _ (buf r, 0)

theorem calcPhases_ok (D : Diag) (nocc : ℕ) (geev : Matrix (Fin nocc) (Fin nocc) ℂ → List ℂ) (w : World)
    (buf : ℕ → Buf) (ka : List ℝ) (n : ℕ) (kb : ℕ → ℝ) (kc : ℝ) (hne : ka ≠ [])
    (h : ∀ i < n, ∀ a ∈ ka, ∃ q, eigen D ![a, kb i, kc] 1 = .ok q) (r : ℕ) (hr : r < w.size) :
    (calcPhases D nocc geev w buf ka n kb kc).map (fun f => f r) =
      .ok fun i => if i < n then (fun j => (phaseRow geev (loopMat (ka.map fun a => occ D nocc ![a, kb i, kc]))).getD j 0) else 0 := by
  rw [calcPhases_eq D nocc geev w buf ka n kb kc r hr]
  have hno : firstErr (fun i => wilson D nocc (none, none) ka (kb i) kc) (List.range n) = none := by
    unfold firstErr
    rw [List.findSome?_eq_none_iff]
    intro i hi
    obtain ⟨b, hb⟩ := wilson_eq D nocc (none, none) ka (kb i) kc hne (h i (List.mem_range.1 hi))
    simp only [hb]
  rw [hno]
  simp only [rowsOut]
  congr 1
  funext i
  split
  · rename_i hi
    obtain ⟨b, hb⟩ := wilson_eq D nocc (none, none) ka (kb i) kc hne (h i hi)
    rw [wMat, hb]
    rfl
  · rfl

/-! ## Two eigensolvers -/

theorem sorted_count (μ : ℝ) (xs : List ℝ) (h : xs.Pairwise (· ≤ ·)) (i : ℕ) (hi : i < xs.length) :
    xs[i] < μ ↔ i < xs.countP fun x => decide (x < μ) := by
  induction xs generalizing i with
  | nil => simp at hi
  | cons x xs ih =>
    rw [List.pairwise_cons] at h
    by_cases hx : x < μ
    · rw [List.countP_cons_of_pos (by simpa using hx)]
      cases i with
      | zero => simpa using hx
      | succ i => simpa using ih h.2 i (by simpa using hi)
    · have h0 : xs.countP (fun x => decide (x < μ)) = 0 := by
        rw [List.countP_eq_zero]
        intro y hy
        have := h.1 y hy
        simp only [decide_eq_true_eq]
        push Not at hx ⊢
        linarith
      rw [List.countP_cons_of_neg (by simpa using hx), h0]
      constructor
      · intro h2
        exfalso
        apply hx
        cases i with
        | zero => simpa using h2
        | succ i =>
          have h3 := h.1 _ (List.getElem_mem (l := xs) (n := i) (by simpa using hi))
          simp only [List.getElem_cons_succ] at h2
          linarith
      · intro h; omega

/-- The sorted eigensystem of a k-point, as matrices. -/
theorem sorted_system (D : Diag) (hs : Sorts D) (k : Vec3 ℝ) (h : IMat) (ev : ℕ → ℝ) (vec : ℕ → ℕ → ℂ)
    (h0 : D.setOvl = none) (hh : D.setHam k 1 (fun _ _ => 0) = .ok h) (hz : D.zheev h = some (ev, vec)) (hok : EigOk D.nb h ev vec) :
    ∃ (V : Matrix (Fin D.nb) (Fin D.nb) ℂ) (E : Fin D.nb → ℝ), Vᴴ * V = 1 ∧
      (Matrix.of fun (i j : Fin D.nb) => h i j) * V = V * Matrix.diagonal (fun i => (E i : ℂ)) ∧
      (∀ (m : ℕ) (hm : m ≤ D.nb), occ D m k = V.submatrix id (Fin.castLE hm)) ∧
      (∀ (μ : ℝ) (i : Fin D.nb), E i < μ ↔ (i : ℕ) < ((Finset.range D.nb).filter fun i => ev i < μ).card) ∧
      (∀ i, ∃ j < D.nb, E i = ev j) ∧
      (Finset.univ.val.map E : Multiset ℝ) = (Multiset.range D.nb).map ev := by
  obtain ⟨hp, hsd⟩ := hs ev
  set L := D.argsort ev with hL
  have hlen : L.length = D.nb := by rw [hp.length_eq, List.length_range]
  have hlt : ∀ (i : ℕ) (hi : i < L.length), L[i] < D.nb := fun i hi => by
    have := hp.mem_iff.1 (List.getElem_mem hi)
    simpa using this
  have hnd : L.Nodup := hp.nodup_iff.2 List.nodup_range
  have he : eigen D k 1 = .ok (ev, vec) := by simp only [eigen, h0, hh, hz]
  have hmap : (List.ofFn fun i : Fin D.nb => ev (L[(i : ℕ)]'(by rw [hlen]; exact i.2))) = L.map ev := by
    apply List.ext_getElem
    · simp [hlen]
    · intro i h1 h2
      simp
  refine ⟨Matrix.of fun o i => vec o (L[(i : ℕ)]'(by rw [hlen]; exact i.2)), fun i => ev (L[(i : ℕ)]'(by rw [hlen]; exact i.2)), ?_, ?_, ?_, ?_, ?_, ?_⟩
  · ext i j
    rw [Matrix.mul_apply]
    simp only [Matrix.conjTranspose_apply, Matrix.of_apply]
    have := hok.1 _ (hlt i (by rw [hlen]; exact i.2)) _ (hlt j (by rw [hlen]; exact j.2))
    rw [Finset.sum_range] at this
    rw [this, Matrix.one_apply]
    simp only [hnd.getElem_inj_iff, Fin.ext_iff]
  · ext o i
    rw [Matrix.mul_apply, Matrix.mul_diagonal]
    simp only [Matrix.of_apply]
    have := hok.2 _ (hlt i (by rw [hlen]; exact i.2)) o o.2
    rw [Finset.sum_range] at this
    rw [this, mul_comm]
  · intro m hm
    ext o i
    simp only [occ, he, Matrix.of_apply, Matrix.submatrix_apply, id, fancy, Fin.val_castLE]
    rw [List.getElem?_eq_getElem (by rw [← hL, hlen]; omega)]
  · intro μ i
    have := sorted_count μ (L.map ev) hsd i (by simp [hlen])
    rw [List.getElem_map] at this
    rw [this, List.countP_map, hp.countP_eq, List.countP_eq_length_filter]
    rfl
  · exact fun i => ⟨_, hlt i (by rw [hlen]; exact i.2), rfl⟩
  · rw [← Multiset.coe_range, Multiset.map_coe, ← Multiset.coe_eq_coe.2 (hp.map ev), ← hmap, List.ofFn_eq_map]
    rfl

/-- Two solvers of the same gapped Hamiltonian. -/
theorem occ_gauged (D : Diag) (zheev' : IMat → Option ((ℕ → ℝ) × (ℕ → ℕ → ℂ))) (argsort' : (ℕ → ℝ) → List ℕ)
    (hs : Sorts D) (hs' : Sorts { D with zheev := zheev', argsort := argsort' }) (k : Vec3 ℝ) (hk : SolvedAt D k)
    (hk' : SolvedAt { D with zheev := zheev', argsort := argsort' } k) (nocc : ℕ) (hg : GapAt D nocc k) :
    Gauged (occ D nocc k) (occ { D with zheev := zheev', argsort := argsort' } nocc k) := by
  obtain ⟨h0, h, ev, vec, h1, h2, h3⟩ := hk
  obtain ⟨h0', h', ev', vec', h1', h2', h3'⟩ := hk'
  simp only at h1' h2' h3'
  obtain rfl : h = h' := by rw [h1] at h1'; injection h1'
  obtain ⟨V, E, a1, a2, a3, a4, a5, a6⟩ := sorted_system D hs k h ev vec h0 h1 h2 h3
  obtain ⟨V', E', b1, b2, b3, b4, b5, b6⟩ := sorted_system { D with zheev := zheev', argsort := argsort' } hs' k h ev' vec' h0' h1' h2' h3'
  simp only at V' E' b1 b2 b3 b4 b5 b6
  obtain ⟨ev0, vec0, he, μ, hc, hne⟩ := hg
  have : eigen D k 1 = .ok (ev, vec) := by simp only [eigen, h0, h1, h2]
  rw [this] at he
  injection he with he
  obtain ⟨rfl, rfl⟩ := Prod.mk.inj he
  have hroots : (Finset.univ.val.map fun i => (E i : ℂ)) = Finset.univ.val.map fun i => (E' i : ℂ) := by
    rw [← spectrum_perm _ V _ a1 a2, ← spectrum_perm _ V' _ b1 b2]
  have hE : Finset.univ.val.map E = Finset.univ.val.map E' := by
    have := congrArg (Multiset.map Complex.re) hroots
    simpa only [Multiset.map_map, Function.comp_def, Complex.ofReal_re] using this
  have hcount : ((Finset.range D.nb).filter fun i => ev' i < μ).card = ((Finset.range D.nb).filter fun i => ev i < μ).card := by
    have e1 := a6.symm.trans (hE.trans b6)
    have e2 := congrArg (Multiset.countP (· < μ)) e1
    rw [Multiset.countP_map, Multiset.countP_map] at e2
    exact e2.symm
  have hm : nocc ≤ D.nb := by
    rw [← hc]
    exact (Finset.card_filter_le _ _).trans (by simp)
  obtain ⟨U, u1, u2⟩ := gauge hm _ V V' E E' a1 b1 a2 b2 μ
    (fun i hi => by
      have := a4 μ i
      rw [hc] at this
      obtain ⟨j, hj, hj'⟩ := a5 i
      have h5 := hne j hj
      rw [← hj'] at h5
      rcases lt_trichotomy (E i) μ with h | h | h
      · exact absurd (this.1 h) (by omega)
      · exact absurd h h5
      · exact h)
    (fun i hi => (b4 μ i).2 (by rw [hcount, hc]; exact hi))
  refine ⟨U, u1, ?_⟩
  rw [a3 nocc hm, ← u2]
  exact b3 nocc hm

end Verif.Z2

import Verif.Props.CellChoice
import Verif.Props.LindhardAC

/-! # Velocity operators of a cell and of an extension of it -/

namespace Verif.Props

open PrimCell Materials

section Fold

variable {d : Cell} {n N : ℕ}

/-- A complete set of orthonormal vectors. -/
theorem pairs_complete {h : IMat} {q : (ℕ → ℝ) × (ℕ → ℕ → ℂ)} (hq : Eigenpairs n n h q) {x l : ℕ} (hx : x < n) (hl : l < n) :
    ∑ j ∈ Finset.range n, q.2 x j * star (q.2 l j) = if x = l then 1 else 0 := by
  let Q : Matrix (Fin n) (Fin n) ℂ := fun a j => q.2 a j
  have h1 : Q.conjTranspose * Q = 1 := by
    ext j j'
    rw [Matrix.mul_apply, Matrix.one_apply]
    have := hq.orthonormal j j.2 j' j'.2
    rw [Finset.sum_range] at this
    simp only [Fin.val_inj] at this
    rw [← this]
    rfl
  have h0 : Q * Q.conjTranspose = 1 := mul_eq_one_comm.1 h1
  have h2 := congrFun (congrFun h0 ⟨x, hx⟩) ⟨l, hl⟩
  rw [Matrix.mul_apply, Matrix.one_apply] at h2
  rw [Finset.sum_range]
  simp only [Fin.mk.injEq] at h2
  rw [← h2]
  rfl

/-- Two operators which are intertwined by the phases have the same matrix elements. -/
theorem op_fold (hd : 1 ≤ d.1 ∧ 1 ≤ d.2.1 ∧ 1 ≤ d.2.2) (hN : (N : ℤ) = d.1 * d.2.1 * d.2.2 * n) {A' : ℕ → ℕ → ℂ} {A : Cell → ℕ → ℕ → ℂ}
    {ph : Cell → Cell → ℕ → ℂ} {q u : Cell → (ℕ → ℝ) × (ℕ → ℕ → ℂ)}
    (hph : ∀ m m', InBox d m → InBox d m' → ∀ i < n, ∑ I ∈ boxSet d, star (ph m' I i) * ph m I i =
      if m = m' then ((d.1 * d.2.1 * d.2.2 : ℤ) : ℂ) else 0)
    (hA : ∀ m, InBox d m → ∀ I, InBox d I → ∀ i < n, ∀ j < n, ∑ J ∈ boxSet d, A' (idx d n I i) (idx d n J j) * ph m J j = ph m I i * A m i j)
    {m m' : Cell} (hm : InBox d m) (hm' : InBox d m') {j l : ℕ} (hj : j < n) (hl : l < n) :
    bracket N A' (foldStates d n ph u) (foldStates d n ph q) (idx d n m' l) (idx d n m j) =
      if m = m' then bracket n (A m) (u m) (q m) l j else 0 := by
  let q1 : Cell → (ℕ → ℝ) × (ℕ → ℕ → ℂ) := fun m => ((q m).1, fun i j => ∑ x ∈ Finset.range n, A m i x * (q m).2 x j)
  have h1 : ∀ a ∈ Finset.range N, ∑ b ∈ Finset.range N, star ((foldStates d n ph u).2 a (idx d n m' l)) * A' a b * (foldStates d n ph q).2 b (idx d n m j) =
      star ((foldStates d n ph u).2 a (idx d n m' l)) * (foldStates d n ph q1).2 a (idx d n m j) * 1 := by
    intro a ha
    obtain ⟨I, i, hI, hi, rfl⟩ := idx_surj hd hN (Finset.mem_range.1 ha)
    rw [mul_one]
    have : ∑ b ∈ Finset.range N, A' (idx d n I i) b * (foldStates d n ph q).2 b (idx d n m j) = (foldStates d n ph q1).2 (idx d n I i) (idx d n m j) := by
      rw [sum_ext hd n _ N hN, Finset.sum_comm]
      set c := ((Real.sqrt ((d.1 * d.2.1 * d.2.2 : ℤ) : ℝ) : ℝ) : ℂ)⁻¹ with hc
      have h2 : ∀ x ∈ Finset.range n, ∑ J ∈ boxSet d, A' (idx d n I i) (extIdx d n J x).toNat * (foldStates d n ph q).2 (extIdx d n J x).toNat (idx d n m j) =
          c * (ph m I i * (A m i x * (q m).2 x j)) := by
        intro x hx
        have hx := Finset.mem_range.1 hx
        rw [show c * (ph m I i * (A m i x * (q m).2 x j)) = (c * (q m).2 x j) * (ph m I i * A m i x) by ring, ← hA m hm I hI i hi x hx, Finset.mul_sum]
        refine Finset.sum_congr rfl fun J hJ => ?_
        have hJ := (mem_boxSet _ _).1 hJ
        rw [show (extIdx d n J x).toNat = idx d n J x from rfl]
        unfold foldStates
        simp only [dec_idx hm hj, dec_idx hJ hx, ← hc]
        ring
      rw [Finset.sum_congr rfl h2]
      unfold foldStates
      simp only [dec_idx hm hj, dec_idx hI hi, ← hc, q1, Finset.mul_sum]
    rw [← this, Finset.mul_sum]
    exact Finset.sum_congr rfl fun b _ => by ring
  unfold bracket
  rw [Finset.sum_congr rfl h1, fold_overlap hd hN (ph := ph) (ph' := ph) (q := q1) (u := u) (g := fun _ => 1) (g' := fun _ => 1) (by
      intro m m' hm hm' i hi
      simp only [mul_one]
      exact hph m m' hm hm' i hi) hm hm' hj hl]
  by_cases h : m = m'
  · subst h
    simp only [if_true, mul_one, q1]
    refine Finset.sum_congr rfl fun i _ => ?_
    rw [Finset.mul_sum]
    exact Finset.sum_congr rfl fun b _ => by ring
  · rw [if_neg h, if_neg h]

end Fold

section Cells

variable {Λ : Type} {H : HashFns ℝ ℂ Λ} {lat : Mat3 ℝ} {o : Vec3 ℝ} {cs : List (Call ℝ ℂ Λ)} {ext : ℝ} {d : Cell} {t : PCObj ℝ ℂ Λ}

theorem extPhase_one (s : PrimCell ℝ ℂ Λ) (d : Cell) (k k' : Vec3 ℝ) : extPhase s 1 d k = extPhase s 1 d k' := by
  funext m I i
  simp [extPhase, foldPhase]

theorem dense_ok {s : PrimCell ℝ ℂ Λ} (h1 : s.numOrb ≠ 0) (h2 : s.hops.numHop ≠ 0) (k : Vec3 ℝ) :
    setHamDense s k 1 = .ok (setHam s.posAt s.arrEng s.hopRows 1 k fun _ _ => 0) := by
  unfold setHamDense
  rw [if_neg (by simp), if_neg h1, if_neg h2]
  rfl

/-- The Hamiltonians of the two cells are intertwined by the phases. -/
theorem ham_fold (hr : InRange H (init H lat o) cs) (hf : ArraysFresh (run H (init H lat o) cs)) (hd : 1 ≤ d.1 ∧ 1 ≤ d.2.1 ∧ 1 ≤ d.2.2)
    (ht : extendPrimCell H ⟨run H (init H lat o) cs, ext⟩ [d.1, d.2.1, d.2.2] = .ok t) (hft : ArraysFresh (syncArray H t.cell))
    (h1 : (run H (init H lat o) cs).numOrb ≠ 0) (h2 : (run H (init H lat o) cs).hops.numHop ≠ 0)
    (h1' : (syncArray H t.cell).numOrb ≠ 0) (h2' : (syncArray H t.cell).hops.numHop ≠ 0) (k k0 : Vec3 ℝ) (m I : Cell) (hI : InBox d I)
    {i j : ℕ} (hi : i < (run H (init H lat o) cs).numOrb) (hj : j < (run H (init H lat o) cs).numOrb) :
    ∑ J ∈ boxSet d, setHam (syncArray H t.cell).posAt (syncArray H t.cell).arrEng (syncArray H t.cell).hopRows 1 k (fun _ _ => 0)
        (idx d (run H (init H lat o) cs).numOrb I i) (idx d (run H (init H lat o) cs).numOrb J j) * extPhase (run H (init H lat o) cs) 1 d k0 m J j =
      extPhase (run H (init H lat o) cs) 1 d k0 m I i * setHam (run H (init H lat o) cs).posAt (run H (init H lat o) cs).arrEng
        (run H (init H lat o) cs).hopRows 1 (fun x => (k x + cellAt m x) / cellAt d x) (fun _ _ => 0) i j := by
  obtain ⟨t1, g1, -, -, -, g5, -⟩ := C33_extend H lat o cs hr ext d hd [d.1, d.2.1, d.2.2] (Or.inl rfl)
  rw [g1] at ht
  obtain rfl := Except.ok.inj ht
  have hfold := C34_folding H lat o cs hr hf ext d hd t1 g1 hft k (cellAt m) 1 _ _ (dense_ok h1 h2 _) (dense_ok h1' h2' _)
  rw [extPhase_one _ d k0 k]
  generalize hs : run H (init H lat o) cs = s at *
  generalize setHam (syncArray H t1.cell).posAt (syncArray H t1.cell).arrEng (syncArray H t1.cell).hopRows 1 k (fun _ _ => 0) = M' at *
  have hherm := C09_hermitian s.posAt s.arrEng s.hopRows 1 (fun x => (k x + cellAt m x) / cellAt d x) s.numOrb
  rw [show (IMat.zero : IMat) = fun _ _ => 0 from rfl] at hherm
  obtain ⟨q, hq⟩ := eigenpairs_exist hherm
  generalize setHam s.posAt s.arrEng s.hopRows 1 (fun x => (k x + cellAt m x) / cellAt d x) (fun _ _ => 0) = M at *
  set n := s.numOrb with hn
  have hcol : ∀ y < n, ∑ b ∈ Finset.range t1.cell.numOrb, M' (idx d n I i) b * (extPhase s 1 d k m (dec d n b).1 (dec d n b).2 * q.2 (dec d n b).2 y) =
      q.1 y * (extPhase s 1 d k m I i * q.2 i y) := by
    intro y hy
    have := (hfold (fun i => q.2 i y) (q.1 y) (fun i hi => hq.eigen y hy i hi)
      (fun b => extPhase s 1 d k m (dec d n b).1 (dec d n b).2 * q.2 (dec d n b).2 y) (by
      intro J a ob hJ hob
      have ha : a < n := (List.getElem?_eq_some_iff.1 hob).1
      have e := dec_idx (d := d) hJ ha
      rw [show (extIdx d n J a).toNat = idx d n J a from rfl, e, extPhase, orbFrac, hob, eiPhase_eq_exp]
      simp)).1 (idx d n I i) (idx_lt g5 hI hi)
    rw [this, dec_idx hI hi]
  have key : ∑ y ∈ Finset.range n, (∑ b ∈ Finset.range t1.cell.numOrb, M' (idx d n I i) b *
      (extPhase s 1 d k m (dec d n b).1 (dec d n b).2 * q.2 (dec d n b).2 y)) * star (q.2 j y) =
      ∑ y ∈ Finset.range n, (extPhase s 1 d k m I i * ∑ x ∈ Finset.range n, M i x * q.2 x y) * star (q.2 j y) := by
    refine Finset.sum_congr rfl fun y hy => ?_
    have hy := Finset.mem_range.1 hy
    rw [hcol y hy, hq.eigen y hy i hi]
    ring
  have eL : ∑ y ∈ Finset.range n, (∑ b ∈ Finset.range t1.cell.numOrb, M' (idx d n I i) b *
      (extPhase s 1 d k m (dec d n b).1 (dec d n b).2 * q.2 (dec d n b).2 y)) * star (q.2 j y) =
      ∑ J ∈ boxSet d, M' (idx d n I i) (idx d n J j) * extPhase s 1 d k m J j := by
    simp only [Finset.sum_mul]
    rw [Finset.sum_comm, sum_ext hd n _ _ g5]
    refine Finset.sum_congr rfl fun J hJ => ?_
    have hJ := (mem_boxSet _ _).1 hJ
    rw [Finset.sum_eq_single_of_mem j (Finset.mem_range.2 hj)]
    · have e := dec_idx (d := d) hJ hj
      have hc := pairs_complete hq hj hj
      rw [if_pos rfl] at hc
      rw [show (extIdx d n J j).toNat = idx d n J j from rfl, e]
      calc _ = M' (idx d n I i) (idx d n J j) * extPhase s 1 d k m J j * ∑ y ∈ Finset.range n, q.2 j y * star (q.2 j y) := by
            rw [Finset.mul_sum]; exact Finset.sum_congr rfl fun y _ => by ring
        _ = _ := by rw [hc, mul_one]
    · intro x hx hne
      have hx := Finset.mem_range.1 hx
      have e := dec_idx (d := d) hJ hx
      have hc := pairs_complete hq hx hj
      rw [if_neg hne] at hc
      rw [show (extIdx d n J x).toNat = idx d n J x from rfl, e]
      calc _ = M' (idx d n I i) (idx d n J x) * extPhase s 1 d k m J x * ∑ y ∈ Finset.range n, q.2 x y * star (q.2 j y) := by
            rw [Finset.mul_sum]; exact Finset.sum_congr rfl fun y _ => by ring
        _ = _ := by rw [hc, mul_zero]
  have eR : ∑ y ∈ Finset.range n, (extPhase s 1 d k m I i * ∑ x ∈ Finset.range n, M i x * q.2 x y) * star (q.2 j y) = extPhase s 1 d k m I i * M i j := by
    simp only [Finset.mul_sum, Finset.sum_mul]
    rw [Finset.sum_comm, Finset.sum_eq_single_of_mem j (Finset.mem_range.2 hj)]
    · have hc := pairs_complete hq hj hj
      rw [if_pos rfl] at hc
      calc _ = extPhase s 1 d k m I i * M i j * ∑ y ∈ Finset.range n, q.2 j y * star (q.2 j y) := by
            rw [Finset.mul_sum]; exact Finset.sum_congr rfl fun y _ => by ring
        _ = _ := by rw [hc, mul_one]
    · intro x hx hne
      have hc := pairs_complete hq (Finset.mem_range.1 hx) hj
      rw [if_neg hne] at hc
      calc _ = extPhase s 1 d k m I i * M i x * ∑ y ∈ Finset.range n, q.2 x y * star (q.2 j y) := by
            rw [Finset.mul_sum]; exact Finset.sum_congr rfl fun y _ => by ring
        _ = _ := by rw [hc, mul_zero]
  rw [← eL, key, eR]

/-- So are the velocity operators. -/
theorem vel_fold (hr : InRange H (init H lat o) cs) (hf : ArraysFresh (run H (init H lat o) cs)) (hd : 1 ≤ d.1 ∧ 1 ≤ d.2.1 ∧ 1 ≤ d.2.2)
    (ht : extendPrimCell H ⟨run H (init H lat o) cs, ext⟩ [d.1, d.2.1, d.2.2] = .ok t) (hft : ArraysFresh (syncArray H t.cell))
    (h1 : (run H (init H lat o) cs).numOrb ≠ 0) (h2 : (run H (init H lat o) cs).hops.numHop ≠ 0)
    (h1' : (syncArray H t.cell).numOrb ≠ 0) (h2' : (syncArray H t.cell).hops.numHop ≠ 0) {A A' : Mat3 ℝ} (hA : ∀ x y, A' x y = cellAt d x * A x y)
    (k0 : Vec3 ℝ) (m I : Cell) (hI : InBox d I) {K K' : Vec3 ℝ}
    (hK : ∀ x, dotProduct (A x) K / (2 * Real.pi) = (dotProduct (A' x) K' / (2 * Real.pi) + cellAt m x) / cellAt d x) (c : Fin 3)
    {i j : ℕ} (hi : i < (run H (init H lat o) cs).numOrb) (hj : j < (run H (init H lat o) cs).numOrb) :
    ∑ J ∈ boxSet d, velocity A' (syncArray H t.cell).posAt (syncArray H t.cell).arrEng (syncArray H t.cell).hopRows K' c
        (idx d (run H (init H lat o) cs).numOrb I i) (idx d (run H (init H lat o) cs).numOrb J j) * extPhase (run H (init H lat o) cs) 1 d k0 m J j =
      extPhase (run H (init H lat o) cs) 1 d k0 m I i * velocity A (run H (init H lat o) cs).posAt (run H (init H lat o) cs).arrEng
        (run H (init H lat o) cs).hopRows K c i j := by
  have hdx : ∀ x, (cellAt d x : ℝ) ≠ 0 := by
    intro x
    have : cellAt d x ≠ 0 := by fin_cases x <;> simp [cellAt] <;> omega
    exact_mod_cast this
  have hp : (2 * Real.pi) ≠ 0 := by positivity
  have hfun : (fun s : ℝ => ∑ J ∈ boxSet d, hamCart A' (syncArray H t.cell).posAt (syncArray H t.cell).arrEng (syncArray H t.cell).hopRows
        (K' + s • (Pi.single c 1 : Vec3 ℝ)) (idx d (run H (init H lat o) cs).numOrb I i) (idx d (run H (init H lat o) cs).numOrb J j) *
          extPhase (run H (init H lat o) cs) 1 d k0 m J j) =
      fun s : ℝ => extPhase (run H (init H lat o) cs) 1 d k0 m I i * hamCart A (run H (init H lat o) cs).posAt (run H (init H lat o) cs).arrEng
        (run H (init H lat o) cs).hopRows (K + s • (Pi.single c 1 : Vec3 ℝ)) i j := by
    funext s
    unfold hamCart
    rw [ham_fold hr hf hd ht hft h1 h2 h1' h2' _ k0 m I hI hi hj]
    congr 2
    congr 1
    funext x
    have h3 := hK x
    have h4 := hdx x
    have h5 : dotProduct (A' x) (Pi.single c 1 : Vec3 ℝ) = cellAt d x * dotProduct (A x) (Pi.single c 1 : Vec3 ℝ) := by
      simp only [dotProduct, hA, Finset.mul_sum]
      exact Finset.sum_congr rfl fun y _ => by ring
    rw [dotProduct_add, dotProduct_add, dotProduct_smul, dotProduct_smul, h5, add_div (dotProduct (A x) K), h3]
    simp only [smul_eq_mul]
    field_simp
    ring
  have hL := HasDerivAt.fun_sum (u := boxSet d) (x := (0 : ℝ)) fun J _ => (vel_hasDeriv A' (syncArray H t.cell).posAt (syncArray H t.cell).arrEng
    (syncArray H t.cell).hopRows K' c (idx d (run H (init H lat o) cs).numOrb I i) (idx d (run H (init H lat o) cs).numOrb J j)).mul_const
      (extPhase (run H (init H lat o) cs) 1 d k0 m J j)
  have hR := (vel_hasDeriv A (run H (init H lat o) cs).posAt (run H (init H lat o) cs).arrEng (run H (init H lat o) cs).hopRows K c i j).const_mul
    (extPhase (run H (init H lat o) cs) 1 d k0 m I i)
  rw [hfun] at hL
  have := hL.unique hR
  unfold velocity
  rw [(vel_hasDeriv A (run H (init H lat o) cs).posAt (run H (init H lat o) cs).arrEng (run H (init H lat o) cs).hopRows K c i j).deriv, ← this]
  exact Finset.sum_congr rfl fun J _ => by rw [(vel_hasDeriv A' _ _ _ K' c _ _).deriv]

end Cells

end Verif.Props

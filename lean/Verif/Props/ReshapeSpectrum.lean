import Verif.Props.ReshapeFold
import Verif.Props.Bloch
import Verif.Proof.FoldChar

/-! # Property C96: the spectrum of a reshaped cell -/

namespace Verif.Props

open PrimCell

variable {Λ : Type*}

/-- **C96 (the whole spectrum).** Under the restrictions of C95: let `M` be a complete set of representatives of the integer
vectors modulo `L` and `k m` the Bloch vector with `L (k m) = K + m`.  The characteristic polynomial of the Bloch Hamiltonian of
the reshaped cell at `K` is the product of those of the original cell at the points `k m`, in both conventions: the bands of the
reshaped cell are exactly the folded bands, with multiplicities. -/
theorem C96_spectrum_partial (H : HashFns ℝ ℂ Λ) (hH : ∀ l, l ≠ [] → H.orb l ≠ H.orb []) (query : BallQuery ℝ)
    (hq : IsBallQuery query) (lat : Mat3 ℝ) (o : Vec3 ℝ) (cs : List (Call ℝ ℂ Λ)) (hr : InRange H (init H lat o) cs)
    (s : PrimCell ℝ ℂ Λ) (hs : s = run H (init H lat o) cs) (hsync : SyncFresh H s) (hf : ArraysFresh s) (ext : ℝ)
    (Lz : Matrix (Fin 3) (Fin 3) ℤ) (hL : Lz.det ≠ 0) (delta tol : ℝ) (ht : TolSep Lz tol)
    (hpos : ∀ ob ∈ s.orbs, ∀ x, 0 ≤ ob.position x ∧ ob.position x < 1) (hz : ∀ j, ∃ i, Lz i j = 0)
    (hdel : ∀ j, |delta * ((∑ i, Lz i j : ℤ) : ℝ)| ≤ 1) (t : PCObj ℝ ℂ Λ)
    (hres : reshapePrimCell H query ⟨s, ext⟩ (Lz.map (fun z : ℤ => (z : ℝ))) delta tol = .ok t)
    (hft : ArraysFresh (syncArray H t.cell)) (K : Vec3 ℝ) (M : Finset (Fin 3 → ℤ))
    (hM : ∀ m, ∃! m0, m0 ∈ M ∧ ∃ z, m - m0 = Lz.mulVec z) (k : (Fin 3 → ℤ) → Vec3 ℝ)
    (hk : ∀ m ∈ M, ∀ x, ∑ y, (Lz x y : ℝ) * k m y = K x + m x) (conv : ℤ) (hams : (Fin 3 → ℤ) → IMat) (hamt : IMat)
    (hok : ∀ m ∈ M, setHamDense s (k m) conv = .ok (hams m))
    (hok' : setHamDense (syncArray H t.cell) K conv = .ok hamt) :
    (toMatrix t.cell.numOrb hamt).charpoly = ∏ m ∈ M, (toMatrix s.numOrb (hams m)).charpoly := by
  obtain ⟨ids, hlen, hnum, hidpos, hrep, hfold⟩ := C96_folding_partial H hH query hq lat o cs hr s hs hsync hf ext Lz hL delta tol
    ht hpos hz hdel t hres hft
  -- the number of Bloch vectors
  have hMcard : M.card = Lz.det.natAbs := by
    rw [card_reps (subLat Lz.transpose).toAddSubgroup M, ← Matrix.det_transpose, ← card_subLat (by rwa [Matrix.det_transpose])]
    · rfl
    · intro m
      obtain ⟨m0, ⟨h1, z, h2⟩, h3⟩ := hM m
      refine ⟨m0, ⟨h1, ?_⟩, ?_⟩
      · refine ⟨z, ?_⟩
        rw [h2, ← Matrix.vecMul_transpose]; rfl
      · rintro y ⟨y1, z', y2⟩
        refine h3 y ⟨y1, z', ?_⟩
        rw [← Matrix.vecMul_transpose]; exact y2.symm
  -- the cells of the images of orbital `j`
  let S : AddSubgroup Cell :=
    { carrier := {c | ∃ z, c = rowMul z Lz}
      add_mem' := by rintro a b ⟨z, rfl⟩ ⟨z', rfl⟩; exact ⟨z + z', (rowMul_add _ _ _).symm⟩
      zero_mem' := ⟨0, (rowMul_zero _).symm⟩
      neg_mem' := by rintro a ⟨z, rfl⟩; exact ⟨-z, (rowMul_neg _ _).symm⟩ }
  have hdec : ∀ a : Fin t.cell.numOrb, ∃ q : Cell × Fin s.numOrb, ids[(a : ℕ)]? = some (q.1, (q.2 : ℕ)) := by
    intro a
    have ha : (a : ℕ) < ids.length := by rw [hlen]; exact a.2
    obtain ⟨ob, -, h1, -⟩ := hidpos a _ _ (show ids[(a : ℕ)]? = some (ids[(a : ℕ)].1, ids[(a : ℕ)].2) from
      List.getElem?_eq_getElem ha)
    exact ⟨(ids[(a : ℕ)].1, ⟨ids[(a : ℕ)].2, (List.getElem?_eq_some_iff.1 h1).1⟩), List.getElem?_eq_getElem ha⟩
  choose dec hdec1 using hdec
  have hinj : ∀ a b : Fin t.cell.numOrb, dec a = dec b → a = b := by
    intro a b h
    obtain ⟨q, -, hu⟩ := hrep (dec a).1 (dec a).2 (dec a).2.2
    have e1 := hu (a, 0) (by simp only [rowMul_zero, sub_zero]; exact hdec1 a)
    have e2 := hu (b, 0) (by simp only [rowMul_zero, sub_zero]; rw [h]; exact hdec1 b)
    have e3 := congrArg Prod.fst (e1.trans e2.symm)
    exact Fin.ext e3
  let Rj : Fin s.numOrb → Finset Cell := fun j => (Finset.univ.filter fun a => (dec a).2 = j).image fun a => (dec a).1
  have hRj : ∀ j c, ∃! r, r ∈ Rj j ∧ c - r ∈ S := by
    intro j c
    obtain ⟨⟨a, z⟩, ha, hu⟩ := hrep c j j.2
    simp only at ha hu
    have hal : a < t.cell.numOrb := by
      rw [← hlen]; exact (List.getElem?_eq_some_iff.1 ha).1
    have hda : dec ⟨a, hal⟩ = (c - rowMul z Lz, j) := by
      have := hdec1 ⟨a, hal⟩
      simp only [ha, Option.some.injEq, Prod.mk.injEq] at this
      exact Prod.ext this.1.symm (Fin.ext this.2.symm)
    refine ⟨c - rowMul z Lz, ⟨?_, ?_⟩, ?_⟩
    · exact Finset.mem_image.2 ⟨⟨a, hal⟩, Finset.mem_filter.2 ⟨Finset.mem_univ _, by rw [hda]⟩, by rw [hda]⟩
    · exact ⟨z, by abel⟩
    · rintro r ⟨h1, z', h2⟩
      obtain ⟨b, hb, rfl⟩ := Finset.mem_image.1 h1
      have hbj := (Finset.mem_filter.1 hb).2
      have hz' := hu (b, z') (by
        simp only
        rw [hdec1 b, hbj, ← h2, sub_sub_cancel])
      have e2 := congrArg Prod.snd hz'
      simp only at e2
      rw [← e2, ← h2, sub_sub_cancel]
  have hRcard : ∀ j, (Rj j).card = Lz.det.natAbs := by
    intro j
    rw [← card_subLat hL, ← Finset.card_image_of_injective (Rj j) (f := cellFun) (fun a b h => cellFun_inj h),
      card_reps (subLat Lz).toAddSubgroup]
    · rfl
    · intro c
      obtain ⟨c, rfl⟩ := cellFun_surj c
      obtain ⟨r, ⟨h1, z, h2⟩, h3⟩ := hRj j c
      refine ⟨cellFun r, ⟨Finset.mem_image_of_mem _ h1, ?_⟩, ?_⟩
      · rw [← cellFun_sub]; exact (mem_subLat _).2 ⟨z, by rw [h2]⟩
      · rintro y ⟨y1, y2⟩
        obtain ⟨r', hr', rfl⟩ := Finset.mem_image.1 y1
        rw [← cellFun_sub] at y2
        obtain ⟨z', hz'⟩ := (mem_subLat _).1 y2
        rw [h3 r' ⟨hr', z', (cellFun_inj hz').symm⟩]
  let τ' : Fin t.cell.numOrb → Vec3 ℝ := fun a => t.cell.orbs[(a : ℕ)]?.elim 0 Orbital.position
  let τ : Fin s.numOrb → Vec3 ℝ := fun a => s.orbs[(a : ℕ)]?.elim 0 Orbital.position
  have hτ : ∀ a y, ∑ x, τ' a x * (Lz x y : ℝ) = cellAt (dec a).1 y + τ (dec a).2 y := by
    intro a y
    obtain ⟨ob, ob', h1, h2, h3⟩ := hidpos a _ _ (hdec1 a)
    simp only [τ', τ, h1, h2, Option.elim_some]
    exact h3 y
  let ph : (Fin 3 → ℤ) → Fin t.cell.numOrb → ℂ := fun m a => eiPhase (2 * Real.pi * reshPhase conv (k m) m (dec a).1 (τ' a))
  have key := fold_charpoly (N := t.cell.numOrb) (n := s.numOrb) (κ := M) (toMatrix t.cell.numOrb hamt)
    (fun m => toMatrix s.numOrb (hams m)) ?_ ?_ (fun m a => ph m a) (fun a => (dec a).2)
    (Lz.det.natAbs : ℂ) ?_ ?_ ?_
  · rw [key, Finset.prod_coe_sort M (fun m => (toMatrix s.numOrb (hams m)).charpoly)]
  · intro m
    have := hok m m.2
    unfold setHamDense at this
    split_ifs at this
    simp only [Except.ok.injEq] at this
    rw [← this]
    exact C09_hermitian _ _ _ _ _ _
  · rw [Fintype.card_coe, hMcard, hnum]
  · exact_mod_cast Int.natAbs_ne_zero.2 hL
  · -- orthogonality
    intro m m' j
    have hkm := hk m m.2
    have hkm' := hk m' m'.2
    have hterm : ∀ a, (dec a).2 = j → star (ph m a) * ph m' a =
        eiPhase (2 * Real.pi * (if conv = 1 then ∑ x, (k m' x - k m x) * τ j x else 0)) *
          eiPhase (2 * Real.pi * ∑ x, (k m' x - k m x) * cellAt (dec a).1 x) := by
      intro a hj
      simp only [ph]
      rw [← eiPhase_neg, ← eiPhase_add, ← eiPhase_add]
      congr 1
      unfold reshPhase
      split_ifs
      · have t0 := hτ a 0
        have t1 := hτ a 1
        have t2 := hτ a 2
        rw [hj] at t0 t1 t2
        have a0 := hkm 0
        have a1 := hkm 1
        have a2 := hkm 2
        have b0 := hkm' 0
        have b1 := hkm' 1
        have b2 := hkm' 2
        simp only [Fin.sum_univ_three] at t0 t1 t2 a0 a1 a2 b0 b1 b2 ⊢
        linear_combination (2 * Real.pi) * (τ' a 0 * (a0 - b0) + τ' a 1 * (a1 - b1) + τ' a 2 * (a2 - b2) +
          (k m' 0 - k m 0) * t0 + (k m' 1 - k m 1) * t1 + (k m' 2 - k m 2) * t2)
      · simp only [Fin.sum_univ_three]
        ring
    have hsum : ∑ a with (dec a).2 = j, star (ph m a) * ph m' a =
        ∑ I ∈ Rj j, eiPhase (2 * Real.pi * (if conv = 1 then ∑ x, (k m' x - k m x) * τ j x else 0)) *
          eiPhase (2 * Real.pi * ∑ x, (k m' x - k m x) * cellAt I x) := by
      rw [Finset.sum_image]
      · exact Finset.sum_congr rfl fun a ha => hterm a (Finset.mem_filter.1 ha).2
      · intro a ha b hb h
        have e1 := (Finset.mem_filter.1 (Finset.mem_coe.1 ha)).2
        have e2 := (Finset.mem_filter.1 (Finset.mem_coe.1 hb)).2
        exact hinj a b (Prod.ext h (e1.trans e2.symm))
    rw [hsum, ← Finset.mul_sum]
    by_cases hm : m = m'
    · subst hm
      rw [if_pos rfl]
      simp only [sub_self, zero_mul, Finset.sum_const_zero, ite_self, mul_zero, eiPhase_zero, one_mul, Finset.sum_const,
        nsmul_eq_mul, mul_one]
      rw [hRcard j]
    · rw [if_neg hm]
      have hne : ∃ x, ∀ z : ℤ, k m' x - k m x ≠ z := by
        by_contra hcon
        push Not at hcon
        choose z hz using hcon
        apply hm
        apply Subtype.ext
        obtain ⟨m0, -, hu⟩ := hM m'
        have e1 := hu m' ⟨m'.2, 0, by rw [sub_self, Matrix.mulVec_zero]⟩
        have e2 := hu m ⟨m.2, z, by
          funext x
          have h1 := hkm x
          have h2 := hkm' x
          have h3 : ((m'.1 x - m.1 x : ℤ) : ℝ) = ∑ y, (Lz x y : ℝ) * z y := by
            push_cast
            simp only [← hz, mul_sub, Finset.sum_sub_distrib]
            rw [h1, h2]; ring
          rw [Pi.sub_apply, Matrix.mulVec, dotProduct]
          exact_mod_cast h3⟩
        exact e2.trans e1.symm
      obtain ⟨x, hx⟩ := hne
      rw [wave_sum_zero S (Rj j) (hRj j) (fun x => k m' x - k m x) ?_
        (if x = 0 then 1 else 0, if x = 1 then 1 else 0, if x = 2 then 1 else 0) ?_, mul_zero]
      · rintro c ⟨z, rfl⟩
        refine ⟨∑ i, cellAt z i * (m'.1 i - m.1 i), ?_⟩
        have a0 := hkm 0
        have a1 := hkm 1
        have a2 := hkm 2
        have b0 := hkm' 0
        have b1 := hkm' 1
        have b2 := hkm' 2
        simp only [Fin.sum_univ_three, cellAt, rowMul, Matrix.cons_val_zero, Matrix.cons_val_one, Matrix.cons_val] at *
        push_cast
        linear_combination z.1 * (b0 - a0) + z.2.1 * (b1 - a1) + z.2.2 * (b2 - a2)
      · intro z hz
        apply hx z
        rw [← hz]
        fin_cases x <;> simp [Fin.sum_univ_three, cellAt]
  · -- eigenvectors
    intro m v μ hv
    let v' : ℕ → ℂ := fun i => if h : i < s.numOrb then v ⟨i, h⟩ else 0
    let w : ℕ → ℂ := fun a => if h : a < t.cell.numOrb then ph m ⟨a, h⟩ * v (dec ⟨a, h⟩).2 else 0
    have hv' : ∀ i < s.numOrb, ∑ j ∈ Finset.range s.numOrb, hams m i j * v' j = μ * v' i := by
      intro i hi
      have := congrFun hv ⟨i, hi⟩
      simp only [Matrix.mulVec, dotProduct, toMatrix, Matrix.of_apply, Pi.smul_apply, smul_eq_mul] at this
      rw [← Fin.sum_univ_eq_sum_range (fun j => hams m i j * v' j)]
      simp only [v', hi, Fin.is_lt, dif_pos]
      exact this
    have hw : ∀ (a : ℕ) R i ob', ids[a]? = some (R, i) → t.cell.orbs[a]? = some ob' →
        w a = Complex.exp (2 * Real.pi * reshPhase conv (k m) m R ob'.position * Complex.I) * v' i := by
      intro a R i ob' ha hob
      have hal : a < t.cell.numOrb := (List.getElem?_eq_some_iff.1 hob).1
      have hda := hdec1 ⟨a, hal⟩
      simp only [ha, Option.some.injEq, Prod.mk.injEq] at hda
      have hi : i < s.numOrb := by rw [hda.2]; exact (dec ⟨a, hal⟩).2.2
      have hd2 : (dec ⟨a, hal⟩).2 = ⟨i, hi⟩ := Fin.ext hda.2.symm
      simp only [w, v', hal, hi, dif_pos, ph, τ', hob, Option.elim_some, eiPhase_eq_exp, ← hda.1, hd2]
      push_cast
      rfl
    have := (hfold (k m) K m (hk m m.2) conv (hams m) hamt (hok m m.2) hok' v' μ hv' w hw).1
    funext a
    have ha := this a a.2
    rw [← Fin.sum_univ_eq_sum_range (fun b => hamt a b * w b)] at ha
    simp only [w, Fin.is_lt, dif_pos] at ha
    simpa only [Matrix.mulVec, dotProduct, toMatrix, Matrix.of_apply, Pi.smul_apply, smul_eq_mul] using ha

/-- Representatives for the rectangular cell of graphene. -/
example : ∀ m : Fin 3 → ℤ, ∃! m0, m0 ∈ ({![0, 0, 0], ![0, 1, 0]} : Finset (Fin 3 → ℤ)) ∧
    ∃ z, m - m0 = (!![1, 0, 0; -1, 2, 0; 0, 0, 1] : Matrix (Fin 3) (Fin 3) ℤ).mulVec z := by
  intro m
  have hsol : ∀ m0 : Fin 3 → ℤ, (∃ z, m - m0 = (!![1, 0, 0; -1, 2, 0; 0, 0, 1] : Matrix (Fin 3) (Fin 3) ℤ).mulVec z) ↔
      2 ∣ (m 1 - m0 1) + (m 0 - m0 0) := by
    intro m0
    constructor
    · rintro ⟨z, hz⟩
      have h0 := congrFun hz 0
      have h1 := congrFun hz 1
      simp [Matrix.mulVec, dotProduct, Fin.sum_univ_three] at h0 h1
      exact ⟨z 1, by omega⟩
    · rintro ⟨y, hy⟩
      refine ⟨![m 0 - m0 0, y, m 2 - m0 2], ?_⟩
      funext x
      fin_cases x <;> simp [Matrix.mulVec, dotProduct, Fin.sum_univ_three]
      omega
  rcases Int.emod_two_eq_zero_or_one (m 0 + m 1) with h | h
  · refine ⟨![0, 0, 0], ⟨by simp, (hsol _).2 (by simp; omega)⟩, ?_⟩
    rintro y ⟨hy, hz⟩
    have := (hsol y).1 hz
    simp only [Finset.mem_insert, Finset.mem_singleton] at hy
    rcases hy with rfl | rfl
    · rfl
    · simp at this; omega
  · refine ⟨![0, 1, 0], ⟨by simp, (hsol _).2 (by simp; omega)⟩, ?_⟩
    rintro y ⟨hy, hz⟩
    have := (hsol y).1 hz
    simp only [Finset.mem_insert, Finset.mem_singleton] at hy
    rcases hy with rfl | rfl
    · simp at this; omega
    · rfl

end Verif.Props

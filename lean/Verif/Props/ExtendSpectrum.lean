import Verif.Props.Extend
import Verif.Props.Bloch
import Verif.Proof.FoldChar

/-! # Property C34: the spectrum of an extended cell -/

namespace Verif.Props

open PrimCell

variable {Λ : Type*}

/-- The cells which the extended cell translates into each other. -/
def boxLat (d : Cell) : AddSubgroup Cell where
  carrier := {c | d.1 ∣ c.1 ∧ d.2.1 ∣ c.2.1 ∧ d.2.2 ∣ c.2.2}
  add_mem' := fun ha hb => ⟨dvd_add ha.1 hb.1, dvd_add ha.2.1 hb.2.1, dvd_add ha.2.2 hb.2.2⟩
  zero_mem' := ⟨dvd_zero _, dvd_zero _, dvd_zero _⟩
  neg_mem' := fun ha => ⟨(dvd_neg).2 ha.1, (dvd_neg).2 ha.2.1, (dvd_neg).2 ha.2.2⟩

theorem emod_unique {d c r : ℤ} (h0 : 0 ≤ r) (h1 : r < d) (h2 : d ∣ c - r) : r = c % d := by
  rw [← Int.emod_eq_of_lt h0 h1]
  exact ((Int.emod_emod_of_dvd r (dvd_refl d)).symm.trans (by rw [Int.emod_emod_of_dvd r (dvd_refl d)])).trans
    (Int.modEq_iff_dvd.2 h2)

theorem box_rep {d : Cell} (hd : 1 ≤ d.1 ∧ 1 ≤ d.2.1 ∧ 1 ≤ d.2.2) (c : Cell) : ∃! r, r ∈ boxSet d ∧ c - r ∈ boxLat d := by
  refine ⟨(c.1 % d.1, c.2.1 % d.2.1, c.2.2 % d.2.2), ⟨(mem_boxSet _ _).2 ?_, ?_⟩, ?_⟩
  · exact ⟨⟨Int.emod_nonneg _ (by omega), Int.emod_lt_of_pos _ (by omega)⟩,
      ⟨Int.emod_nonneg _ (by omega), Int.emod_lt_of_pos _ (by omega)⟩,
      ⟨Int.emod_nonneg _ (by omega), Int.emod_lt_of_pos _ (by omega)⟩⟩
  · exact ⟨Int.dvd_self_sub_emod, Int.dvd_self_sub_emod, Int.dvd_self_sub_emod⟩
  · rintro r ⟨h1, h2⟩
    have h1 := (mem_boxSet _ _).1 h1
    exact Prod.ext (emod_unique h1.1.1 h1.1.2 h2.1)
      (Prod.ext (emod_unique h1.2.1.1 h1.2.1.2 h2.2.1) (emod_unique h1.2.2.1 h1.2.2.2 h2.2.2))

/-- **C34 (the whole spectrum).** For every cell obtained by any history, every extension `d`, Bloch vector `k` and both
conventions: the characteristic polynomial of the Bloch Hamiltonian of the extended cell at `k` is the product of those of the
original cell at the `d_a d_b d_c` points `(k + m) / d`, `0 ≤ m < d`.  So the bands of the extended cell are exactly the folded
bands of the original one, with multiplicities. -/
theorem C34_spectrum (H : HashFns ℝ ℂ Λ) (lat : Mat3 ℝ) (o : Vec3 ℝ) (cs : List (Call ℝ ℂ Λ))
    (hr : InRange H (init H lat o) cs) (hf : ArraysFresh (run H (init H lat o) cs)) (ext : ℝ)
    (d : Cell) (hd : 1 ≤ d.1 ∧ 1 ≤ d.2.1 ∧ 1 ≤ d.2.2) (t : PCObj ℝ ℂ Λ)
    (ht : extendPrimCell H ⟨run H (init H lat o) cs, ext⟩ [d.1, d.2.1, d.2.2] = .ok t)
    (hft : ArraysFresh (syncArray H t.cell)) (k : Vec3 ℝ) (conv : ℤ) (hs : Cell → IMat) (ht' : IMat)
    (hok : ∀ m, InBox d m → setHamDense (run H (init H lat o) cs) (fun x => (k x + cellAt m x) / cellAt d x) conv = .ok (hs m))
    (hok' : setHamDense (syncArray H t.cell) k conv = .ok ht') :
    (toMatrix t.cell.numOrb ht').charpoly =
      ∏ m ∈ Finset.Ico 0 d.1 ×ˢ Finset.Ico 0 d.2.1 ×ˢ Finset.Ico 0 d.2.2,
        (toMatrix (run H (init H lat o) cs).numOrb (hs m)).charpoly := by
  have hwf := WF_run H (WF_init H lat o) cs hr
  obtain ⟨t1, h1, -, -, -, -, h6, -, -, -⟩ := extend_spec H (run H (init H lat o) cs) ext hwf d hd [d.1, d.2.1, d.2.2] rfl
  rw [h1] at ht
  simp only [Except.ok.injEq] at ht
  subst ht
  have hfold := fun (m : Cell) => C34_folding H lat o cs hr hf ext d hd t1 h1 hft k (cellAt m) conv (hs m) ht'
  set s := run H (init H lat o) cs with hs0
  have hnum : (t1.cell.numOrb : ℤ) = d.1 * d.2.1 * d.2.2 * s.numOrb := by
    rw [PrimCell.numOrb, h6, List.length_map, extSites_length' d hd]; rfl
  have hdx : ∀ x, (cellAt d x : ℝ) ≠ 0 := by
    intro x
    have : cellAt d x ≠ 0 := by fin_cases x <;> simp [cellAt] <;> omega
    exact_mod_cast this
  -- decomposition of the orbital numbers
  have hdec : ∀ a : Fin t1.cell.numOrb, ∃ q : Cell × Fin s.numOrb, InBox d q.1 ∧ (a : ℤ) = extIdx d s.numOrb q.1 (q.2 : ℕ) := by
    intro a
    obtain ⟨I, i, hI, hi, e⟩ := extIdx_surj (d := d) (n := s.numOrb) (a := (a : ℕ)) (by omega) (by
      have := a.2; omega) hd (by omega)
    refine ⟨(I, ⟨i.toNat, by omega⟩), hI, ?_⟩
    simp only
    rw [Int.toNat_of_nonneg hi.1]
    exact e
  choose dec hdec1 hdec2 using hdec
  have hinj : ∀ (a : Fin t1.cell.numOrb) I (i : Fin s.numOrb), InBox d I → (a : ℤ) = extIdx d s.numOrb I (i : ℕ) → dec a = (I, i) := by
    intro a I i hI h
    obtain ⟨e1, e2⟩ := extIdx_inj (hdec1 a) hI ⟨by omega, by have := (dec a).2.2; omega⟩ ⟨by omega, by have := i.2; omega⟩
      ((hdec2 a).symm.trans h)
    refine Prod.ext e1 (Fin.ext ?_)
    exact_mod_cast e2
  let τ : Fin s.numOrb → Vec3 ℝ := fun i => s.orbs[(i : ℕ)]?.elim 0 Orbital.position
  let ph : Cell → Cell → Fin s.numOrb → ℂ := fun m I i =>
    eiPhase (2 * Real.pi * foldPhase conv d (fun x => (k x + cellAt m x) / cellAt d x) (cellAt m) I (τ i))
  have key := fold_charpoly (N := t1.cell.numOrb) (n := s.numOrb) (κ := boxSet d) (toMatrix t1.cell.numOrb ht')
    (fun m => toMatrix s.numOrb (hs m)) ?_ ?_ (fun m a => ph m (dec a).1 (dec a).2) (fun a => (dec a).2)
    ((d.1 * d.2.1 * d.2.2 : ℤ) : ℂ) ?_ ?_ ?_
  · rw [key, Finset.prod_coe_sort (boxSet d) (fun m => (toMatrix s.numOrb (hs m)).charpoly)]
    rfl
  · intro m
    have := hok m ((mem_boxSet _ _).1 m.2)
    unfold setHamDense at this
    split_ifs at this
    simp only [Except.ok.injEq] at this
    rw [← this]
    exact C09_hermitian _ _ _ _ _ _
  · rw [Fintype.card_coe]
    have := card_boxSet d hd
    zify
    rw [hnum, this]
  · have : d.1 * d.2.1 * d.2.2 ≠ 0 := by
      have h1 := hd.1; have h2 := hd.2.1; have h3 := hd.2.2
      positivity
    exact_mod_cast this
  · -- orthogonality
    intro m m' j
    have hterm : ∀ I, star (ph m I j) * ph m' I j =
        eiPhase (2 * Real.pi * (if conv = 1 then ∑ x, ((cellAt m' x : ℝ) - cellAt m x) / cellAt d x * τ j x else 0)) *
          eiPhase (2 * Real.pi * ∑ x, ((cellAt m' x : ℝ) - cellAt m x) / cellAt d x * cellAt I x) := by
      intro I
      simp only [ph]
      rw [← eiPhase_neg, ← eiPhase_add, ← eiPhase_add]
      congr 1
      unfold foldPhase
      split_ifs
      · simp only [Fin.sum_univ_three]
        ring
      · simp only [Fin.sum_univ_three]
        ring
    have hsum : ∑ a with (dec a).2 = j, star (ph m (dec a).1 (dec a).2) * ph m' (dec a).1 (dec a).2 =
        ∑ I ∈ boxSet d, star (ph m I j) * ph m' I j := by
      refine Finset.sum_bij (fun a _ => (dec a).1) ?_ ?_ ?_ ?_
      · intro a _; exact (mem_boxSet _ _).2 (hdec1 a)
      · intro a ha b hb h
        have e1 := (Finset.mem_filter.1 ha).2
        have e2 := (Finset.mem_filter.1 hb).2
        apply Fin.ext
        have e3 : (a : ℤ) = (b : ℤ) := by
          rw [hdec2 a, hdec2 b, e1, e2, h]
        omega
      · intro I hI
        have hI' := (mem_boxSet _ _).1 hI
        have hrg := extIdx_range hI' (i := ((j : ℕ) : ℤ)) (n := s.numOrb) ⟨by omega, by have := j.2; omega⟩
        have hlt : (extIdx d s.numOrb I (j : ℕ)).toNat < t1.cell.numOrb := by omega
        have := hinj ⟨_, hlt⟩ I j hI' (by simp only; omega)
        exact ⟨⟨_, hlt⟩, Finset.mem_filter.2 ⟨Finset.mem_univ _, by rw [this]⟩, by rw [this]⟩
      · intro a ha
        rw [(Finset.mem_filter.1 ha).2]
    rw [hsum, Finset.sum_congr rfl fun I _ => hterm I, ← Finset.mul_sum]
    by_cases hm : m = m'
    · subst hm
      rw [if_pos rfl]
      have hc := card_boxSet d hd
      simp only [sub_self, zero_div, zero_mul, Finset.sum_const_zero, ite_self, mul_zero, eiPhase_zero, one_mul, Finset.sum_const,
        nsmul_eq_mul, mul_one]
      rw [← hc]
      push_cast
      rfl
    · rw [if_neg hm]
      have hne : ∃ x, cellAt m x ≠ cellAt m' x := by
        by_contra hcon
        push Not at hcon
        exact hm (Subtype.ext (Prod.ext (hcon 0) (Prod.ext (hcon 1) (hcon 2))))
      obtain ⟨x, hx⟩ := hne
      have hb := (mem_boxSet _ _).1 m.2
      have hb' := (mem_boxSet _ _).1 m'.2
      rw [wave_sum_zero (boxLat d) (boxSet d) (box_rep hd) _ ?_ (if x = 0 then 1 else 0, if x = 1 then 1 else 0, if x = 2 then 1 else 0) ?_,
        mul_zero]
      · rintro c ⟨⟨z0, e0⟩, ⟨z1, e1⟩, ⟨z2, e2⟩⟩
        refine ⟨(cellAt m' 0 - cellAt m 0) * z0 + (cellAt m' 1 - cellAt m 1) * z1 + (cellAt m' 2 - cellAt m 2) * z2, ?_⟩
        have g0 := hdx 0
        have g1 := hdx 1
        have g2 := hdx 2
        have f0 : cellAt c 0 = cellAt d 0 * z0 := e0
        have f1 : cellAt c 1 = cellAt d 1 * z1 := e1
        have f2 : cellAt c 2 = cellAt d 2 * z2 := e2
        rw [Fin.sum_univ_three, f0, f1, f2]
        push_cast
        field_simp
      · intro z hz
        have hdp : 0 < cellAt d x := by fin_cases x <;> simp [cellAt] <;> omega
        have hrange : |cellAt m' x - cellAt m x| < cellAt d x := by
          rw [abs_lt]
          obtain ⟨⟨u1, u2⟩, ⟨u3, u4⟩, ⟨u5, u6⟩⟩ := hb
          obtain ⟨⟨v1, v2⟩, ⟨v3, v4⟩, ⟨v5, v6⟩⟩ := hb'
          fin_cases x <;> simp [cellAt] <;> omega
        have hval : ((cellAt m' x : ℝ) - cellAt m x) / cellAt d x = z := by
          rw [← hz]
          fin_cases x <;> simp [Fin.sum_univ_three, cellAt]
        rw [div_eq_iff (hdx x)] at hval
        have hval' : cellAt m' x - cellAt m x = z * cellAt d x := by exact_mod_cast hval
        rw [hval', abs_mul, abs_of_pos hdp] at hrange
        have hz0 : z = 0 := by
          by_contra hz0
          have := Int.one_le_abs hz0
          nlinarith
        rw [hz0, zero_mul, sub_eq_zero] at hval'
        exact hx hval'.symm
  · -- eigenvectors
    intro m v μ hv
    have hmb := (mem_boxSet _ _).1 m.2
    let v' : ℕ → ℂ := fun i => if h : i < s.numOrb then v ⟨i, h⟩ else 0
    let w : ℕ → ℂ := fun a => if h : a < t1.cell.numOrb then ph m (dec ⟨a, h⟩).1 (dec ⟨a, h⟩).2 * v (dec ⟨a, h⟩).2 else 0
    have hv' : ∀ i < s.numOrb, ∑ j ∈ Finset.range s.numOrb, hs m i j * v' j = μ * v' i := by
      intro i hi
      have := congrFun hv ⟨i, hi⟩
      simp only [Matrix.mulVec, dotProduct, toMatrix, Matrix.of_apply, Pi.smul_apply, smul_eq_mul] at this
      rw [← Fin.sum_univ_eq_sum_range (fun j => hs m i j * v' j)]
      simp only [v', hi, Fin.is_lt, dif_pos]
      exact this
    have hw : ∀ I (i : ℕ) ob, InBox d I → s.orbs[i]? = some ob → w (extIdx d s.numOrb I i).toNat =
        Complex.exp (2 * Real.pi * foldPhase conv d (fun x => (k x + cellAt m x) / cellAt d x) (cellAt m) I ob.position *
          Complex.I) * v' i := by
      intro I i ob hI hob
      have hi : i < s.numOrb := (List.getElem?_eq_some_iff.1 hob).1
      have hrg := extIdx_range hI (i := (i : ℤ)) (n := s.numOrb) ⟨by omega, by omega⟩
      have hlt : (extIdx d s.numOrb I i).toNat < t1.cell.numOrb := by omega
      have := hinj ⟨_, hlt⟩ I ⟨i, hi⟩ hI (by simp only; omega)
      simp only [w, v', hlt, hi, dif_pos, this, ph, τ, hob, Option.elim_some, eiPhase_eq_exp]
      push_cast
      rfl
    have := (hfold m (hok m hmb) hok' v' μ hv' w hw).1
    funext a
    have ha := this a a.2
    rw [← Fin.sum_univ_eq_sum_range (fun b => ht' a b * w b)] at ha
    simp only [w, Fin.is_lt, dif_pos] at ha
    simpa only [Matrix.mulVec, dotProduct, toMatrix, Matrix.of_apply, Pi.smul_apply, smul_eq_mul] using ha

/-- The Bloch matrices of C34 exist for every cell with orbitals and hoppings, in conventions 1 and 2. -/
example (s : PrimCell ℝ ℂ Λ) (h1 : s.numOrb ≠ 0) (h2 : s.hops.numHop ≠ 0) (d : Cell) (k : Vec3 ℝ) : ∃ hs : Cell → IMat, ∀ m, InBox d m →
    setHamDense s (fun x => (k x + cellAt m x) / cellAt d x) 1 = .ok (hs m) :=
  ⟨_, fun m _ => by unfold setHamDense; rw [if_neg (by simp), if_neg h1, if_neg h2]⟩

end Verif.Props

import Verif.Spec.Crystal
import Verif.Props.Extend
import Verif.Props.ExtendSpectrum
import Verif.Props.Reshape

/-! # Properties C33 and C95: extended and reshaped cells describe the same crystal -/

namespace Verif.Props

open PrimCell

variable {F E Λ : Type*}

section

variable [Field F] [Star E]

theorem SameCrystal.symm {s t : PrimCell F E Λ} (h : SameCrystal s t) : SameCrystal t s := by
  obtain ⟨φ, h1, h2⟩ := h
  refine ⟨φ.symm, fun q => ?_, fun p q => ?_⟩
  · have := h1 (φ.symm q)
    rw [Equiv.apply_symm_apply] at this
    exact ⟨this.1.symm, this.2.symm⟩
  · have := h2 (φ.symm p) (φ.symm q)
    rw [Equiv.apply_symm_apply, Equiv.apply_symm_apply] at this
    exact this.symm

theorem SameCrystal.trans {s t u : PrimCell F E Λ} (h : SameCrystal s t) (h' : SameCrystal t u) : SameCrystal s u := by
  obtain ⟨φ, h1, h2⟩ := h
  obtain ⟨ψ, h3, h4⟩ := h'
  refine ⟨φ.trans ψ, fun q => ?_, fun p q => ?_⟩
  · exact ⟨(h1 q).1.trans (h3 (φ q)).1, (h1 q).2.trans (h3 (φ q)).2⟩
  · exact (h2 p q).trans (h4 (φ p) (φ q))

/-- Position of a site from the position of its orbital. -/
theorem sitePos_apply (s : PrimCell F E Λ) (R : Cell) (i : ℕ) (o : Orbital F Λ) (h : s.orbs[i]? = some o) (y : Fin 3) :
    sitePos s R i y = frac2cartRow s.lat s.origin o.position y + ∑ x, (cellAt R x : F) * s.lat x y := by
  simp only [sitePos, h, Option.elim_some, frac2cartRow, Pi.add_apply, Matrix.mulVec_add, Matrix.mulVec, dotProduct,
    Fin.sum_univ_three, Matrix.transpose_apply, cellVec, cellAt, Matrix.cons_val_zero, Matrix.cons_val_one, Matrix.cons_val]
  ring

end

section

variable [Field F] [LinearOrder F] [IsStrictOrderedRing F] [FloorRing F] [InvolutiveStar E]

/-- **C95 (the whole crystal).** Under the restrictions of `C95_reshape_partial`, the reshaped cell describes the same infinite
crystal as the original one. -/
theorem C95_same_crystal_partial (H : HashFns F E Λ) (hH : ∀ l, l ≠ [] → H.orb l ≠ H.orb []) (query : BallQuery F)
    (hq : IsBallQuery query) (lat : Mat3 F) (o : Vec3 F) (cs : List (Call F E Λ)) (hr : InRange H (init H lat o) cs)
    (s : PrimCell F E Λ) (hs : s = run H (init H lat o) cs) (hsync : SyncFresh H s) (hdet : s.lat.det ≠ 0) (ext : F)
    (Lz : Matrix (Fin 3) (Fin 3) ℤ) (hL : Lz.det ≠ 0) (delta tol : F) (ht : TolSep Lz tol)
    (hpos : ∀ ob ∈ s.orbs, ∀ x, 0 ≤ ob.position x ∧ ob.position x < 1) (hz : ∀ j, ∃ i, Lz i j = 0)
    (hdel : ∀ j, |delta * ((∑ i, Lz i j : ℤ) : F)| ≤ 1) :
    ∃ t : PCObj F E Λ, reshapePrimCell H query ⟨s, ext⟩ (Lz.map (fun z : ℤ => (z : F))) delta tol = .ok t ∧
      t.cell.lat = Lz.map (fun z : ℤ => (z : F)) * s.lat ∧ t.cell.numOrb = Lz.det.natAbs * s.numOrb ∧ SameCrystal t.cell s := by
  obtain ⟨t, ids, h1, h2, h3, -, h4, h5, h6, h7, h8, -⟩ := C95_reshape_partial H hH query hq lat o cs hr s hs hsync hdet ext Lz hL
    delta tol ht hpos hz hdel
  refine ⟨t, h1, h2, h5, ?_⟩
  have hdec : ∀ a : Fin t.cell.numOrb, ∃ q : Cell × Fin s.numOrb, ids[(a : ℕ)]? = some (q.1, (q.2 : ℕ)) := by
    intro a
    have ha : (a : ℕ) < ids.length := by rw [h4]; exact a.2
    obtain ⟨ob, -, e1, -⟩ := h6 a _ _ (show ids[(a : ℕ)]? = some (ids[(a : ℕ)].1, ids[(a : ℕ)].2) from
      List.getElem?_eq_getElem ha)
    exact ⟨(ids[(a : ℕ)].1, ⟨ids[(a : ℕ)].2, (List.getElem?_eq_some_iff.1 e1).1⟩), List.getElem?_eq_getElem ha⟩
  choose dec hdec1 using hdec
  have hbij : Function.Bijective (fun q : Cell × Fin t.cell.numOrb => ((dec q.2).1 + rowMul q.1 Lz, (dec q.2).2)) := by
    constructor
    · rintro ⟨m, a⟩ ⟨m', a'⟩ h
      simp only [Prod.mk.injEq] at h
      obtain ⟨q, -, hu⟩ := h7 ((dec a).1 + rowMul m Lz) (dec a).2 (dec a).2.2
      have e1 := hu ((a : ℕ), m) (by simp only [add_sub_cancel_right]; exact hdec1 a)
      have e2 := hu ((a' : ℕ), m') (by
        simp only
        rw [h.1, add_sub_cancel_right, h.2]
        exact hdec1 a')
      have e3 := e1.trans e2.symm
      simp only [Prod.mk.injEq] at e3
      exact Prod.ext e3.2 (Fin.ext e3.1)
    · rintro ⟨R, i⟩
      obtain ⟨⟨a, m⟩, ha, -⟩ := h7 R i i.2
      simp only at ha
      have hal : a < t.cell.numOrb := by rw [← h4]; exact (List.getElem?_eq_some_iff.1 ha).1
      have hda := hdec1 ⟨a, hal⟩
      simp only [ha, Option.some.injEq, Prod.mk.injEq] at hda
      refine ⟨(m, ⟨a, hal⟩), ?_⟩
      simp only [Prod.mk.injEq]
      exact ⟨by rw [← hda.1, sub_add_cancel], Fin.ext hda.2.symm⟩
  refine ⟨Equiv.ofBijective _ hbij, fun q => ?_, fun p q => ?_⟩
  · obtain ⟨ob, ob', e1, e2, e3, e4, -, e5⟩ := h6 q.2 _ _ (hdec1 q.2)
    constructor
    · funext y
      rw [sitePos_apply _ _ _ _ e2, Equiv.ofBijective_apply, sitePos_apply _ _ _ _ e1, e5, h2]
      simp only [Fin.sum_univ_three, cellAt, rowMul, Matrix.mul_apply, Matrix.map_apply, Prod.fst_add, Prod.snd_add,
        Matrix.cons_val_zero, Matrix.cons_val_one, Matrix.cons_val]
      push_cast
      ring
    · rw [Equiv.ofBijective_apply, e1, e2]
      simp [e3, e4]
  · rw [h8 _ _ _ _ _ _ _ (hdec1 p.2) (hdec1 q.2), Equiv.ofBijective_apply, Equiv.ofBijective_apply]
    congr 1
    refine Prod.ext ?_ (Prod.ext ?_ ?_) <;> simp only [rowMul, Prod.fst_add, Prod.snd_add, Prod.fst_sub, Prod.snd_sub] <;> ring

end

section

variable [Field F] [DecidableEq F] [CharZero F] [InvolutiveStar E]

/-- **C33 (the whole crystal).** The extended cell describes the same infinite crystal as the original one. -/
theorem C33_same_crystal (H : HashFns F E Λ) (lat : Mat3 F) (o : Vec3 F) (cs : List (Call F E Λ))
    (hr : InRange H (init H lat o) cs) (ext : F) (d : Cell)
    (hd : 1 ≤ d.1 ∧ 1 ≤ d.2.1 ∧ 1 ≤ d.2.2) (dim : List ℤ)
    (hdim : dim = [d.1, d.2.1, d.2.2] ∨ (dim = [d.1, d.2.1] ∧ d.2.2 = 1)) :
    ∃ t, extendPrimCell H ⟨run H (init H lat o) cs, ext⟩ dim = .ok t ∧ SameCrystal t.cell (run H (init H lat o) cs) := by
  obtain ⟨t, h1, -, h3, h4, h5, h6, h7, -, -, -⟩ := C33_extend H lat o cs hr ext d hd dim hdim
  refine ⟨t, h1, ?_⟩
  generalize run H (init H lat o) cs = s at *
  have hdec : ∀ a : Fin t.cell.numOrb, ∃ q : Cell × Fin s.numOrb, InBox d q.1 ∧ (a : ℤ) = extIdx d s.numOrb q.1 (q.2 : ℕ) := by
    intro a
    obtain ⟨I, i, hI, hi, e⟩ := extIdx_surj (d := d) (n := s.numOrb) (a := (a : ℕ)) (by omega) (by
      have := a.2; omega) hd (by omega)
    refine ⟨(I, ⟨i.toNat, by omega⟩), hI, ?_⟩
    simp only
    rw [Int.toNat_of_nonneg hi.1]
    exact e
  choose dec hdec1 hdec2 using hdec
  have hinj : ∀ (a : Fin t.cell.numOrb) I (i : Fin s.numOrb), InBox d I → (a : ℤ) = extIdx d s.numOrb I (i : ℕ) → dec a = (I, i) := by
    intro a I i hI h
    obtain ⟨e1, e2⟩ := extIdx_inj (hdec1 a) hI ⟨by omega, by have := (dec a).2.2; omega⟩ ⟨by omega, by have := i.2; omega⟩
      ((hdec2 a).symm.trans h)
    refine Prod.ext e1 (Fin.ext ?_)
    exact_mod_cast e2
  have hbij : Function.Bijective (fun q : Cell × Fin t.cell.numOrb => ((dec q.2).1 + scaleCell d q.1, (dec q.2).2)) := by
    constructor
    · rintro ⟨m, a⟩ ⟨m', a'⟩ h
      simp only [Prod.mk.injEq] at h
      obtain ⟨h8, h9⟩ := h
      obtain ⟨r, -, hu⟩ := box_rep hd ((dec a).1 + scaleCell d m)
      have hmem : ∀ (I N : Cell), I + scaleCell d N - I ∈ boxLat d := by
        intro I N
        rw [add_sub_cancel_left]
        exact ⟨Dvd.intro_left _ rfl, Dvd.intro_left _ rfl, Dvd.intro_left _ rfl⟩
      have e1 := hu (dec a).1 ⟨(mem_boxSet _ _).2 (hdec1 a), hmem _ _⟩
      have e2 := hu (dec a').1 ⟨(mem_boxSet _ _).2 (hdec1 a'), by rw [h8]; exact hmem _ _⟩
      have e3 : dec a = dec a' := Prod.ext (e1.trans e2.symm) h9
      have ha : a = a' := by
        have := hdec2 a
        rw [e3, ← hdec2 a'] at this
        exact Fin.ext (by exact_mod_cast this)
      rw [e1.trans e2.symm] at h8
      have h10 := add_left_cancel h8
      simp only [scaleCell, Prod.mk.injEq] at h10
      refine Prod.ext (Prod.ext ?_ (Prod.ext ?_ ?_)) ha
      · exact mul_right_cancel₀ (by omega) h10.1
      · exact mul_right_cancel₀ (by omega) h10.2.1
      · exact mul_right_cancel₀ (by omega) h10.2.2
    · rintro ⟨R, i⟩
      obtain ⟨I, ⟨hI, hR⟩, -⟩ := box_rep hd R
      have hI := (mem_boxSet _ _).1 hI
      obtain ⟨⟨n1, e1⟩, ⟨n2, e2⟩, ⟨n3, e3⟩⟩ := hR
      obtain ⟨ob', hob, -⟩ := h6 I i _ hI (List.getElem?_eq_getElem i.2)
      have hal := (List.getElem?_eq_some_iff.1 hob).1
      have hnn : 0 ≤ extIdx d s.numOrb I (i : ℕ) := by
        unfold extIdx
        have := hI.1.1
        have := hI.2.1.1
        have := hI.2.2.1
        have h1 : 0 ≤ d.2.1 := by omega
        have h2 : 0 ≤ d.2.2 := by omega
        positivity
      have hd1 := hinj ⟨_, hal⟩ I i hI (by simp only; rw [Int.toNat_of_nonneg hnn])
      refine ⟨((n1, n2, n3), ⟨_, hal⟩), ?_⟩
      simp only [hd1, Prod.mk.injEq, and_true]
      simp only [Prod.fst_sub, Prod.snd_sub] at e1 e2 e3
      refine Prod.ext ?_ (Prod.ext ?_ ?_) <;> simp only [scaleCell, Prod.fst_add, Prod.snd_add]
      · linear_combination -e1
      · linear_combination -e2
      · linear_combination -e3
  refine ⟨Equiv.ofBijective _ hbij, fun q => ?_, fun p q => ?_⟩
  · obtain ⟨ob', e1, e2, e3, -, e4⟩ := h6 (dec q.2).1 (dec q.2).2 _ (hdec1 q.2) (List.getElem?_eq_getElem (dec q.2).2.2)
    rw [← hdec2 q.2, Int.toNat_natCast] at e1
    constructor
    · funext y
      rw [sitePos_apply _ _ _ _ e1, Equiv.ofBijective_apply, sitePos_apply _ _ _ _ (List.getElem?_eq_getElem (dec q.2).2.2), e4]
      simp only [h4, Fin.sum_univ_three, cellAt, scaleCell, Prod.fst_add, Prod.snd_add, Matrix.cons_val_zero,
        Matrix.cons_val_one, Matrix.cons_val]
      push_cast
      ring
    · rw [Equiv.ofBijective_apply, e1, List.getElem?_eq_getElem (dec q.2).2.2]
      simp [e2, e3]
  · rw [Equiv.ofBijective_apply, Equiv.ofBijective_apply, hdec2 p.2, hdec2 q.2,
      h7 _ _ _ _ _ (hdec1 _) (hdec1 _) ⟨by omega, by have := (dec p.2).2.2; omega⟩ ⟨by omega, by have := (dec q.2).2.2; omega⟩]
    congr 1
    refine Prod.ext ?_ (Prod.ext ?_ ?_) <;> simp only [scaleCell, Prod.fst_add, Prod.snd_add, Prod.fst_sub, Prod.snd_sub] <;> ring

end

end Verif.Props

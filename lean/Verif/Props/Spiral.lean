import Verif.Model.Spiral
import Verif.Spec.Prim
import Verif.Proof.Merge
import Verif.Props.Base
import Verif.Props.Super

/-! # Property C97: `spiral_prim_cell` is a rigid motion -/

set_option linter.unusedSectionVars false

namespace Verif.Props

open PrimCell

variable {E Λ : Type*} [InvolutiveStar E]

/-- The loop over the orbitals sets all positions. -/
theorem spiralSet_spec (pos : List (Vec3 ℝ)) : ∀ (k : ℕ) (s : PrimCell ℝ E Λ), s.locked = false →
    k + pos.length = s.orbs.length →
    spiralSet s (pos.zipIdx k) = ({ s with orbs := (s.orbs.take k ++
      (pos.zip (s.orbs.drop k)).map (fun q => ⟨q.1, q.2.energy, q.2.label⟩) : List (Orbital ℝ Λ)) }, .ok ()) := by
  induction pos with
  | nil =>
    intro k s hl hk
    simp only [List.length_nil, add_zero] at hk
    subst hk
    simp [spiralSet]
  | cons p pos ih =>
    intro k s hl hk
    simp only [List.length_cons] at hk
    rw [List.zipIdx_cons]
    unfold spiralSet
    have hlt : k < s.orbs.length := by omega
    have hset : s.setOrbital (k : ℤ) (some [p 0, p 1, p 2]) none none =
        ({ s with orbs := s.orbs.modify k (fun o => ⟨p, o.energy, o.label⟩) }, .ok ()) := by
      unfold setOrbital
      rw [if_neg (by simp [hl])]
      simp only [checkLen]
      unfold setOrbitalAt
      rw [pyIndex_of_nonneg (by omega) (by simpa [numOrb] using hlt)]
      have hv : vec3 (p 0, p 1, p 2) = p := by funext x; fin_cases x <;> rfl
      simp [hv]
    simp only
    rw [hset]
    simp only
    rw [ih (k + 1) _ (by simpa using hl) (by simp; omega)]
    simp only [Prod.mk.injEq, and_true]
    congr 1
    rw [List.drop_eq_getElem_cons hlt, List.zip_cons_cons, List.map_cons]
    have h1 : (s.orbs.modify k (fun o => ⟨p, o.energy, o.label⟩)).take (k + 1) =
        s.orbs.take k ++ [⟨p, s.orbs[k].energy, s.orbs[k].label⟩] := by
      rw [List.take_succ_eq_append_getElem (by simpa using hlt)]
      congr 1
      · apply List.ext_getElem?
        intro n
        simp only [List.getElem?_take, List.getElem?_modify]
        split_ifs with g1 g2
        · omega
        · cases s.orbs[n]? <;> rfl
        · rfl
      · simp
    have h2 : (s.orbs.modify k (fun o => ⟨p, o.energy, o.label⟩)).drop (k + 1) = s.orbs.drop (k + 1) := by
      apply List.ext_getElem?
      intro n
      simp only [List.getElem?_drop, List.getElem?_modify]
      have hne : ¬ k = k + 1 + n := by omega
      cases s.orbs[k + 1 + n]? <;> simp [hne]
    rw [h1, h2]
    simp

/-- Rotation by an angle about the z axis (counter-clockwise). -/
noncomputable def turnZ (t : ℝ) (v : Vec3 ℝ) : Vec3 ℝ :=
  ![Real.cos t * v 0 - Real.sin t * v 1, Real.sin t * v 0 + Real.cos t * v 1, v 2]

theorem rotMat_z (t : ℝ) (v : Vec3 ℝ) : (rotMat .z t).mulVec v = turnZ t v := by
  funext x
  fin_cases x <;> simp [rotMat, axisVec, turnZ, Matrix.mulVec, dotProduct, Fin.sum_univ_three, Matrix.vecMulVec] <;> ring

theorem turnZ_add (t : ℝ) (v w : Vec3 ℝ) : turnZ t (v + w) = turnZ t v + turnZ t w := by
  rw [← rotMat_z, ← rotMat_z, ← rotMat_z, Matrix.mulVec_add]

theorem turnZ_sub (t : ℝ) (v w : Vec3 ℝ) : turnZ t (v - w) = turnZ t v - turnZ t w := by
  rw [← rotMat_z, ← rotMat_z, ← rotMat_z, Matrix.mulVec_sub]

theorem spiralLattice_eq (s : PrimCell ℝ E Λ) (angle : ℝ) (c : Vec3 ℝ) :
    (∀ i, (spiralLattice s angle c).1 i = turnZ angle (s.lat i)) ∧
    (spiralLattice s angle c).2 = turnZ angle (s.origin - c) + c := by
  have hp : ∀ v : Vec3 ℝ, turnZ angle (v + s.origin - c) + c - (turnZ angle (0 + s.origin - c) + c) = turnZ angle v := by
    intro v
    rw [add_sub_assoc v, turnZ_add, zero_add]
    abel
  constructor
  · intro i
    unfold spiralLattice rotateCoord
    simp only [List.map_cons, List.map_nil, rotMat_z]
    fin_cases i
    · exact hp _
    · exact hp _
    · exact hp _
  · unfold spiralLattice rotateCoord
    simp only [List.map_cons, List.map_nil, rotMat_z]
    show turnZ angle (0 + s.origin - c) + c = _
    rw [zero_add]

/-- **C97.** `spiral_prim_cell` of any unlocked cell with orbitals, synchronised positions and independent lattice vectors, for
every angle, centre and shift: the call succeeds; the lattice vectors are rotated about the z axis; the origin is rotated about
the centre; every orbital is rotated about the centre and displaced by `shift` along z, with the same energy and label; the
hoppings are untouched. -/
theorem C97_spiral (H : HashFns ℝ E Λ) (s : PrimCell ℝ E Λ) (hl : s.locked = false) (hne : s.orbs ≠ [])
    (hf : (s.syncOrb H false).arrPos = s.orbs.map Orbital.position) (hdet : s.lat.det ≠ 0) (angle : ℝ) (c : Vec3 ℝ) (shift : ℝ) :
    ∃ t, spiralPrimCell H s angle c shift = (t, .ok ()) ∧
      (∀ i, t.lat i = turnZ angle (s.lat i)) ∧ t.origin = turnZ angle (s.origin - c) + c ∧
      t.hops = s.hops ∧ t.locked = false ∧ t.orbs.length = s.orbs.length ∧
      ∀ (k : ℕ) ob, s.orbs[k]? = some ob → ∃ ob', t.orbs[k]? = some ob' ∧ ob'.energy = ob.energy ∧ ob'.label = ob.label ∧
        frac2cartRow t.lat t.origin ob'.position =
          turnZ angle (frac2cartRow s.lat s.origin ob.position - c) + c + ![0, 0, shift] := by
  obtain ⟨hlat, horg⟩ := spiralLattice_eq s angle c
  set lat' := (spiralLattice s angle c).1 with hlat'
  set o' := (spiralLattice s angle c).2 with ho'
  have hlat2 : lat' = s.lat * (rotMat .z angle).transpose := by
    funext i
    rw [hlat i, ← rotMat_z, ← Matrix.vecMul_transpose]
    rfl
  have hdet' : lat'.det ≠ 0 := by
    rw [hlat2, Matrix.det_mul, Matrix.det_transpose]
    have : (rotMat .z angle).det = 1 := by
      have h := Real.sin_sq_add_cos_sq angle
      simp [rotMat, axisVec, Matrix.det_fin_three, Matrix.vecMulVec]
      linear_combination h
    rw [this, mul_one]; exact hdet
  have hreset : s.resetLattice H (some (latRows lat')) (some [o' 0, o' 1, o' 2]) 1 false =
      ({ s with lat := lat', origin := o' }, .ok ()) := by
    unfold resetLattice
    rw [if_neg (by simp [hl])]
    simp [latOfList_rows, vecOfList_vec]
  set s1 := PrimCell.syncOrb H { s with lat := lat', origin := o' } false with hs1
  have hsync : s1 = { s.syncOrb H false with lat := lat', origin := o' } := by
    rw [hs1]
    unfold syncOrb
    dsimp only
    split <;> rfl
  have e1 : s1.arrPos = s.orbs.map Orbital.position := by rw [hsync]; exact hf
  have e2 : s1.orbs = s.orbs := by rw [hsync]; exact (syncOrb_orbs H s false).1
  have e3 : s1.hops = s.hops := by
    rw [hsync]; unfold syncOrb; dsimp only; split <;> rfl
  have e4 : s1.locked = false := by
    rw [hsync]; unfold syncOrb; dsimp only; split <;> exact hl
  have e5 : s1.lat = lat' ∧ s1.origin = o' := by rw [hsync]; exact ⟨rfl, rfl⟩
  unfold spiralPrimCell
  simp only
  rw [← hlat', ← ho', hreset]
  simp only
  rw [← hs1, if_neg (by rw [e1]; simpa using hne)]
  unfold cart2frac
  rw [if_neg (by rwa [Matrix.det_transpose])]
  simp only
  rw [spiralSet_spec _ 0 s1 e4 (by rw [e1, e2]; simp [frac2cart])]
  refine ⟨_, rfl, ?_, ?_, e3, e4, ?_, ?_⟩
  · intro i; simp only; rw [e5.1]; exact hlat i
  · simp only; rw [e5.2]; exact horg
  · simp [e1, e2, frac2cart]
  · intro k ob hob
    have hk : k < s.orbs.length := (List.getElem?_eq_some_iff.1 hob).1
    simp only [List.take_zero, List.nil_append, List.drop_zero, e1, e2, e5.1, e5.2]
    refine ⟨⟨cart2fracRow lat' o' (frac2cartRow lat' o' ob.position + ![0, 0, shift]), ob.energy, ob.label⟩, ?_, rfl, rfl, ?_⟩
    · have hz : ∀ (A : List (Vec3 ℝ)) p, A[k]? = some p → (A.zip s.orbs)[k]? = some (p, ob) := by
        intro A p hA
        exact List.getElem?_zip_eq_some.2 ⟨hA, hob⟩
      rw [List.getElem?_map, hz _ (cart2fracRow lat' o' (frac2cartRow lat' o' ob.position + ![0, 0, shift]))
        (by simp [frac2cart, hob])]
      rfl
    · have hround : ∀ r, frac2cartRow lat' o' (cart2fracRow lat' o' r) = r := by
        intro r
        unfold frac2cartRow cart2fracRow
        rw [Matrix.mulVec_mulVec, Matrix.mul_nonsing_inv _ (by rw [Matrix.det_transpose]; exact isUnit_iff_ne_zero.2 hdet'),
          Matrix.one_mulVec]
        abel
      rw [hround]
      congr 1
      unfold frac2cartRow
      rw [hlat2, horg, Matrix.transpose_mul, Matrix.transpose_transpose, ← Matrix.mulVec_mulVec, rotMat_z, ← add_assoc,
        ← turnZ_add]
      congr 2
      abel

/-- **C97 (failure).** On a cell without orbitals the function raises an exception after having rotated the lattice: what is left
is neither the old cell nor the rotated one (the arrays are not shifted, there is nothing to shift), and a second call rotates
again. -/
theorem C97_empty (H : HashFns ℝ E Λ) (lat : Mat3 ℝ) (o : Vec3 ℝ) (angle : ℝ) (c : Vec3 ℝ) (shift : ℝ) :
    ∃ t, spiralPrimCell H (init (E := E) (Λ := Λ) H lat o) angle c shift = (t, .error .value) ∧
      (∀ i, t.lat i = turnZ angle (lat i)) ∧ t.origin = turnZ angle (o - c) + c ∧ t.orbs = [] := by
  obtain ⟨hlat, horg⟩ := spiralLattice_eq (init (E := E) (Λ := Λ) H lat o) angle c
  set lat' := (spiralLattice (init (E := E) (Λ := Λ) H lat o) angle c).1 with hlat'
  set o' := (spiralLattice (init (E := E) (Λ := Λ) H lat o) angle c).2 with ho'
  have hreset : (init (E := E) (Λ := Λ) H lat o).resetLattice H (some (latRows lat')) (some [o' 0, o' 1, o' 2]) 1 false =
      ({ init (E := E) (Λ := Λ) H lat o with lat := lat', origin := o' }, .ok ()) := by
    unfold resetLattice
    rw [if_neg (by simp [init])]
    simp [latOfList_rows, vecOfList_vec]
  unfold spiralPrimCell
  simp only
  rw [← hlat', ← ho', hreset]
  simp only
  have hs : (PrimCell.syncOrb H { init (E := E) (Λ := Λ) H lat o with lat := lat', origin := o' } false) =
      { init (E := E) (Λ := Λ) H lat o with lat := lat', origin := o' } := by
    unfold syncOrb
    simp [init]
  rw [hs]
  exact ⟨_, if_pos rfl, hlat, horg, rfl⟩

/-- The distances between the orbitals are preserved (a consequence of C97). -/
theorem C97_distances (t : ℝ) (c p q : Vec3 ℝ) (z : ℝ) :
    ∑ x, ((turnZ t (p - c) + c + ![0, 0, z]) x - (turnZ t (q - c) + c + ![0, 0, z]) x) ^ 2 = ∑ x, (p x - q x) ^ 2 := by
  have h := Real.sin_sq_add_cos_sq t
  simp only [turnZ, Fin.sum_univ_three, Pi.add_apply, Pi.sub_apply, Matrix.cons_val_zero, Matrix.cons_val_one, Matrix.cons_val]
  linear_combination ((p 0 - q 0) ^ 2 + (p 1 - q 1) ^ 2) * h

/-- A quarter turn of a concrete cell: the hypotheses hold. -/
example : ∃ t, spiralPrimCell (E := ℂ) ⟨fun l => l.length, fun l => l.length⟩
    { init (E := ℂ) (Λ := Unit) ⟨fun l => l.length, fun l => l.length⟩ (1 : Mat3 ℝ) 0 with orbs := [⟨![1/2, 0, 0], 1, ()⟩] }
    (Real.pi / 2) 0 3 = (t, .ok ()) ∧ t.orbs.length = 1 := by
  obtain ⟨t, h1, -, -, -, -, h2, -⟩ := C97_spiral (E := ℂ) ⟨fun l => l.length, fun l => l.length⟩
    { init (E := ℂ) (Λ := Unit) ⟨fun l => l.length, fun l => l.length⟩ (1 : Mat3 ℝ) 0 with orbs := [⟨![1/2, 0, 0], 1, ()⟩] }
    rfl (by simp) (by simp [syncOrb, init]) (by simp [init]) (Real.pi / 2) 0 3
  exact ⟨t, h1, h2⟩

end Verif.Props

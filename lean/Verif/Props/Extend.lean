import Verif.Proof.Advanced
import Verif.Props.Bloch
import Verif.Props.Super

/-! # Properties C33 and C34: extended cells -/

set_option linter.unusedSectionVars false

namespace Verif.Props

open PrimCell

section C33

variable {F E Λ : Type*} [Field F] [DecidableEq F] [CharZero F] [InvolutiveStar E]

/-- **C33.** `extend_prim_cell(dim)` of any cell obtained by a history of calls (removals in range)
succeeds for every positive dimension.  The result has `da*db*dc` images of every orbital, image
`I` of orbital `i` being number `extIdx I i`, with the same energy and label and displaced by
exactly `I` lattice vectors.  The hopping map between images is the old one: from image `I` of `i` to
image `J` of `j` in extended cell `N` it is the hopping of the old cell with index `N∘dim + J - I`,
and there are no other hoppings.  The number of hoppings is multiplied by `da*db*dc`. -/
theorem C33_extend (H : HashFns F E Λ) (lat : Mat3 F) (o : Vec3 F) (cs : List (Call F E Λ))
    (hr : InRange H (init H lat o) cs) (ext : F) (d : Cell)
    (hd : 1 ≤ d.1 ∧ 1 ≤ d.2.1 ∧ 1 ≤ d.2.2) (dim : List ℤ)
    (hdim : dim = [d.1, d.2.1, d.2.2] ∨ (dim = [d.1, d.2.1] ∧ d.2.2 = 1)) :
    ∃ t, extendPrimCell H ⟨run H (init H lat o) cs, ext⟩ dim = .ok t ∧
      t.ext = ext * d.1 * d.2.1 * d.2.2 ∧ t.cell.origin = (run H (init H lat o) cs).origin ∧
      (∀ x y, t.cell.lat x y = cellAt d x * (run H (init H lat o) cs).lat x y) ∧
      (t.cell.numOrb : ℤ) = d.1 * d.2.1 * d.2.2 * (run H (init H lat o) cs).numOrb ∧
      (∀ I (i : ℕ) ob, InBox d I → (run H (init H lat o) cs).orbs[i]? = some ob →
        ∃ ob', t.cell.orbs[(extIdx d (run H (init H lat o) cs).numOrb I i).toNat]? = some ob' ∧
          ob'.energy = ob.energy ∧ ob'.label = ob.label ∧
          (∀ x, ob'.position x = (ob.position x + cellAt I x) / cellAt d x) ∧
          ∀ y, frac2cartRow t.cell.lat t.cell.origin ob'.position y =
            frac2cartRow (run H (init H lat o) cs).lat (run H (init H lat o) cs).origin ob.position y +
              ∑ x, (cellAt I x : F) * (run H (init H lat o) cs).lat x y) ∧
      (∀ N I J (i j : ℤ), InBox d I → InBox d J → (0 ≤ i ∧ i < (run H (init H lat o) cs).numOrb) →
        (0 ≤ j ∧ j < (run H (init H lat o) cs).numOrb) →
        t.cell.hops.get N (extIdx d (run H (init H lat o) cs).numOrb I i)
            (extIdx d (run H (init H lat o) cs).numOrb J j) =
          (run H (init H lat o) cs).hops.get (scaleCell d N + J - I) i j) ∧
      (∀ N a b, t.cell.hops.get N a b ≠ none →
        (0 ≤ a ∧ a < t.cell.numOrb) ∧ (0 ≤ b ∧ b < t.cell.numOrb)) ∧
      (∀ a, t.cell.hops.get 0 a a = none) ∧
      (t.cell.hops.numHop : ℤ) = d.1 * d.2.1 * d.2.2 * (run H (init H lat o) cs).hops.numHop := by
  have hw := WF_run H (WF_init H lat o) cs hr
  generalize run H (init H lat o) cs = s at *
  have hlen : checkLen 1 dim = some d := by
    rcases hdim with rfl | ⟨rfl, h1⟩
    · rfl
    · simp only [checkLen, Option.some.injEq]
      rw [← h1]
  obtain ⟨t, h1, h2, h3, h4, h5, h6, h7, h8, h9⟩ := extend_spec H s ext hw d hd dim hlen
  have hnum : (t.cell.numOrb : ℤ) = d.1 * d.2.1 * d.2.2 * s.numOrb := by
    rw [PrimCell.numOrb, h6, List.length_map, extSites_length' d hd]; rfl
  refine ⟨t, h1, ?_, h3, ?_, hnum, ?_, h9, ?_, ?_, ext_numHop hd hw h7 h8 h9⟩
  · rw [h2]; push_cast; ring
  · intro x y
    rw [h5]
    simp only [Matrix.of_apply, cellAt]
    ring
  · intro I i ob hI hob
    have hlt : i < s.orbs.length := (List.getElem?_eq_some_iff.1 hob).1
    obtain ⟨ob1, g1, g2⟩ := extSites_at (orbs := s.orbs) (i := (i : ℤ)) hI
      ⟨by omega, by omega⟩
    have e1 : ob1 = ob := by
      simp only [Int.toNat_natCast] at g1
      rw [hob] at g1
      exact (Option.some.inj g1).symm
    subst e1
    have hpos : ∀ x, (extOrb d ((I.1, I.2.1, I.2.2, (i : ℤ)), ob1)).position x =
        (ob1.position x + cellAt I x) / cellAt d x := by
      intro x
      fin_cases x <;> simp [extOrb, cellAt]
    refine ⟨extOrb d ((I.1, I.2.1, I.2.2, (i : ℤ)), ob1), ?_, rfl, rfl, hpos, ?_⟩
    · rw [h6, List.getElem?_map]
      show Option.map (extOrb d) (extSites d s.orbs)[(extIdx d s.orbs.length I i).toNat]? = _
      rw [g2]
      rfl
    · intro y
      unfold frac2cartRow
      simp only [Pi.add_apply, Matrix.mulVec, dotProduct, Matrix.transpose_apply]
      rw [h3, h5]
      simp only [hpos, Matrix.of_apply]
      have hdx : ∀ x, (cellAt d x : F) ≠ 0 := by
        intro x
        have : cellAt d x ≠ 0 := by fin_cases x <;> simp [cellAt] <;> omega
        exact_mod_cast this
      have : ∀ x : Fin 3, s.lat x y * ((![d.1, d.2.1, d.2.2] x : ℤ) : F) *
          ((ob1.position x + cellAt I x) / cellAt d x) =
          s.lat x y * ob1.position x + cellAt I x * s.lat x y := by
        intro x
        have hx := hdx x
        show s.lat x y * (cellAt d x : F) * _ = _
        field_simp
      simp only [this, Finset.sum_add_distrib]
      ring
  · intro N a b hg
    rw [hnum]; exact h8 N a b hg
  · intro a
    by_contra hne
    obtain ⟨⟨h0, h1⟩, -⟩ := h8 0 a a hne
    obtain ⟨I, i, hI, hi, rfl⟩ := extIdx_surj h0 h1 hd (by omega)
    rw [h9 0 I I i i hI hI hi hi] at hne
    obtain ⟨e, he⟩ := Option.ne_none_iff_exists'.1 hne
    exact (rng_of_get hw he).2.2 ⟨by simp [scaleCell], rfl⟩

/-- **C33 (domain).** Dimensions of any other length, or with an entry below one, are refused. -/
theorem C33_errors (H : HashFns F E Λ) (p : PCObj F E Λ) (dim : List ℤ) :
    (dim.length ≠ 2 → dim.length ≠ 3 → extendPrimCell H p dim = .error .coordLen) ∧
    (dim.length = 2 ∨ dim.length = 3 → (∃ x ∈ dim, x < 1) → extendPrimCell H p dim = .error .value) := by
  constructor
  · intro h2 h3
    have : checkLen (1 : ℤ) dim = none := by
      match dim with
      | [] => rfl
      | [_] => rfl
      | [_, _] => simp at h2
      | [_, _, _] => simp at h3
      | _ :: _ :: _ :: _ :: _ => rfl
    unfold extendPrimCell
    rw [this]
  · rintro h ⟨x, hx, hlt⟩
    match dim with
    | [] => simp at h
    | [_] => simp at h
    | [a, b] =>
      unfold extendPrimCell
      simp only [checkLen]
      rw [if_pos]
      simp only [List.mem_cons, List.not_mem_nil, or_false] at hx
      rcases hx with rfl | rfl <;> tauto
    | [a, b, c] =>
      unfold extendPrimCell
      simp only [checkLen]
      rw [if_pos]
      simp only [List.mem_cons, List.not_mem_nil, or_false] at hx
      rcases hx with rfl | rfl | rfl <;> tauto
    | _ :: _ :: _ :: _ :: _ => simp at h

set_option synthInstance.maxSize 1000 in
set_option synthInstance.maxHeartbeats 400000 in
/-- A concrete case: the chain extended to 2×2.  Hopping 0→2 and 1→3 stay inside, 2→0 and 3→1 leave
through the boundary; the original term carried cell index `(1,0,0)`. -/
example : (extendPrimCell lenHash ⟨chain, 1⟩ [2, 2]).toOption.map
      (fun t => (t.cell.hops.toList, t.ext, t.cell.orbs.map (fun o => (o.position 0, o.position 1)))) =
    some ([((0, 0, 0), (0, 2), ⟨2, 1⟩), ((0, 0, 0), (1, 3), ⟨2, 1⟩), ((1, 0, 0), (2, 0), ⟨2, 1⟩),
      ((1, 0, 0), (3, 1), ⟨2, 1⟩)], 4, [(0, 0), (0, 1/2), (1/2, 0), (1/2, 1/2)]) := by
  decide +kernel

end C33

section C34

variable {Λ : Type*}

/-- Element of the Bloch matrix of a well-formed, synchronised cell. -/
theorem ham_entry {s : PrimCell ℝ ℂ Λ} (hw : WF s) (hf : ArraysFresh s) (k : Vec3 ℝ) (conv : ℤ)
    (ham : IMat) (hok : setHamDense s k conv = .ok ham) (a b : ℕ) (oa ob : Orbital ℝ Λ)
    (ha : s.orbs[a]? = some oa) (hb : s.orbs[b]? = some ob) (S : Finset Cell)
    (hS : ∀ R, s.hops.get R a b ≠ none → R ∈ S) :
    ham a b = (if a = b then (oa.energy : ℂ) else 0) +
      ∑ R ∈ S, (s.hops.get R a b).getD 0 * eiPhase (2 * Real.pi * ∑ x, k x *
        (cellAt R x + (if conv = 1 then ob.position x - oa.position x else 0))) := by
  unfold setHamDense at hok
  split_ifs at hok
  simp only [Except.ok.injEq] at hok
  subst hok
  rw [setHam_apply, hopRows_fresh hf, sum_hopTerm_eq hw.inv (noDiag_of_WF hw) _ _ _ _ _ S hS,
    setDiag_apply]
  have posa : s.posAt a = oa.position := by
    simp [posAt, hf.pos, List.getD_eq_getElem?_getD, ha]
  have posb : s.posAt b = ob.position := by
    simp [posAt, hf.pos, List.getD_eq_getElem?_getD, hb]
  congr 1
  · by_cases hab : a = b
    · subst hab
      have hlt : a < s.orbs.length := (List.getElem?_eq_some_iff.1 ha).1
      rw [if_pos ⟨rfl, by omega, by simp [hf.eng, hlt]⟩, if_pos rfl]
      simp [hf.eng, List.getD_eq_getElem?_getD, ha]
    · rw [if_neg (by rintro ⟨h, -⟩; exact hab (by exact_mod_cast h)), if_neg hab]
  · apply Finset.sum_congr rfl
    intro R _
    congr 2
    unfold hopPhase kDotR
    rw [posa, posb]
    simp only [Fin.sum_univ_three, cellAt]
    split_ifs <;> simp <;> ring

/-- Sum over the numbers of the extended cell. -/
theorem sum_ext {d : Cell} (hd : 1 ≤ d.1 ∧ 1 ≤ d.2.1 ∧ 1 ≤ d.2.2) (n : ℕ) (f : ℕ → ℂ)
    (m : ℕ) (hm : (m : ℤ) = d.1 * d.2.1 * d.2.2 * n) :
    ∑ b ∈ Finset.range m, f b = ∑ J ∈ boxSet d, ∑ j ∈ Finset.range n, f (extIdx d n J j).toNat := by
  rw [← Finset.sum_product' (f := fun J (j : ℕ) => f (extIdx d n J j).toNat)]
  symm
  apply Finset.sum_bij (fun (q : Cell × ℕ) _ => (extIdx d n q.1 q.2).toNat)
  · rintro ⟨J, j⟩ h
    obtain ⟨h1, h2⟩ := Finset.mem_product.1 h
    have := extIdx_range ((mem_boxSet d J).1 h1) (i := (j : ℤ)) (n := n) ⟨by omega, by
      have := Finset.mem_range.1 h2; simp only at this; omega⟩
    rw [Finset.mem_range]
    simp only
    omega
  · rintro ⟨J, j⟩ h ⟨J', j'⟩ h' heq
    obtain ⟨h1, h2⟩ := Finset.mem_product.1 h
    obtain ⟨h1', h2'⟩ := Finset.mem_product.1 h'
    have hj : (0 : ℤ) ≤ j ∧ (j : ℤ) < n := ⟨by omega, by
      have := Finset.mem_range.1 h2; simp only at this; omega⟩
    have hj' : (0 : ℤ) ≤ j' ∧ (j' : ℤ) < n := ⟨by omega, by
      have := Finset.mem_range.1 h2'; simp only at this; omega⟩
    have b1 := (mem_boxSet d J).1 h1
    have b1' := (mem_boxSet d J').1 h1'
    have r1 := extIdx_range b1 hj
    have r2 := extIdx_range b1' hj'
    simp only at heq
    obtain ⟨rfl, h5⟩ := extIdx_inj b1 b1' hj hj' (by omega)
    have : j = j' := by omega
    rw [this]
  · intro b hb
    have hb' := Finset.mem_range.1 hb
    obtain ⟨I, i, hI, hi, e⟩ := extIdx_surj (d := d) (n := n) (a := b) (by omega) (by omega) hd (by omega)
    refine ⟨(I, i.toNat), Finset.mem_product.2 ⟨(mem_boxSet d I).2 hI, Finset.mem_range.2 (by omega)⟩, ?_⟩
    simp only
    rw [Int.toNat_of_nonneg hi.1, ← e]; simp
  · intro q _; rfl

/-- Phase of the folded Bloch vector on image `I` of an orbital at fractional position `τ`:
`k·I` in convention 2, `(m/dim)·(I+τ)` in convention 1. -/
noncomputable def foldPhase (conv : ℤ) (d : Cell) (k : Vec3 ℝ) (m : Fin 3 → ℤ) (I : Cell) (τ : Vec3 ℝ) : ℝ :=
  if conv = 1 then ∑ x, (m x / cellAt d x : ℝ) * (cellAt I x + τ x) else ∑ x, k x * cellAt I x

/-- **C34.** Let `t` be the extension by `d` of a cell `s` obtained by any history (removals in range)
and synchronised, `k` any point of the extended cell's Brillouin zone and `m` any integer vector.  If
`v` is an eigenvector of the Bloch Hamiltonian of `s` at `(k+m)/d` with eigenvalue `μ`, then the
vector with components `exp(2πi φ(I,i)) v_i` is an eigenvector of the Bloch Hamiltonian of `t` at `k`
with eigenvalue `μ`; it is nonzero if `v` is. -/
theorem C34_folding (H : HashFns ℝ ℂ Λ) (lat : Mat3 ℝ) (o : Vec3 ℝ) (cs : List (Call ℝ ℂ Λ))
    (hr : InRange H (init H lat o) cs) (hf : ArraysFresh (run H (init H lat o) cs)) (ext : ℝ)
    (d : Cell) (hd : 1 ≤ d.1 ∧ 1 ≤ d.2.1 ∧ 1 ≤ d.2.2) (t : PCObj ℝ ℂ Λ)
    (ht : extendPrimCell H ⟨run H (init H lat o) cs, ext⟩ [d.1, d.2.1, d.2.2] = .ok t)
    (hft : ArraysFresh (syncArray H t.cell)) (k : Vec3 ℝ) (m : Fin 3 → ℤ) (conv : ℤ) (hs ht' : IMat)
    (hok : setHamDense (run H (init H lat o) cs) (fun x => (k x + m x) / cellAt d x) conv = .ok hs)
    (hok' : setHamDense (syncArray H t.cell) k conv = .ok ht')
    (v : ℕ → ℂ) (μ : ℂ)
    (hv : ∀ i < (run H (init H lat o) cs).numOrb,
      ∑ j ∈ Finset.range (run H (init H lat o) cs).numOrb, hs i j * v j = μ * v i)
    (w : ℕ → ℂ)
    (hw : ∀ I (i : ℕ) ob, InBox d I → (run H (init H lat o) cs).orbs[i]? = some ob →
      w (extIdx d (run H (init H lat o) cs).numOrb I i).toNat =
        Complex.exp (2 * Real.pi * foldPhase conv d (fun x => (k x + m x) / cellAt d x) m I ob.position *
          Complex.I) * v i) :
    (∀ a < t.cell.numOrb, ∑ b ∈ Finset.range t.cell.numOrb, ht' a b * w b = μ * w a) ∧
    ((∃ i < (run H (init H lat o) cs).numOrb, v i ≠ 0) → ∃ a < t.cell.numOrb, w a ≠ 0) := by
  have hwf := WF_run H (WF_init H lat o) cs hr
  have hconv : conv = 1 ∨ conv = 2 := by
    by_contra hc
    unfold setHamDense at hok
    rw [if_pos hc] at hok
    simp at hok
  generalize run H (init H lat o) cs = s at *
  obtain ⟨t1, h1, h2, h3, h4, h5, h6, h7, h8, h9⟩ := extend_spec H s ext hwf d hd [d.1, d.2.1, d.2.2] rfl
  rw [h1] at ht
  simp only [Except.ok.injEq] at ht
  subst ht
  set c := syncArray H t1.cell with hc
  have corbs : c.orbs = t1.cell.orbs := by
    rw [hc]; unfold syncArray syncHop
    simp only
    split_ifs <;> exact (syncOrb_orbs H t1.cell false).1
  have chops : c.hops.get = t1.cell.hops.get := by
    have hso : (syncOrb H t1.cell false).hops = t1.cell.hops := by
      unfold syncOrb; simp only; split_ifs <;> rfl
    rw [hc]; unfold syncArray syncHop
    simp only
    split_ifs <;> (show IntraHop.get (IntraHop.purge (syncOrb H t1.cell false).hops) = _
                   rw [hso, IntraHop.get_purge h7])
  have hnum : (t1.cell.numOrb : ℤ) = d.1 * d.2.1 * d.2.2 * s.numOrb := by
    rw [PrimCell.numOrb, h6, List.length_map, extSites_length' d hd]; rfl
  have cnum : c.numOrb = t1.cell.numOrb := by rw [PrimCell.numOrb, corbs]; rfl
  have cinv : IntraHop.Inv c.hops := by
    have hso : (syncOrb H t1.cell false).hops = t1.cell.hops := by
      unfold syncOrb; simp only; split_ifs <;> rfl
    rw [hc]; unfold syncArray syncHop
    simp only
    split_ifs <;> (show IntraHop.Inv (IntraHop.purge (syncOrb H t1.cell false).hops)
                   rw [hso]; exact IntraHop.Inv_purge h7)
  have cwf : WF c := by
    refine WF_of_get cinv ?_
    intro R i j e he
    rw [chops] at he
    have hr' := h8 R i j (by rw [he]; simp)
    rw [cnum, hnum]
    refine ⟨hr'.1, hr'.2, ?_⟩
    rintro ⟨rfl, rfl⟩
    obtain ⟨I, i, hI, hi, rfl⟩ := extIdx_surj hr'.1.1 hr'.1.2 hd (by omega)
    rw [h9 0 I I i i hI hI hi hi] at he
    exact (rng_of_get hwf he).2.2 ⟨by simp [scaleCell], rfl⟩
  set q : Vec3 ℝ := fun x => (k x + m x) / cellAt d x with hq
  have hdx : ∀ x, (cellAt d x : ℝ) ≠ 0 := by
    intro x
    have : cellAt d x ≠ 0 := by fin_cases x <;> simp [cellAt] <;> omega
    exact_mod_cast this
  have hk : ∀ x, k x = q x * cellAt d x - m x := by
    intro x; rw [hq]; have := hdx x; field_simp; ring
  -- orbital look-up in both cells
  have orbAt : ∀ (i : ℕ), i < s.numOrb → ∃ ob, s.orbs[i]? = some ob := by
    intro i hi; exact ⟨s.orbs[i], List.getElem?_eq_getElem hi⟩
  have cAt : ∀ I (i : ℕ) ob, InBox d I → s.orbs[i]? = some ob →
      c.orbs[(extIdx d s.numOrb I i).toNat]? = some (extOrb d ((I.1, I.2.1, I.2.2, (i : ℤ)), ob)) := by
    intro I i ob hI hob
    have hlt : i < s.orbs.length := (List.getElem?_eq_some_iff.1 hob).1
    obtain ⟨ob1, g1, g2⟩ := extSites_at (orbs := s.orbs) (i := (i : ℤ)) hI ⟨by omega, by omega⟩
    have e1 : ob1 = ob := by
      simp only [Int.toNat_natCast] at g1
      rw [hob] at g1
      exact (Option.some.inj g1).symm
    subst e1
    rw [corbs, h6, List.getElem?_map]
    show Option.map (extOrb d) (extSites d s.orbs)[(extIdx d s.orbs.length I i).toNat]? = _
    rw [g2]
    rfl
  have hpos : ∀ (I : Cell) (i : ℕ) (ob : Orbital ℝ Λ) x,
      (extOrb d ((I.1, I.2.1, I.2.2, (i : ℤ)), ob)).position x =
        (ob.position x + cellAt I x) / cellAt d x := by
    intro I i ob x
    fin_cases x <;> simp [extOrb, cellAt]
  have hw' : ∀ I (i : ℕ) ob, InBox d I → s.orbs[i]? = some ob → w (extIdx d s.numOrb I i).toNat =
      eiPhase (2 * Real.pi * foldPhase conv d q m I ob.position) * v i := by
    intro I i ob hI hob
    rw [hw I i ob hI hob, eiPhase_eq_exp]; push_cast; rfl
  constructor
  · intro a ha
    obtain ⟨I, i0, hI, hi0, ea⟩ := extIdx_surj (d := d) (n := s.numOrb) (a := a) (by omega)
      (by rw [← hnum]; exact_mod_cast ha) hd (by omega)
    obtain ⟨i, rfl⟩ := Int.eq_ofNat_of_zero_le hi0.1
    have hi : i < s.numOrb := by omega
    obtain ⟨oi, hoi⟩ := orbAt i hi
    have ea' : a = (extIdx d s.numOrb I i).toNat := by omega
    -- a finite set of extended cells containing all hoppings from `a`
    have hfin := C07_neighbours_finite c.hops a
    let S : Finset Cell := (hfin.image Prod.fst).toFinset
    have hS : ∀ b N, c.hops.get N a b ≠ none → N ∈ S := fun b N hN =>
      (Set.Finite.mem_toFinset _).2 ⟨(N, b), hN, rfl⟩
    let S' : Finset Cell := (boxSet d ×ˢ S).image (fun p => scaleCell d p.2 + p.1 - I)
    have hS' : ∀ (j : ℕ), j < s.numOrb → ∀ R, s.hops.get R i j ≠ none → R ∈ S' := by
      intro j hj R hR
      have hJ := wrapJ_box d hd I R
      refine Finset.mem_image.2 ⟨(wrapJ d I R, wrapN d I R), Finset.mem_product.2
        ⟨(mem_boxSet _ _).2 hJ, hS (extIdx d s.numOrb (wrapJ d I R) j) _ ?_⟩, wrap_eq d hd I R⟩
      rw [chops, ea]
      rw [h9 _ I _ i j hI hJ ⟨by omega, by omega⟩ ⟨by omega, by omega⟩, wrap_eq d hd]
      exact hR
    have hinj : Set.InjOn (fun p : Cell × Cell => scaleCell d p.2 + p.1 - I)
        ((boxSet d ×ˢ S : Finset (Cell × Cell)) : Set (Cell × Cell)) := by
      rintro ⟨J, N⟩ h ⟨J', N'⟩ h' heq
      have b1 := (mem_boxSet _ _).1 (Finset.mem_product.1 (Finset.mem_coe.1 h)).1
      have b2 := (mem_boxSet _ _).1 (Finset.mem_product.1 (Finset.mem_coe.1 h')).1
      simp only at heq
      obtain ⟨rfl, rfl⟩ := wrap_unique (N := N) (N' := N') b1 b2 (by
        have := congrArg (· + I) heq
        simpa using this)
      rfl
    -- value of one term
    set φ := eiPhase (2 * Real.pi * foldPhase conv d q m I oi.position) with hφ
    have entry : ∀ J ∈ boxSet d, ∀ j ∈ Finset.range s.numOrb,
        ht' a (extIdx d s.numOrb J j).toNat * w (extIdx d s.numOrb J j).toNat =
        (if I = J ∧ i = j then (oi.energy : ℂ) * (φ * v i) else 0) +
        ∑ N ∈ S, (s.hops.get (scaleCell d N + J - I) i j).getD 0 *
          eiPhase (2 * Real.pi * ∑ x, q x * (cellAt (scaleCell d N + J - I) x +
            (if conv = 1 then (s.orbs[j]?.elim 0 Orbital.position) x - oi.position x else 0))) *
          (φ * v j) := by
      intro J hJ j hj
      have hJb := (mem_boxSet _ _).1 hJ
      have hj' : j < s.numOrb := Finset.mem_range.1 hj
      obtain ⟨oj, hoj⟩ := orbAt j hj'
      have rb := extIdx_range hJb (i := (j : ℤ)) (n := s.numOrb) ⟨by omega, by omega⟩
      have ra := extIdx_range hI (i := (i : ℤ)) (n := s.numOrb) ⟨by omega, by omega⟩
      have hb : (((extIdx d s.numOrb J j).toNat : ℕ) : ℤ) = extIdx d s.numOrb J j := by omega
      rw [ham_entry cwf hft k conv ht' hok' a _ _ _ (by rw [ea']; exact cAt I i oi hI hoi)
        (cAt J j oj hJb hoj) S (fun R hR => hS _ R hR), hw' J j oj hJb hoj, add_mul,
        Finset.sum_mul]
      congr 1
      · have hiff : a = (extIdx d s.numOrb J j).toNat ↔ I = J ∧ i = j := by
          constructor
          · intro h
            obtain ⟨h1, h2⟩ := extIdx_inj hI hJb (i := (i : ℤ)) (j := (j : ℤ)) (n := s.numOrb)
              ⟨by omega, by omega⟩ ⟨by omega, by omega⟩ (by omega)
            exact ⟨h1, by omega⟩
          · rintro ⟨rfl, rfl⟩; exact ea'
        by_cases hcase : I = J ∧ i = j
        · rw [if_pos (hiff.2 hcase), if_pos hcase]
          obtain ⟨rfl, rfl⟩ := hcase
          rw [hoi] at hoj
          obtain rfl := Option.some.inj hoj
          rfl
        · rw [if_neg (fun h => hcase (hiff.1 h)), if_neg hcase, zero_mul]
      · apply Finset.sum_congr rfl
        intro N _
        rw [chops, hb, ea, h9 N I J i j hI hJb ⟨by omega, by omega⟩ ⟨by omega, by omega⟩]
        have hM : eiPhase (2 * Real.pi * ((-(m 0 * N.1 + m 1 * N.2.1 + m 2 * N.2.2) : ℤ) : ℝ)) = 1 :=
          eiPhase_int _
        have key : eiPhase (2 * Real.pi * ∑ x, k x * (cellAt N x + (if conv = 1 then
            (extOrb d ((J.1, J.2.1, J.2.2, (j : ℤ)), oj)).position x -
            (extOrb d ((I.1, I.2.1, I.2.2, (i : ℤ)), oi)).position x else 0))) *
            eiPhase (2 * Real.pi * foldPhase conv d q m J oj.position) =
            eiPhase (2 * Real.pi * ∑ x, q x * (cellAt (scaleCell d N + J - I) x +
            (if conv = 1 then (s.orbs[j]?.elim 0 Orbital.position) x - oi.position x else 0))) * φ := by
          rw [hφ, ← eiPhase_add, ← eiPhase_add]
          refine Eq.trans ?_ (mul_one _)
          rw [← hM, ← eiPhase_add]
          congr 1
          simp only [hoj, Option.elim_some, hpos]
          have d0 := hdx 0
          have d1 := hdx 1
          have d2 := hdx 2
          unfold foldPhase
          rcases hconv with rfl | rfl
          · simp only [if_true, Fin.sum_univ_three, hk]
            simp only [cellAt, scaleCell, Matrix.cons_val_zero, Matrix.cons_val_one,
              Matrix.cons_val, Prod.fst_sub, Prod.fst_add, Prod.snd_sub, Prod.snd_add] at d0 d1 d2 ⊢
            push_cast
            field_simp
            ring
          · simp only [if_neg (show ¬ ((2 : ℤ) = 1) by decide), Fin.sum_univ_three, hk]
            simp only [cellAt, scaleCell, Matrix.cons_val_zero, Matrix.cons_val_one,
              Matrix.cons_val, Prod.fst_sub, Prod.fst_add, Prod.snd_sub, Prod.snd_add] at d0 d1 d2 ⊢
            push_cast
            ring
        linear_combination ((s.hops.get (scaleCell d N + J - I) i j).getD 0 * v j) * key
    rw [sum_ext hd s.numOrb _ _ hnum, Finset.sum_congr rfl (fun J hJ => Finset.sum_congr rfl (entry J hJ))]
    simp only [Finset.sum_add_distrib]
    have diag : ∑ J ∈ boxSet d, ∑ j ∈ Finset.range s.numOrb,
        (if I = J ∧ i = j then (oi.energy : ℂ) * (φ * v i) else 0) = (oi.energy : ℂ) * (φ * v i) := by
      rw [Finset.sum_eq_single I, Finset.sum_eq_single i]
      · simp
      · intro j _ hne; rw [if_neg (by rintro ⟨-, h⟩; exact hne h.symm)]
      · intro h; exact absurd (Finset.mem_range.2 hi) h
      · intro J _ hne
        apply Finset.sum_eq_zero
        intro j _; rw [if_neg (by rintro ⟨h, -⟩; exact hne h.symm)]
      · intro h; exact absurd ((mem_boxSet _ _).2 hI) h
    rw [diag]
    -- the right-hand side
    have hvi := hv i hi
    have rhs : ∀ j ∈ Finset.range s.numOrb, hs i j * v j =
        (if i = j then (oi.energy : ℂ) * v i else 0) +
        ∑ R ∈ S', (s.hops.get R i j).getD 0 *
          eiPhase (2 * Real.pi * ∑ x, q x * (cellAt R x +
            (if conv = 1 then (s.orbs[j]?.elim 0 Orbital.position) x - oi.position x else 0))) * v j := by
      intro j hj
      have hj' : j < s.numOrb := Finset.mem_range.1 hj
      obtain ⟨oj, hoj⟩ := orbAt j hj'
      rw [ham_entry hwf hf q conv hs hok i j oi oj hoi hoj S' (hS' j hj'), add_mul, Finset.sum_mul]
      congr 1
      · split_ifs with h
        · rw [h]
        · simp
      · simp [hoj]
    rw [Finset.sum_congr rfl rhs, Finset.sum_add_distrib] at hvi
    have diag2 : ∑ j ∈ Finset.range s.numOrb, (if i = j then (oi.energy : ℂ) * v i else 0) =
        (oi.energy : ℂ) * v i := by
      rw [Finset.sum_ite_eq, if_pos (Finset.mem_range.2 hi)]
    rw [diag2] at hvi
    rw [ea', hw' I i oi hI hoi, ← hφ]
    have : μ * (φ * v i) = φ * (μ * v i) := by ring
    rw [this, ← hvi, mul_add]
    congr 1
    · ring
    · rw [Finset.sum_comm, Finset.mul_sum]
      apply Finset.sum_congr rfl
      intro j _
      rw [Finset.mul_sum, Finset.sum_image hinj, Finset.sum_product]
      apply Finset.sum_congr rfl
      intro J _
      apply Finset.sum_congr rfl
      intro N _
      ring
  · rintro ⟨i, hi, hne⟩
    have h0 : InBox d 0 := ⟨⟨le_refl _, by show (0:ℤ) < _; omega⟩, ⟨le_refl _, by show (0:ℤ) < _; omega⟩,
      ⟨le_refl _, by show (0:ℤ) < _; omega⟩⟩
    obtain ⟨ob, hob⟩ := orbAt i hi
    have rb := extIdx_range h0 (i := (i : ℤ)) (n := s.numOrb) ⟨by omega, by omega⟩
    refine ⟨(extIdx d s.numOrb 0 i).toNat, by omega, ?_⟩
    rw [hw' 0 i ob h0 hob]
    apply mul_ne_zero _ hne
    intro h
    have := eiPhase_mul_star (2 * Real.pi * foldPhase conv d q m 0 ob.position)
    rw [h, zero_mul] at this
    exact zero_ne_one this

/-- The synchronisation hypothesis of C34 holds whenever the hash functions separate the new
cell's content from that of an empty cell. -/
example (H : HashFns ℝ ℂ Λ) (lat : Mat3 ℝ) (o : Vec3 ℝ) (cs : List (Call ℝ ℂ Λ))
    (hr : InRange H (init H lat o) cs) (ext : ℝ) (d : Cell)
    (hd : 1 ≤ d.1 ∧ 1 ≤ d.2.1 ∧ 1 ≤ d.2.2) (t : PCObj ℝ ℂ Λ)
    (ht : extendPrimCell H ⟨run H (init H lat o) cs, ext⟩ [d.1, d.2.1, d.2.2] = .ok t)
    (h1 : H.orb t.cell.orbs ≠ H.orb []) (h2 : H.hop t.cell.hops.toList ≠ H.hop []) :
    ArraysFresh (syncArray H t.cell) := by
  obtain ⟨t', ht', e1, e2⟩ := extend_hash H _ ext (WF_run H (WF_init H lat o) cs hr) d hd
    [d.1, d.2.1, d.2.2] rfl
  rw [ht] at ht'
  simp only [Except.ok.injEq] at ht'
  subst ht'
  have p1 : t.cell.hashOrb ≠ H.orb t.cell.orbs := by rw [e1]; exact fun h => h1 h.symm
  have p2 : t.cell.hashHop ≠ H.hop t.cell.hops.toList := by rw [e2]; exact fun h => h2 h.symm
  constructor <;> simp [syncArray, syncHop, syncOrb, p1, p2, toList_purge]

end C34
end Verif.Props

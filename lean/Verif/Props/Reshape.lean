import Verif.Proof.ReshapeCount
import Verif.Props.Super

/-! # Property C95: reshaped cells -/

set_option linter.unusedSectionVars false

namespace Verif.Props

open PrimCell

section C95

variable {F E Λ : Type*} [Field F] [LinearOrder F] [IsStrictOrderedRing F] [FloorRing F] [InvolutiveStar E]

/-- A tolerance below `1/|det|` separates the copies of an orbital. -/
theorem tolSep_of_det {Lz : Matrix (Fin 3) (Fin 3) ℤ} {tol : F} (hL : Lz.det ≠ 0) (h0 : 0 ≤ tol)
    (h : tol * |(Lz.det : F)| < 1) : TolSep Lz tol := by
  refine ⟨h0, ?_⟩
  intro v hv
  set w : Fin 3 → ℤ := Matrix.vecMul (cellFun v) Lz.adjugate with hwd
  have hd : (Lz.det : F) ≠ 0 := by exact_mod_cast hL
  have hcoord : ∀ x, Matrix.vecMul (cellVec F v) (Lz.map (fun z : ℤ => (z : F)))⁻¹ x = (w x : F) / (Lz.det : F) := by
    intro x
    rw [Matrix.inv_def, det_cast, Ring.inverse_eq_inv', Matrix.vecMul_smul, Pi.smul_apply, smul_eq_mul, div_eq_inv_mul]
    congr 1
    have hadj : (Lz.map (fun z : ℤ => (z : F))).adjugate = Lz.adjugate.map (fun z : ℤ => (z : F)) :=
      (RingHom.map_adjugate (Int.castRingHom F) Lz).symm
    rw [hadj, hwd]
    simp only [Matrix.vecMul, dotProduct, Fin.sum_univ_three, cellVec, cellFun, Matrix.map_apply]
    push_cast
    simp
  have hw0 : w ≠ 0 := by
    intro h0
    have h1 : Matrix.vecMul w Lz = 0 := by rw [h0, Matrix.zero_vecMul]
    rw [hwd, Matrix.vecMul_vecMul, Matrix.adjugate_mul, Matrix.vecMul_smul, Matrix.vecMul_one] at h1
    apply hv
    apply cellFun_inj
    funext x
    have h2 := congrFun h1 x
    simp only [Pi.smul_apply, smul_eq_mul, Pi.zero_apply, mul_eq_zero] at h2
    have h3 := h2.resolve_left hL
    rw [h3]
    fin_cases x <;> rfl
  obtain ⟨x, hx⟩ := Function.ne_iff.1 hw0
  have h1 : (1 : F) ≤ (w x : F) ^ 2 := by
    have : (1 : ℤ) ≤ w x ^ 2 := by
      have : (0 : ℤ) < w x ^ 2 := lt_of_le_of_ne (sq_nonneg _) (Ne.symm (pow_ne_zero 2 hx))
      omega
    exact_mod_cast this
  have h2 : tol ^ 2 * (Lz.det : F) ^ 2 < 1 := by
    have h3 : 0 ≤ tol * |(Lz.det : F)| := by positivity
    have h4 : (tol * |(Lz.det : F)|) ^ 2 < 1 := by nlinarith
    rwa [mul_pow, sq_abs] at h4
  calc tol ^ 2 < (w x : F) ^ 2 / (Lz.det : F) ^ 2 := by
        rw [lt_div_iff₀ (by positivity)]; linarith
    _ = (Matrix.vecMul (cellVec F v) (Lz.map (fun z : ℤ => (z : F)))⁻¹ x) ^ 2 := by rw [hcoord, div_pow]
    _ ≤ _ := Finset.single_le_sum (f := fun x => (Matrix.vecMul (cellVec F v) (Lz.map (fun z : ℤ => (z : F)))⁻¹ x) ^ 2)
        (fun i _ => sq_nonneg _) (Finset.mem_univ x)

/-- **C95.** `reshape_prim_cell` of any cell obtained by a history of calls (removals in range), with the integer matrix `L`
(`det L ≠ 0`) of the new lattice vectors, exact arithmetic, an exact neighbour search and hash functions that see the
orbitals.  Restrictions: the orbitals lie in `[0, 1)`, every column of `L` has a zero (layers with a fixed third vector) and
`delta` times every column sum is at most one; the theorems below show that each of them is needed.  Then the call succeeds;
the new lattice vectors are `L` times the old ones, the origin is kept, `extended` is multiplied by `|det L|`; there are
`|det L|` times as many orbitals; new orbital `a` is the image of an old orbital `i` in an old cell `R`, with its energy and
label, displaced by exactly `R` old lattice vectors, with coordinates in `[-delta, 1-delta)`; every image of every old orbital
is equivalent to exactly one new orbital; the hopping from `a` to `b` in new cell `m` is the old one between these images, and
there are no other hoppings. -/
theorem C95_reshape_partial (H : HashFns F E Λ) (hH : ∀ l, l ≠ [] → H.orb l ≠ H.orb []) (query : BallQuery F)
    (hq : IsBallQuery query) (lat : Mat3 F) (o : Vec3 F) (cs : List (Call F E Λ)) (hr : InRange H (init H lat o) cs)
    (s : PrimCell F E Λ) (hs : s = run H (init H lat o) cs) (hsync : SyncFresh H s) (hdet : s.lat.det ≠ 0) (ext : F)
    (Lz : Matrix (Fin 3) (Fin 3) ℤ) (hL : Lz.det ≠ 0) (delta tol : F) (ht : TolSep Lz tol)
    (hpos : ∀ ob ∈ s.orbs, ∀ x, 0 ≤ ob.position x ∧ ob.position x < 1) (hz : ∀ j, ∃ i, Lz i j = 0)
    (hdel : ∀ j, |delta * ((∑ i, Lz i j : ℤ) : F)| ≤ 1) :
    ∃ (t : PCObj F E Λ) (ids : List (Cell × ℕ)),
      reshapePrimCell H query ⟨s, ext⟩ (Lz.map (fun z : ℤ => (z : F))) delta tol = .ok t ∧
      t.cell.lat = Lz.map (fun z : ℤ => (z : F)) * s.lat ∧ t.cell.origin = s.origin ∧ t.ext = ext * |(Lz.det : F)| ∧
      ids.length = t.cell.numOrb ∧ t.cell.numOrb = Lz.det.natAbs * s.numOrb ∧
      (∀ (a : ℕ) (R : Cell) (i : ℕ), ids[a]? = some (R, i) → ∃ ob ob', s.orbs[i]? = some ob ∧ t.cell.orbs[a]? = some ob' ∧
        ob'.energy = ob.energy ∧ ob'.label = ob.label ∧ (∀ x, -delta ≤ ob'.position x ∧ ob'.position x < 1 - delta) ∧
        ∀ y, frac2cartRow t.cell.lat t.cell.origin ob'.position y =
          frac2cartRow s.lat s.origin ob.position y + ∑ x, (cellAt R x : F) * s.lat x y) ∧
      (∀ (R : Cell) (i : ℕ), i < s.numOrb → ∃! q : ℕ × Cell, ids[q.1]? = some (R - rowMul q.2 Lz, i)) ∧
      (∀ (m : Cell) (a b : ℕ) (Ra Rb : Cell) (i j : ℕ), ids[a]? = some (Ra, i) → ids[b]? = some (Rb, j) →
        t.cell.hops.get m a b = s.hops.get (Rb + rowMul m Lz - Ra) i j) ∧
      (∀ m a b, t.cell.hops.get m a b ≠ none → (0 ≤ a ∧ a < t.cell.numOrb) ∧ (0 ≤ b ∧ b < t.cell.numOrb)) := by
  have hw : WF s := hs ▸ WF_run H (WF_init H lat o) cs hr
  have hhome := homeList_filter hL (delta := delta) (orbs := s.orbs) hpos hz (by
    intro j
    have := hdel j
    rwa [Fin.sum_univ_three] at this)
  obtain ⟨t, S, h1, hS, h2, h3, h4, -, h5, h6, h7, h8⟩ := reshape_spec H hH hq ⟨s, ext⟩ hw hsync hL ht hhome
  simp only at hS h3 h4 h5 h7 h8
  have hnum : t.cell.numOrb = S.length := by rw [numOrb, h2, List.length_map]
  set ids : List (Cell × ℕ) := S.map (fun q => ((q.1.1, q.1.2.1, q.1.2.2.1), q.1.2.2.2.toNat)) with hids
  have back : ∀ (a : ℕ) R i, ids[a]? = some (R, i) → ∃ ob, S[a]? = some (mkId R i, ob) := by
    intro a R i h
    rw [hids, List.getElem?_map] at h
    cases hSa : S[a]? with
    | none => rw [hSa] at h; simp at h
    | some q =>
      obtain ⟨id, ob⟩ := q
      rw [hSa] at h
      simp only [Option.map_some, Option.some.injEq, Prod.mk.injEq] at h
      have h0 := (hS.sound _ _ _ (show (mkId (id.1, id.2.1, id.2.2.1) id.2.2.2, ob) ∈ S from List.mem_of_getElem? hSa)).1
      refine ⟨ob, ?_⟩
      rw [mkId_surj id, h.1, ← h.2, Int.toNat_of_nonneg h0]
  have forth : ∀ (a : ℕ) (R : Cell) (i : ℕ) ob, S[a]? = some (mkId R i, ob) → ids[a]? = some (R, i) := by
    intro a R i ob h
    rw [hids, List.getElem?_map, h]
    simp [mkId]
  refine ⟨t, ids, h1, h3, h4, ?_, ?_, ?_, ?_, ?_, ?_, ?_⟩
  · rw [h5, latVol_eq, latVol_eq, h3, Matrix.det_mul, det_cast, abs_mul, mul_div_assoc, div_self (abs_ne_zero.2 hdet), mul_one]
  · rw [hids, List.length_map, hnum]
  · rw [hnum, homeList_length hS hL]; rfl
  · intro a R i h
    obtain ⟨ob, hob⟩ := back a R i h
    obtain ⟨-, g1, g2⟩ := hS.sound _ _ _ (List.mem_of_getElem? hob)
    refine ⟨ob, reshOrb (Lz.map (fun z : ℤ => (z : F)))⁻¹ (mkId R i, ob), by simpa using g1,
      by rw [h2, List.getElem?_map, hob]; rfl, rfl, rfl, ?_, ?_⟩
    · intro x
      show -delta ≤ resPos (Lz.map (fun z : ℤ => (z : F)))⁻¹ R ob.position x ∧
        resPos (Lz.map (fun z : ℤ => (z : F)))⁻¹ R ob.position x < 1 - delta
      have hfl : ⌊resPos (Lz.map (fun z : ℤ => (z : F)))⁻¹ R ob.position x + delta⌋ = 0 := by
        have g3 : ((_ : ℤ), (_ : ℤ), (_ : ℤ)) = ((0 : ℤ), (0 : ℤ), (0 : ℤ)) := g2
        simp only [Prod.mk.injEq] at g3
        fin_cases x
        · exact g3.1
        · exact g3.2.1
        · exact g3.2.2
      rw [Int.floor_eq_zero_iff, Set.mem_Ico] at hfl
      constructor <;> linarith [hfl.1, hfl.2]
    · intro y
      have hv : frac2cartRow t.cell.lat t.cell.origin (resPos (Lz.map (fun z : ℤ => (z : F)))⁻¹ R ob.position) =
          Matrix.vecMul (cellVec F R + ob.position) s.lat + s.origin := by
        unfold frac2cartRow
        rw [Matrix.mulVec_transpose, h3, h4, resPos_eq, Matrix.vecMul_vecMul, ← Matrix.mul_assoc,
          Matrix.nonsing_inv_mul _ (isUnit_det hL), Matrix.one_mul]
      show frac2cartRow t.cell.lat t.cell.origin (resPos (Lz.map (fun z : ℤ => (z : F)))⁻¹ R ob.position) y = _
      rw [hv]
      unfold frac2cartRow
      rw [Matrix.mulVec_transpose, Matrix.add_vecMul]
      simp only [Pi.add_apply]
      have : Matrix.vecMul (cellVec F R) s.lat y = ∑ x, (cellAt R x : F) * s.lat x y := by
        simp only [Matrix.vecMul, dotProduct]
        apply Finset.sum_congr rfl
        intro x _
        fin_cases x <;> rfl
      rw [this]
      ring
  · intro R i hi
    obtain ⟨a, ha⟩ := hS.rep hL R (i := (i : ℤ)) (o := s.orbs[i]) (by omega)
      (by simpa using List.getElem?_eq_getElem hi)
    refine ⟨(a, resCell Lz delta R s.orbs[i].position), forth _ _ _ _ ha, ?_⟩
    rintro ⟨b, m⟩ hb
    obtain ⟨ob, hob⟩ := back b _ _ hb
    have g := hS.sound _ _ _ (List.mem_of_getElem? hob)
    have e : ob = s.orbs[i] := by
      have := g.2.1
      simp only [Int.toNat_natCast] at this
      rw [List.getElem?_eq_getElem hi] at this
      exact (Option.some.inj this).symm
    have hm : resCell Lz delta R s.orbs[i].position = m := by
      have := g.2.2
      rw [sub_eq_add_neg, ← rowMul_neg, resCell_shift hL, e, ← sub_eq_add_neg] at this
      exact sub_eq_zero.1 this
    refine Prod.ext ?_ hm.symm
    refine fst_idx_unique hS.nodup hob ha ?_
    simp only
    rw [hm]
  · intro m a b Ra Rb i j ha hb
    obtain ⟨oa, hoa⟩ := back a Ra i ha
    obtain ⟨ob, hob⟩ := back b Rb j hb
    exact h8 m a b Ra Rb i j oa ob hoa hob
  · intro m a b h
    rw [hnum]; exact h7 m a b h

/-- `reshape_prim_cell` without hoppings. -/
theorem reshape_nohop (H : HashFns F E Λ) (query : BallQuery F) (s : PCObj F E Λ) (hn : s.cell.hops.numHop = 0)
    (hf : (s.cell.syncOrb H false).arrPos = s.cell.orbs.map Orbital.position) (L : Mat3 F) (hdet : L.det ≠ 0) (delta tol : F) :
    ∃ t, reshapePrimCell H query s L delta tol = .ok t ∧ t.cell.orbs =
      ((reshIterO (rnRange L 0) (rnRange L 1) (rnRange L 2) s.cell.orbs).filter (isHome L⁻¹ delta)).map (reshOrb L⁻¹) := by
  have horb : (PrimCell.syncOrb H s.cell false).orbs = s.cell.orbs := by
    unfold PrimCell.syncOrb; dsimp only; split <;> rfl
  have hhop : (PrimCell.syncOrb H s.cell false).hops = s.cell.hops := by
    unfold PrimCell.syncOrb; dsimp only; split <;> rfl
  have hloop := reshOrb_loop (E := E) L⁻¹ delta s.cell.orbs (reshIterO (rnRange L 0) (rnRange L 1) (rnRange L 2) s.cell.orbs)
    (PrimCell.init H (Matrix.of fun i => Matrix.vecMul (L i) s.cell.lat) s.cell.origin) OrbMap.empty rfl (by
      rintro ⟨id, o⟩ hm
      exact ((mem_reshIterO _ _ _ _ _ _).1 hm).2.2.2.2)
  rw [← reshIter_eq] at hloop
  unfold reshapePrimCell
  rw [if_neg hdet]
  simp only
  rw [hf, horb, hloop, hhop]
  simp only
  rw [if_neg (by omega)]
  exact ⟨_, rfl, rfl⟩

/-- `make_hetero_layer` for the lattice `L·lat` is `reshape_prim_cell` for `L`, whatever the origin of the cell. -/
theorem C95_hetero (H : HashFns F E Λ) (query : BallQuery F) (s : PCObj F E Λ) (hdet : s.cell.lat.det ≠ 0) (L : Mat3 F)
    (delta tol : F) :
    makeHeteroLayer H query s (L * s.cell.lat) delta tol = reshapePrimCell H query s L delta tol := by
  have hrow : ∀ i, cart2fracRow s.cell.lat 0 ((L * s.cell.lat) i) = L i := by
    intro i
    have hu : IsUnit s.cell.lat.det := isUnit_iff_ne_zero.2 hdet
    unfold cart2fracRow
    rw [sub_zero, ← Matrix.transpose_nonsing_inv, Matrix.mulVec_transpose]
    have : (L * s.cell.lat) i = Matrix.vecMul (L i) s.cell.lat := by
      funext j; rfl
    rw [this, Matrix.vecMul_vecMul, Matrix.mul_nonsing_inv _ hu, Matrix.vecMul_one]
  unfold makeHeteroLayer cart2frac
  rw [if_neg (by rwa [Matrix.det_transpose])]
  simp only [List.map_cons, List.map_nil, hrow]
  congr 1
  funext i
  fin_cases i <;> rfl

/-- A singular matrix of new lattice vectors is refused. -/
theorem C95_singular (H : HashFns F E Λ) (query : BallQuery F) (s : PCObj F E Λ) (L : Mat3 F) (hL : L.det = 0) (delta tol : F) :
    reshapePrimCell H query s L delta tol = .error (.pc .linAlg) := by
  unfold reshapePrimCell
  rw [if_pos hL]

/-- The cell of one orbital at `p`. -/
noncomputable def oneOrb (H : HashFns F E Λ) (p : F × F × F) (l : Λ) : PrimCell F E Λ :=
  run H (init H (1 : Mat3 F) 0) [.inl (.addOrbital [p.1, p.2.1, p.2.2] 0 l)]

theorem oneOrb_orbs (H : HashFns F E Λ) (hH : ∀ l, l ≠ [] → H.orb l ≠ H.orb []) (p : F × F × F) (l : Λ) :
    (oneOrb (E := E) H p l).orbs = [⟨![p.1, p.2.1, p.2.2], 0, l⟩] ∧ (oneOrb (E := E) H p l).hops.numHop = 0 ∧
    ((oneOrb (E := E) H p l).syncOrb H false).arrPos = (oneOrb (E := E) H p l).orbs.map Orbital.position := by
  refine ⟨rfl, rfl, ?_⟩
  have h1 : (oneOrb (E := E) H p l).hashOrb ≠ H.orb (oneOrb (E := E) H p l).orbs :=
    (hH _ (by simp [oneOrb, run, call, step, addOrbital, init, checkLen])).symm
  unfold PrimCell.syncOrb
  simp [h1]

/-- What is known of an image that the function keeps. -/
theorem home_facts {Lz : Matrix (Fin 3) (Fin 3) ℤ} (hL : Lz.det ≠ 0) {delta : F} {ob : Orbital F Λ} {q : ExtId × Orbital F Λ}
    (hq : q ∈ (reshIterO (rnRange (Lz.map (fun z : ℤ => (z : F))) 0) (rnRange (Lz.map (fun z : ℤ => (z : F))) 1)
      (rnRange (Lz.map (fun z : ℤ => (z : F))) 2) [ob]).filter (isHome (Lz.map (fun z : ℤ => (z : F)))⁻¹ delta)) :
    q.1.2.2.2 = 0 ∧ (rnRange (Lz.map (fun z : ℤ => (z : F))) 0).1 ≤ q.1.1 ∧ q.1.1 ≤ (rnRange (Lz.map (fun z : ℤ => (z : F))) 0).2 ∧
    ∃ y : Vec3 F, (∀ x, -delta ≤ y x ∧ y x < 1 - delta) ∧
      (∀ x, (q.1.1 : F) * (if x = 0 then 1 else 0) + q.1.2.1 * (if x = 1 then 1 else 0) + q.1.2.2.1 * (if x = 2 then 1 else 0) +
        ob.position x = y 0 * Lz 0 x + y 1 * Lz 1 x + y 2 * Lz 2 x) := by
  obtain ⟨id, o⟩ := q
  rw [List.mem_filter, mem_reshIterO] at hq
  obtain ⟨⟨h1, -, -, h0, ho⟩, hh⟩ := hq
  have hi : id.2.2.2.toNat = 0 := by
    have := (List.getElem?_eq_some_iff.1 ho).1
    simpa using this
  rw [hi] at ho
  have hob : o = ob := by simpa using ho.symm
  subst hob
  refine ⟨by simp only; omega, h1.1, h1.2, resPos (Lz.map (fun z : ℤ => (z : F)))⁻¹ (id.1, id.2.1, id.2.2.1) o.position, ?_, ?_⟩
  · intro x
    have g3 : ((_ : ℤ), (_ : ℤ), (_ : ℤ)) = ((0 : ℤ), (0 : ℤ), (0 : ℤ)) := of_decide_eq_true hh
    simp only [Prod.mk.injEq] at g3
    have hfl : ⌊resPos (Lz.map (fun z : ℤ => (z : F)))⁻¹ (id.1, id.2.1, id.2.2.1) o.position x + delta⌋ = 0 := by
      fin_cases x
      · exact g3.1
      · exact g3.2.1
      · exact g3.2.2
    rw [Int.floor_eq_zero_iff, Set.mem_Ico] at hfl
    constructor <;> linarith [hfl.1, hfl.2]
  · intro x
    have h := congrFun (show Matrix.vecMul (resPos (Lz.map (fun z : ℤ => (z : F)))⁻¹ (id.1, id.2.1, id.2.2.1) o.position)
      (Lz.map (fun z : ℤ => (z : F))) = cellVec F (id.1, id.2.1, id.2.2.1) + o.position by
        rw [resPos_eq, Matrix.vecMul_vecMul, Matrix.nonsing_inv_mul _ (isUnit_det hL), Matrix.vecMul_one]) x
    simp only [Matrix.vecMul, dotProduct, Fin.sum_univ_three, Matrix.map_apply, Pi.add_apply] at h
    rw [h]
    fin_cases x <;> simp [cellVec]

/-- Bound on the number of kept images. -/
theorem home_length {S : List (ExtId × Orbital F Λ)} (hnd : (S.map Prod.fst).Nodup) (lo hi : ℤ)
    (h : ∀ q ∈ S, (lo ≤ q.1.1 ∧ q.1.1 ≤ hi) ∧ q.1.2.1 = 0 ∧ q.1.2.2.1 = 0 ∧ q.1.2.2.2 = 0) : S.length ≤ (hi + 1 - lo).toNat := by
  have h1 : (S.map Prod.fst).toFinset ⊆ (Finset.Icc lo hi).image (fun x : ℤ => ((x, 0, 0, 0) : ExtId)) := by
    intro id hid
    rw [List.mem_toFinset, List.mem_map] at hid
    obtain ⟨q, hq, rfl⟩ := hid
    obtain ⟨h1, h2, h3, h4⟩ := h q hq
    rw [Finset.mem_image]
    refine ⟨q.1.1, Finset.mem_Icc.2 h1, ?_⟩
    refine Prod.ext rfl (Prod.ext h2.symm (Prod.ext h3.symm h4.symm))
  have h2 := Finset.card_le_card h1
  rw [List.toFinset_card_of_nodup hnd, List.length_map] at h2
  have h3 := Finset.card_image_le (s := Finset.Icc lo hi) (f := fun x : ℤ => ((x, 0, 0, 0) : ExtId))
  rw [Int.card_Icc] at h3
  omega

theorem nodup_home (ra rb rc : ℤ × ℤ) (orbs : List (Orbital F Λ)) (f : ExtId × Orbital F Λ → Bool) :
    (((reshIterO ra rb rc orbs).filter f).map Prod.fst).Nodup :=
  List.Nodup.sublist (List.Sublist.map _ List.filter_sublist) (nodup_reshIterO _ _ _ _)

theorem int_zero_of {z : ℤ} {delta : F} (h0 : 0 ≤ delta) (h1 : delta < 1) (hl : -delta ≤ (z : F)) (hu : (z : F) < 1 - delta) :
    z = 0 := by
  have a : (-1 : F) < (z : F) := by linarith
  have b : (z : F) < 1 := by linarith
  have a' : -1 < z := by exact_mod_cast a
  have b' : z < 1 := by exact_mod_cast b
  omega

/-- **C95, negation for large cells.** With the default `delta = 0.01` a cell of `n ≥ 200` copies along the first vector loses
orbitals: the one-orbital cell has `n` images in the new cell, the result has fewer orbitals. -/
theorem C95_large_loses_orbitals (H : HashFns F E Λ) (hH : ∀ l, l ≠ [] → H.orb l ≠ H.orb []) (query : BallQuery F) (l : Λ)
    (ext tol : F) (n : ℤ) (hn : 200 ≤ n) :
    ∃ t, reshapePrimCell H query ⟨oneOrb H (0, 0, 0) l, ext⟩ !![(n : F), 0, 0; 0, 1, 0; 0, 0, 1] (1 / 100) tol = .ok t ∧
      (t.cell.numOrb : ℤ) < n := by
  set Lz : Matrix (Fin 3) (Fin 3) ℤ := !![n, 0, 0; 0, 1, 0; 0, 0, 1] with hLz
  have hcast : (!![(n : F), 0, 0; 0, 1, 0; 0, 0, 1] : Mat3 F) = Lz.map (fun z : ℤ => (z : F)) := by
    ext i j; fin_cases i <;> fin_cases j <;> simp [hLz]
  have hL : Lz.det ≠ 0 := by rw [hLz, Matrix.det_fin_three]; simp; omega
  rw [hcast]
  obtain ⟨ho1, ho2, ho3⟩ := oneOrb_orbs (E := E) H hH (0, 0, 0) l
  obtain ⟨t, h1, h2⟩ := reshape_nohop H query ⟨oneOrb (E := E) H (0, 0, 0) l, ext⟩ ho2 ho3 (Lz.map (fun z : ℤ => (z : F)))
    (isUnit_det hL).ne_zero (1 / 100) tol
  refine ⟨t, h1, ?_⟩
  rw [numOrb, h2, List.length_map, ho1]
  have hb := home_length (nodup_home (rnRange (Lz.map (fun z : ℤ => (z : F))) 0) (rnRange (Lz.map (fun z : ℤ => (z : F))) 1)
    (rnRange (Lz.map (fun z : ℤ => (z : F))) 2) [(⟨![0, 0, 0], 0, l⟩ : Orbital F Λ)]
    (isHome (Lz.map (fun z : ℤ => (z : F)))⁻¹ (1 / 100))) (-1) (n - 3) (by
    intro q hq
    obtain ⟨e0, e1, -, y, hy, e⟩ := home_facts hL hq
    have x0 := e 0
    have x1 := e 1
    have x2 := e 2
    simp [hLz] at x0 x1 x2
    have y0 := hy 0
    have y1 := hy 1
    have y2 := hy 2
    rw [rnRange_cast] at e1
    have hn' : (200 : F) ≤ n := by exact_mod_cast hn
    refine ⟨⟨?_, ?_⟩, ?_, ?_, e0⟩
    · simp [hLz] at e1; omega
    · have : (q.1.1 : F) < n - 2 := by nlinarith
      have : q.1.1 < n - 2 := by exact_mod_cast this
      omega
    · rw [← x1] at y1; exact int_zero_of (by norm_num) (by norm_num) y1.1 y1.2
    · rw [← x2] at y2; exact int_zero_of (by norm_num) (by norm_num) y2.1 y2.2)
  simp only at hb ⊢
  omega

/-- **C95, negation for oblique cells in three dimensions.** The search range considers the sums of two new lattice vectors
only.  For this matrix of determinant 5 at most 2 of the 5 images of the orbital are found. -/
theorem C95_oblique_loses_orbitals (H : HashFns F E Λ) (hH : ∀ l, l ≠ [] → H.orb l ≠ H.orb []) (query : BallQuery F) (l : Λ)
    (ext tol : F) :
    (!![5, 0, 0; -5, 1, 0; -5, 0, 1] : Matrix (Fin 3) (Fin 3) ℤ).det = 5 ∧
    ∃ t, reshapePrimCell H query ⟨oneOrb H (0, 0, 0) l, ext⟩ !![5, 0, 0; -5, 1, 0; -5, 0, 1] (1 / 100) tol = .ok t ∧
      t.cell.numOrb ≤ 2 := by
  set Lz : Matrix (Fin 3) (Fin 3) ℤ := !![5, 0, 0; -5, 1, 0; -5, 0, 1] with hLz
  have hcast : (!![5, 0, 0; -5, 1, 0; -5, 0, 1] : Mat3 F) = Lz.map (fun z : ℤ => (z : F)) := by
    ext i j; fin_cases i <;> fin_cases j <;> simp [hLz]
  have hL5 : Lz.det = 5 := by rw [hLz, Matrix.det_fin_three]; simp
  have hL : Lz.det ≠ 0 := by rw [hL5]; decide
  refine ⟨hL5, ?_⟩
  rw [hcast]
  obtain ⟨ho1, ho2, ho3⟩ := oneOrb_orbs (E := E) H hH (0, 0, 0) l
  obtain ⟨t, h1, h2⟩ := reshape_nohop H query ⟨oneOrb (E := E) H (0, 0, 0) l, ext⟩ ho2 ho3 (Lz.map (fun z : ℤ => (z : F)))
    (isUnit_det hL).ne_zero (1 / 100) tol
  refine ⟨t, h1, ?_⟩
  rw [numOrb, h2, List.length_map, ho1]
  have hb := home_length (nodup_home (rnRange (Lz.map (fun z : ℤ => (z : F))) 0) (rnRange (Lz.map (fun z : ℤ => (z : F))) 1)
    (rnRange (Lz.map (fun z : ℤ => (z : F))) 2) [(⟨![0, 0, 0], 0, l⟩ : Orbital F Λ)]
    (isHome (Lz.map (fun z : ℤ => (z : F)))⁻¹ (1 / 100))) 0 1 (by
    intro q hq
    obtain ⟨e0, -, e1, y, hy, e⟩ := home_facts hL hq
    have x0 := e 0
    have x1 := e 1
    have x2 := e 2
    simp [hLz] at x0 x1 x2
    have y0 := hy 0
    have y1 := hy 1
    have y2 := hy 2
    rw [rnRange_cast] at e1
    have z1 : q.1.2.1 = 0 := by rw [← x1] at y1; exact int_zero_of (by norm_num) (by norm_num) y1.1 y1.2
    have z2 : q.1.2.2.1 = 0 := by rw [← x2] at y2; exact int_zero_of (by norm_num) (by norm_num) y2.1 y2.2
    rw [z1] at x1
    rw [z2] at x2
    simp only [Int.cast_zero] at x1 x2
    refine ⟨⟨?_, ?_⟩, z1, z2, e0⟩
    · have : (-1 : F) < (q.1.1 : F) := by rw [x0, ← x1, ← x2]; linarith [y0.1]
      have : -1 < q.1.1 := by exact_mod_cast this
      omega
    · simp [hLz] at e1; omega)
  simpa using hb

/-- **C95, negation for orbitals outside the cell.** Reshaping the cell with one orbital at `(2, 0, 0)` to its own lattice
vectors gives a cell without orbitals. -/
theorem C95_outside_loses_orbitals (H : HashFns F E Λ) (hH : ∀ l, l ≠ [] → H.orb l ≠ H.orb []) (query : BallQuery F) (l : Λ)
    (ext tol : F) :
    ∃ t, reshapePrimCell H query ⟨oneOrb H (2, 0, 0) l, ext⟩ (1 : Mat3 F) (1 / 100) tol = .ok t ∧ t.cell.numOrb = 0 := by
  set Lz : Matrix (Fin 3) (Fin 3) ℤ := 1 with hLz
  have hcast : (1 : Mat3 F) = Lz.map (fun z : ℤ => (z : F)) := by
    ext i j; fin_cases i <;> fin_cases j <;> simp [hLz]
  have hL : Lz.det ≠ 0 := by rw [hLz, Matrix.det_one]; decide
  rw [hcast]
  obtain ⟨ho1, ho2, ho3⟩ := oneOrb_orbs (E := E) H hH (2, 0, 0) l
  obtain ⟨t, h1, h2⟩ := reshape_nohop H query ⟨oneOrb (E := E) H (2, 0, 0) l, ext⟩ ho2 ho3 (Lz.map (fun z : ℤ => (z : F)))
    (isUnit_det hL).ne_zero (1 / 100) tol
  refine ⟨t, h1, ?_⟩
  rw [numOrb, h2, List.length_map, ho1, List.length_eq_zero_iff, List.eq_nil_iff_forall_not_mem]
  intro q hq
  obtain ⟨e0, e1, -, y, hy, e⟩ := home_facts hL hq
  have x0 := e 0
  simp [hLz] at x0
  have y0 := hy 0
  rw [rnRange_cast] at e1
  simp [hLz] at e1
  have : (q.1.1 : F) < -1 := by rw [← x0] at y0; linarith [y0.2]
  have : q.1.1 < -1 := by exact_mod_cast this
  omega

/-! ### A concrete case -/

/-- Exact search by enumeration. -/
def listQuery : BallQuery ℚ := fun pts x r =>
  (List.range pts.length).filter fun k => match pts[k]? with
    | some p => decide (∑ i, (p i - x i) ^ 2 ≤ r ^ 2)
    | none => false

theorem listQuery_ok : IsBallQuery listQuery := by
  intro pts x r _ k
  unfold listQuery
  rw [List.mem_filter, List.mem_range]
  constructor
  · rintro ⟨hk, h⟩
    rw [List.getElem?_eq_getElem hk] at h
    exact ⟨pts[k], List.getElem?_eq_getElem hk, by simpa using h⟩
  · rintro ⟨p, hp, h⟩
    refine ⟨(List.getElem?_eq_some_iff.1 hp).1, ?_⟩
    rw [hp]
    simpa using h

/-- The calls that build a cell with two orbitals and three hoppings, like graphene. -/
def honeyCalls : List (Call ℚ GInt Unit) :=
  [.inl (.addOrbital [0, 0] 0 ()), .inl (.addOrbital [1/3, 1/3] 0 ()), .inl (.addHopping [0, 0] 0 1 ⟨-3, 0⟩),
    .inl (.addHopping [1, 0] 1 0 ⟨-3, 0⟩), .inl (.addHopping [0, 1] 1 0 ⟨-3, 0⟩)]

set_option synthInstance.maxHeartbeats 400000 in
/-- The hypotheses of `C95_reshape_partial` hold for this cell, the rectangular cell of graphene and the default `delta` and
tolerance. -/
example : ∃ (t : PCObj ℚ GInt Unit) (ids : List (Cell × ℕ)),
    reshapePrimCell lenHash listQuery ⟨run lenHash (init lenHash 1 0) honeyCalls, 1⟩
      ((!![1, 0, 0; -1, 2, 0; 0, 0, 1] : Matrix (Fin 3) (Fin 3) ℤ).map (fun z : ℤ => (z : ℚ))) (1 / 100) (1 / 100000) = .ok t ∧
    ids.length = t.cell.numOrb ∧ t.cell.numOrb = 4 := by
  have hdet : (!![1, 0, 0; -1, 2, 0; 0, 0, 1] : Matrix (Fin 3) (Fin 3) ℤ).det = 2 := by
    rw [Matrix.det_fin_three]; simp
  obtain ⟨t, ids, h1, -, -, -, h2, h3, -⟩ := C95_reshape_partial lenHash (by
      intro l hl; simp [lenHash, hl]) listQuery listQuery_ok 1 0 honeyCalls (by
      intro pre op post h
      have hm : Sum.inl op ∈ honeyCalls := by rw [h]; simp
      simp only [honeyCalls, List.mem_cons, Sum.inl.injEq, List.not_mem_nil, or_false] at hm
      rcases hm with rfl | rfl | rfl | rfl | rfl <;> trivial)
    (run lenHash (init lenHash 1 0) honeyCalls) rfl ⟨by decide +kernel, by decide +kernel, by decide +kernel⟩
    (by show (1 : Mat3 ℚ).det ≠ 0; simp) 1 !![1, 0, 0; -1, 2, 0; 0, 0, 1] (by rw [hdet]; decide) (1 / 100) (1 / 100000)
    (tolSep_of_det (by rw [hdet]; decide) (by norm_num) (by rw [hdet]; norm_num))
    (by decide +kernel) (by decide) (by decide +kernel)
  refine ⟨t, ids, h1, h2, ?_⟩
  rw [h3, hdet]
  rfl

end C95

end Verif.Props

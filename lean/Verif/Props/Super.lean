import Verif.Proof.SuperMod
import Verif.Props.Prim

/-!
# Properties of supercells (C14-C24, C71)
-/

set_option linter.unusedSectionVars false

namespace Verif.Props

open SCell

variable {F E Λ : Type*} [Field F] [DecidableEq F] [InvolutiveStar E]

/-! ### C14: orbital numbering -/

/-- **C14.** With any legal vacancies, the index computed from `(ia, ib, ic, io)` is a bijection
from the non-vacant quadruples onto `0 .. na*nb*nc*n - #vacancies - 1`. -/
theorem C14_bijection {d : Dim} {n : ℕ} {vacs : List IdPc} (h : LegalVacs d n vacs) :
    Set.BijOn (idPc2ScAny d n (vacIdSc d n vacs)) {q | LegalId d n q ∧ q ∉ vacs}
      {x : ℤ | 0 ≤ x ∧ x < (d.a * d.b * d.c * n : ℕ) - (vacs.length : ℤ)} := by
  have hlen := length_buildOrbIdPc h
  have hp : d.prod = d.a * d.b * d.c := rfl
  refine ⟨?_, ?_, ?_⟩
  · rintro q ⟨hq, hv⟩
    obtain ⟨h0, hg⟩ := buildOrbIdPc_get h hq hv
    obtain ⟨hlt, -⟩ := List.getElem?_eq_some_iff.1 hg
    rw [hp] at hlen
    exact ⟨h0, by omega⟩
  · rintro p ⟨hp1, hp2⟩ q ⟨hq1, hq2⟩ he
    exact idPc2ScAny_inj h hp1 hp2 hq1 hq2 he
  · rintro x ⟨h0, h1⟩
    rw [hp] at hlen
    have hk : x.toNat < (buildOrbIdPc d n (vacIdSc d n vacs)).length := by omega
    refine ⟨_, (mem_buildOrbIdPc h _).1 (List.getElem_mem hk), ?_⟩
    rw [buildOrbIdPc_index h _ hk]; omega

/-- **C14 (inverse).** The table `orb_id_pc` is the inverse of the numbering. -/
theorem C14_inverse {d : Dim} {n : ℕ} {vacs : List IdPc} (h : LegalVacs d n vacs) (k : ℕ) (q : IdPc) :
    (buildOrbIdPc d n (vacIdSc d n vacs))[k]? = some q ↔
      LegalId d n q ∧ q ∉ vacs ∧ idPc2ScAny d n (vacIdSc d n vacs) q = k := by
  constructor
  · intro hk
    obtain ⟨hlt, he⟩ := List.getElem?_eq_some_iff.1 hk
    have := (mem_buildOrbIdPc h q).1 (List.mem_of_getElem? hk)
    refine ⟨this.1, this.2, ?_⟩
    rw [← he]; exact buildOrbIdPc_index h k hlt
  · rintro ⟨h1, h2, h3⟩
    have := (buildOrbIdPc_get h h1 h2).2
    rwa [h3, Int.toNat_natCast] at this

/-- **C14 (vacancies).** Vacancies, and only they, get the marker `-1`. -/
theorem C14_vacancy {d : Dim} {n : ℕ} {vacs : List IdPc} (h : LegalVacs d n vacs) {q : IdPc}
    (hq : LegalId d n q) : idPc2ScAny d n (vacIdSc d n vacs) q = -1 ↔ q ∈ vacs := by
  constructor
  · intro he
    by_contra hv
    have := (buildOrbIdPc_get h hq hv).1
    omega
  · intro hv
    rw [idPc2ScAny_spec h hq, if_pos hv]

/-- **C14 (order).** The numbering is strictly monotone with respect to the vacancy-free
(lexicographic) one. -/
theorem C14_monotone {d : Dim} {n : ℕ} {vacs : List IdPc} (h : LegalVacs d n vacs) {p q : IdPc}
    (hp : LegalId d n p) (hpv : p ∉ vacs) (hq : LegalId d n q) (hqv : q ∉ vacs)
    (hlt : ((p.1 * d.b + p.2.1) * d.c + p.2.2.1) * n + p.2.2.2 <
      ((q.1 * d.b + q.2.1) * d.c + q.2.2.1) * n + q.2.2.2) :
    idPc2ScAny d n (vacIdSc d n vacs) p < idPc2ScAny d n (vacIdSc d n vacs) q := by
  have hlt' : idPc2Sc d n p < idPc2Sc d n q := by
    unfold idPc2Sc
    calc _ = ((p.1 * d.b + p.2.1) * d.c + p.2.2.1) * n + p.2.2.2 := by ring
      _ < _ := hlt
      _ = _ := by ring
  rw [idPc2ScAny_spec h hp, if_neg hpv, idPc2ScAny_spec h hq, if_neg hqv]
  have hx : idPc2Sc d n p ∉ vacIdSc d n vacs := fun hm => hpv ((mem_vacIdSc_iff h hp).1 hm)
  have key : ∀ (l : List ℤ), l.Nodup → idPc2Sc d n p ∉ l → ∀ x y, idPc2Sc d n p = x → x < y →
      (below l y : ℤ) - below l x < y - x := by
    intro l hl hn x y hxe hxy
    have : below l y - below l x ≤ ((Finset.Ioo x y).card) := by
      unfold below
      have hsplit : l.countP (fun v => decide (v < y)) =
          l.countP (fun v => decide (v < x)) + l.countP (fun v => decide (x ≤ v ∧ v < y)) := by
        clear hl hn
        induction l with
        | nil => rfl
        | cons a l ih =>
          simp only [List.countP_cons, ih, decide_eq_true_eq]
          by_cases h1 : a < x
          · have : a < y := by omega
            have h3 : ¬ (x ≤ a ∧ a < y) := by omega
            rw [if_pos h1, if_pos this, if_neg h3]; omega
          · by_cases h2 : a < y
            · have h3 : x ≤ a ∧ a < y := by omega
              rw [if_neg h1, if_pos h2, if_pos h3]; omega
            · have h3 : ¬ (x ≤ a ∧ a < y) := by omega
              rw [if_neg h1, if_neg h2, if_neg h3]; omega
      have hc : l.countP (fun v => decide (x ≤ v ∧ v < y)) ≤ (Finset.Ioo x y).card := by
        rw [List.countP_eq_length_filter, ← List.toFinset_card_of_nodup (hl.filter _)]
        apply Finset.card_le_card
        intro v hv
        rw [List.mem_toFinset, List.mem_filter, decide_eq_true_eq] at hv
        rw [Finset.mem_Ioo]
        refine ⟨lt_of_le_of_ne hv.2.1 ?_, hv.2.2⟩
        rintro rfl
        exact hn (hxe ▸ hv.1)
      omega
    rw [Int.card_Ioo] at this
    omega
  have := key _ (vacIdSc_nodup h) hx _ _ rfl hlt'
  omega

/-- **C14 (objects).** For a supercell reached by any history of calls that succeeded in
synchronising: `num_orb_sc` is the number of rows of `orb_id_pc`, and row `k` is the orbital whose
index is `k`. -/
theorem C14_objects {H : HashFns F E Λ} {HS : SCHash F E Λ} {pc0 : PrimCell F E Λ} {s : SCell F E Λ}
    (hp : PrimCell.Reach H pc0) (h : SCell.Reach H HS pc0 s) (f : Bool)
    (hok : (syncArray HS s f).2 = .ok ()) :
    numOrbSc s = (syncArray HS s f).1.orbId.length ∧
    ∀ (k : ℕ) (q : IdPc), (syncArray HS s f).1.orbId[k]? = some q ↔
      LegalId s.dim pc0.numOrb q ∧ q ∉ s.vacs ∧
        idPc2ScAny s.dim pc0.numOrb (syncArray HS s f).1.vacSc q = k := by
  obtain ⟨V, hV, hs, hg⟩ := SCell.Reach.good hp h
  obtain ⟨g1, g2, -, g4, -, -, -, g8, g9⟩ := good_sync hV hg hs f
  have hf := g9 hok
  have hn : s.pc.numOrb = pc0.numOrb := by unfold PrimCell.numOrb; rw [hg.same.orbs]
  have hl : LegalVacs s.dim pc0.numOrb s.vacs := hn ▸ hg.legal
  rw [hf.orb, hf.vac, g2, g4, g8, hn]
  constructor
  · have := length_buildOrbIdPc hl
    unfold numOrbSc
    rw [hn, Nat.mul_comm]
    omega
  · intro k q; exact C14_inverse hl k q

example : LegalVacs ⟨3, 2, 1⟩ 2 [(2, 1, 0, 1), (0, 0, 0, 1)] := by
  refine ⟨by decide, ?_⟩
  intro q hq
  simp only [List.mem_cons, List.not_mem_nil, or_false] at hq
  rcases hq with rfl | rfl <;> simp [LegalId]

/-! ### C15: bisection -/

/-- **C15.** For every strictly sorted non-empty vacancy list, the bisection search (which always
terminates) and the linear search give the same result for every index. -/
theorem C15_bisection_eq_linear {vac : List ℤ} (hp : vac.Pairwise (· < ·)) (h0 : vac ≠ []) (x : ℤ) :
    vacSearchBisect vac x = vacSearchLinear vac x := by
  have h : 0 < vac.length := List.length_pos_iff.2 h0
  rw [vacSearchBisect_spec hp h, vacSearchLinear_spec hp h]

/-- **C15 (value).** Both return `-1` on a listed index and otherwise the index minus the number
of listed indices below it. -/
theorem C15_value {vac : List ℤ} (hp : vac.Pairwise (· < ·)) (h0 : vac ≠ []) (x : ℤ) :
    vacSearchBisect vac x = if x ∈ vac then -1 else x - ((vac.filter (· < x)).length : ℤ) := by
  rw [vacSearchBisect_spec hp (List.length_pos_iff.2 h0)]
  unfold below
  rw [List.countP_eq_length_filter]

/-- **C15 (use).** The vacancy list the library builds from a legal vacancy set is strictly
sorted, so C15 applies to it. -/
theorem C15_sorted {d : Dim} {n : ℕ} {vacs : List IdPc} (h : LegalVacs d n vacs) :
    (vacIdSc d n vacs).Pairwise (· < ·) := vacIdSc_sorted h

example : [1, 4, 9, 12].Pairwise ((· < ·) : ℤ → ℤ → Prop) := by decide

/-! ### C16: wrapping -/

/-- **C16 (periodic).** The wrapped index and the quotient are remainder and quotient of Euclidean
division, for every integer index. -/
theorem C16_periodic {n : ℕ} (hn : 0 < n) (x : ℤ) :
    0 ≤ wrapPbc x n true ∧ wrapPbc x n true < n ∧ x = wrapPbc x n true + n * fastDiv x n := by
  rw [wrapPbc_true hn, fastDiv_eq hn]
  have hn' : (0 : ℤ) < n := by exact_mod_cast hn
  exact ⟨Int.emod_nonneg _ hn'.ne', Int.emod_lt_of_pos _ hn', (Int.emod_add_mul_ediv x n).symm⟩

/-- **C16 (open).** Along an open direction an index inside the cell is kept and any other is
flagged by `-1`. -/
theorem C16_open (n : ℕ) (x : ℤ) :
    (0 ≤ x ∧ x < n → wrapPbc x n false = x) ∧ (¬ (0 ≤ x ∧ x < n) → wrapPbc x n false = -1) := by
  rw [wrapPbc_false]
  exact ⟨fun h => if_pos h, fun h => if_neg h⟩

example : wrapPbc (-7) 3 true = 2 ∧ fastDiv (-7) 3 = -3 := by
  rw [show ((3 : ℤ)) = ((3 : ℕ) : ℤ) by rfl] at *
  exact ⟨by rw [wrapPbc_true (by norm_num)]; rfl, by rw [fastDiv_eq (by norm_num)]; rfl⟩

/-! ### C17: fast builder -/

/-- **C17.** For a vacancy-free supercell of any size and boundary condition, the optimised
builder generates the same terms (bra, ket, energy, displacement) as the general one, with the
same multiplicities. -/
theorem C17_fast_eq_general {d : Dim} (hd : 0 < d.a ∧ 0 < d.b ∧ 0 < d.c) {n : ℕ} (pbc : Pbc)
    (scLat : Mat3 F) (scPos : ℤ → Vec3 F) (hops : List (Cell × Pair × E)) (hr : HopsInRange n hops) :
    (initHopFast hops d pbc n (buildOrbIdPc d n []) [] scLat scPos).Perm
      (buildHopGen hops d pbc n (buildOrbIdPc d n []) [] scLat scPos) :=
  initHopFast_perm ⟨hd.1, hd.2.1, hd.2.2⟩ pbc scLat scPos hops hr

example : HopsInRange 2 [((0, 0, 0), (0, 1), (5 : ℤ)), ((1, 0, 0), (1, 0), 7)] := by
  intro t ht
  simp only [List.mem_cons, List.not_mem_nil, or_false] at ht
  rcases ht with rfl | rfl <;> simp

/-! ### C18: the terms -/

/-- **C18.** The general builder yields exactly the images of the primitive hoppings (see
`imageTerms`); every index it returns belongs to an orbital of the supercell. -/
theorem C18_terms {d : Dim} (hd : 0 < d.a ∧ 0 < d.b ∧ 0 < d.c) {n : ℕ} {vacs : List IdPc}
    (hv : LegalVacs d n vacs) (pbc : Pbc) (scLat : Mat3 F) (scPos : ℤ → Vec3 F)
    (hops : List (Cell × Pair × E)) (hr : HopsInRange n hops) :
    (buildHopGen hops d pbc n (buildOrbIdPc d n (vacIdSc d n vacs)) (vacIdSc d n vacs) scLat scPos).map
      (fun h => (siteAt (buildOrbIdPc d n (vacIdSc d n vacs)) h.i,
        siteAt (buildOrbIdPc d n (vacIdSc d n vacs)) h.j, h.v)) =
    imageTerms d pbc vacs (buildOrbIdPc d n (vacIdSc d n vacs)) hops := by
  have hd' : d.Pos := ⟨hd.1, hd.2.1, hd.2.2⟩
  apply buildHopGen_map hd' hv pbc scLat scPos hops hr _ (fun q k t => (some q, some k, t.2.2))
  intro io q k t ht hio hq hk hkv
  simp only
  rw [siteAt_ket hv (ketImage_legal hd' (hr t ht).2 hk) hkv]
  simp [siteAt, hio]

/-- **C18 (buffers).** The number of terms never exceeds the `num_hop_pc * prod(dim)` rows the
library allocates. -/
theorem C18_buffer (hops : List (Cell × Pair × E)) (d : Dim) (pbc : Pbc) (n : ℕ) {vacs : List IdPc}
    (hv : LegalVacs d n vacs) (scLat : Mat3 F) (scPos : ℤ → Vec3 F) :
    (buildHopGen hops d pbc n (buildOrbIdPc d n (vacIdSc d n vacs)) (vacIdSc d n vacs) scLat scPos).length ≤
      hops.length * (d.a * d.b * d.c) :=
  buildHopGen_length_le hops d pbc n hv scLat scPos

/-- **C18 (objects).** For a supercell reached by any history of calls and carrying no modifier,
`get_hop` returns, up to order, exactly the images of the hoppings of its primitive cell. -/
theorem C18_objects {H : HashFns F E Λ} {HS : SCHash F E Λ} {pc0 : PrimCell F E Λ} {s s1 : SCell F E Λ}
    {out : HopOut F E} (hp : PrimCell.Reach H pc0) (h : SCell.Reach H HS pc0 s)
    (hm : s.modi.numHop = 0) (hg : getHop H HS s = (s1, .ok out)) :
    (out.terms.map (fun t => (siteAt s1.orbId t.i, siteAt s1.orbId t.j, t.v))).Perm
      (imageTerms s.dim s.pbc s.vacs s1.orbId pc0.hops.toList) := by
  obtain ⟨V, hV, hs, hG⟩ := SCell.Reach.good hp h
  obtain ⟨hs1, hfr, hout⟩ := getHop_plain hV hG hs hm hg
  obtain ⟨g1, g2, -, g4, g5, -⟩ := good_sync hV hG hs false
  rw [← hs1] at g1 g2 g4 g5
  have hn : s1.pc.numOrb = pc0.numOrb := by unfold PrimCell.numOrb; rw [g1.same.orbs]
  have hr := (PrimCell.WF_reduced hp.good.1).2
  rw [hout]
  refine ((initHop_perm g1 hfr hr).map _).trans ?_
  have hl : LegalVacs s1.dim pc0.numOrb s1.vacs := hn ▸ g1.legal
  rw [hfr.orb, hfr.vac, hn, ← g2, ← g4, ← g5]
  rw [C18_terms ⟨g1.pos.1, g1.pos.2, g1.pos.3⟩ hl]
  exact hr

/-! ### C19: no double counting -/

/-- **C19.** If every direction has at least `2*max|R|+1` cells, then for a reduced list of
primitive hoppings no generated term is on-site, no two connect the same orbitals and no term
comes together with its conjugate. -/
theorem C19_no_double_counting {d : Dim} {n : ℕ} {vacs : List IdPc} (hv : LegalVacs d n vacs)
    (pbc : Pbc) (scLat : Mat3 F) (scPos : ℤ → Vec3 F) (hops : List (Cell × Pair × E))
    (hr : HopsInRange n hops) (hred : Reduced hops) (hbig : LargeEnough d hops) :
    (∀ h ∈ buildHopGen hops d pbc n (buildOrbIdPc d n (vacIdSc d n vacs)) (vacIdSc d n vacs) scLat scPos,
      h.i ≠ h.j) ∧
    (buildHopGen hops d pbc n (buildOrbIdPc d n (vacIdSc d n vacs)) (vacIdSc d n vacs) scLat scPos).Pairwise
      (fun h h' => ¬ (h.i = h'.i ∧ h.j = h'.j) ∧ ¬ (h.i = h'.j ∧ h.j = h'.i)) :=
  buildHopGen_pairs hv pbc scLat scPos hops hr hred hbig

/-- **C19 (objects).** `get_hop` of any supercell without modifier reached by any history returns
no on-site term, no pair of orbitals twice, and no term with its conjugate. -/
theorem C19_objects {H : HashFns F E Λ} {HS : SCHash F E Λ} {pc0 : PrimCell F E Λ} {s s1 : SCell F E Λ}
    {out : HopOut F E} (hp : PrimCell.Reach H pc0) (h : SCell.Reach H HS pc0 s)
    (hm : s.modi.numHop = 0) (hg : getHop H HS s = (s1, .ok out)) :
    (∀ t ∈ out.terms, t.i ≠ t.j) ∧
    out.terms.Pairwise (fun t t' => ¬ (t.i = t'.i ∧ t.j = t'.j) ∧ ¬ (t.i = t'.j ∧ t.j = t'.i)) := by
  obtain ⟨V, hV, hs, hG⟩ := SCell.Reach.good hp h
  obtain ⟨hs1, hfr, hout⟩ := getHop_plain hV hG hs hm hg
  have g1 := (good_sync hV hG hs false).1
  rw [← hs1] at g1
  rw [hout]
  exact initHop_pairs hp.good.1 g1 hfr

/-- **C19 (sharpness).** One cell less and the claim fails: hopping to the second neighbour in a
periodic chain of two cells connects an orbital to itself. -/
theorem C19_size_needed :
    ∃ (hops : List (Cell × Pair × ℤ)) (h : SCHop ℚ ℤ), HopsInRange 1 hops ∧ Reduced hops ∧
      h ∈ buildHopGen hops ⟨2, 1, 1⟩ (true, true, true) 1 (buildOrbIdPc ⟨2, 1, 1⟩ 1 []) [] 0 (fun _ => 0) ∧
      h.i = h.j := by
  refine ⟨[((2, 0, 0), (0, 0), 1)], ⟨0, 0, 1, 0⟩, ?_, ⟨by decide, ?_, ?_⟩, ?_, rfl⟩
  · intro t ht; simp only [List.mem_singleton] at ht; subst ht; simp
  · intro t ht; simp only [List.mem_singleton] at ht; subst ht; simp [Prod.ext_iff]
  · intro t ht u hu
    simp only [List.mem_singleton] at ht hu; subst ht; subst hu; simp [Prod.ext_iff]
  · have h1 : buildOrbIdPc ⟨2, 1, 1⟩ 1 [] = [(0, 0, 0, 0), (1, 0, 0, 0)] := by decide
    rw [h1]
    have w0 : wrapPbc 2 (2 : ℕ) true = 0 := by rw [wrapPbc_true (by norm_num)]; rfl
    have w1 : wrapPbc 0 (1 : ℕ) true = 0 := by rw [wrapPbc_true (by norm_num)]; rfl
    simp only [buildHopGen, List.zipIdx_cons, List.flatMap_cons, List.mem_append]
    left
    simp [genTerm, w0, w1, idPc2ScAny, idPc2Sc]
    funext x
    simp [hopDr]

example : LargeEnough ⟨3, 3, 1⟩ [((1, 0, 0), (0, 1), (5 : ℤ)), ((0, -1, 0), (1, 0), 7)] := by
  intro t ht
  simp only [List.mem_cons, List.not_mem_nil, or_false] at ht
  rcases ht with rfl | rfl <;> simp

/-! ### C20: displacements -/

/-- **C20.** The displacement stored with every generated term is the Cartesian bond vector
`(R + r_j - r_i) . lat_vec` of the primitive hopping it comes from, also across the periodic
boundary, for any lattice and origin. -/
theorem C20_displacement {d : Dim} (hd : 0 < d.a ∧ 0 < d.b ∧ 0 < d.c) {n : ℕ} {vacs : List IdPc}
    (hv : LegalVacs d n vacs) (pbc : Pbc) (pcLat : Mat3 F) (origin : Vec3 F) (pcPos : ℤ → Vec3 F)
    (hops : List (Cell × Pair × E)) (hr : HopsInRange n hops) (h : SCHop F E)
    (hh : h ∈ buildHopGen hops d pbc n (buildOrbIdPc d n (vacIdSc d n vacs)) (vacIdSc d n vacs)
      (scLatVec pcLat d) (rowAt (buildOrbPos pcLat origin pcPos (buildOrbIdPc d n (vacIdSc d n vacs))))) :
    ∃ t ∈ hops, ∃ q k, siteAt (buildOrbIdPc d n (vacIdSc d n vacs)) h.i = some q ∧
      siteAt (buildOrbIdPc d n (vacIdSc d n vacs)) h.j = some k ∧ q.2.2.2 = t.2.1.1 ∧
      ketImage d pbc q t = some k ∧ h.v = t.2.2 ∧ h.dr = bondVec pcLat pcPos t := by
  have hd' : d.Pos := ⟨hd.1, hd.2.1, hd.2.2⟩
  rw [buildHopGen_triples hd' hv pbc _ _ hops hr, List.mem_map] at hh
  obtain ⟨⟨q, k, t⟩, hx, rfl⟩ := hh
  obtain ⟨hq, ht, ho, hk, hkv⟩ := mem_triples.1 hx
  have hq' := (mem_buildOrbIdPc hv q).1 hq
  have hkl := ketImage_legal hd' (hr t ht).2 hk
  exact ⟨t, ht, q, k, siteAt_ket hv hq'.1 hq'.2, siteAt_ket hv hkl hkv, ho, hk, rfl,
    mkTerm_dr hd' hv hq'.1 hq'.2 hkl hkv ho hk⟩

/-- **C20 (objects).** For a supercell reached by any history, without hopping modifier and with
the default (identity) position modifier, every term `get_hop` returns carries the bond vector of
the primitive hopping it is an image of. -/
theorem C20_objects {H : HashFns F E Λ} {HS : SCHash F E Λ} {pc0 : PrimCell F E Λ} {s s1 : SCell F E Λ}
    {out : HopOut F E} (hp : PrimCell.Reach H pc0) (h : SCell.Reach H HS pc0 s)
    (hm : s.modi.numHop = 0) (hpm : s.posMod = id) (hg : getHop H HS s = (s1, .ok out))
    (x : SCHop F E) (hx : x ∈ out.terms) :
    ∃ t ∈ pc0.hops.toList, ∃ q k, siteAt s1.orbId x.i = some q ∧ siteAt s1.orbId x.j = some k ∧
      q.2.2.2 = t.2.1.1 ∧ ketImage s.dim s.pbc q t = some k ∧ x.v = t.2.2 ∧
      x.dr = bondVec pc0.lat (rowAt (pc0.orbs.map Orbital.position)) t := by
  obtain ⟨V, hV, hs, hG⟩ := SCell.Reach.good hp h
  obtain ⟨hs1, hfr, hout⟩ := getHop_plain hV hG hs hm hg
  obtain ⟨g1, g2, -, g4, g5, g6, -⟩ := good_sync hV hG hs false
  rw [← hs1] at g1 g2 g4 g5 g6
  have hn : s1.pc.numOrb = pc0.numOrb := by unfold PrimCell.numOrb; rw [g1.same.orbs]
  have hr := (PrimCell.WF_reduced hp.good.1).2
  have hl : LegalVacs s1.dim pc0.numOrb s1.vacs := hn ▸ g1.legal
  rw [hout] at hx
  have hx' := (initHop_perm g1 hfr hr).mem_iff.1 hx
  have hpos : s1.orbPos H = buildOrbPos pc0.lat s1.pc.origin
      (rowAt (pc0.orbs.map Orbital.position))
      (buildOrbIdPc s1.dim pc0.numOrb (vacIdSc s1.dim pc0.numOrb s1.vacs)) := by
    unfold orbPos
    rw [g6, hpm, id, (PrimCell.syncOrb_fresh g1.sync false).1, g1.same.orbs, g1.same.lat, hfr.orb, hfr.vac, hn]
  rw [hpos] at hx'
  obtain ⟨t, ht, q, k, a1, a2, a3, a4, a5, a6⟩ :=
    C20_displacement ⟨g1.pos.1, g1.pos.2, g1.pos.3⟩ hl s1.pbc pc0.lat s1.pc.origin _ _ hr x hx'
  refine ⟨t, ht, q, k, ?_, ?_, a3, by rw [← g4, ← g5]; exact a4, a5, a6⟩
  · rw [hfr.orb, hfr.vac, hn]; exact a1
  · rw [hfr.orb, hfr.vac, hn]; exact a2

/-! ### C21: modifiers -/

/-- **C21 (partial).** If no two entries of the modifier concern the same pair of orbitals, `get_hop`
of a supercell reached by any history returns the terms it would return without modifier, each
overridden by the modifier's entry for its pair if there is one (energy conjugated and
displacement reversed if stored the other way round), followed by the entries for pairs without a
term, each once.  Missing: modifiers with several entries (different cell indices) for the same
pair, for which the claim is false (see below). -/
theorem C21_modifier_partial {H : HashFns F E Λ} {HS : SCHash F E Λ} {pc0 : PrimCell F E Λ} {s s1 : SCell F E Λ}
    {out : HopOut F E} (hp : PrimCell.Reach H pc0) (h : SCell.Reach H HS pc0 s)
    (hd : s.modi.toList.Pairwise (fun t u => ¬ SamePair t.2.1 u.2.1))
    (hg : getHop H HS s = (s1, .ok out)) :
    ∃ base : HopOut F E, getHop H HS { s with modi := IntraHop.empty } =
        ({ s1 with modi := IntraHop.empty }, .ok base) ∧
      out.terms =
        base.terms.map (overridden (scLatVec pc0.lat s.dim) (rowAt (s1.orbPos H)) s.modi.toList) ++
        (s.modi.toList.filter (fun t => ∀ x ∈ base.terms, ¬ SamePair t.2.1 (x.i, x.j))).map
          (fun t => ⟨t.2.1.1, t.2.1.2, t.2.2, modDr (scLatVec pc0.lat s.dim) (rowAt (s1.orbPos H)) t⟩) := by
  obtain ⟨V, hV, hs, hG⟩ := SCell.Reach.good hp h
  obtain ⟨hs1, hfr, hout⟩ := getHop_ok hV hG hs hg
  obtain ⟨g1, g2, g3, g4, g5, g6, -⟩ := good_sync hV hG hs false
  rw [← hs1] at g1 g2 g3 g4 g5 g6
  refine ⟨⟨initHop H s1, false⟩, ?_, ?_⟩
  · have hsy := syncArray_modi HS s IntraHop.empty false
    unfold getHop at hg ⊢
    rw [hsy]
    rcases hc : syncArray HS s false with ⟨s', r⟩
    rw [hc] at hg
    cases r with
    | error e => simp at hg
    | ok u =>
      simp only [Prod.mk.injEq] at hg
      simp only [hg.1]
      unfold getHopSynced
      rw [if_neg (by simp [IntraHop.empty, IntraHop.numHop])]
      rfl
  · have hpairs := initHop_pairs hp.good.1 g1 hfr
    have hT : (initHop H s1).Pairwise (fun t t' => ¬ SamePair (t.i, t.j) (t'.i, t'.j)) := by
      refine hpairs.2.imp ?_
      rintro t t' ⟨a, b⟩ (hh | hh) <;> simp only [Prod.mk.injEq] at hh
      · exact a hh
      · exact b hh
    have hmf := modFold (scLatVec s1.pc.lat s1.dim) (rowAt (s1.orbPos H)) (initHop H s1) hT s1.modi.toList
      (g3 ▸ hd)
    unfold getHopSynced at hout
    rw [← g4, ← g3, ← g1.same.lat]
    split_ifs at hout with c1 c2
    · simp only [Except.ok.injEq] at hout
      rw [← hout, hmf]
      rfl
    · simp only [Except.ok.injEq] at hout
      rw [← hout]
      have h0 : s1.modi.toList = [] := by
        have := IntraHop.length_toList s1.modi
        rw [not_not] at c1
        rw [c1] at this
        exact List.length_eq_zero_iff.1 this
      rw [h0] at hmf ⊢
      simp only [List.foldl_nil, Prod.mk.injEq] at hmf
      simp only [List.filter_nil, List.map_nil, List.append_nil]
      exact hmf.1

/-- When all entries of a modifier have cell index zero (the case documented for finite samples),
the hypothesis of `C21_modifier_partial` holds. -/
theorem C21_zero_cell_modifier {m : IntraHop E} (hi : IntraHop.Inv m) (hz : ∀ t ∈ m.toList, t.1 = 0)
    (hnd : ∀ t ∈ m.toList, t.2.1.1 ≠ t.2.1.2) :
    m.toList.Pairwise (fun t u => ¬ SamePair t.2.1 u.2.1) := by
  have hk := IntraHop.toList_keys_nodup hi
  rw [List.Nodup, List.pairwise_map] at hk
  refine (List.Pairwise.and_mem.1 hk).imp ?_
  rintro ⟨R, p, e⟩ ⟨R', p', e'⟩ ⟨ht, hu, hne⟩ hs
  have z1 := hz _ ht
  have z2 := hz _ hu
  simp only at z1 z2 hs
  subst z1; subst z2
  rcases hs with hs | hs
  · exact hne (by simp [hs])
  · have n1 := IntraHop.look_norm hi ((IntraHop.mem_toList hi _ _ _).1 ht)
    have n2 := IntraHop.look_norm hi ((IntraHop.mem_toList hi _ _ _).1 hu)
    have := checkConj_swap (R := 0) (i := p'.1) (j := p'.2) (fun hh => hnd _ hu hh.2)
    rw [hs] at n1
    simp only [Prod.fst, Prod.snd, neg_zero] at n1 n2 this
    simp [n1, n2] at this

/-- Hash functions for the concrete cases: the number of entries. -/
def lenHash : HashFns ℚ GInt Unit := ⟨fun l => l.length, fun l => l.length⟩

/-- Hash functions for the concrete cases. -/
def scLenHash : SCHash ℚ GInt Unit := ⟨fun p => p.orbs.length, fun v => v.length⟩

/-- A chain with one orbital per cell. -/
noncomputable def chain : PrimCell ℚ GInt Unit := PrimCell.run lenHash (PrimCell.init lenHash unitLat 0)
  [.inl (.addOrbital [0, 0] 0 ()), .inl (.addHopping [1, 0, 0] 0 0 ⟨2, 1⟩)]

/-- A supercell made from `pc` followed by some calls. -/
noncomputable def scRun (pc : PrimCell ℚ GInt Unit) (dim : List ℤ) (pbc : List Bool)
    (vac : Option (List (List ℤ))) (ops : List (Op ℚ GInt Unit)) : Option (SCell ℚ GInt Unit) :=
  (new lenHash scLenHash pc dim pbc vac id).2.toOption.map (fun s => run lenHash scLenHash s ops)

/-- `get_hop` on such a supercell, without displacements. -/
noncomputable def scTerms (s : Option (SCell ℚ GInt Unit)) : Option (List (ℤ × ℤ × GInt)) :=
  s.bind fun s => (getHop lenHash scLenHash s).2.toOption.map fun o => o.terms.map fun t => (t.i, t.j, t.v)

/-- A concrete case of C18, C19, C21: ring of five sites, one overridden bond (given in the
opposite order) and one extra bond. -/
example : scTerms (scRun chain [5, 1] [true, true] none
    [.addHopping [0, 0] 2 1 ⟨7, 7⟩, .addHopping [0, 0] 0 2 ⟨1, 1⟩]) =
    some [(0, 1, ⟨2, 1⟩), (1, 2, ⟨7, -7⟩), (2, 3, ⟨2, 1⟩), (3, 4, ⟨2, 1⟩), (4, 0, ⟨2, 1⟩), (0, 2, ⟨1, 1⟩)] := by
  decide +kernel

/-- A concrete case with a vacancy. -/
example : scTerms (scRun chain [5, 1] [true, false] (some [[1, 0, 0, 0]]) []) =
    some [(1, 2, ⟨2, 1⟩), (2, 3, ⟨2, 1⟩), (3, 0, ⟨2, 1⟩)] := by
  decide +kernel

/-- The concrete cells and supercells satisfy the reachability hypotheses of the object-level
theorems. -/
example : PrimCell.Reach lenHash chain ∧
    ∀ s, scRun chain [5, 1] [true, true] none [.addHopping [0, 0] 2 1 ⟨7, 7⟩] = some s →
      SCell.Reach lenHash scLenHash chain s := by
  have hpre : ∀ pre : List (PrimCell.Call ℚ GInt Unit),
      pre <+: [.inl (.addOrbital [0, 0] 0 ()), .inl (.addHopping [1, 0, 0] 0 0 ⟨2, 1⟩)] →
      pre = [] ∨ pre = [.inl (.addOrbital [0, 0] 0 ())] ∨
      pre = [.inl (.addOrbital [0, 0] 0 ()), .inl (.addHopping [1, 0, 0] 0 0 ⟨2, 1⟩)] := by
    intro pre h
    obtain ⟨post, h⟩ := h
    rcases pre with _ | ⟨a, _ | ⟨b, _ | ⟨c, pre⟩⟩⟩ <;> simp_all
  have o0 : (PrimCell.run lenHash (PrimCell.init lenHash unitLat 0) []).orbs.length = 0 := by decide +kernel
  have o1 : (PrimCell.run lenHash (PrimCell.init lenHash unitLat 0) [.inl (.addOrbital [0, 0] 0 ())]).orbs.length = 1 := by
    decide +kernel
  constructor
  · refine ⟨unitLat, 0, _, rfl, ?_, ?_, ?_⟩
    · intro pre op post h
      rcases pre with _ | ⟨a, _ | ⟨b, pre⟩⟩ <;> simp at h
      · rw [← h.1]; trivial
      · rw [← h.2.1]; trivial
    · rintro l ⟨p, hp, rfl⟩ l' ⟨p', hp', rfl⟩ he
      rcases hpre p hp with rfl | rfl | rfl <;> rcases hpre p' hp' with rfl | rfl | rfl <;>
        first | rfl | (exfalso; revert he; decide +kernel) | skip
    · rintro l ⟨p, hp, rfl⟩ l' ⟨p', hp', rfl⟩ he
      rcases hpre p hp with rfl | rfl | rfl <;> rcases hpre p' hp' with rfl | rfl | rfl <;>
        first | rfl | (exfalso; revert he; decide +kernel) | skip
  · intro s hs
    unfold scRun at hs
    rcases hn : new lenHash scLenHash chain [5, 1] [true, true] none id with ⟨pc', r⟩
    rw [hn] at hs
    cases r with
    | error e => simp [Except.toOption] at hs
    | ok s0 =>
      simp only [Except.toOption, Option.map_some, Option.some.injEq] at hs
      refine ⟨_, _, _, _, _, _, [.addHopping [0, 0] 2 1 ⟨7, 7⟩], hn, ?_, ?_, hs.symm⟩
      · intro op hop; simp at hop; subst hop; simp
      · have hv0 : s0.vacs = [] := by
          have : ((new lenHash scLenHash chain [5, 1] [true, true] none id).2.toOption.map (fun s => s.vacs)) = some [] := by
            decide +kernel
          rw [hn] at this; simpa [Except.toOption] using this
        have hall : ∀ v ∈ Visited lenHash scLenHash s0 [.addHopping [0, 0] 2 1 ⟨7, 7⟩], v = [] := by
          rintro v (rfl | ⟨pre, ⟨post, hpre⟩, rfl⟩)
          · rfl
          · rcases pre with _ | ⟨a, _ | ⟨b, pre⟩⟩
            · exact hv0
            · simp at hpre
              obtain ⟨rfl, -⟩ := hpre
              simp only [run, List.foldl_cons, List.foldl_nil, step, addHopping, checkLen]
              split_ifs <;> exact hv0
            · simp at hpre
        intro v hv w hw _
        rw [hall v hv, hall w hw]

/-- **C21 fails** for two entries with different cell indices on one pair: the pair is appended
twice, and for a pair that exists one entry is lost. -/
theorem C21_repeated_pair :
    scTerms (scRun chain [5, 1] [true, true] none
      [.addHopping [0, 0] 0 2 ⟨1, 0⟩, .addHopping [1, 0] 0 2 ⟨3, 0⟩]) =
      some [(0, 1, ⟨2, 1⟩), (1, 2, ⟨2, 1⟩), (2, 3, ⟨2, 1⟩), (3, 4, ⟨2, 1⟩), (4, 0, ⟨2, 1⟩),
        (0, 2, ⟨1, 0⟩), (0, 2, ⟨3, 0⟩)] ∧
    scTerms (scRun chain [5, 1] [true, true] none
      [.addHopping [0, 0] 0 1 ⟨1, 0⟩, .addHopping [1, 0] 0 1 ⟨3, 0⟩]) =
      some [(0, 1, ⟨3, 0⟩), (1, 2, ⟨2, 1⟩), (2, 3, ⟨2, 1⟩), (3, 4, ⟨2, 1⟩), (4, 0, ⟨2, 1⟩)] := by
  constructor <;> decide +kernel

/-- **C21 (types) fails.** With a modifier that only overrides existing terms, the index arrays
returned by `get_hop` are no longer integer arrays. -/
theorem C21_float_indices :
    ((scRun chain [5, 1] [true, true] none [.addHopping [0, 0] 0 1 ⟨1, 0⟩]).bind fun s =>
      (getHop lenHash scLenHash s).2.toOption.map fun o => o.idxFloat) = some true := by
  decide +kernel

/-! ### C22: failing constructors -/

/-- **C22 fails**: a constructor rejecting the dimension leaves the unlocked primitive cell
locked. -/
theorem C22_failure_locks_cell :
    chain.locked = false ∧
    (new lenHash scLenHash chain [2, 1] [true, true] none id).2.toOption.isNone = true ∧
    (new lenHash scLenHash chain [2, 1] [true, true] none id).1.locked = true := by
  refine ⟨?_, ?_, ?_⟩ <;> decide +kernel

/-- **C22 (partial).** Whatever the arguments and the outcome, the constructor keeps lattice,
origin, orbitals and the hoppings of the primitive cell.  Missing: the lock, see
`C22_failure_locks_cell`. -/
theorem C22_content_partial (H : HashFns F E Λ) (HS : SCHash F E Λ) (pc : PrimCell F E Λ)
    (dim : List ℤ) (pbc : List Bool) (vac : Option (List (List ℤ))) (pm : List (Vec3 F) → List (Vec3 F)) :
    (new H HS pc dim pbc vac pm).1.lat = pc.lat ∧ (new H HS pc dim pbc vac pm).1.origin = pc.origin ∧
    (new H HS pc dim pbc vac pm).1.orbs = pc.orbs ∧
    (new H HS pc dim pbc vac pm).1.hops.toList = pc.hops.toList := by
  have h := (new_same H HS pc dim pbc vac pm).1
  exact ⟨h.lat, h.origin, h.orbs, h.toList⟩

/-! ### C23: overflow -/

/-- **C23 (partial).** For a legal orbital of a supercell with 32-bit sizes, the index computed in C
integers is the mathematical one exactly if the index of its cell fits into 31 bits.  Missing:
larger supercells, for which the claim is false (see below). -/
theorem C23_overflow_iff_partial {d : Dim} {n : ℕ} {q : IdPc} (hq : LegalId d n q) (hn : n < 2 ^ 31) :
    idPc2ScC32 d n q = ((q.1 * d.b + q.2.1) * d.c + q.2.2.1) * n + q.2.2.2 ↔
      (q.1 * d.b + q.2.1) * d.c + q.2.2.1 < 2 ^ 31 := by
  obtain ⟨⟨a0, a1⟩, ⟨b0, b1⟩, ⟨c0, c1⟩, ⟨o0, o1⟩⟩ := hq
  have hm : q.1 * d.b * d.c + q.2.1 * d.c + q.2.2.1 = (q.1 * d.b + q.2.1) * d.c + q.2.2.1 := by ring
  have hm0 : 0 ≤ (q.1 * d.b + q.2.1) * d.c + q.2.2.1 := by positivity
  unfold idPc2ScC32
  simp only
  rw [numPc_eq, hm]
  generalize (q.1 * d.b + q.2.1) * (d.c : ℤ) + q.2.2.1 = m at *
  have hr := i32_range m
  have hn' : (n : ℤ) < 2 ^ 31 := by exact_mod_cast hn
  have hn0 : (0 : ℤ) < n := by omega
  have hp1 : i32 m * n < 2 ^ 62 := by nlinarith
  have hp2 : -2 ^ 62 ≤ i32 m * n := by nlinarith
  have e1 : i64 (i32 m * n) = i32 m * n := by
    unfold i64; rw [Int.bmod_eq_of_le_mul_two] <;> omega
  have e2 : i64 (i32 m * n + q.2.2.2) = i32 m * n + q.2.2.2 := by
    unfold i64; rw [Int.bmod_eq_of_le_mul_two] <;> omega
  rw [e1, e2]
  constructor
  · intro h
    have h' : i32 m * n = m * n := by linarith
    have := mul_right_cancel₀ hn0.ne' h'
    omega
  · intro h
    rw [i32_id hm0 h]

example : LegalId ⟨2048, 1024, 1024⟩ 2 (2047, 1023, 1023, 1) := by simp [LegalId]

/-- **C23 fails**: in a legal supercell of 2049 x 1024 x 1024 cells the orbital `(2048, 0, 0, 0)`
gets a negative index. -/
theorem C23_overflow :
    LegalId ⟨2049, 1024, 1024⟩ 1 (2048, 0, 0, 0) ∧
    idPc2ScC32 ⟨2049, 1024, 1024⟩ 1 (2048, 0, 0, 0) = -2147483648 := by
  constructor
  · simp [LegalId]
  · decide +kernel

/-! ### C24: trimming -/

/-- **C24 (partial).** On an unlocked supercell reached by any history whose `get_hop` returns integer
index arrays, `trim` succeeds; afterwards the vacancies are the earlier ones and those orbitals
which are an end of at most one hopping; the modifier loses exactly the entries touching a removed
orbital and the others are renumbered.  Missing: modifiers which only override terms, for which
`trim` raises (see below). -/
theorem C24_trim_partial {H : HashFns F E Λ} {HS : SCHash F E Λ} {pc0 : PrimCell F E Λ} {s s1 : SCell F E Λ}
    {out : HopOut F E} (hp : PrimCell.Reach H pc0) (h : SCell.Reach H HS pc0 s) (hl : s.locked = false)
    (hg : getHop H HS s = (s1, .ok out)) (hi : out.idxFloat = false) :
    (trim H HS s).2 = .ok () ∧
    (∀ q, q ∈ (trim H HS s).1.vacs ↔ q ∈ s.vacs ∨ ∃ k : ℕ, s1.orbId[k]? = some q ∧
      out.terms.countP (fun t => t.i = (k : ℤ)) + out.terms.countP (fun t => t.j = (k : ℤ)) ≤ 1) ∧
    ∃ L : List ℤ, (∀ x, x ∈ L ↔ ∃ k : ℕ, x = k ∧ k < s1.orbId.length ∧
        out.terms.countP (fun t => t.i = (k : ℤ)) + out.terms.countP (fun t => t.j = (k : ℤ)) ≤ 1) ∧
      HopMap.IsRemoval s.modi.get L (trim H HS s).1.modi.get := by
  obtain ⟨V, hV, hs, hG⟩ := SCell.Reach.good hp h
  obtain ⟨t1, t2, t3, t4, t5, t6, t7, t8⟩ := trim_spec hV hG hs hl hg hi
  refine ⟨t1, fun q => ?_, _, fun x => ?_, t3 ▸ IntraHop.get_removeOrbitals hG.minv _⟩
  · rw [t2]; simp only [hopCount_eq]
  · rw [List.mem_map]
    have hl1 := t5.legal
    constructor
    · rintro ⟨q, hq, rfl⟩
      obtain ⟨k, hk, hc⟩ := (mem_getOrbIdTrim _ _ _).1 hq
      obtain ⟨hlt, -⟩ := List.getElem?_eq_some_iff.1 hk
      refine ⟨k, ?_, hlt, by rw [hopCount_eq] at hc; exact hc⟩
      rw [t4.orb, t4.vac] at hk
      rw [t4.vac, ← t7, ← t8]
      exact ((C14_inverse hl1 k q).1 hk).2.2
    · rintro ⟨k, rfl, hlt, hc⟩
      obtain ⟨q, hk⟩ : ∃ q, s1.orbId[k]? = some q := ⟨_, List.getElem?_eq_getElem hlt⟩
      refine ⟨q, (mem_getOrbIdTrim _ _ _).2 ⟨k, hk, by rw [hopCount_eq]; exact hc⟩, ?_⟩
      rw [t4.vac, ← t7, ← t8]
      rw [t4.orb, t4.vac] at hk
      exact ((C14_inverse hl1 k q).1 hk).2.2

/-- A concrete case: an open chain of four sites loses its two ends, and a second call would
go on. -/
example : ((scRun chain [4, 1] [false, false] none [.trim]).map fun s => s.vacs) =
    some [(0, 0, 0, 0), (3, 0, 0, 0)] := by decide +kernel

/-- **C24 fails** for a modifier that only overrides a term: `trim` raises `ValueError`. -/
theorem C24_trim_raises :
    ((scRun chain [4, 1] [false, false] none [.addHopping [0, 0] 0 1 ⟨1, 0⟩]).map fun s =>
      (trim lenHash scLenHash s).2) = some (.error .value) := by
  have : ((scRun chain [4, 1] [false, false] none [.addHopping [0, 0] 0 1 ⟨1, 0⟩]).map fun s =>
      (match (trim lenHash scLenHash s).2 with | .error .value => true | _ => false)) = some true := by
    decide +kernel
  cases hs : scRun chain [4, 1] [false, false] none [.addHopping [0, 0] 0 1 ⟨1, 0⟩] with
  | none => rw [hs] at this; simp at this
  | some s =>
    rw [hs] at this
    simp only [Option.map_some, Option.some.injEq] at this ⊢
    split at this
    · assumption
    · simp at this

/-! ### C71: tables of a supercell -/

/-- **C71 (partial).** After any history of calls (successful or failing), as long as the primitive
cell is not unlocked and no hashes collide, a successful `sync_array` leaves the vacancy and orbital
tables equal to those computed from the current vacancies.  Missing: unlocked primitive cells,
for which the claim is false (see below). -/
theorem C71_tables_fresh_partial {H : HashFns F E Λ} {HS : SCHash F E Λ} {pc0 : PrimCell F E Λ}
    {s : SCell F E Λ} (hp : PrimCell.Reach H pc0) (h : SCell.Reach H HS pc0 s) (f : Bool)
    (hok : (syncArray HS s f).2 = .ok ()) :
    (syncArray HS s f).1.vacs = s.vacs ∧
    (syncArray HS s f).1.vacSc = vacIdSc s.dim pc0.numOrb s.vacs ∧
    (syncArray HS s f).1.orbId = buildOrbIdPc s.dim pc0.numOrb (vacIdSc s.dim pc0.numOrb s.vacs) ∧
    LegalVacs s.dim pc0.numOrb s.vacs := by
  obtain ⟨V, hV, hs, hg⟩ := SCell.Reach.good hp h
  obtain ⟨-, g2, -, g4, -, -, -, g8, g9⟩ := good_sync hV hg hs f
  have hf := g9 hok
  have hn : s.pc.numOrb = pc0.numOrb := by unfold PrimCell.numOrb; rw [hg.same.orbs]
  refine ⟨g2, ?_, ?_, hn ▸ hg.legal⟩
  · rw [hf.vac, g2, g4, g8, hn]
  · rw [hf.orb, hf.vac, g2, g4, g8, hn]

/-- A cell with three orbitals. -/
noncomputable def trimer : PrimCell ℚ GInt Unit := PrimCell.run lenHash (PrimCell.init lenHash unitLat 0)
  [.inl (.addOrbital [0, 0] 0 ()), .inl (.addOrbital [1/3, 0] 0 ()), .inl (.addOrbital [2/3, 0] 0 ()),
   .inl (.addHopping [0, 0, 0] 0 1 ⟨2, 1⟩)]

set_option synthInstance.maxSize 1000 in
set_option synthInstance.maxHeartbeats 400000 in
/-- **C71 fails** once the primitive cell is unlocked and changed: the first synchronisation
rejects a vacancy that has become illegal, the second one succeeds although nothing was repaired,
and the tables still describe the old cell. -/
theorem C71_stale_tables :
    ((scRun trimer [1, 1] [false, false] (some [[0, 0, 0, 2]])
      [.sync false, .pcUnlock, .pcCall (.inl (.removeOrbital 2)), .sync false]).map fun s =>
        (s.pc.numOrb, s.vacs, (syncArray scLenHash s false).2.toOption,
          (syncArray scLenHash s false).1.vacSc, (syncArray scLenHash s false).1.orbId)) =
      some (2, [(0, 0, 0, 2)], some (), [2], [(0, 0, 0, 0), (0, 0, 0, 1)]) ∧
    ((scRun trimer [1, 1] [false, false] (some [[0, 0, 0, 2]])
      [.sync false, .pcUnlock, .pcCall (.inl (.removeOrbital 2))]).map fun s =>
        (syncArray scLenHash s false).2.toOption) = some none ∧
    ¬ LegalVacs ⟨1, 1, 1⟩ 2 [(0, 0, 0, 2)] := by
  refine ⟨by decide +kernel, by decide +kernel, ?_⟩
  intro h
  have := h.legal _ (List.mem_singleton.2 rfl)
  simp [LegalId] at this

/-! ### C72: modifiers and vacancies -/

set_option synthInstance.maxSize 1000 in
set_option synthInstance.maxHeartbeats 400000 in
/-- **C72 fails**: after `add_vacancies` a modifier entry refers to other orbitals: the extra bond put
between the orbitals of cells 0 and 2 then connects cells 1 and 3. -/
theorem C72_modifier_shifted :
    ((scRun chain [5, 1] [true, true] none [.addHopping [0, 0] 0 2 ⟨1, 0⟩]).bind fun s =>
      (getHop lenHash scLenHash s).2.toOption.map fun o => o.terms.getLast?.map fun t =>
        (siteAt (getHop lenHash scLenHash s).1.orbId t.i, siteAt (getHop lenHash scLenHash s).1.orbId t.j)) =
      some (some (some (0, 0, 0, 0), some (2, 0, 0, 0))) ∧
    ((scRun chain [5, 1] [true, true] none [.addHopping [0, 0] 0 2 ⟨1, 0⟩, .addVacancies [[0, 0, 0, 0]]]).bind
      fun s => (getHop lenHash scLenHash s).2.toOption.map fun o => o.terms.getLast?.map fun t =>
        (siteAt (getHop lenHash scLenHash s).1.orbId t.i, siteAt (getHop lenHash scLenHash s).1.orbId t.j)) =
      some (some (some (1, 0, 0, 0), some (3, 0, 0, 0))) := by
  constructor <;> decide +kernel

/-- **C72 (partial).** Trimming, in contrast, renumbers the modifier consistently: see
`C24_trim_partial`; here: if nothing is trimmed the modifier is unchanged.  Missing: vacancies
added by `add_vacancies`/`set_vacancies`, for which the claim is false (see above). -/
theorem C72_trim_nothing_partial {H : HashFns F E Λ} {HS : SCHash F E Λ} {pc0 : PrimCell F E Λ}
    {s s1 : SCell F E Λ} {out : HopOut F E} (hp : PrimCell.Reach H pc0) (h : SCell.Reach H HS pc0 s)
    (hl : s.locked = false) (hg : getHop H HS s = (s1, .ok out)) (hi : out.idxFloat = false)
    (hc : ∀ k : ℕ, k < s1.orbId.length →
      2 ≤ out.terms.countP (fun t => t.i = (k : ℤ)) + out.terms.countP (fun t => t.j = (k : ℤ))) :
    (∀ q, q ∈ (trim H HS s).1.vacs ↔ q ∈ s.vacs) ∧
    ∀ R i j, (trim H HS s).1.modi.get R i j = s.modi.get R i j := by
  obtain ⟨-, h2, L, h3, h4⟩ := C24_trim_partial hp h hl hg hi
  constructor
  · intro q
    rw [h2]
    constructor
    · rintro (hq | ⟨k, hk, hle⟩)
      · exact hq
      · have := hc k (List.getElem?_eq_some_iff.1 hk).1; omega
    · exact Or.inl
  · have hL : L = [] := by
      rcases L with _ | ⟨x, L⟩
      · rfl
      · obtain ⟨k, -, hk, hle⟩ := (h3 x).1 (by simp)
        have := hc k hk; omega
    subst hL
    intro R i j
    have := h4.1 R i j (by simp) (by simp)
    simpa [HopMap.rank] using this

end Verif.Props

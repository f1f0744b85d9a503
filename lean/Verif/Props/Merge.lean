import Verif.Proof.Merge
import Verif.Props.Super

/-! # Property C35: `merge_prim_cell` -/

set_option linter.unusedSectionVars false

namespace Verif.Props

open PrimCell

variable {F E Λ : Type*} [Field F] [LinearOrder F] [InvolutiveStar E]

/-- `s` is an unlocked cell obtained by a history of calls (removals in range), with a hash that
does not collide on the states met. -/
def Built (H : HashFns F E Λ) (s : PrimCell F E Λ) : Prop :=
  s.locked = false ∧ ∃ lat o, ∃ cs : List (Call F E Λ), s = run H (init H lat o) cs ∧
    InRange H (init H lat o) cs ∧
    Set.InjOn H.orb {l | ∃ pre, pre <+: cs ∧ l = (run H (init H lat o) pre).orbs} ∧
    Set.InjOn H.hop {l | ∃ pre, pre <+: cs ∧ l = (run H (init H lat o) pre).hops.toList}

/-- An inter-hopping object as a partial map. -/
def interMap (h : InterHop E) : HopMap E := fun R i j => h.get [R.1, R.2.1, R.2.2] i j

/-- The maps between blocks given by the inter-hopping arguments. -/
def interSpec (refs : List ℕ) (hops : List (ℕ × ℕ × InterHop E)) : List (ℕ × ℕ × HopMap E) :=
  hops.map (fun q => (refs.idxOf q.1, refs.idxOf q.2.1, interMap q.2.2))

/-- Sizes of the blocks. -/
def sizes (hp : Heap F E Λ) (refs : List ℕ) : List ℕ := refs.map (fun r => (hp r).cell.numOrb)

/-- Hopping maps of the components. -/
def intraSpec (hp : Heap F E Λ) (refs : List ℕ) : List (HopMap E) :=
  refs.map (fun r => (hp r).cell.hops.get)

/-- `s'` is `s` expressed in the lattice `lat` with origin `o`: same hoppings, energies and labels,
same Cartesian positions. -/
structure Relocated (s s' : PrimCell F E Λ) (lat : Mat3 F) (o : Vec3 F) : Prop where
  lat : s'.lat = lat
  origin : s'.origin = o
  hops : s'.hops = s.hops
  energies : s'.orbs.map Orbital.energy = s.orbs.map Orbital.energy
  labels : s'.orbs.map Orbital.label = s.orbs.map Orbital.label
  positions : frac2cart s'.lat (s'.orbs.map Orbital.position) s'.origin =
    frac2cart s.lat (s.orbs.map Orbital.position) s.origin

/-- What `merge_prim_cell` does (see `C35_merge` and `C35_repeated`). -/
theorem merge_core {H : HashFns F E Λ} {hp : Heap F E Λ} {args : List (MergeArg E)} {r0 : ℕ} {rs : List ℕ}
    {hops : List (ℕ × ℕ × InterHop E)} (hargs : argList (r0 :: rs) hops args) 
    (hnd : (r0 :: rs).Nodup ∨ ∀ r ∈ r0 :: rs, (hp r).cell.lat = (hp r0).cell.lat ∧ (hp r).cell.origin = (hp r0).cell.origin)
    (hu : ∀ r ∈ r0 :: rs, (hp r).cell.locked = false) (hwf : ∀ r ∈ r0 :: rs, WF (hp r).cell)
    (hfresh : ∀ r ∈ r0 :: rs, (syncOrb H (hp r).cell false).arrPos = (hp r).cell.orbs.map Orbital.position)
    (hdet : (hp r0).cell.lat.det ≠ 0)
    (hlat : ∀ r ∈ r0 :: rs, ∑ i, ∑ j, |(hp r).cell.lat i j - (hp r0).cell.lat i j| ≤ 1 / 100000)
    (hin : ∀ q ∈ hops, (∃ ops, q.2.2 = InterHop.run InterHop.empty ops) ∧ q.1 ∈ r0 :: rs ∧
      q.2.1 ∈ r0 :: rs ∧ ∀ R i j, interMap q.2.2 R i j ≠ none →
        (0 ≤ i ∧ i < (hp q.1).cell.numOrb) ∧ (0 ≤ j ∧ j < (hp q.2.1).cell.numOrb))
    (hcons : ∀ R x y e e', MergedHop (sizes hp (r0 :: rs)) (intraSpec hp (r0 :: rs))
        (interSpec (r0 :: rs) hops) R x y e →
      MergedHop (sizes hp (r0 :: rs)) (intraSpec hp (r0 :: rs)) (interSpec (r0 :: rs) hops) R x y e' →
      e = e' ∧ ¬ (R = 0 ∧ x = y)) :
    ∃ t, (mergePrimCell H hp args).2 = .ok t ∧
      t.cell.lat = (hp r0).cell.lat ∧ t.cell.origin = (hp r0).cell.origin ∧
      t.cell.numOrb = (sizes hp (r0 :: rs)).sum ∧
      (∀ (p r a : ℕ) ob, (r0 :: rs)[p]? = some r → (hp r).cell.orbs[a]? = some ob →
        ∃ ob', t.cell.orbs[(mergeStart (sizes hp (r0 :: rs)) p).toNat + a]? = some ob' ∧
          ob'.energy = ob.energy ∧ ob'.label = ob.label ∧
          frac2cartRow t.cell.lat t.cell.origin ob'.position =
            frac2cartRow (hp r).cell.lat (hp r).cell.origin ob.position) ∧
      (∀ R x y e, t.cell.hops.get R x y = some e ↔ MergedHop (sizes hp (r0 :: rs))
        (intraSpec hp (r0 :: rs)) (interSpec (r0 :: rs) hops) R x y e) ∧
      t.cell.locked = false ∧
      (∀ r ∉ r0 :: rs, (mergePrimCell H hp args).1 r = hp r) ∧
      (∀ r ∈ r0 :: rs, ((mergePrimCell H hp args).1 r).ext = (hp r).ext ∧
        Relocated (hp r).cell ((mergePrimCell H hp args).1 r).cell (hp r0).cell.lat (hp r0).cell.origin) ∧
      (∃ h, t.cell = { init H (hp r0).cell.lat (hp r0).cell.origin with orbs := t.cell.orbs, hops := h }) ∧ WF t.cell := by
  set refs := r0 :: rs with hrefs
  set lat := (hp r0).cell.lat with hlatdef
  set o := (hp r0).cell.origin with hodef
  have hreset : ∀ r ∈ refs, _ := fun r hr =>
    reset_ok (H := H) (lat := lat) (o := o) (hu r hr) (Or.inl hdet) (hfresh r hr)
  have hstate : ∀ r ∈ refs, _ := fun r hr => reset_state (hfresh r hr) (hreset r hr).1
  have hinv : ∀ q ∈ hops, InterHop.IInv q.2.2.hops := by
    intro q hq
    obtain ⟨ops, he⟩ := (hin q hq).1
    rw [he]
    exact InterHop.IInv_run InterHop.IInv_nil ops
  have hlen : ∀ r ∈ refs, (resetCell H lat o (hp r).cell).orbs.length = (hp r).cell.numOrb := by
    intro r hr
    have := congrArg List.length (hstate r hr).2.2.2.1
    simpa [numOrb] using this
  set m1 : PrimCell F E Λ := { init H lat o with
    orbs := (init H lat o).orbs ++ refs.flatMap (fun r => (resetCell H lat o (hp r).cell).orbs) } with hm1
  set hp' : Heap F E Λ := fun r => if r ∈ refs then { hp r with cell := resetCell H lat o (hp r).cell }
    else hp r with hhp'
  have hcell : ∀ r ∈ refs, (hp' r).cell = resetCell H lat o (hp r).cell := by
    intro r hr; rw [hhp']; simp [hr]
  set ns := sizes hp refs with hns
  have hnum : m1.numOrb = ns.sum := by
    simp only [numOrb, hm1, init, List.nil_append, List.length_flatMap]
    rw [hns, sizes]
    congr 1
    exact List.map_congr_left hlen
  -- the flattened list of terms
  set l1 := refs.zipIdx.flatMap (fun q => shiftTerms (indStart ns q.2) (indStart ns q.2)
    (flatTerms (hp' q.1).cell.hops)) with hl1
  set l2 := hops.flatMap (fun q => shiftTerms (indStart ns (refs.idxOf q.1)) (indStart ns (refs.idxOf q.2.1))
    (flatTerms q.2.2.hops)) with hl2
  have hmt : ∀ (oi oj : ℤ) (c : PrimCell F E Λ) (terms : List (Cell × Pair × E)),
      mergeTerms oi oj c terms = (shiftTerms oi oj terms).foldlM addTerm c := by
    intro oi oj c terms
    unfold mergeTerms shiftTerms
    rw [List.foldlM_map]
    rfl
  have hintra : ∀ c, mergeIntra hp' ns c refs = l1.foldlM addTerm c := by
    intro c
    unfold mergeIntra
    simp only [hmt]
    rw [foldlM_flatMap]
  have hinter : ∀ c : PrimCell F E Λ, mergeInter ns refs c hops = l2.foldlM addTerm c := by
    intro c
    unfold mergeInter
    simp only [hmt]
    rw [foldlM_flatMap]
  have hbs : ∀ p, (indStart ns p : ℤ) = mergeStart ns p := fun p => rfl
  have hnsl : ns.length = refs.length := by rw [hns]; simp [sizes]
  have hnsp : ∀ (p : ℕ) (h : p < ns.length) (r : ℕ), refs[p]? = some r → ns[p] = (hp r).cell.numOrb := by
    intro p h r hr
    have : ns[p]? = some (hp r).cell.numOrb := by rw [hns, sizes, List.getElem?_map, hr]; rfl
    exact Option.some.inj ((List.getElem?_eq_getElem h).symm.trans this)
  have hidx : ∀ r ∈ refs, refs.idxOf r < ns.length ∧ refs[refs.idxOf r]? = some r := by
    intro r hr
    have h1 : refs.idxOf r < refs.length := List.idxOf_lt_length_iff.2 hr
    refine ⟨by rw [hnsl]; exact h1, ?_⟩
    rw [List.getElem?_eq_getElem h1, List.getElem_idxOf]
  -- members of the lists
  have hmem1 : ∀ R x y e, (R, (x, y), e) ∈ l1 ↔ ∃ (p r : ℕ), refs[p]? = some r ∧
      IntraHop.look (hp r).cell.hops R (x - mergeStart ns p, y - mergeStart ns p) = some e := by
    intro R x y e
    rw [hl1, List.mem_flatMap]
    constructor
    · rintro ⟨⟨r, p⟩, hq, hm⟩
      have hr : refs[p]? = some r := List.mk_mem_zipIdx_iff_getElem?.1 hq
      have hrm : r ∈ refs := List.mem_of_getElem? hr
      rw [mem_shiftTerms, hcell r hrm, (hstate r hrm).2.2.1, mem_flatTerms (hwf r hrm).inv] at hm
      exact ⟨p, r, hr, hm⟩
    · rintro ⟨p, r, hr, hm⟩
      have hrm : r ∈ refs := List.mem_of_getElem? hr
      refine ⟨(r, p), List.mk_mem_zipIdx_iff_getElem?.2 hr, ?_⟩
      rw [mem_shiftTerms, hcell r hrm, (hstate r hrm).2.2.1, mem_flatTerms (hwf r hrm).inv]
      exact hm
  have hmem2 : ∀ R x y e, (R, (x, y), e) ∈ l2 ↔ ∃ q ∈ hops,
      interMap q.2.2 R (x - mergeStart ns (refs.idxOf q.1)) (y - mergeStart ns (refs.idxOf q.2.1)) = some e := by
    intro R x y e
    have hft : ∀ q ∈ hops, ∀ p, (R, p, e) ∈ flatTerms q.2.2.hops ↔ IntraHop.look q.2.2.hops R p = some e := by
      intro q hq p
      rw [InterHop.look_iff_mem (hinv q hq)]
      unfold flatTerms
      simp only [List.mem_flatMap, List.mem_map]
      constructor
      · rintro ⟨⟨R', d⟩, h1, ⟨p', e'⟩, h2, h3⟩
        simp only [Prod.mk.injEq] at h3
        obtain ⟨rfl, rfl, rfl⟩ := h3
        exact ⟨d, h1, h2⟩
      · rintro ⟨d, h1, h2⟩
        exact ⟨(R, d), h1, (p, e), h2, rfl⟩
    rw [hl2, List.mem_flatMap]
    constructor
    · rintro ⟨q, hq, hm⟩
      rw [mem_shiftTerms, hft q hq] at hm
      exact ⟨q, hq, hm⟩
    · rintro ⟨q, hq, hm⟩
      refine ⟨q, hq, ?_⟩
      rw [mem_shiftTerms, hft q hq]
      exact hm
  -- the relation
  set T := MergedHop ns (intraSpec hp refs) (interSpec refs hops) with hT
  have hintraGet : ∀ (p : ℕ) (m : HopMap E), (intraSpec hp refs)[p]? = some m → ∃ r, refs[p]? = some r ∧ m = (hp r).cell.hops.get := by
    intro p m h
    rw [intraSpec, List.getElem?_map, Option.map_eq_some_iff] at h
    obtain ⟨r, h1, h2⟩ := h
    exact ⟨r, h1, h2.symm⟩
  have hTconj : ∀ R x y e, T R x y e → T (-R) y x (star e) := by
    intro R x y e h
    have hnd := (hcons _ _ _ _ _ h h).2
    cases h with
    | @intra p m R i j e hp1 hm =>
      obtain ⟨r, hr, rfl⟩ := hintraGet p m hp1
      refine MergedHop.intra hp1 ?_
      rw [IntraHop.get_conjSymm (hp r).cell.hops R i j (by
        rintro ⟨rfl, rfl⟩; exact hnd ⟨rfl, rfl⟩), hm]
      rfl
    | inter hq hm => exact MergedHop.conj hq hm
    | @conj p q m R i j e hq hm =>
      rw [neg_neg, star_star]
      exact MergedHop.inter hq hm
  have hTrng : ∀ R x y e, T R x y e → (0 ≤ x ∧ x < ns.sum) ∧ (0 ≤ y ∧ y < ns.sum) ∧ ¬ (R = 0 ∧ x = y) := by
    intro R x y e h
    have hnd := (hcons _ _ _ _ _ h h).2
    refine ⟨?_, ?_, hnd⟩ <;>
    · cases h with
      | @intra p m R i j e hp1 hm =>
        obtain ⟨r, hr, rfl⟩ := hintraGet p m hp1
        have hp : p < ns.length := by rw [hnsl]; exact (List.getElem?_eq_some_iff.1 hr).1
        have hrr := rng_of_get (hwf r (List.mem_of_getElem? hr)) hm
        rw [← hnsp p hp r hr] at hrr
        first
        | exact block_range hp hrr.1
        | exact block_range hp hrr.2.1
      | @inter p q m R i j e hq hm =>
        obtain ⟨t, ht, hte⟩ := List.mem_map.1 hq
        simp only [Prod.mk.injEq] at hte
        obtain ⟨rfl, rfl, rfl⟩ := hte
        obtain ⟨-, h1, h2, h3⟩ := hin t ht
        obtain ⟨h4, h5⟩ := h3 R i j (by rw [hm]; simp)
        rw [← hnsp _ (hidx _ h1).1 _ (hidx _ h1).2] at h4
        rw [← hnsp _ (hidx _ h2).1 _ (hidx _ h2).2] at h5
        first
        | exact block_range (hidx _ h1).1 h4
        | exact block_range (hidx _ h2).1 h5
      | @conj p q m R i j e hq hm =>
        obtain ⟨t, ht, hte⟩ := List.mem_map.1 hq
        simp only [Prod.mk.injEq] at hte
        obtain ⟨rfl, rfl, rfl⟩ := hte
        obtain ⟨-, h1, h2, h3⟩ := hin t ht
        obtain ⟨h4, h5⟩ := h3 R i j (by rw [hm]; simp)
        rw [← hnsp _ (hidx _ h1).1 _ (hidx _ h1).2] at h4
        rw [← hnsp _ (hidx _ h2).1 _ (hidx _ h2).2] at h5
        first
        | exact block_range (hidx _ h1).1 h4
        | exact block_range (hidx _ h2).1 h5
  have hT1 : ∀ R x y e, (R, (x, y), e) ∈ l1 → T R x y e := by
    intro R x y e h
    obtain ⟨p, r, hr, hl⟩ := (hmem1 R x y e).1 h
    have := MergedHop.intra (ns := ns) (intra := intraSpec hp refs) (inter := interSpec refs hops)
      (p := p) (m := (hp r).cell.hops.get) (by rw [intraSpec, List.getElem?_map, hr]; rfl)
      (get_of_look (hwf r (List.mem_of_getElem? hr)).inv hl)
    simpa using this
  have hT2 : ∀ R x y e, (R, (x, y), e) ∈ l2 → T R x y e := by
    intro R x y e h
    obtain ⟨q, hq, hl⟩ := (hmem2 R x y e).1 h
    have := MergedHop.inter (ns := ns) (intra := intraSpec hp refs) (inter := interSpec refs hops)
      (List.mem_map.2 ⟨q, hq, rfl⟩) hl
    simpa using this
  have hTall : ∀ R x y e, (R, (x, y), e) ∈ l1 ++ l2 → T R x y e := by
    intro R x y e h
    rcases List.mem_append.1 h with h | h
    · exact hT1 R x y e h
    · exact hT2 R x y e h
  have hget0 : ∀ R x y, IntraHop.get m1.hops R x y = none := by
    intro R x y
    show IntraHop.get IntraHop.empty R x y = none
    rw [IntraHop.get_eq_look]
    simp [IntraHop.look, IntraHop.empty]
  obtain ⟨h', q1, q2, q3⟩ := addTerms_spec (F := F) (Λ := Λ) (n := ns.sum) (T := T)
    (fun R x y e e' h1 h2 => (hcons R x y e e' h1 h2).1) hTconj hTrng (l1 ++ l2) m1 rfl hnum
    IntraHop.Inv_empty (by intro R x y e h; rw [hget0] at h; simp at h) hTall
  have hspec : ∀ R x y e, IntraHop.get h' R x y = some e ↔ T R x y e := by
    intro R x y e
    rw [q3]
    constructor
    · rintro (h | h | ⟨e', h, rfl⟩)
      · rw [hget0] at h; simp at h
      · exact hTall R x y e h
      · simpa using hTconj _ _ _ _ (hTall _ _ _ _ h)
    · intro h
      refine Or.inr ?_
      have hnd := (hcons _ _ _ _ _ h h).2
      cases h with
      | @intra p m R i j e hp1 hm =>
        obtain ⟨r, hr, rfl⟩ := hintraGet p m hp1
        rw [IntraHop.get_eq_look] at hm
        split_ifs at hm with hc
        · cases hl : IntraHop.look (hp r).cell.hops (-R) (j, i) with
          | none => rw [hl] at hm; simp at hm
          | some e' =>
            rw [hl] at hm
            simp only [Option.map_some, Option.some.injEq] at hm
            refine Or.inr ⟨e', List.mem_append_left _ ((hmem1 _ _ _ _).2 ⟨p, r, hr, ?_⟩), hm.symm⟩
            simpa using hl
        · refine Or.inl (List.mem_append_left _ ((hmem1 _ _ _ _).2 ⟨p, r, hr, ?_⟩))
          simpa using hm
      | @inter p q m R i j e hq hm =>
        obtain ⟨t, ht, hte⟩ := List.mem_map.1 hq
        simp only [Prod.mk.injEq] at hte
        obtain ⟨rfl, rfl, rfl⟩ := hte
        refine Or.inl (List.mem_append_right _ ((hmem2 _ _ _ _).2 ⟨t, ht, ?_⟩))
        simpa using hm
      | @conj p q m R i j e hq hm =>
        obtain ⟨t, ht, hte⟩ := List.mem_map.1 hq
        simp only [Prod.mk.injEq] at hte
        obtain ⟨rfl, rfl, rfl⟩ := hte
        refine Or.inr ⟨e, List.mem_append_right _ ((hmem2 _ _ _ _).2 ⟨t, ht, ?_⟩), rfl⟩
        simpa using hm
  -- put together
  rw [List.foldlM_append, ← hintra] at q1
  cases hm2 : mergeIntra hp' ns m1 refs with
  | error e => rw [hm2] at q1; cases q1
  | ok m2 =>
  rw [hm2] at q1
  have q1' : mergeInter ns refs m2 hops = .ok { m1 with hops := h' } := (hinter m2).trans q1
  have hloop : mergeOrbLoop H lat o hp (init H lat o) refs = (hp', .ok m1) := by
    rcases hnd with hnd | hnd
    · exact mergeOrbLoop_eq refs hp _ hnd rfl (fun r hr => (hreset r hr).1)
    · refine mergeOrbLoop_same refs hp _ rfl (fun r hr => (hreset r hr).1) fun r hr => ?_
      obtain ⟨n1, n2⟩ := hnd r hr
      have := reset_self (H := H) (hu r hr) (by rw [n1]; exact hdet) (hfresh r hr)
      rw [n1, n2] at this
      exact this
  have hfin := merge_eq hargs hlat (fun q hq => ⟨(hin q hq).2.1, (hin q hq).2.2.1⟩)
    hloop hm2 q1'
  rw [hfin]
  refine ⟨_, rfl, rfl, rfl, hnum, ?_, hspec, rfl, fun r hr => if_neg hr, ?_, ⟨_, rfl⟩, ⟨q2, fun R i j e hlk => by
    have := hTrng R i j e ((hspec R i j e).1 (get_of_look q2 hlk))
    rwa [← hnum] at this⟩⟩
  swap
  · intro r hr
    have he : (hp' r) = { hp r with cell := resetCell H lat o (hp r).cell } := if_pos hr
    show (hp' r).ext = (hp r).ext ∧ Relocated (hp r).cell (hp' r).cell lat o
    rw [he]
    obtain ⟨-, -, s0, s1, s2, s3, -⟩ := hstate r hr
    exact ⟨rfl, ⟨(hreset r hr).2.1, (hreset r hr).2.2, s0, s1, s2, s3 rfl⟩⟩
  intro p r a ob hr hob
  have hrm : r ∈ refs := List.mem_of_getElem? hr
  have hlt : a < (resetCell H lat o (hp r).cell).orbs.length := by
    rw [hlen r hrm]; exact (List.getElem?_eq_some_iff.1 hob).1
  have hblk := flatMap_block (fun r => (resetCell H lat o (hp r).cell).orbs) refs p r a hr hlt
  have hstart : ((refs.map (fun y => ((resetCell H lat o (hp y).cell).orbs).length)).take p).sum =
      (mergeStart ns p).toNat := by
    have : refs.map (fun y => ((resetCell H lat o (hp y).cell).orbs).length) = ns :=
      List.map_congr_left hlen
    rw [this]; unfold mergeStart; rw [Int.toNat_natCast]
  rw [hstart] at hblk
  obtain ⟨-, -, -, s1, s2, s3, -⟩ := hstate r hrm
  have hL := (hreset r hrm).2
  refine ⟨(resetCell H lat o (hp r).cell).orbs[a], ?_, ?_, ?_, ?_⟩
  · rw [← List.getElem?_eq_getElem hlt]
    exact hblk
  · have := congrArg (fun l => l[a]?) s1
    simp only [List.getElem?_map, hob, List.getElem?_eq_getElem hlt, Option.map_some,
      Option.some.injEq] at this
    exact this
  · have := congrArg (fun l => l[a]?) s2
    simp only [List.getElem?_map, hob, List.getElem?_eq_getElem hlt, Option.map_some,
      Option.some.injEq] at this
    exact this
  · have := congrArg (fun l => l[a]?) (s3 rfl)
    simp only [frac2cart, List.getElem?_map, hob, List.getElem?_eq_getElem hlt, Option.map_some,
      Option.some.injEq] at this
    rw [hL.1, hL.2] at this
    exact this

/-- **C35.** Let the arguments of `merge_prim_cell` be distinct cells `r0 :: rs` built by arbitrary
histories, with matching lattices, and inter-hopping objects built by arbitrary histories, between these
cells, with orbital indices in range, that do not contradict each other (nor the cells).  The merge
succeeds.  The result has the lattice and origin of the first cell; orbital `a` of cell number `p` is
number `mergeStart p + a`, with the same energy, label and Cartesian position; and the hoppings are exactly
those of the cells in their blocks, those of the inter-hopping objects, and their conjugates.  Other
objects are untouched; the input cells are re-expressed in the lattice and origin of the first one. -/
theorem C35_merge {H : HashFns F E Λ} {hp : Heap F E Λ} {args : List (MergeArg E)} {r0 : ℕ} {rs : List ℕ}
    {hops : List (ℕ × ℕ × InterHop E)} (hargs : argList (r0 :: rs) hops args) (hnd : (r0 :: rs).Nodup)
    (hb : ∀ r ∈ r0 :: rs, Built H (hp r).cell)
    (hdet : (hp r0).cell.lat.det ≠ 0)
    (hlat : ∀ r ∈ r0 :: rs, ∑ i, ∑ j, |(hp r).cell.lat i j - (hp r0).cell.lat i j| ≤ 1 / 100000)
    (hin : ∀ q ∈ hops, (∃ ops, q.2.2 = InterHop.run InterHop.empty ops) ∧ q.1 ∈ r0 :: rs ∧
      q.2.1 ∈ r0 :: rs ∧ ∀ R i j, interMap q.2.2 R i j ≠ none →
        (0 ≤ i ∧ i < (hp q.1).cell.numOrb) ∧ (0 ≤ j ∧ j < (hp q.2.1).cell.numOrb))
    (hcons : ∀ R x y e e', MergedHop (sizes hp (r0 :: rs)) (intraSpec hp (r0 :: rs))
        (interSpec (r0 :: rs) hops) R x y e →
      MergedHop (sizes hp (r0 :: rs)) (intraSpec hp (r0 :: rs)) (interSpec (r0 :: rs) hops) R x y e' →
      e = e' ∧ ¬ (R = 0 ∧ x = y)) :
    ∃ t, (mergePrimCell H hp args).2 = .ok t ∧
      t.cell.lat = (hp r0).cell.lat ∧ t.cell.origin = (hp r0).cell.origin ∧
      t.cell.numOrb = (sizes hp (r0 :: rs)).sum ∧
      (∀ (p r a : ℕ) ob, (r0 :: rs)[p]? = some r → (hp r).cell.orbs[a]? = some ob →
        ∃ ob', t.cell.orbs[(mergeStart (sizes hp (r0 :: rs)) p).toNat + a]? = some ob' ∧
          ob'.energy = ob.energy ∧ ob'.label = ob.label ∧
          frac2cartRow t.cell.lat t.cell.origin ob'.position =
            frac2cartRow (hp r).cell.lat (hp r).cell.origin ob.position) ∧
      (∀ R x y e, t.cell.hops.get R x y = some e ↔ MergedHop (sizes hp (r0 :: rs))
        (intraSpec hp (r0 :: rs)) (interSpec (r0 :: rs) hops) R x y e) ∧
      t.cell.locked = false ∧
      (∀ r ∉ r0 :: rs, (mergePrimCell H hp args).1 r = hp r) ∧
      (∀ r ∈ r0 :: rs, ((mergePrimCell H hp args).1 r).ext = (hp r).ext ∧
        Relocated (hp r).cell ((mergePrimCell H hp args).1 r).cell (hp r0).cell.lat (hp r0).cell.origin) := by
  have hwf : ∀ r ∈ r0 :: rs, WF (hp r).cell := by
    intro r hr
    obtain ⟨-, la, og, cs, he, hr, -, -⟩ := hb r hr
    rw [he]; exact WF_run H (WF_init H la og) cs hr
  have hfresh : ∀ r ∈ r0 :: rs, (syncOrb H (hp r).cell false).arrPos = (hp r).cell.orbs.map Orbital.position := by
    intro r hr
    obtain ⟨-, la, og, cs, he, -, h1, h2⟩ := hb r hr
    rw [he]; exact (C08_arrays_fresh_partial H la og cs false h1 h2).1
  obtain ⟨t, h1, h2, h3, h4, h5, h6, h7, h8, h9, -, -⟩ :=
    merge_core hargs (.inl hnd) (fun r hr => (hb r hr).1) hwf hfresh hdet hlat hin hcons
  exact ⟨t, h1, h2, h3, h4, h5, h6, h7, h8, h9⟩

/-- **C35 (the same cell several times).** The cells need not be distinct objects: if all of them have the lattice and the origin of the
first, the merge of a list in which objects are repeated gives the same as the merge of copies. -/
theorem C35_repeated {H : HashFns F E Λ} {hp : Heap F E Λ} {args : List (MergeArg E)} {r0 : ℕ} {rs : List ℕ}
    {hops : List (ℕ × ℕ × InterHop E)} (hargs : argList (r0 :: rs) hops args) 
    (hnd : ∀ r ∈ r0 :: rs, (hp r).cell.lat = (hp r0).cell.lat ∧ (hp r).cell.origin = (hp r0).cell.origin)
    (hb : ∀ r ∈ r0 :: rs, Built H (hp r).cell)
    (hdet : (hp r0).cell.lat.det ≠ 0)
    (hlat : ∀ r ∈ r0 :: rs, ∑ i, ∑ j, |(hp r).cell.lat i j - (hp r0).cell.lat i j| ≤ 1 / 100000)
    (hin : ∀ q ∈ hops, (∃ ops, q.2.2 = InterHop.run InterHop.empty ops) ∧ q.1 ∈ r0 :: rs ∧
      q.2.1 ∈ r0 :: rs ∧ ∀ R i j, interMap q.2.2 R i j ≠ none →
        (0 ≤ i ∧ i < (hp q.1).cell.numOrb) ∧ (0 ≤ j ∧ j < (hp q.2.1).cell.numOrb))
    (hcons : ∀ R x y e e', MergedHop (sizes hp (r0 :: rs)) (intraSpec hp (r0 :: rs))
        (interSpec (r0 :: rs) hops) R x y e →
      MergedHop (sizes hp (r0 :: rs)) (intraSpec hp (r0 :: rs)) (interSpec (r0 :: rs) hops) R x y e' →
      e = e' ∧ ¬ (R = 0 ∧ x = y)) :
    ∃ t, (mergePrimCell H hp args).2 = .ok t ∧
      t.cell.lat = (hp r0).cell.lat ∧ t.cell.origin = (hp r0).cell.origin ∧
      t.cell.numOrb = (sizes hp (r0 :: rs)).sum ∧
      (∀ (p r a : ℕ) ob, (r0 :: rs)[p]? = some r → (hp r).cell.orbs[a]? = some ob →
        ∃ ob', t.cell.orbs[(mergeStart (sizes hp (r0 :: rs)) p).toNat + a]? = some ob' ∧
          ob'.energy = ob.energy ∧ ob'.label = ob.label ∧
          frac2cartRow t.cell.lat t.cell.origin ob'.position =
            frac2cartRow (hp r).cell.lat (hp r).cell.origin ob.position) ∧
      (∀ R x y e, t.cell.hops.get R x y = some e ↔ MergedHop (sizes hp (r0 :: rs))
        (intraSpec hp (r0 :: rs)) (interSpec (r0 :: rs) hops) R x y e) ∧
      t.cell.locked = false ∧
      (∀ r ∉ r0 :: rs, (mergePrimCell H hp args).1 r = hp r) ∧
      (∀ r ∈ r0 :: rs, ((mergePrimCell H hp args).1 r).ext = (hp r).ext ∧
        Relocated (hp r).cell ((mergePrimCell H hp args).1 r).cell (hp r0).cell.lat (hp r0).cell.origin) := by
  have hwf : ∀ r ∈ r0 :: rs, WF (hp r).cell := by
    intro r hr
    obtain ⟨-, la, og, cs, he, hr, -, -⟩ := hb r hr
    rw [he]; exact WF_run H (WF_init H la og) cs hr
  have hfresh : ∀ r ∈ r0 :: rs, (syncOrb H (hp r).cell false).arrPos = (hp r).cell.orbs.map Orbital.position := by
    intro r hr
    obtain ⟨-, la, og, cs, he, -, h1, h2⟩ := hb r hr
    rw [he]; exact (C08_arrays_fresh_partial H la og cs false h1 h2).1
  obtain ⟨t, h1, h2, h3, h4, h5, h6, h7, h8, h9, -, -⟩ :=
    merge_core hargs (.inr hnd) (fun r hr => (hb r hr).1) hwf hfresh hdet hlat hin hcons
  exact ⟨t, h1, h2, h3, h4, h5, h6, h7, h8, h9⟩

/-- The consistency hypothesis of `C35_merge` holds whenever every inter-hopping object connects two
different cells and no two objects connect the same pair. -/
theorem C35_consistent {H : HashFns F E Λ} {hp : Heap F E Λ} {refs : List ℕ}
    {hops : List (ℕ × ℕ × InterHop E)} (hb : ∀ r ∈ refs, Built H (hp r).cell)
    (hin : ∀ q ∈ hops, q.1 ∈ refs ∧ q.2.1 ∈ refs ∧ q.1 ≠ q.2.1 ∧ ∀ R i j, interMap q.2.2 R i j ≠ none →
        (0 ≤ i ∧ i < (hp q.1).cell.numOrb) ∧ (0 ≤ j ∧ j < (hp q.2.1).cell.numOrb))
    (huniq : ∀ q ∈ hops, ∀ q' ∈ hops, (q.1 = q'.1 ∧ q.2.1 = q'.2.1) ∨ (q.1 = q'.2.1 ∧ q.2.1 = q'.1) →
      q = q') :
    ∀ R x y e e', MergedHop (sizes hp refs) (intraSpec hp refs) (interSpec refs hops) R x y e →
      MergedHop (sizes hp refs) (intraSpec hp refs) (interSpec refs hops) R x y e' →
      e = e' ∧ ¬ (R = 0 ∧ x = y) := by
  have hwf : ∀ r ∈ refs, WF (hp r).cell := by
    intro r hr
    obtain ⟨-, la, og, cs, he, hr, -, -⟩ := hb r hr
    rw [he]; exact WF_run H (WF_init H la og) cs hr
  have hnsl : (sizes hp refs).length = refs.length := by simp [sizes]
  have hnsp : ∀ (p : ℕ) (h : p < (sizes hp refs).length) (r : ℕ), refs[p]? = some r →
      (sizes hp refs)[p] = (hp r).cell.numOrb := by
    intro p h r hr
    have : (sizes hp refs)[p]? = some (hp r).cell.numOrb := by rw [sizes, List.getElem?_map, hr]; rfl
    exact Option.some.inj ((List.getElem?_eq_getElem h).symm.trans this)
  have hidx : ∀ r ∈ refs, refs.idxOf r < (sizes hp refs).length ∧ refs[refs.idxOf r]? = some r := by
    intro r hr
    have h1 : refs.idxOf r < refs.length := List.idxOf_lt_length_iff.2 hr
    refine ⟨by rw [hnsl]; exact h1, ?_⟩
    rw [List.getElem?_eq_getElem h1, List.getElem_idxOf]
  -- normal form of a term: blocks and offsets
  have norm : ∀ R x y e, MergedHop (sizes hp refs) (intraSpec hp refs) (interSpec refs hops) R x y e →
      ∃ (p q : ℕ) (i j : ℤ) (hp1 : p < (sizes hp refs).length) (hq : q < (sizes hp refs).length),
        (0 ≤ i ∧ i < (sizes hp refs)[p]) ∧ (0 ≤ j ∧ j < (sizes hp refs)[q]) ∧
        x = mergeStart (sizes hp refs) p + i ∧ y = mergeStart (sizes hp refs) q + j ∧
        ((p = q ∧ ∃ r ∈ refs, refs[p]? = some r ∧ (hp r).cell.hops.get R i j = some e) ∨
         (p ≠ q ∧ ∃ t ∈ hops, refs[p]? = some t.1 ∧ refs[q]? = some t.2.1 ∧ interMap t.2.2 R i j = some e) ∨
         (p ≠ q ∧ ∃ t ∈ hops, refs[p]? = some t.2.1 ∧ refs[q]? = some t.1 ∧
           (interMap t.2.2 (-R) j i).map star = some e)) := by
    intro R x y e h
    cases h with
    | @intra p m R i j e hp1 hm =>
      rw [intraSpec, List.getElem?_map, Option.map_eq_some_iff] at hp1
      obtain ⟨r, hr, rfl⟩ := hp1
      have hp : p < (sizes hp refs).length := by rw [hnsl]; exact (List.getElem?_eq_some_iff.1 hr).1
      have hrm := List.mem_of_getElem? hr
      have hrr := rng_of_get (hwf r hrm) hm
      rw [← hnsp p hp r hr] at hrr
      exact ⟨p, p, i, j, hp, hp, hrr.1, hrr.2.1, rfl, rfl, Or.inl ⟨rfl, r, hrm, hr, hm⟩⟩
    | @inter p q m R i j e hq hm =>
      obtain ⟨t, ht, hte⟩ := List.mem_map.1 hq
      simp only [Prod.mk.injEq] at hte
      obtain ⟨rfl, rfl, rfl⟩ := hte
      obtain ⟨h1, h2, hne, h3⟩ := hin t ht
      obtain ⟨h4, h5⟩ := h3 R i j (by rw [hm]; simp)
      rw [← hnsp _ (hidx _ h1).1 _ (hidx _ h1).2] at h4
      rw [← hnsp _ (hidx _ h2).1 _ (hidx _ h2).2] at h5
      refine ⟨_, _, i, j, (hidx _ h1).1, (hidx _ h2).1, h4, h5, rfl, rfl, Or.inr (Or.inl ⟨?_, t, ht,
        (hidx _ h1).2, (hidx _ h2).2, hm⟩)⟩
      intro he
      have := (hidx _ h1).2
      rw [he, (hidx _ h2).2] at this
      exact hne (Option.some.inj this).symm
    | @conj p q m R i j e hq hm =>
      obtain ⟨t, ht, hte⟩ := List.mem_map.1 hq
      simp only [Prod.mk.injEq] at hte
      obtain ⟨rfl, rfl, rfl⟩ := hte
      obtain ⟨h1, h2, hne, h3⟩ := hin t ht
      obtain ⟨h4, h5⟩ := h3 R i j (by rw [hm]; simp)
      rw [← hnsp _ (hidx _ h1).1 _ (hidx _ h1).2] at h4
      rw [← hnsp _ (hidx _ h2).1 _ (hidx _ h2).2] at h5
      refine ⟨_, _, j, i, (hidx _ h2).1, (hidx _ h1).1, h5, h4, rfl, rfl, Or.inr (Or.inr ⟨?_, t, ht,
        (hidx _ h2).2, (hidx _ h1).2, by rw [neg_neg, hm]; rfl⟩)⟩
      intro he
      have := (hidx _ h1).2
      rw [← he, (hidx _ h2).2] at this
      exact hne (Option.some.inj this).symm
  intro R x y e e' h h'
  obtain ⟨p, q, i, j, hp1, hq1, hi, hj, rfl, rfl, hc⟩ := norm R x y e h
  obtain ⟨p', q', i', j', hp1', hq1', hi', hj', ex, ey, hc'⟩ := norm _ _ _ _ h'
  obtain ⟨rfl, rfl⟩ := block_inj hp1 hp1' hi hi' ex
  obtain ⟨rfl, rfl⟩ := block_inj hq1 hq1' hj hj' ey
  constructor
  · rcases hc with ⟨hpq, r, hr, hr1, hg⟩ | ⟨hpq, t, ht, a1, a2, hg⟩ | ⟨hpq, t, ht, a1, a2, hg⟩ <;>
    rcases hc' with ⟨hpq', r', hr', hr1', hg'⟩ | ⟨hpq', t', ht', a1', a2', hg'⟩ |
      ⟨hpq', t', ht', a1', a2', hg'⟩
    all_goals first
      | exact absurd hpq' hpq
      | exact absurd hpq hpq'
      | skip
    · rw [hr1] at hr1'
      cases hr1'
      rw [hg] at hg'
      exact Option.some.inj hg'
    all_goals
      rw [a1] at a1'; rw [a2] at a2'
      have b1 := Option.some.inj a1'
      have b2 := Option.some.inj a2'
    · obtain rfl := huniq t ht t' ht' (Or.inl ⟨b1, b2⟩)
      rw [hg] at hg'
      exact Option.some.inj hg'
    · obtain rfl := huniq t ht t' ht' (Or.inr ⟨b1, b2⟩)
      exact absurd b1 (hin t ht).2.2.1
    · obtain rfl := huniq t ht t' ht' (Or.inr ⟨b2, b1⟩)
      exact absurd b2 (hin t ht).2.2.1
    · obtain rfl := huniq t ht t' ht' (Or.inl ⟨b2, b1⟩)
      rw [hg] at hg'
      exact Option.some.inj hg'
  · rintro ⟨rfl, hxy⟩
    obtain ⟨rfl, rfl⟩ := block_inj hp1 hq1 hi hj hxy
    rcases hc with ⟨-, r, hr, hr1, hg⟩ | ⟨hpq, -⟩ | ⟨hpq, -⟩
    · exact (rng_of_get (hwf r hr) hg).2.2 ⟨rfl, rfl⟩
    · exact hpq rfl
    · exact hpq rfl

/-- **C35**, error cases: with no argument, an argument of another type, cells whose lattices differ, or
an inter-hopping object of a cell that is not among the arguments the merge raises `ValueError`, with no
cell at all `IndexError`; memory is not changed. -/
theorem C35_errors (H : HashFns F E Λ) (hp : Heap F E Λ) (args : List (MergeArg E)) :
    mergePrimCell H hp ([] : List (MergeArg E)) = (hp, .error .value) ∧
    (.other ∈ args → mergePrimCell H hp args = (hp, .error .value)) ∧
    (args ≠ [] → (∀ a ∈ args, ∃ b k h, a = .hop b k h) → mergePrimCell H hp args = (hp, .error .index)) ∧
    (∀ r0 rs hops, argList (r0 :: rs) hops args →
      ((∃ r ∈ r0 :: rs, 1 / 100000 < ∑ i, ∑ j, |(hp r).cell.lat i j - (hp r0).cell.lat i j|) ∨
        (∃ q ∈ hops, q.1 ∉ r0 :: rs ∨ q.2.1 ∉ r0 :: rs)) →
      mergePrimCell H hp args = (hp, .error .value)) := by
  refine ⟨rfl, ?_, ?_, ?_⟩
  · intro ho
    have hne : args.isEmpty = false := by
      cases args with
      | nil => simp at ho
      | cons a l => rfl
    cases hq : parseArgs args with
    | none => unfold mergePrimCell; simp [hne, hq]
    | some q => exact absurd rfl ((parseArgs_eq.1 hq).2.2 _ ho)
  · intro hne ha
    have hne' : args.isEmpty = false := by simpa using hne
    have : ∀ l : List (MergeArg E), (∀ a ∈ l, ∃ b k h, a = .hop b k h) →
        ∃ hs, parseArgs l = some ([], hs) := by
      intro l
      induction l with
      | nil => intro _; exact ⟨[], rfl⟩
      | cons a l ih =>
        intro h
        obtain ⟨b, k, h', rfl⟩ := h a (by simp)
        obtain ⟨hs, e⟩ := ih (fun a ha => h a (by simp [ha]))
        exact ⟨(b, k, h') :: hs, by simp [parseArgs, e]⟩
    obtain ⟨hs, e⟩ := this args ha
    unfold mergePrimCell
    simp [hne', e]
  · intro r0 rs hops hargs hor
    have hne : args.isEmpty = false := by
      cases args with
      | nil => simp [argList] at hargs
      | cons a l => rfl
    unfold mergePrimCell
    rw [hne, if_neg (by simp), parseArgs_eq.2 hargs]
    simp only
    by_cases h1 : ∃ r ∈ r0 :: rs, 1 / 100000 < ∑ i, ∑ j, |(hp r).cell.lat i j - (hp r0).cell.lat i j|
    · rw [if_pos (by simpa only [List.any_eq_true, decide_eq_true_eq, gt_iff_lt, latDist] using h1)]
    · have h2 := hor.resolve_left h1
      rw [if_neg (by simpa only [List.any_eq_true, decide_eq_true_eq, gt_iff_lt, latDist] using h1),
        if_pos (by simpa only [List.any_eq_true, decide_eq_true_eq] using h2)]

/-- **C35**: the attribute `extended` of the result is the one of the first cell if no cell exceeds it
by `1e-3`, and one otherwise; in particular it depends on the order of the arguments. -/
theorem C35_extended {H : HashFns F E Λ} {hp : Heap F E Λ} {args : List (MergeArg E)} {r0 : ℕ} {rs : List ℕ}
    {hops : List (ℕ × ℕ × InterHop E)} (hargs : argList (r0 :: rs) hops args) {t : PCObj F E Λ}
    (h : (mergePrimCell H hp args).2 = .ok t) :
    ((∀ r ∈ r0 :: rs, (hp r).ext - (hp r0).ext < 1 / 1000) → t.ext = (hp r0).ext) ∧
    ((∃ r ∈ r0 :: rs, 1 / 1000 ≤ (hp r).ext - (hp r0).ext) → t.ext = 1) := by
  have hext : ∀ (x : F) (l : List F), ((∀ y ∈ l, y - x < 1 / 1000) → mergeExt x l = x) ∧
      ((∃ y ∈ l, 1 / 1000 ≤ y - x) → mergeExt x l = 1) := by
    intro x l
    induction l with
    | nil => simp [mergeExt]
    | cons y l ih =>
      simp only [mergeExt, ge_iff_le]
      split_ifs with hy
      · constructor
        · intro hall; exact absurd hy (not_le.2 (hall y (by simp)))
        · intro _; rfl
      · constructor
        · intro hall; exact ih.1 (fun z hz => hall z (by simp [hz]))
        · rintro ⟨z, hz, hzx⟩
          rcases List.mem_cons.1 hz with rfl | hz
          · exact absurd hzx hy
          · exact ih.2 ⟨z, hz, hzx⟩
  have ht : t.ext = mergeExt (hp r0).ext ((r0 :: rs).map (fun r => (hp r).ext)) := by
    have hne : args.isEmpty = false := by
      cases args with
      | nil => simp [argList] at hargs
      | cons a l => rfl
    unfold mergePrimCell at h
    rw [hne, if_neg (by simp), parseArgs_eq.2 hargs] at h
    simp only at h
    split_ifs at h
    split at h
    · simp at h
    · split at h
      · simp at h
      · split at h
        · simp at h
        · simp only [Except.ok.injEq] at h
          rw [← h]
  rw [ht]
  constructor
  · intro hall
    refine (hext _ _).1 ?_
    intro y hy
    obtain ⟨r, hr, rfl⟩ := List.mem_map.1 hy
    exact hall r hr
  · rintro ⟨r, hr, hle⟩
    exact (hext _ _).2 ⟨_, List.mem_map.2 ⟨r, hr, rfl⟩, hle⟩

/-- **C35**, "the input cells are left unchanged", as far as it is true: an input cell that already has the
lattice vectors and origin of the first cell is left with the same orbitals, hoppings, lattice and origin.
(For other cells it is false, see `C35_inputs_modified`.) -/
theorem C35_inputs_unchanged_partial {s s' : PrimCell F E Λ} (hd : s.lat.det ≠ 0)
    (h : Relocated s s' s.lat s.origin) :
    s'.lat = s.lat ∧ s'.origin = s.origin ∧ s'.orbs = s.orbs ∧ s'.hops = s.hops := by
  refine ⟨h.lat, h.origin, ?_, h.hops⟩
  have hpos : s'.orbs.map Orbital.position = s.orbs.map Orbital.position := by
    have e := h.positions
    rw [h.lat, h.origin] at e
    have := congrArg (fun l => cart2frac s.lat l s.origin) e
    simp only [C36_frac_cart_frac hd, Option.some.injEq] at this
    exact this
  have hlen : s'.orbs.length = s.orbs.length := by simpa using congrArg List.length hpos
  refine List.ext_getElem hlen (fun k h1 h2 => ?_)
  have g : ∀ {α : Type _} (f : Orbital F Λ → α), s'.orbs.map f = s.orbs.map f → f s'.orbs[k] = f s.orbs[k] := by
    intro α f hf
    have := congrArg (fun l => l[k]?) hf
    simpa [h1, h2] using this
  have e1 := g _ hpos
  have e2 := g _ h.energies
  have e3 : s'.orbs[k].label = s.orbs[k].label := by
    have := congrArg (fun l => l[k]?) h.labels
    simpa [h1, h2] using this
  revert e1 e2 e3
  generalize s'.orbs[k] = a
  generalize s.orbs[k] = b
  cases a; cases b
  simp only [Orbital.mk.injEq]
  tauto

/-- Memory for the concrete case: object `r` is a unit-lattice cell with origin `(r,r,r)` and one orbital. -/
noncomputable def twoCells : Heap ℚ GInt Unit := fun r =>
  ⟨run lenHash0 (init lenHash0 unitLat (fun _ => r)) [.inl (.addOrbital [1/2, 0] 3 ())], 1⟩

/-- Inter-hopping object of the concrete case: one term. -/
def oneHop : InterHop GInt := InterHop.run InterHop.empty [.add [0, 0, 0] 0 0 ⟨2, 1⟩]

theorem twoCells_built (r : ℕ) : Built lenHash0 (twoCells r).cell := by
  have horbs : ∀ x : Vec3 ℚ, (run lenHash0 (init lenHash0 unitLat x)
      [.inl (.addOrbital [1/2, 0] 3 ())]).orbs = [⟨vec3 (1/2, 0, 0), 3, ()⟩] := by
    intro x; simp [run, call, step, addOrbital, init, checkLen]
  have hp : ∀ pre : List (Call ℚ GInt Unit), pre <+: [.inl (.addOrbital [1/2, 0] 3 ())] →
      pre = [] ∨ pre = [.inl (.addOrbital [1/2, 0] 3 ())] := by
    rintro pre ⟨post, h⟩
    rcases pre with _ | ⟨a, _ | ⟨b, pre⟩⟩ <;> simp_all
  refine ⟨by simp [twoCells, run, call, step, addOrbital, init, checkLen], unitLat, fun _ => r, _, rfl,
    ?_, ?_, ?_⟩
  · intro pre op post h
    rcases pre with _ | ⟨a, pre⟩
    · simp only [List.nil_append, List.cons.injEq, Sum.inl.injEq] at h
      rw [← h.1]; trivial
    · simp at h
  · rintro l ⟨p, hp1, rfl⟩ l' ⟨p', hp2, rfl⟩ he
    have h0 : ∀ x : Vec3 ℚ, (run lenHash0 (init lenHash0 unitLat x) ([] : List (Call ℚ GInt Unit))).orbs = [] :=
      fun _ => rfl
    rcases hp p hp1 with rfl | rfl <;> rcases hp p' hp2 with rfl | rfl <;>
      simp_all [lenHash0]
  · rintro l ⟨p, hp1, rfl⟩ l' ⟨p', hp2, rfl⟩ he
    have h0 : ∀ x : Vec3 ℚ, (run lenHash0 (init lenHash0 unitLat x)
      ([.inl (.addOrbital [1/2, 0] 3 ())] : List (Call ℚ GInt Unit))).hops = IntraHop.empty := by
      intro x; simp [run, call, step, addOrbital, init, checkLen]
    have h1 : ∀ x : Vec3 ℚ, (run lenHash0 (init lenHash0 unitLat x)
      ([] : List (Call ℚ GInt Unit))).hops = IntraHop.empty := fun _ => rfl
    rcases hp p hp1 with rfl | rfl <;> rcases hp p' hp2 with rfl | rfl <;>
      simp only [h0, h1]

theorem twoCells_numOrb (r : ℕ) : (twoCells r).cell.numOrb = 1 := by
  simp [twoCells, numOrb, run, call, step, addOrbital, init, checkLen]

theorem twoCells_lat (r : ℕ) : (twoCells r).cell.lat = unitLat ∧ (twoCells r).cell.origin = fun _ => (r : ℚ) := by
  constructor <;> simp [twoCells, run, call, step, addOrbital, init, checkLen]

/-- A concrete case of `C35_repeated`: the same cell twice; the result has two orbitals. -/
example : ∃ t, (mergePrimCell lenHash0 twoCells ([.pc 0, .pc 0] : List (MergeArg GInt))).2 = .ok t ∧ t.cell.numOrb = 2 := by
  obtain ⟨t, h1, -, -, h2, -⟩ := C35_repeated (H := lenHash0) (hp := twoCells) (args := [.pc 0, .pc 0]) (r0 := 0) (rs := [0]) (hops := [])
    ⟨rfl, rfl, by simp⟩ (by simp) (fun r _ => twoCells_built r) (by rw [(twoCells_lat 0).1]; simp [unitLat, Matrix.det_fin_three]) (by simp) (by simp)
    (C35_consistent (H := lenHash0) (fun r _ => twoCells_built r) (by simp) (by simp))
  exact ⟨t, h1, by rw [h2]; simp [sizes, twoCells_numOrb]⟩


theorem oneHop_map (R : Cell) (i j : ℤ) : interMap oneHop R i j =
    if R = 0 ∧ i = 0 ∧ j = 0 then some ⟨2, 1⟩ else none := by
  have := InterHop.look_set ([] : PyDict Cell (PyDict Pair GInt)) 0 R (0, 0) (i, j) ⟨2, 1⟩
  have e : interMap oneHop R i j = IntraHop.look (PyDict.set ([] : PyDict Cell (PyDict Pair GInt)) 0
    (PyDict.set ((PyDict.get? ([] : PyDict Cell (PyDict Pair GInt)) 0).getD []) (0, 0) ⟨2, 1⟩)) R (i, j) := rfl
  rw [e, this]
  simp [IntraHop.look]

/-- **C35** is false for the input cells: merging two cells with different origins succeeds, gives the
expected merged cell, and moves the origin of the second input object.  (This is also the concrete case
for `C35_merge` and `C35_consistent`.) -/
theorem C35_inputs_modified :
    ∃ t, (mergePrimCell lenHash0 twoCells [.pc 0, .pc 1, .hop 0 1 oneHop]).2 = .ok t ∧
      t.cell.numOrb = 2 ∧ t.cell.hops.get 0 1 0 = some (star ⟨2, 1⟩) ∧
      ((mergePrimCell lenHash0 twoCells [.pc 0, .pc 1, .hop 0 1 oneHop]).1 1).cell.origin ≠
        (twoCells 1).cell.origin := by
  have hr : ∀ R i j, interMap oneHop R i j ≠ none →
        (0 ≤ i ∧ i < (twoCells 0).cell.numOrb) ∧ (0 ≤ j ∧ j < (twoCells 1).cell.numOrb) := by
    intro R i j h
    rw [oneHop_map] at h
    rw [twoCells_numOrb, twoCells_numOrb]
    split_ifs at h with hc
    · obtain ⟨-, rfl, rfl⟩ := hc; simp
    · exact absurd rfl h
  obtain ⟨t, h1, -, -, h4, -, h6, -, -, h9⟩ := C35_merge (H := lenHash0) (hp := twoCells)
    (args := [.pc 0, .pc 1, .hop 0 1 oneHop]) (r0 := 0) (rs := [1]) (hops := [(0, 1, oneHop)])
    ⟨rfl, rfl, by simp⟩ (by simp) (fun r _ => twoCells_built r)
    (by rw [(twoCells_lat 0).1]; simp [unitLat, Matrix.det_fin_three])
    (fun r _ => by rw [(twoCells_lat 0).1, (twoCells_lat r).1]; simp)
    (by
      intro q hq
      simp only [List.mem_singleton] at hq
      subst hq
      exact ⟨⟨_, rfl⟩, by simp, by simp, hr⟩)
    (C35_consistent (fun r _ => twoCells_built r) (by
      intro q hq
      simp only [List.mem_singleton] at hq
      subst hq
      exact ⟨by simp, by simp, by simp, hr⟩) (by
      intro q hq q' hq' _
      simp only [List.mem_singleton] at hq hq'
      rw [hq, hq']))
  refine ⟨t, h1, ?_, ?_, ?_⟩
  · rw [h4]; simp [sizes, twoCells_numOrb]
  · rw [h6]
    have := MergedHop.conj (ns := sizes twoCells [0, 1]) (intra := intraSpec twoCells [0, 1])
      (inter := interSpec [0, 1] [(0, 1, oneHop)]) (p := 0) (q := 1) (m := interMap oneHop) (R := 0)
      (i := 0) (j := 0) (e := ⟨2, 1⟩) (by simp [interSpec]) (by simp [oneHop_map])
    simpa [mergeStart, sizes, twoCells_numOrb] using this
  · rw [(h9 1 (by simp)).2.origin, (twoCells_lat 0).2, (twoCells_lat 1).2]
    intro h
    have := congrFun h 0
    simp at this

end Verif.Props

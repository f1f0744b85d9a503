import Verif.Proof.SampleRescale
import Verif.Props.Super

/-! # Properties of samples: C27 - C32 -/

namespace Verif.Props

open SCell Sample

section Assembly

variable {F E Λ : Type*} [Field F] [DecidableEq F] [InvolutiveStar E]

/-! ### C27: assembly -/

/-- **C27 (orbitals).** When the orbital arrays are built, they are the concatenation of the arrays
`get_orb_eng` and `get_orb_pos` return for the supercells, in order, and have one entry per
orbital. -/
theorem C27_orbitals {H : HashFns F E Λ} {HS : SCHash F E Λ} {hp : SCHeap F E Λ} {s : Sample F E}
    (hc : ∀ id ∈ s.cells, ReachCell H HS (hp id)) :
    (∀ {hp' s' force}, force = true ∨ s.eng = none → initEng H HS hp s force = (hp', s', .ok ()) →
      ∃ ls, List.Forall₂ (fun id l => (getOrbEng H HS (hp id)).2 = .ok l) s.cells ls ∧
        s' = { s with eng := some ls.flatten } ∧ (ls.flatten.length : ℤ) = s.numOrb hp) ∧
    (∀ {hp' s' force}, force = true ∨ s.pos = none → initPos H HS hp s force = (hp', s', .ok ()) →
      ∃ ls, List.Forall₂ (fun id l => (getOrbPos H HS (hp id)).2 = .ok l) s.cells ls ∧
        s' = { s with pos := some ls.flatten } ∧ (ls.flatten.length : ℤ) = s.numOrb hp) := by
  constructor
  · intro hp' s' force hf h
    unfold initEng at h
    rw [if_pos (by simpa using hf)] at h
    rcases hx : collect (getOrbEng H HS) hp s.cells with ⟨hp1, r⟩
    rw [hx] at h
    cases r with
    | error e => simp at h
    | ok ls =>
      simp only [Prod.mk.injEq, and_true] at h
      rw [getOrbEng_via] at hx
      have := (collect_ok _ s.cells (SyncedHeap.refl HS hp) (fun id hid => (hc id hid).steady) hx).2
      exact ⟨ls, this, h.2.symm, forall2_length_sum this (fun id hid l hl => (hc id hid).lengths.1 l hl)⟩
  · intro hp' s' force hf h
    unfold initPos at h
    rw [if_pos (by simpa using hf)] at h
    rcases hx : collect (getOrbPos H HS) hp s.cells with ⟨hp1, r⟩
    rw [hx] at h
    cases r with
    | error e => simp at h
    | ok ls =>
      simp only [Prod.mk.injEq, and_true] at h
      rw [getOrbPos_via] at hx
      have := (collect_ok _ s.cells (SyncedHeap.refl HS hp) (fun id hid => (hc id hid).steady) hx).2
      exact ⟨ls, this, h.2.symm, forall2_length_sum this (fun id hid l hl => (hc id hid).lengths.2.1 l hl)⟩

theorem interDr_eq_bond (ket : SCell F E Λ) (pb pk : List (Vec3 F)) (t : Cell × Pair × E) :
    interDr (scLatVec ket.pc.lat ket.dim) (rowAt pb) (rowAt pk) t = interBond ket pb pk t := by
  funext x
  simp only [interDr, interBond, scLatVec, rowAt]
  push_cast
  ring

/-- `C27_blocks_partial` in terms of the model. -/
theorem blocks_aux {H : HashFns F E Λ} {HS : SCHash F E Λ} {hp hp' : SCHeap F E Λ} {s s' : Sample F E}
    {force : Bool} (hc : ∀ id ∈ s.cells, ReachCell H HS (hp id))
    (hi : ∀ h ∈ s.inters, h.bra ∈ s.cells ∧ h.ket ∈ s.cells ∧ InterInRange hp h)
    (hf : force = true ∨ s.hop = none) (h : initHop H HS hp s force = (hp', s', .ok ())) :
    ∃ (o : HopOut F E) (outs : List (HopOut F E)) (pss : List (List (Vec3 F) × List (Vec3 F))),
      s' = { s with hop := some o, rescale := 1 } ∧
      List.Forall₂ (fun id out => (getHop H HS (hp id)).2 = .ok out) s.cells outs ∧
      List.Forall₂ (fun (h : InterSC E) ps => (getOrbPos H HS (hp h.bra)).2 = .ok ps.1 ∧
        (getOrbPos H HS (hp h.ket)).2 = .ok ps.2) s.inters pss ∧
      o.terms = (outs.zipIdx.flatMap fun q => q.1.terms.map fun x =>
          ⟨blockStart hp s.cells q.2 + x.i, blockStart hp s.cells q.2 + x.j, x.v, x.dr⟩) ++
        ((s.inters.zip pss).flatMap fun q => q.1.hop.toList.map fun t =>
          ⟨blockStart hp s.cells (s.cells.idxOf q.1.bra) + t.2.1.1,
           blockStart hp s.cells (s.cells.idxOf q.1.ket) + t.2.1.2, t.2.2,
           interDr (scLatVec (hp q.1.ket).pc.lat (hp q.1.ket).dim) (rowAt q.2.1) (rowAt q.2.2) t⟩) ∧
      (∀ x ∈ o.terms, ∃ (a b : ℕ), a < s.cells.length ∧ b < s.cells.length ∧
        (blockStart hp s.cells a ≤ x.i ∧ x.i < blockStart hp s.cells (a + 1)) ∧
        (blockStart hp s.cells b ≤ x.j ∧ x.j < blockStart hp s.cells (b + 1)) ∧
        (a = b ∨ ∃ h ∈ s.inters, s.cells[a]? = some h.bra ∧ s.cells[b]? = some h.ket)) ∧
      TermsInRange (s.numOrb hp).toNat o.terms := by
  have hnn : ∀ id ∈ s.cells, 0 ≤ (hp id).numOrbSc := fun id hid => (hc id hid).lengths.2.2
  unfold Sample.initHop at h
  rw [if_pos (by simpa using hf)] at h
  simp only at h
  rcases hx : collect (getHop H HS) hp s.cells with ⟨hp1, r⟩
  rw [hx] at h
  cases r with
  | error e => simp at h
  | ok outs =>
    rw [getHop_via] at hx
    obtain ⟨hsy, h2⟩ := collect_ok _ s.cells (SyncedHeap.refl HS hp) (fun id hid => (hc id hid).steady) hx
    rw [← getHop_via H HS] at h2
    simp only at h
    rcases hy : collectInter H HS hp1 s.inters with ⟨hp2, r2⟩
    rw [hy] at h
    cases r2 with
    | error e => simp at h
    | ok ints =>
      obtain ⟨-, h3⟩ := collectInter_ok s.inters hsy
        (fun x hx => ⟨(hc _ (hi x hx).1).steady, (hc _ (hi x hx).2.1).steady⟩) hy
      simp only [Prod.mk.injEq, and_true] at h
      -- choose the positions
      have h4 : ∃ pss : List (List (Vec3 F) × List (Vec3 F)),
          List.Forall₂ (fun (h : InterSC E) ps => (getOrbPos H HS (hp h.bra)).2 = .ok ps.1 ∧
            (getOrbPos H HS (hp h.ket)).2 = .ok ps.2) s.inters pss ∧
          ints = (s.inters.zip pss).map fun q => q.1.hop.toList.map fun t => (⟨t.2.1.1, t.2.1.2, t.2.2,
            interDr (scLatVec (hp q.1.ket).pc.lat (hp q.1.ket).dim) (rowAt q.2.1) (rowAt q.2.2) t⟩ : SCHop F E) := by
        clear h hy hi
        generalize s.inters = xs at h3
        induction h3 with
        | nil => exact ⟨[], List.Forall₂.nil, rfl⟩
        | cons hab _ ih =>
          obtain ⟨pb, pk, e1, e2, e3⟩ := hab
          obtain ⟨pss, i1, i2⟩ := ih
          exact ⟨(pb, pk) :: pss, List.Forall₂.cons ⟨e1, e2⟩ i1, by simp [e3, i2]⟩
      obtain ⟨pss, h5, h6⟩ := h4
      have hlen := h2.length_eq
      have hlen5 := h5.length_eq
      have hstart : ∀ id ∈ s.cells, s.startOf hp id = blockStart hp s.cells (s.cells.idxOf id) := by
        intro id hid
        unfold startOf
        rw [List.getD_eq_getElem?_getD, startOf_eq hp s (List.idxOf_lt_length_iff.2 hid)]; rfl
      have e1 : ((outs.zip (s.indStart hp)).flatMap fun q => q.1.terms.map (shiftTerm q.2 q.2)) =
          outs.zipIdx.flatMap fun q => q.1.terms.map fun x =>
            (⟨blockStart hp s.cells q.2 + x.i, blockStart hp s.cells q.2 + x.j, x.v, x.dr⟩ : SCHop F E) := by
        have hzip : outs.zip (s.indStart hp) = outs.zipIdx.map (fun q => (q.1, blockStart hp s.cells q.2)) := by
          have hz : outs.zipIdx = outs.zip (List.range outs.length) := by
            rw [List.zipIdx_eq_zip_range', List.range_eq_range']
          have hs' : s.indStart hp = (List.range outs.length).map (blockStart hp s.cells) := by
            unfold indStart numOrbList blockStart
            rw [List.length_map, hlen]
            apply List.map_congr_left
            intro k _
            rw [List.map_take]
          rw [hz, hs', List.zip_map_right]
          rfl
        rw [hzip, List.flatMap_map]
        apply List.flatMap_congr
        intro q _
        apply List.map_congr_left
        intro x _
        simp [shiftTerm, add_comm]
      have e2 : ((ints.zip s.inters).flatMap fun q => q.1.map (shiftTerm (s.startOf hp q.2.bra) (s.startOf hp q.2.ket))) =
          (s.inters.zip pss).flatMap fun q => q.1.hop.toList.map fun t =>
          (⟨blockStart hp s.cells (s.cells.idxOf q.1.bra) + t.2.1.1,
           blockStart hp s.cells (s.cells.idxOf q.1.ket) + t.2.1.2, t.2.2,
           interDr (scLatVec (hp q.1.ket).pc.lat (hp q.1.ket).dim) (rowAt q.2.1) (rowAt q.2.2) t⟩ : SCHop F E) := by
        rw [h6]
        have hmap : ((s.inters.zip pss).map fun q => q.1.hop.toList.map fun t => (⟨t.2.1.1, t.2.1.2, t.2.2,
            interDr (scLatVec (hp q.1.ket).pc.lat (hp q.1.ket).dim) (rowAt q.2.1) (rowAt q.2.2) t⟩ : SCHop F E)).zip
              s.inters = (s.inters.zip pss).map fun q => (q.1.hop.toList.map fun t => (⟨t.2.1.1, t.2.1.2, t.2.2,
            interDr (scLatVec (hp q.1.ket).pc.lat (hp q.1.ket).dim) (rowAt q.2.1) (rowAt q.2.2) t⟩ : SCHop F E), q.1) := by
          clear h hy hi h6 h3 hlen5
          generalize s.inters = xs at h5
          induction h5 with
          | nil => rfl
          | cons _ _ ih => simp [ih]
        rw [hmap, List.flatMap_map]
        apply List.flatMap_congr
        intro q hq
        have hm := (List.of_mem_zip hq).1
        simp only [List.map_map]
        rw [hstart _ (hi _ hm).1, hstart _ (hi _ hm).2.1]
        apply List.map_congr_left
        intro t _
        simp [shiftTerm, add_comm]
      rw [e1, e2] at h
      refine ⟨_, outs, pss, h.2.symm, h2, h5, rfl, ?_⟩
      have hblk : ∀ x ∈ (outs.zipIdx.flatMap fun q => q.1.terms.map fun x =>
            (⟨blockStart hp s.cells q.2 + x.i, blockStart hp s.cells q.2 + x.j, x.v, x.dr⟩ : SCHop F E)) ++
          (s.inters.zip pss).flatMap fun q => q.1.hop.toList.map fun t =>
          (⟨blockStart hp s.cells (s.cells.idxOf q.1.bra) + t.2.1.1,
           blockStart hp s.cells (s.cells.idxOf q.1.ket) + t.2.1.2, t.2.2,
           interDr (scLatVec (hp q.1.ket).pc.lat (hp q.1.ket).dim) (rowAt q.2.1) (rowAt q.2.2) t⟩ : SCHop F E),
        ∃ (a b : ℕ), a < s.cells.length ∧ b < s.cells.length ∧
        (blockStart hp s.cells a ≤ x.i ∧ x.i < blockStart hp s.cells (a + 1)) ∧
        (blockStart hp s.cells b ≤ x.j ∧ x.j < blockStart hp s.cells (b + 1)) ∧
        (a = b ∨ ∃ h ∈ s.inters, s.cells[a]? = some h.bra ∧ s.cells[b]? = some h.ket) := by
        intro x hx
        rw [List.mem_append] at hx
        rcases hx with hx | hx
        · rw [List.mem_flatMap] at hx
          obtain ⟨⟨out, k⟩, hq, hx⟩ := hx
          rw [List.mem_zipIdx_iff_getElem?] at hq
          simp only at hq hx
          rw [List.mem_map] at hx
          obtain ⟨y, hy', rfl⟩ := hx
          obtain ⟨hk, hke⟩ := List.getElem?_eq_some_iff.1 hq
          have hk' : k < s.cells.length := by omega
          have hget : (getHop H HS (hp s.cells[k])).2 = .ok out := by
            have := (List.forall₂_iff_get.1 h2).2 k hk' hk
            simpa [hke] using this
          have hr := (hc _ (List.getElem_mem hk')).getHop_range hget hy'
          have hsucc := blockStart_succ hp s.cells (List.getElem?_eq_getElem hk')
          refine ⟨k, k, hk', hk', ⟨?_, ?_⟩, ⟨?_, ?_⟩, Or.inl rfl⟩ <;> simp only <;> omega
        · rw [List.mem_flatMap] at hx
          obtain ⟨⟨g, ps⟩, hq, hx⟩ := hx
          have hm := (List.of_mem_zip hq).1
          rw [List.mem_map] at hx
          obtain ⟨t, ht, rfl⟩ := hx
          obtain ⟨hb, hk, hr⟩ := hi g hm
          have hr' := hr t ht
          have lb := List.idxOf_lt_length_iff.2 hb
          have lk := List.idxOf_lt_length_iff.2 hk
          have gb : s.cells[s.cells.idxOf g.bra]? = some g.bra := List.getElem?_idxOf hb
          have gk : s.cells[s.cells.idxOf g.ket]? = some g.ket := List.getElem?_idxOf hk
          have sb := blockStart_succ hp s.cells gb
          have sk := blockStart_succ hp s.cells gk
          refine ⟨s.cells.idxOf g.bra, s.cells.idxOf g.ket, lb, lk, ⟨?_, ?_⟩, ⟨?_, ?_⟩, Or.inr ⟨g, hm, gb, gk⟩⟩ <;>
            simp only <;> omega
      refine ⟨hblk, ?_⟩
      intro x hx
      obtain ⟨a, b, ha, hb, h1, h2', -⟩ := hblk x hx
      have a0 := blockStart_mono hp s.cells hnn (Nat.zero_le a)
      have a1 := blockStart_mono hp s.cells hnn (show a + 1 ≤ _ from ha)
      have b0 := blockStart_mono hp s.cells hnn (Nat.zero_le b)
      have b1 := blockStart_mono hp s.cells hnn (show b + 1 ≤ _ from hb)
      rw [blockStart_all] at a1 b1
      have z : blockStart hp s.cells 0 = 0 := by simp [blockStart]
      constructor <;> constructor <;> omega

/-- **C27 (terms, partial).** When the hoppings are built, the terms are first those `get_hop`
returns for the supercells, in order, shifted by the start of the block of the supercell, and
then those of the inter-hoppings, shifted by the starts of the blocks of bra and ket.  Every index
lies in the right block and in the sample.  Missing: inter-hoppings referring to orbitals the
supercells do not have, which the container accepts, see `C27_inter_out_of_range`. -/
theorem C27_blocks_partial {H : HashFns F E Λ} {HS : SCHash F E Λ} {hp hp' : SCHeap F E Λ} {s s' : Sample F E}
    {force : Bool} (hc : ∀ id ∈ s.cells, ReachCell H HS (hp id))
    (hi : ∀ h ∈ s.inters, h.bra ∈ s.cells ∧ h.ket ∈ s.cells ∧ InterInRange hp h)
    (hf : force = true ∨ s.hop = none) (h : initHop H HS hp s force = (hp', s', .ok ())) :
    ∃ (o : HopOut F E) (outs : List (HopOut F E)) (pss : List (List (Vec3 F) × List (Vec3 F))),
      s' = { s with hop := some o, rescale := 1 } ∧
      List.Forall₂ (fun id out => (getHop H HS (hp id)).2 = .ok out) s.cells outs ∧
      List.Forall₂ (fun (h : InterSC E) ps => (getOrbPos H HS (hp h.bra)).2 = .ok ps.1 ∧
        (getOrbPos H HS (hp h.ket)).2 = .ok ps.2) s.inters pss ∧
      o.terms = (outs.zipIdx.flatMap fun q => q.1.terms.map fun x =>
          ⟨blockStart hp s.cells q.2 + x.i, blockStart hp s.cells q.2 + x.j, x.v, x.dr⟩) ++
        ((s.inters.zip pss).flatMap fun q => q.1.hop.toList.map fun t =>
          ⟨blockStart hp s.cells (s.cells.idxOf q.1.bra) + t.2.1.1,
           blockStart hp s.cells (s.cells.idxOf q.1.ket) + t.2.1.2, t.2.2,
           interBond (hp q.1.ket) q.2.1 q.2.2 t⟩) ∧
      (∀ x ∈ o.terms, ∃ (a b : ℕ), a < s.cells.length ∧ b < s.cells.length ∧
        (blockStart hp s.cells a ≤ x.i ∧ x.i < blockStart hp s.cells (a + 1)) ∧
        (blockStart hp s.cells b ≤ x.j ∧ x.j < blockStart hp s.cells (b + 1)) ∧
        (a = b ∨ ∃ h ∈ s.inters, s.cells[a]? = some h.bra ∧ s.cells[b]? = some h.ket)) ∧
      TermsInRange (s.numOrb hp).toNat o.terms := by
  have h' := blocks_aux hc hi hf h
  simp only [interDr_eq_bond] at h'
  exact h'


/-- Arguments are consumed in order, supercells are locked and inter-hoppings recorded as locked. -/
theorem parseArgs_ok : ∀ (args : List (SampArg E)) (hp hp' : SCHeap F E Λ) (i : ℕ) (cs : List ℕ) (is : List (InterSC E)),
    parseArgs hp args i = (hp', .ok (cs, is)) →
    (∀ id, hp' id = if id ∈ cs then { hp id with locked := true } else hp id) ∧
    (∀ id, id ∈ cs ↔ SampArg.sc id ∈ args) ∧ (∀ x ∈ is, x.hop.locked = true)
  | [], hp, hp', i, cs, is, h => by
    simp only [parseArgs, Prod.mk.injEq, Except.ok.injEq] at h
    obtain ⟨rfl, rfl, rfl⟩ := h
    simp
  | .other :: as, hp, hp', i, cs, is, h => by simp [parseArgs] at h
  | .sc id :: as, hp, hp', i, cs, is, h => by
    unfold parseArgs at h
    rcases hx : parseArgs (heapSet hp id { hp id with locked := true }) as (i + 1) with ⟨hp1, r⟩
    rw [hx] at h
    cases r with
    | error e => simp at h
    | ok r =>
      simp only [Prod.mk.injEq, Except.ok.injEq] at h
      obtain ⟨rfl, rfl, rfl⟩ := h
      obtain ⟨h1, h2, h3⟩ := parseArgs_ok as _ _ _ _ _ hx
      refine ⟨?_, ?_, h3⟩
      · intro k
        rw [h1 k]
        unfold heapSet
        by_cases hk : k = id
        · subst hk; simp
        · simp [hk]
      · intro k; simp [h2 k]
  | .inter g :: as, hp, hp', i, cs, is, h => by
    unfold parseArgs at h
    rcases hx : parseArgs hp as (i + 1) with ⟨hp1, r⟩
    rw [hx] at h
    cases r with
    | error e => simp at h
    | ok r =>
      simp only [Prod.mk.injEq, Except.ok.injEq] at h
      obtain ⟨rfl, rfl, rfl⟩ := h
      obtain ⟨h1, h2, h3⟩ := parseArgs_ok as _ _ _ _ _ hx
      refine ⟨h1, ?_, ?_⟩
      · intro k; simp [h2 k]
      · intro x hx
        rcases List.mem_cons.1 hx with rfl | hx
        · rfl
        · exact h3 x hx

theorem closureErr_none (cells : List ℕ) : ∀ (is : List (InterSC E)) (i : ℕ), closureErr cells is i = none →
    ∀ x ∈ is, x.bra ∈ cells ∧ x.ket ∈ cells
  | [], _, _ => by simp
  | h :: hs, i, hn => by
    unfold closureErr at hn
    split_ifs at hn with hc
    intro x hx
    rcases List.mem_cons.1 hx with rfl | hx
    · push Not at hc; exact hc
    · exact closureErr_none cells hs _ hn x hx

/-- **C27 (constructor).** A constructed sample has the supercells of the argument list, all of
them locked and otherwise unchanged; its inter-hoppings are locked and connect supercells of the
sample; no array exists and the rescaling factor is one. -/
theorem C27_new {hp hp' : SCHeap F E Λ} {args : List (SampArg E)} {s : Sample F E}
    (h : Sample.new hp args = (hp', .ok s)) :
    (∀ id, id ∈ s.cells ↔ SampArg.sc id ∈ args) ∧
    (∀ id, hp' id = if id ∈ s.cells then { hp id with locked := true } else hp id) ∧
    (∀ x ∈ s.inters, x.hop.locked = true ∧ x.bra ∈ s.cells ∧ x.ket ∈ s.cells) ∧
    s.eng = none ∧ s.pos = none ∧ s.hop = none ∧ s.rescale = 1 := by
  unfold Sample.new at h
  split_ifs at h with h0
  · simp at h
  · rcases hx : parseArgs hp args 0 with ⟨hp1, r⟩
    rw [hx] at h
    cases r with
    | error e => simp at h
    | ok r =>
      simp only at h
      cases hc : closureErr r.1 r.2 0 with
      | some e => rw [hc] at h; simp at h
      | none =>
        rw [hc] at h
        simp only [Prod.mk.injEq, Except.ok.injEq] at h
        obtain ⟨rfl, rfl⟩ := h
        obtain ⟨h1, h2, h3⟩ := parseArgs_ok args _ _ _ _ _ hx
        exact ⟨h2, h1, fun x hx => ⟨h3 x hx, closureErr_none _ _ _ hc x hx⟩, rfl, rfl, rfl, rfl⟩

end Assembly

/-! ### Concrete cases for C27 -/

/-- Terms of a sample made of `n` copies of a supercell and one inter-hopping. -/
noncomputable def pairTerms (c : Option (SCell ℚ GInt Unit)) (ops : List (InterHop.Op GInt)) :
    Option (List (ℤ × ℤ × GInt)) :=
  c.bind fun c => (initHop lenHash scLenHash (fun _ => c)
    ⟨[0, 1], [⟨InterHop.run InterHop.empty ops, 0, 1⟩], none, none, none, 1⟩ false).2.1.hop.map
      fun o => o.terms.map fun t => (t.i, t.j, t.v)

/-- Two rings of three sites with two bonds between them. -/
example : pairTerms (scRun chain [3, 1] [true, true] none []) [.add [0, 0] 0 0 ⟨5, 0⟩, .add [1, 0] 2 1 ⟨0, 4⟩] =
    some [(0, 1, ⟨2, 1⟩), (1, 2, ⟨2, 1⟩), (2, 0, ⟨2, 1⟩), (3, 4, ⟨2, 1⟩), (4, 5, ⟨2, 1⟩), (5, 3, ⟨2, 1⟩),
      (0, 3, ⟨5, 0⟩), (2, 4, ⟨0, 4⟩)] := by
  decide +kernel

/-- **C27 fails** for an inter-hopping that names orbitals the supercells do not have: the
container and the sample accept it, and the term ends in the wrong block (bra) or outside the
sample (ket). -/
theorem C27_inter_out_of_range :
    pairTerms (scRun chain [3, 1] [true, true] none []) [.add [0, 0] 4 7 ⟨5, 0⟩] =
    some [(0, 1, ⟨2, 1⟩), (1, 2, ⟨2, 1⟩), (2, 0, ⟨2, 1⟩), (3, 4, ⟨2, 1⟩), (4, 5, ⟨2, 1⟩), (5, 3, ⟨2, 1⟩),
      (4, 10, ⟨5, 0⟩)] := by
  decide +kernel

/-! ### C28: rescaling -/

section Rescale

variable {F E Λ : Type*} [Field F] [DecidableEq F] [CommRing E] [StarRing E]

/-- **C28 (partial).** Start from a newly constructed sample and call `rescale_ham`, `init_orb_eng`,
`init_orb_pos`, `init_hop`, `reset_array` in any order, with failing calls in between.  Whenever
the arrays exist, their entries times the recorded factor are the entries a new sample would
compute.  Missing: `init_orb_eng` and `init_hop` with `force_init`, which break this, see
`C28_forced_hop` and `C28_forced_eng`; factors equal to zero are excluded. -/
theorem C28_rescale_partial {auto : List F → List (SCHop F E) → F} {ι : F →+* E} {H : HashFns F E Λ}
    {HS : SCHash F E Λ} {hp hp0 : SCHeap F E Λ} {args : List (SampArg E)} {s0 : Sample F E}
    (hnew : Sample.new hp args = (hp0, .ok s0)) (hc : ∀ id ∈ s0.cells, ReachCell H HS (hp0 id))
    {ops : List (ROp F)} (hops : ∀ op ∈ ops, op ≠ .initEng true ∧ op ≠ .initHop true)
    (hnz : ∀ pre, pre <+: ops → (rrun auto ι H HS (hp0, s0) pre).2.rescale ≠ 0) :
    (∀ e, (rrun auto ι H HS (hp0, s0) ops).2.eng = some e →
      ∃ e0, (initEng H HS hp0 s0 false).2 = ({ s0 with eng := some e0 }, .ok ()) ∧
        e.map (· * (rrun auto ι H HS (hp0, s0) ops).2.rescale) = e0) ∧
    (∀ o, (rrun auto ι H HS (hp0, s0) ops).2.hop = some o →
      ∃ o0, (initHop H HS hp0 s0 false).2 = ({ s0 with hop := some o0, rescale := 1 }, .ok ()) ∧
        o.terms.map (fun t => { t with v := t.v * ι (rrun auto ι H HS (hp0, s0) ops).2.rescale }) = o0.terms) := by
  obtain ⟨-, hheap, hin, n1, n2, n3, n4⟩ := C27_new hnew
  have hst : SteadySample hp0 s0 := ⟨fun id hid => (hc id hid).steady,
    fun x hx => ⟨(hc _ (hin x hx).2.1).steady, (hc _ (hin x hx).2.2).steady⟩⟩
  have hlc : ∀ id ∈ s0.cells, (hp0 id).locked = true := by
    intro id hid; rw [hheap id, if_pos hid]
  have hinv : ∀ ops : List (ROp F), (∀ op ∈ ops, op ≠ .initEng true ∧ op ≠ .initHop true) →
      (∀ pre, pre <+: ops → (rrun auto ι H HS (hp0, s0) pre).2.rescale ≠ 0) →
      RInv ι H HS hp0 s0 (rrun auto ι H HS (hp0, s0) ops) := by
    intro ops
    induction ops using List.reverseRecOn with
    | nil =>
      intro _ _
      exact ⟨SyncedHeap.refl HS hp0, rfl, rfl, by simp [rrun, n1], by simp [rrun, n2], by simp [rrun, n3], fun _ => n4⟩
    | append_singleton ops op ih =>
      intro h1 h2
      have hi := ih (fun o ho => h1 o (by simp [ho])) (fun pre hpre => h2 pre (hpre.trans (List.prefix_append _ _)))
      have hz := h2 _ (List.prefix_refl _)
      have hop := h1 op (by simp)
      have hrun : rrun auto ι H HS (hp0, s0) (ops ++ [op]) =
          ((rstep auto ι H HS (rrun auto ι H HS (hp0, s0) ops) op).1,
           (rstep auto ι H HS (rrun auto ι H HS (hp0, s0) ops) op).2.1) := by
        unfold rrun; rw [List.foldl_append]; rfl
      rw [hrun] at hz ⊢
      generalize rrun auto ι H HS (hp0, s0) ops = st at hi hz ⊢
      cases op with
      | rescale f => exact hi.rescale hst auto f hz
      | initEng b =>
        cases b with
        | true => exact absurd rfl hop.1
        | false => exact (hi.initEng hst false (Or.inl rfl)).1
      | initPos b => exact hi.initPos hst b
      | initHop b =>
        cases b with
        | true => exact absurd rfl hop.2
        | false => exact (hi.initHop hst false (Or.inl rfl)).1
      | reset => exact hi.reset hst hlc (fun x hx => (hin x hx).1)
  have hI := hinv ops hops hnz
  constructor
  · intro e he
    obtain ⟨l, hl, hl'⟩ := hI.eng e he
    refine ⟨l.flatten, ?_, hl'⟩
    have := (initEng_run (H := H) hst (SyncedHeap.refl HS hp0) rfl false (Or.inr n1)).2
    rw [hl] at this
    exact this
  · intro o ho
    obtain ⟨o0, h1, -, h2⟩ := hI.hop o ho
    refine ⟨o0, ?_, h2⟩
    have := (initHop_run (H := H) hst (SyncedHeap.refl HS hp0) rfl rfl false (Or.inr n3)).2
    rw [h1] at this
    exact this

/-- **C28 (recorded factor).** A successful `rescale_ham(factor)` records that factor; with no
argument it records the automatic factor of the arrays at that moment. -/
theorem C28_recorded {auto : List F → List (SCHop F E) → F} {ι : F → E} {H : HashFns F E Λ} {HS : SCHash F E Λ}
    {hp hp' : SCHeap F E Λ} {s s' : Sample F E} {f : Option F} {e : List F} {o : HopOut F E}
    (he : s.eng = some e) (ho : s.hop = some o) (h : rescaleHam auto ι H HS hp s f = (hp', s', .ok ())) :
    s'.rescale = f.getD (auto e o.terms) ∧
    s'.eng = some (e.map (· * (s.rescale / s'.rescale))) := by
  unfold rescaleHam initEng Sample.initHop at h
  simp only [he, ho, Option.isNone_some, Bool.false_eq_true, or_self, if_false] at h
  split_ifs at h with hc
  · simp at h
  · simp only [Prod.mk.injEq, and_true] at h
    obtain ⟨-, rfl⟩ := h
    exact ⟨rfl, rfl⟩

/-- **C28 fails** after `init_hop(force_init=True)`: the hoppings and the factor are reset but the
orbital energies stay rescaled, for every rescaled sample. -/
theorem C28_forced_hop {H : HashFns F E Λ} {HS : SCHash F E Λ} {hp hp' : SCHeap F E Λ} {s s' : Sample F E}
    {e0 : List F} {r : F} (he : s.eng = some (e0.map (· / r))) (hr : r ≠ 0) (hr1 : r ≠ 1)
    (hne : ∃ x ∈ e0, x ≠ 0) (h : initHop H HS hp s true = (hp', s', .ok ())) :
    s'.rescale = 1 ∧ s'.eng = s.eng ∧ s'.eng ≠ some e0 := by
  have h1 : s'.rescale = 1 ∧ s'.eng = s.eng := by
    unfold Sample.initHop at h
    rw [if_pos (by simp)] at h
    simp only at h
    rcases hx : collect (getHop H HS) hp s.cells with ⟨p, q⟩
    rw [hx] at h
    cases q with
    | error e => simp at h
    | ok outs =>
      simp only at h
      rcases hy : collectInter H HS p s.inters with ⟨p2, q2⟩
      rw [hy] at h
      cases q2 with
      | error e => simp at h
      | ok ints =>
        simp only [Prod.mk.injEq, and_true] at h
        obtain ⟨-, rfl⟩ := h
        exact ⟨rfl, rfl⟩
  refine ⟨h1.1, h1.2, ?_⟩
  rw [h1.2, he]
  intro hh
  simp only [Option.some.injEq] at hh
  obtain ⟨x, hx, hx0⟩ := hne
  have : ∀ y ∈ e0, y / r = y := by
    have hm : e0.map (· / r) = e0.map id := by rw [hh, List.map_id]
    exact fun y hy => List.map_inj_left.1 hm y hy
  have hxr := this x hx
  rw [div_eq_iff hr] at hxr
  exact hr1 (mul_left_cancel₀ hx0 (by rw [← hxr, mul_one]))

/-- **C28 fails** after `init_orb_eng(force_init=True)`: the energies are reset but hoppings and
recorded factor are those of the rescaled sample. -/
theorem C28_forced_eng {H : HashFns F E Λ} {HS : SCHash F E Λ} {hp hp' : SCHeap F E Λ} {s s' : Sample F E}
    (h : initEng H HS hp s true = (hp', s', .ok ())) :
    s'.rescale = s.rescale ∧ s'.hop = s.hop ∧
    ∃ l, (collect (getOrbEng H HS) hp s.cells).2 = .ok l ∧ s'.eng = some l.flatten := by
  unfold initEng at h
  rw [if_pos (by simp)] at h
  rcases hx : collect (getOrbEng H HS) hp s.cells with ⟨p, q⟩
  rw [hx] at h
  cases q with
  | error e => simp at h
  | ok l =>
    simp only [Prod.mk.injEq, and_true] at h
    obtain ⟨-, rfl⟩ := h
    exact ⟨rfl, rfl, l, rfl, rfl⟩

end Rescale

/-- Hash functions for the concrete case with rational hoppings. -/
def lenHashQ : HashFns ℚ ℚ Unit := ⟨fun l => l.length, fun l => l.length⟩

/-- Hash functions for the concrete case with rational hoppings. -/
def scLenHashQ : SCHash ℚ ℚ Unit := ⟨fun p => p.orbs.length, fun v => v.length⟩

/-- Ring of three sites with energy 1 and hopping 2. -/
noncomputable def ringQ : Option (SCell ℚ ℚ Unit) :=
  (SCell.new lenHashQ scLenHashQ (PrimCell.run lenHashQ (PrimCell.init lenHashQ unitLat 0)
    [.inl (.addOrbital [0, 0] 1 ()), .inl (.addHopping [1, 0, 0] 0 0 2)]) [3, 1] [true, true] none id).2.toOption

/-- Energies, hoppings and recorded factor of a sample made from the ring, after some calls; the
"automatic" factor is 5. -/
noncomputable def ringRun (ops : List (ROp ℚ)) : Option (Option (List ℚ) × Option (List (ℤ × ℤ × ℚ)) × ℚ) :=
  ringQ.map fun c =>
    let s := (rrun (fun _ _ => 5) id lenHashQ scLenHashQ (fun _ => c, ⟨[0], [], none, none, none, 1⟩) ops).2
    (s.eng, s.hop.map fun o => o.terms.map fun t => (t.i, t.j, t.v), s.rescale)

set_option synthInstance.maxSize 1000 in
set_option synthInstance.maxHeartbeats 400000 in
/-- A concrete history: two rescalings with different factors. -/
example : ringRun [.rescale (some 4), .initPos true, .rescale none] =
    some (some [1/5, 1/5, 1/5], some [(0, 1, 2/5), (1, 2, 2/5), (2, 0, 2/5)], 5) := by
  decide +kernel

set_option synthInstance.maxSize 1000 in
set_option synthInstance.maxHeartbeats 400000 in
/-- The two forced calls on the ring: neither state is a multiple of the original Hamiltonian. -/
example : ringRun [.rescale (some 4), .initHop true] =
      some (some [1/4, 1/4, 1/4], some [(0, 1, 2), (1, 2, 2), (2, 0, 2)], 1) ∧
    ringRun [.rescale (some 4), .initEng true] =
      some (some [1, 1, 1], some [(0, 1, 1/2), (1, 2, 1/2), (2, 0, 1/2)], 4) := by
  constructor <;> decide +kernel

end Verif.Props

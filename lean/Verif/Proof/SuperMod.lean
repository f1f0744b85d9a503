import Verif.Proof.SuperCell

/-! # Modifier and trimming of supercells -/

namespace Verif
namespace SCell

variable {F E Λ : Type*} [Field F] [DecidableEq F] [InvolutiveStar E]

theorem samePair_symm {p q : Pair} (h : SamePair p q) : SamePair q p := by
  obtain ⟨a, b⟩ := p
  obtain ⟨c, d⟩ := q
  unfold SamePair at *
  simp only [Prod.mk.injEq] at *
  rcases h with ⟨rfl, rfl⟩ | ⟨rfl, rfl⟩ <;> simp

theorem samePair_trans {p q r : Pair} (h : SamePair p q) (h' : SamePair q r) : SamePair p r := by
  obtain ⟨a, b⟩ := p
  obtain ⟨c, d⟩ := q
  obtain ⟨e, f⟩ := r
  unfold SamePair at *
  simp only [Prod.mk.injEq] at *
  rcases h with ⟨rfl, rfl⟩ | ⟨rfl, rfl⟩ <;> rcases h' with ⟨rfl, rfl⟩ | ⟨rfl, rfl⟩ <;> simp

theorem findEquiv_spec (b k : ℤ) : ∀ (l : List (SCHop F E)) (n : ℕ),
    (findEquiv b k l n = none ∧ ∀ h ∈ l, ¬ SamePair (b, k) (h.i, h.j)) ∨
    ∃ l1 h l2, l = l1 ++ h :: l2 ∧ (∀ g ∈ l1, ¬ SamePair (b, k) (g.i, g.j)) ∧
      ((findEquiv b k l n = some (n + l1.length, true) ∧ (b, k) = (h.i, h.j)) ∨
       (findEquiv b k l n = some (n + l1.length, false) ∧ (b, k) ≠ (h.i, h.j) ∧ (b, k) = (h.j, h.i)))
  | [], n => Or.inl ⟨rfl, by simp⟩
  | g :: l, n => by
    unfold findEquiv
    by_cases h1 : g.i = b ∧ g.j = k
    · rw [if_pos h1]
      refine Or.inr ⟨[], g, l, rfl, by simp, Or.inl ⟨by simp, by rw [h1.1, h1.2]⟩⟩
    · rw [if_neg h1]
      by_cases h2 : g.i = k ∧ g.j = b
      · rw [if_pos h2]
        refine Or.inr ⟨[], g, l, rfl, by simp, Or.inr ⟨by simp, ?_, by rw [h2.1, h2.2]⟩⟩
        intro he
        simp only [Prod.mk.injEq] at he
        exact h1 ⟨he.1.symm, he.2.symm⟩
      · rw [if_neg h2]
        have hns : ¬ SamePair (b, k) (g.i, g.j) := by
          rintro (he | he) <;> simp only [Prod.mk.injEq] at he
          · exact h1 ⟨he.1.symm, he.2.symm⟩
          · exact h2 ⟨he.2.symm, he.1.symm⟩
        rcases findEquiv_spec b k l (n + 1) with ⟨h, hl⟩ | ⟨l1, h, l2, hl, hn, hh⟩
        · refine Or.inl ⟨h, ?_⟩
          intro x hx
          rcases List.mem_cons.1 hx with rfl | hx
          · exact hns
          · exact hl x hx
        · refine Or.inr ⟨g :: l1, h, l2, by rw [hl]; rfl, ?_, ?_⟩
          · intro x hx
            rcases List.mem_cons.1 hx with rfl | hx
            · exact hns
            · exact hn x hx
          · have e : n + 1 + l1.length = n + (g :: l1).length := by simp; omega
            rw [e] at hh; exact hh

theorem modify_append {α : Type*} (f : α → α) : ∀ (l1 : List α) (h : α) (l2 : List α),
    (l1 ++ h :: l2).modify l1.length f = l1 ++ f h :: l2
  | [], h, l2 => by simp
  | g :: l1, h, l2 => by simp [modify_append f l1 h l2]

theorem overridden_pair (L : Mat3 F) (pos : ℤ → Vec3 F) (m : List (Cell × Pair × E)) (h : SCHop F E) :
    (overridden L pos m h).i = h.i ∧ (overridden L pos m h).j = h.j := by
  unfold overridden; split
  · simp
  · split <;> simp

theorem overridden_none (L : Mat3 F) (pos : ℤ → Vec3 F) (m : List (Cell × Pair × E)) (h : SCHop F E)
    (hn : ∀ t ∈ m, ¬ SamePair t.2.1 (h.i, h.j)) : overridden L pos m h = h := by
  have h1 : m.find? (fun t => t.2.1 = (h.i, h.j)) = none := by
    rw [List.find?_eq_none]; intro t ht he
    exact hn t ht (Or.inl (of_decide_eq_true he))
  have h2 : m.find? (fun t => t.2.1 = (h.j, h.i)) = none := by
    rw [List.find?_eq_none]; intro t ht he
    exact hn t ht (Or.inr (of_decide_eq_true he))
  unfold overridden
  rw [h1, h2]

theorem overridden_snoc_ne (L : Mat3 F) (pos : ℤ → Vec3 F) (m : List (Cell × Pair × E)) (t : Cell × Pair × E)
    (h : SCHop F E) (hn : ¬ SamePair t.2.1 (h.i, h.j)) :
    overridden L pos (m ++ [t]) h = overridden L pos m h := by
  have a1 : t.2.1 ≠ (h.i, h.j) := fun e => hn (Or.inl e)
  have a2 : t.2.1 ≠ (h.j, h.i) := fun e => hn (Or.inr e)
  unfold overridden
  simp [List.find?_append, a1, a2]

theorem overridden_snoc_same (L : Mat3 F) (pos : ℤ → Vec3 F) (m : List (Cell × Pair × E)) (t : Cell × Pair × E)
    (h : SCHop F E) (hn : ∀ u ∈ m, ¬ SamePair u.2.1 (h.i, h.j)) :
    overridden L pos (m ++ [t]) h = overridden L pos [t] h := by
  have h1 : m.find? (fun t => t.2.1 = (h.i, h.j)) = none := by
    rw [List.find?_eq_none]; intro t ht he
    exact hn t ht (Or.inl (of_decide_eq_true he))
  have h2 : m.find? (fun t => t.2.1 = (h.j, h.i)) = none := by
    rw [List.find?_eq_none]; intro t ht he
    exact hn t ht (Or.inr (of_decide_eq_true he))
  unfold overridden
  simp [List.find?_append, h1, h2]

/-- Modifier terms without counterpart. -/
def extra (T : List (SCHop F E)) (m : List (Cell × Pair × E)) : List (Cell × Pair × E) :=
  m.filter (fun t => ∀ h ∈ T, ¬ SamePair t.2.1 (h.i, h.j))

/-- Term appended for a modifier entry. -/
def asTerm (L : Mat3 F) (pos : ℤ → Vec3 F) (t : Cell × Pair × E) : SCHop F E :=
  ⟨t.2.1.1, t.2.1.2, t.2.2, modDr L pos t⟩

theorem modFold (L : Mat3 F) (pos : ℤ → Vec3 F) (T : List (SCHop F E))
    (hT : T.Pairwise (fun h h' => ¬ SamePair (h.i, h.j) (h'.i, h'.j))) (m : List (Cell × Pair × E))
    (hm : m.Pairwise (fun t u => ¬ SamePair t.2.1 u.2.1)) :
    m.foldl (modStep L pos) (T, []) = (T.map (overridden L pos m), (extra T m).map (asTerm L pos)) := by
  induction m using List.reverseRecOn with
  | nil =>
    have : T.map (overridden L pos []) = T := by
      conv_rhs => rw [← List.map_id T]
      apply List.map_congr_left; intro h _; exact overridden_none L pos [] h (by simp)
    simp [this, extra]
  | append_singleton m t ih =>
    rw [List.pairwise_append] at hm
    obtain ⟨hm1, -, hm2⟩ := hm
    rw [List.foldl_append, ih hm1]
    simp only [List.foldl_cons, List.foldl_nil]
    unfold modStep
    simp only
    rcases findEquiv_spec t.2.1.1 t.2.1.2 (T.map (overridden L pos m)) 0 with ⟨hf, hn⟩ | ⟨l1, h, l2, hl, hn, hh⟩
    · rw [hf]
      have hn' : ∀ h ∈ T, ¬ SamePair t.2.1 (h.i, h.j) := by
        intro h hh
        have := hn _ (List.mem_map.2 ⟨h, hh, rfl⟩)
        rwa [(overridden_pair L pos m h).1, (overridden_pair L pos m h).2] at this
      simp only [Prod.mk.injEq]
      constructor
      · apply List.map_congr_left; intro h hh
        exact (overridden_snoc_ne L pos m t h (hn' h hh)).symm
      · unfold extra
        rw [List.filter_append, List.map_append, List.filter_cons_of_pos (by simpa using hn')]
        rfl
    · obtain ⟨T1, T', rfl, e1, e2⟩ := List.map_eq_append_iff.1 hl
      obtain ⟨g, T2, rfl, e3, e4⟩ := List.map_eq_cons_iff.1 e2
      have hp : SamePair t.2.1 (g.i, g.j) := by
        have hgi := (overridden_pair L pos m g).1
        have hgj := (overridden_pair L pos m g).2
        rw [e3] at hgi hgj
        rcases hh with ⟨-, he⟩ | ⟨-, -, he⟩
        · left; rw [← hgi, ← hgj, ← he]
        · right; simp only; rw [← hgi, ← hgj, ← he]
      have hg : ∀ u ∈ m, ¬ SamePair u.2.1 (g.i, g.j) := fun u hu hs =>
        hm2 u hu t (by simp) (samePair_trans hs (samePair_symm hp))
      have hgm : overridden L pos m g = g := overridden_none L pos m g hg
      rw [hgm] at e3
      subst e3
      rw [List.pairwise_append, List.pairwise_cons] at hT
      obtain ⟨-, ⟨hT2, -⟩, hT1⟩ := hT
      have r1 : T1.map (overridden L pos (m ++ [t])) = T1.map (overridden L pos m) := by
        apply List.map_congr_left; intro x hx
        exact overridden_snoc_ne L pos m t x
          (fun hs => hT1 x hx g (by simp) (samePair_trans (samePair_symm hs) hp))
      have r2 : T2.map (overridden L pos (m ++ [t])) = T2.map (overridden L pos m) := by
        apply List.map_congr_left; intro x hx
        exact overridden_snoc_ne L pos m t x
          (fun hs => hT2 x hx (samePair_trans (samePair_symm hp) hs))
      have hx : extra (T1 ++ g :: T2) (m ++ [t]) = extra (T1 ++ g :: T2) m := by
        unfold extra
        rw [List.filter_append, List.filter_cons_of_neg, List.filter_nil, List.append_nil]
        simp only [decide_eq_true_eq]
        push Not
        exact ⟨g, by simp, hp⟩
      have hmap : ∀ f, (List.map (overridden L pos m) (T1 ++ g :: T2)).modify (0 + l1.length) f =
          T1.map (overridden L pos m) ++ f g :: T2.map (overridden L pos m) := by
        intro f
        rw [List.map_append, List.map_cons, hgm, e1, Nat.zero_add, modify_append]
      have ho := overridden_snoc_same L pos m t g hg
      rcases hh with ⟨hf, he⟩ | ⟨hf, hne, he⟩
      · rw [hf]
        simp only
        rw [hmap, hx, List.map_append, List.map_cons, r1, r2, ho]
        have : t.2.1 = (g.i, g.j) := he
        have : overridden L pos [t] g = ⟨g.i, g.j, t.2.2, modDr L pos t⟩ := by simp [overridden, this]
        rw [this]
      · rw [hf]
        simp only
        rw [hmap, hx, List.map_append, List.map_cons, r1, r2, ho]
        have h1 : t.2.1 = (g.j, g.i) := he
        have h2 : t.2.1 ≠ (g.i, g.j) := hne
        rw [h1] at h2
        have : overridden L pos [t] g = ⟨g.i, g.j, star t.2.2, -modDr L pos t⟩ := by
          simp only [overridden, List.find?_cons, List.find?_nil, h1, h2, decide_false, decide_true]
        rw [this]

/-! ## Trimming -/

theorem hopCount_aux (x : ℤ) : ∀ (hops : List (SCHop F E)) (c : ℤ → ℕ),
    (hops.foldl (fun (cnt : ℤ → ℕ) (h : SCHop F E) =>
      let cnt1 := fun x => if x = h.i then cnt h.i + 1 else cnt x
      fun x => if x = h.j then cnt1 h.j + 1 else cnt1 x) c) x =
      c x + hops.countP (fun h => h.i = x) + hops.countP (fun h => h.j = x)
  | [], c => by simp
  | h :: hops, c => by
    rw [List.foldl_cons, hopCount_aux x hops]
    simp only [List.countP_cons, decide_eq_true_eq]
    by_cases h1 : h.i = x
    · by_cases h2 : h.j = x
      · subst h1; simp only [h2, if_true]; omega
      · simp only [h1, h2, if_true, if_false, if_neg (Ne.symm h2)]; omega
    · by_cases h2 : h.j = x
      · subst h2; simp only [h1, if_true, if_false, if_neg (Ne.symm h1)]; omega
      · simp only [h1, h2, if_false, if_neg (Ne.symm h2), if_neg (Ne.symm h1)]; omega

theorem hopCount_eq (hops : List (SCHop F E)) (x : ℤ) :
    hopCount hops x = hops.countP (fun h => h.i = x) + hops.countP (fun h => h.j = x) := by
  unfold hopCount; rw [hopCount_aux]; simp

theorem mem_getOrbIdTrim (tab : List IdPc) (hops : List (SCHop F E)) (q : IdPc) :
    q ∈ getOrbIdTrim tab hops ↔ ∃ k : ℕ, tab[k]? = some q ∧ hopCount hops k ≤ 1 := by
  unfold getOrbIdTrim
  simp only [List.mem_map, List.mem_filter, decide_eq_true_eq]
  constructor
  · rintro ⟨p, ⟨hm, hc⟩, rfl⟩
    exact ⟨p.2, List.mem_zipIdx_iff_getElem?.1 hm, hc⟩
  · rintro ⟨k, hk, hc⟩
    exact ⟨(q, k), ⟨List.mem_zipIdx_iff_getElem?.2 hk, hc⟩, rfl⟩

theorem pc2scArray_ok {H : HashFns F E Λ} {HS : SCHash F E Λ} {V : Set (List IdPc)} {pc0 : PrimCell F E Λ}
    {s : SCell F E Λ} (h : Good H HS V pc0 s) (hf : Fresh s) (qs : List IdPc)
    (hq : ∀ q ∈ qs, LegalId s.dim s.pc.numOrb q ∧ q ∉ s.vacs) :
    pc2scArray s qs = .ok (qs.map (idPc2ScAny s.dim s.pc.numOrb s.vacSc)) := by
  unfold pc2scArray
  rw [if_neg, if_neg]
  · rw [List.any_eq_true]
    rintro ⟨q, hqm, hx⟩
    simp only [decide_eq_true_eq] at hx
    obtain ⟨hl, hv⟩ := hq q hqm
    have hg := buildOrbIdPc_get h.legal hl hv
    rw [hf.vac] at hx
    have := hg.1
    omega
  · rw [not_not, List.all_eq_true]
    intro q hqm
    exact (checkIdPc_isSome _ _ q).2 (hq q hqm).1

end SCell
end Verif

namespace Verif
namespace SCell

variable {F E Λ : Type*} [Field F] [DecidableEq F] [InvolutiveStar E]

theorem trim_spec {H : HashFns F E Λ} {HS : SCHash F E Λ} {V : Set (List IdPc)} {pc0 : PrimCell F E Λ}
    {s s1 : SCell F E Λ} {out : HopOut F E} (hV : VacHashOK HS V) (h : Good H HS V pc0 s) (hs : s.vacs ∈ V)
    (hl : s.locked = false) (hg : getHop H HS s = (s1, .ok out)) (hf : out.idxFloat = false) :
    (trim H HS s).2 = .ok () ∧
    (∀ q, q ∈ (trim H HS s).1.vacs ↔ q ∈ s.vacs ∨
      ∃ k : ℕ, s1.orbId[k]? = some q ∧ hopCount out.terms k ≤ 1) ∧
    (trim H HS s).1.modi = s.modi.removeOrbitals
      ((getOrbIdTrim s1.orbId out.terms).map (idPc2ScAny s.dim s.pc.numOrb s1.vacSc)) ∧
    Fresh s1 ∧ Good H HS V pc0 s1 ∧ s1.vacs = s.vacs ∧ s1.dim = s.dim ∧ s1.pc = s.pc := by
  have hs1 : s1 = (syncArray HS s false).1 := by
    rw [← getHop_state H HS s, hg]
  have hok : (syncArray HS s false).2 = .ok () := by
    unfold getHop at hg
    rcases hsy : syncArray HS s false with ⟨s', r⟩
    rw [hsy] at hg
    cases r with
    | error e => simp at hg
    | ok u => rfl
  obtain ⟨g1, g2, g3, g4, g5, g6, g7, g8, g9⟩ := good_sync hV h hs false
  rw [← hs1] at g1 g2 g3 g4 g5 g6 g7 g8 g9
  have hfr := g9 hok
  have htab : ∀ q ∈ getOrbIdTrim s1.orbId out.terms, LegalId s1.dim s1.pc.numOrb q ∧ q ∉ s1.vacs := by
    intro q hq
    obtain ⟨k, hk, -⟩ := (mem_getOrbIdTrim _ _ _).1 hq
    have := List.mem_of_getElem? hk
    rw [hfr.orb, hfr.vac] at this
    exact (mem_buildOrbIdPc g1.legal q).1 this
  have hp := pc2scArray_ok g1 hfr _ htab
  obtain ⟨a1, a2⟩ := addVacLoop_mem (d := s1.dim) (n := s1.pc.numOrb) (getOrbIdTrim s1.orbId out.terms) s1.vacs
    (fun q hq => (htab q hq).1)
  have hadd : addVacancies s1 ((getOrbIdTrim s1.orbId out.terms).map
      (fun q => [q.1, q.2.1, q.2.2.1, q.2.2.2])) =
      ({ s1 with vacs := (addVacLoop s1.dim s1.pc.numOrb s1.vacs ((getOrbIdTrim s1.orbId out.terms).map
        (fun q => [q.1, q.2.1, q.2.2.1, q.2.2.2]))).1 }, .ok ()) := by
    unfold addVacancies
    rw [if_neg (by rw [g7, hl]; simp)]
    simp only [a1]
  have htr : trim H HS s = ({ s1 with
      vacs := (addVacLoop s1.dim s1.pc.numOrb s1.vacs ((getOrbIdTrim s1.orbId out.terms).map
        (fun q => [q.1, q.2.1, q.2.2.1, q.2.2.2]))).1,
      modi := s1.modi.removeOrbitals ((getOrbIdTrim s1.orbId out.terms).map
        (idPc2ScAny s1.dim s1.pc.numOrb s1.vacSc)) }, .ok ()) := by
    unfold trim
    rw [if_neg (by rw [hl]; simp), hg]
    simp only [hf, Bool.false_eq_true, if_false, hp, hadd]
  rw [htr]
  refine ⟨rfl, fun q => ?_, ?_, hfr, g1, g2, g4, g8⟩
  · simp only; rw [a2, g2, mem_getOrbIdTrim]
  · simp only; rw [g3, g4, g8]

/-! ## The constructor and the primitive cell -/

theorem new_same (H : HashFns F E Λ) (HS : SCHash F E Λ) (pc : PrimCell F E Λ) (dim : List ℤ) (pbc : List Bool)
    (vacancies : Option (List (List ℤ))) (posMod : List (Vec3 F) → List (Vec3 F)) :
    PrimCell.SameContent pc (new H HS pc dim pbc vacancies posMod).1 ∧
    (new H HS pc dim pbc vacancies posMod).1.locked = true := by
  have h1 : PrimCell.SameContent pc ({ pc with locked := true } : PrimCell F E Λ) := ⟨rfl, rfl, rfl, rfl⟩
  have h2 := h1.trans (PrimCell.same_syncHop H ({ pc with locked := true } : PrimCell F E Λ) false)
  have h3 := (PrimCell.syncHop_rest H ({ pc with locked := true } : PrimCell F E Λ) false).1
  unfold new
  simp only
  split
  · exact ⟨h1, rfl⟩
  · split
    · exact ⟨h1, rfl⟩
    · split
      · exact ⟨h2, h3⟩
      · split
        · exact ⟨h2, h3⟩
        · split
          · exact ⟨h2, h3⟩
          · split <;> exact ⟨h2, h3⟩

end SCell

/-! ## Reachable objects -/

theorem PrimCell.Reach.good {F E Λ : Type*} [Field F] [DecidableEq F] [InvolutiveStar E]
    {H : HashFns F E Λ} {s : PrimCell F E Λ} (h : PrimCell.Reach H s) :
    PrimCell.WF s ∧ PrimCell.SyncOK H s := by
  obtain ⟨lat, o, cs, rfl, hr, hO, hH⟩ := h
  refine ⟨PrimCell.WF_run H (PrimCell.WF_init H lat o) cs hr, ?_⟩
  obtain ⟨⟨p1, hp1, h1⟩, ⟨p2, hp2, h2⟩⟩ :=
    PrimCell.run_cached H (PrimCell.init H lat o) [] [] ⟨rfl, rfl, rfl⟩ ⟨rfl, rfl, rfl⟩ rfl rfl cs
  constructor
  · intro he
    have : (PrimCell.run H (PrimCell.init H lat o) p1).orbs = (PrimCell.run H (PrimCell.init H lat o) cs).orbs :=
      hO ⟨p1, hp1, rfl⟩ ⟨cs, List.prefix_refl _, rfl⟩ (h1.1.trans he)
    rw [← this]; exact ⟨h1.2.1, h1.2.2⟩
  · intro he
    have : (PrimCell.run H (PrimCell.init H lat o) p2).hops.toList =
        (PrimCell.run H (PrimCell.init H lat o) cs).hops.toList :=
      hH ⟨p2, hp2, rfl⟩ ⟨cs, List.prefix_refl _, rfl⟩ (h2.1.trans he)
    rw [← this]; exact ⟨h2.2.1, h2.2.2⟩

theorem SCell.Reach.good {F E Λ : Type*} [Field F] [DecidableEq F] [InvolutiveStar E]
    {H : HashFns F E Λ} {HS : SCHash F E Λ} {pc0 : PrimCell F E Λ} {s : SCell F E Λ}
    (hp : PrimCell.Reach H pc0) (h : SCell.Reach H HS pc0 s) :
    ∃ V, SCell.VacHashOK HS V ∧ s.vacs ∈ V ∧ SCell.Good H HS V pc0 s := by
  obtain ⟨dim, pbc, vac, pm, pc', s0, ops, hnew, hn, hV, rfl⟩ := h
  refine ⟨_, hV, Or.inr ⟨ops, List.prefix_refl _, rfl⟩, ?_⟩
  apply SCell.good_run hV (SCell.new_good hp.good.2 hnew _ (Or.inl rfl)).1 ops hn
  intro pre hpre
  exact Or.inr ⟨pre, hpre, rfl⟩

/-! ## 32-bit arithmetic -/

theorem i32_id {x : ℤ} (h0 : 0 ≤ x) (h1 : x < 2 ^ 31) : i32 x = x := by
  unfold i32
  rw [Int.bmod_eq_of_le_mul_two] <;> omega

theorem i64_id {x : ℤ} (h0 : 0 ≤ x) (h1 : x < 2 ^ 63) : i64 x = x := by
  unfold i64
  rw [Int.bmod_eq_of_le_mul_two] <;> omega

theorem i32_range (x : ℤ) : -2 ^ 31 ≤ i32 x ∧ i32 x < 2 ^ 31 := by
  unfold i32
  have h1 := Int.le_bmod (x := x) (m := 2 ^ 32) (by norm_num)
  have h2 := Int.bmod_lt (x := x) (m := 2 ^ 32) (by norm_num)
  constructor <;> omega

theorem i32_i32_add (x y : ℤ) : i32 (i32 x + y) = i32 (x + y) := by
  unfold i32; exact Int.bmod_add_bmod ..

theorem i32_i32_mul (x y : ℤ) : i32 (i32 x * y) = i32 (x * y) := by
  unfold i32; exact Int.bmod_mul_bmod ..

theorem numPc_eq (d : Dim) (q : IdPc) :
    i32 (i32 (i32 (i32 (q.1 * d.b) * d.c) + i32 (q.2.1 * d.c)) + q.2.2.1) =
      i32 (q.1 * d.b * d.c + q.2.1 * d.c + q.2.2.1) := by
  rw [i32_i32_mul, i32_i32_add]
  rw [show i32 (q.1 * ↑d.b * ↑d.c) + i32 (q.2.1 * ↑d.c) + q.2.2.1 =
    i32 (q.1 * ↑d.b * ↑d.c) + (i32 (q.2.1 * ↑d.c) + q.2.2.1) by ring, i32_i32_add,
    show q.1 * ↑d.b * ↑d.c + (i32 (q.2.1 * ↑d.c) + q.2.2.1) =
      i32 (q.2.1 * ↑d.c) + (q.1 * ↑d.b * ↑d.c + q.2.2.1) by ring, i32_i32_add]
  congr 1; ring

end Verif

namespace Verif
namespace SCell

variable {F E Λ : Type*} [Field F] [DecidableEq F] [InvolutiveStar E]

theorem getHop_ok {H : HashFns F E Λ} {HS : SCHash F E Λ} {V : Set (List IdPc)} {pc0 : PrimCell F E Λ}
    {s s1 : SCell F E Λ} {out : HopOut F E} (hV : VacHashOK HS V) (h : Good H HS V pc0 s) (hs : s.vacs ∈ V)
    (hg : getHop H HS s = (s1, .ok out)) :
    s1 = (syncArray HS s false).1 ∧ Fresh s1 ∧ getHopSynced H s1 = .ok out := by
  have hs1 : s1 = (syncArray HS s false).1 := by
    rw [← getHop_state H HS s, hg]
  refine ⟨hs1, ?_⟩
  have hfr := (good_sync hV h hs false).2.2.2.2.2.2.2.2
  unfold getHop at hg
  rcases hsy : syncArray HS s false with ⟨s', r⟩
  rw [hsy] at hg hfr
  cases r with
  | error e => simp at hg
  | ok u =>
    simp only [Prod.mk.injEq] at hg
    rw [← hg.1]
    exact ⟨hfr rfl, hg.2⟩

theorem getHop_plain {H : HashFns F E Λ} {HS : SCHash F E Λ} {V : Set (List IdPc)} {pc0 : PrimCell F E Λ}
    {s s1 : SCell F E Λ} {out : HopOut F E} (hV : VacHashOK HS V) (h : Good H HS V pc0 s) (hs : s.vacs ∈ V)
    (hm : s.modi.numHop = 0) (hg : getHop H HS s = (s1, .ok out)) :
    s1 = (syncArray HS s false).1 ∧ Fresh s1 ∧ out.terms = initHop H s1 := by
  obtain ⟨h1, h2, h3⟩ := getHop_ok hV h hs hg
  refine ⟨h1, h2, ?_⟩
  have hm1 : s1.modi.numHop = 0 := by
    rw [h1, (good_sync hV h hs false).2.2.1, hm]
  unfold getHopSynced at h3
  rw [if_neg (by simp [hm1])] at h3
  simp only [Except.ok.injEq] at h3
  rw [← h3]

theorem initHop_pairs {H : HashFns F E Λ} {HS : SCHash F E Λ} {V : Set (List IdPc)} {pc0 : PrimCell F E Λ}
    {s : SCell F E Λ} (hw : PrimCell.WF pc0) (h : Good H HS V pc0 s) (hf : Fresh s) :
    (∀ t ∈ initHop H s, t.i ≠ t.j) ∧
    (initHop H s).Pairwise (fun t t' => ¬ (t.i = t'.i ∧ t.j = t'.j) ∧ ¬ (t.i = t'.j ∧ t.j = t'.i)) := by
  obtain ⟨hred, hr⟩ := PrimCell.WF_reduced hw
  have hn : s.pc.numOrb = pc0.numOrb := by unfold PrimCell.numOrb; rw [h.same.orbs]
  have hperm := initHop_perm h hf hr
  have hl : LegalVacs s.dim pc0.numOrb s.vacs := hn ▸ h.legal
  obtain ⟨p1, p2⟩ := buildHopGen_pairs hl s.pbc (scLatVec pc0.lat s.dim) (rowAt (s.orbPos H)) _ hr hred h.big
  refine ⟨fun t ht => p1 t (hperm.mem_iff.1 ht), ?_⟩
  refine (hperm.pairwise_iff ?_).2 p2
  rintro t t' ⟨a, b⟩
  exact ⟨fun x => a ⟨x.1.symm, x.2.symm⟩, fun x => b ⟨x.2.symm, x.1.symm⟩⟩

end SCell
end Verif

namespace Verif
namespace SCell

variable {F E Λ : Type*} [Field F] [DecidableEq F] [InvolutiveStar E]

theorem syncArray_modi (HS : SCHash F E Λ) (s : SCell F E Λ) (m : IntraHop E) (f : Bool) :
    syncArray HS { s with modi := m } f =
      ({ (syncArray HS s f).1 with modi := m }, (syncArray HS s f).2) := by
  unfold syncArray
  simp only
  split
  · rfl
  · split_ifs <;> rfl

end SCell
end Verif

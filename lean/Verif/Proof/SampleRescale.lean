import Verif.Proof.Sample

/-! # Rescaling of samples -/

namespace Verif

open SCell

variable {F E Λ : Type*} [Field F] [DecidableEq F] [InvolutiveStar E]

theorem collect_det {α : Type*} {HS : SCHash F E Λ} (g : SCell F E Λ → Except SCErr α) {hp : SCHeap F E Λ} :
    ∀ (ids : List ℕ) {a b : SCHeap F E Λ} (_ha : SyncedHeap HS hp a) (_hb : SyncedHeap HS hp b)
    (_hst : ∀ id ∈ ids, Steady (hp id)),
    SyncedHeap HS hp (collect (viaSync HS g) a ids).1 ∧
    (collect (viaSync HS g) a ids).2 = (collect (viaSync HS g) b ids).2
  | [], a, b, ha, hb, _ => ⟨ha, rfl⟩
  | id :: ids, a, b, ha, hb, hst => by
    have va := ha.val (hst id (by simp)) g
    have vb := hb.val (hst id (by simp)) g
    rcases hxa : viaSync HS g (a id) with ⟨sa, ra⟩
    rcases hxb : viaSync HS g (b id) with ⟨sb, rb⟩
    rw [hxa] at va
    rw [hxb] at vb
    simp only at va vb
    obtain ⟨va1, rfl⟩ := va
    obtain ⟨vb1, rfl⟩ := vb
    have hr : ra = rb := va1.trans vb1.symm
    subst hr
    rw [collect, collect, hxa, hxb]
    cases ra with
    | error e => exact ⟨ha.set id, rfl⟩
    | ok x =>
      simp only
      obtain ⟨h1, h2⟩ := collect_det g ids (ha.set id) (hb.set id) (fun k hk => hst k (by simp [hk]))
      rcases hca : collect (viaSync HS g) (heapSet a id (syncArray HS (hp id) false).1) ids with ⟨pa, qa⟩
      rcases hcb : collect (viaSync HS g) (heapSet b id (syncArray HS (hp id) false).1) ids with ⟨pb, qb⟩
      rw [hca, hcb] at h2
      rw [hca] at h1
      simp only at h2 h1
      subst h2
      cases qa with
      | error e => exact ⟨h1, rfl⟩
      | ok y => exact ⟨h1, rfl⟩

theorem interGetHop_det {H : HashFns F E Λ} {HS : SCHash F E Λ} {hp a b : SCHeap F E Λ} {h : InterSC E}
    (ha : SyncedHeap HS hp a) (hb : SyncedHeap HS hp b) (h1 : Steady (hp h.bra)) (h2 : Steady (hp h.ket)) :
    SyncedHeap HS hp (interGetHop H HS a h).1 ∧ (interGetHop H HS a h).2 = (interGetHop H HS b h).2 := by
  unfold interGetHop
  split_ifs with h0
  · exact ⟨ha, rfl⟩
  have va := ha.val h1 (fun s' => (.ok (s'.orbPos H) : Except SCErr _))
  have vb := hb.val h1 (fun s' => (.ok (s'.orbPos H) : Except SCErr _))
  rw [← getOrbPos_via] at va vb
  rcases hxa : getOrbPos H HS (a h.bra) with ⟨sa, ra⟩
  rcases hxb : getOrbPos H HS (b h.bra) with ⟨sb, rb⟩
  rw [hxa] at va
  rw [hxb] at vb
  simp only at va vb
  obtain ⟨va1, rfl⟩ := va
  obtain ⟨vb1, rfl⟩ := vb
  have hr : ra = rb := va1.trans vb1.symm
  subst hr
  cases ra with
  | error e => exact ⟨ha.set _, rfl⟩
  | ok x =>
    simp only
    have wa := (ha.set h.bra).val h2 (fun s' => (.ok (s'.orbPos H) : Except SCErr _))
    have wb := (hb.set h.bra).val h2 (fun s' => (.ok (s'.orbPos H) : Except SCErr _))
    rw [← getOrbPos_via] at wa wb
    rcases hya : getOrbPos H HS (heapSet a h.bra (syncArray HS (hp h.bra) false).1 h.ket) with ⟨sa, ra⟩
    rcases hyb : getOrbPos H HS (heapSet b h.bra (syncArray HS (hp h.bra) false).1 h.ket) with ⟨sb, rb⟩
    rw [hya] at wa
    rw [hyb] at wb
    simp only at wa wb
    obtain ⟨wa1, rfl⟩ := wa
    obtain ⟨wb1, rfl⟩ := wb
    have hr : ra = rb := wa1.trans wb1.symm
    subst hr
    cases ra with
    | error e => exact ⟨(ha.set _).set _, rfl⟩
    | ok x => exact ⟨(ha.set _).set _, rfl⟩

theorem collectInter_det {H : HashFns F E Λ} {HS : SCHash F E Λ} {hp : SCHeap F E Λ} :
    ∀ (hs : List (InterSC E)) {a b : SCHeap F E Λ}, SyncedHeap HS hp a → SyncedHeap HS hp b →
    (∀ h ∈ hs, Steady (hp h.bra) ∧ Steady (hp h.ket)) →
    SyncedHeap HS hp (collectInter H HS a hs).1 ∧ (collectInter H HS a hs).2 = (collectInter H HS b hs).2
  | [], a, b, ha, hb, _ => ⟨ha, rfl⟩
  | x :: xs, a, b, ha, hb, hst => by
    have h1 := interGetHop_det (H := H) ha hb (hst x (by simp)).1 (hst x (by simp)).2
    have h1b := interGetHop_det (H := H) hb ha (hst x (by simp)).1 (hst x (by simp)).2
    rw [collectInter, collectInter]
    rcases hxa : interGetHop H HS a x with ⟨pa, ra⟩
    rcases hxb : interGetHop H HS b x with ⟨pb, rb⟩
    rw [hxa, hxb] at h1
    rw [hxb] at h1b
    simp only at h1 h1b
    obtain ⟨s1, rfl⟩ := h1
    cases ra with
    | error e => exact ⟨s1, rfl⟩
    | ok y =>
      simp only
      obtain ⟨h3, h4⟩ := collectInter_det xs s1 h1b.1 (fun k hk => hst k (by simp [hk]))
      rcases hca : collectInter H HS pa xs with ⟨qa, ua⟩
      rcases hcb : collectInter H HS pb xs with ⟨qb, ub⟩
      rw [hca, hcb] at h4
      rw [hca] at h3
      simp only at h4 h3
      subst h4
      cases ua with
      | error e => exact ⟨h3, rfl⟩
      | ok z => exact ⟨h3, rfl⟩

theorem SyncedHeap.numOrbSc {HS : SCHash F E Λ} {hp a : SCHeap F E Λ} (h : SyncedHeap HS hp a) {id : ℕ}
    (hs : Steady (hp id)) : (a id).numOrbSc = (hp id).numOrbSc := by
  rcases h id with e | e
  · rw [e]
  · rw [e]
    rcases sync_cases (HS := HS) hs with ⟨-, h2⟩ | ⟨-, -, -, -, h5, h6, h7⟩
    · rw [h2]
    · unfold SCell.numOrbSc; rw [h5, h6, h7]

namespace Sample

/-- Hypotheses on the supercells of a sample. -/
structure SteadySample (hp : SCHeap F E Λ) (s : Sample F E) : Prop where
  cells : ∀ id ∈ s.cells, Steady (hp id)
  inters : ∀ h ∈ s.inters, Steady (hp h.bra) ∧ Steady (hp h.ket)

theorem startOf_synced {HS : SCHash F E Λ} {hp a : SCHeap F E Λ} (h : SyncedHeap HS hp a) {s t : Sample F E}
    (hc : ∀ id ∈ s.cells, Steady (hp id)) (he : t.cells = s.cells) :
    t.indStart a = s.indStart hp ∧ t.startOf a = s.startOf hp := by
  have h1 : t.numOrbList a = s.numOrbList hp := by
    unfold numOrbList
    rw [he]
    exact List.map_congr_left fun id hid => h.numOrbSc (hc id hid)
  have h2 : t.indStart a = s.indStart hp := by unfold indStart; rw [h1]
  refine ⟨h2, ?_⟩
  funext id
  unfold startOf; rw [h2, he]

/-- What `init_hop` computes. -/
def hopVal (H : HashFns F E Λ) (HS : SCHash F E Λ) (hp : SCHeap F E Λ) (s : Sample F E) :
    Except SampErr (HopOut F E) :=
  match (collect (getHop H HS) hp s.cells).2, (collectInter H HS hp s.inters).2 with
  | .error e, _ => .error e
  | .ok _, .error e => .error e
  | .ok outs, .ok ints =>
    .ok ⟨((outs.zip (s.indStart hp)).flatMap fun q => q.1.terms.map (shiftTerm q.2 q.2)) ++
      ((ints.zip s.inters).flatMap fun q => q.1.map (shiftTerm (s.startOf hp q.2.bra) (s.startOf hp q.2.ket))),
      outs.any (fun o => o.idxFloat)⟩

variable {H : HashFns F E Λ} {HS : SCHash F E Λ} {hp a : SCHeap F E Λ} {s t : Sample F E}

theorem initEng_run (hst : SteadySample hp s) (hs : SyncedHeap HS hp a) (hc : t.cells = s.cells) (f : Bool)
    (hf : f = true ∨ t.eng = none) :
    SyncedHeap HS hp (initEng H HS a t f).1 ∧
    (initEng H HS a t f).2 = match (collect (getOrbEng H HS) hp s.cells).2 with
      | .ok l => ({ t with eng := some l.flatten }, .ok ())
      | .error e => (t, .error e) := by
  unfold initEng
  rw [if_pos (by simpa using hf), hc]
  obtain ⟨h1, h2⟩ := collect_det (HS := HS) (ids := s.cells) (_ha := hs) (_hb := SyncedHeap.refl HS hp) (_hst := hst.cells)
    (g := fun s' => .ok (buildOrbEng (fun i => (PrimCell.syncOrb H s'.pc false).arrEng.getD i.toNat 0) s'.orbId))
  rw [← getOrbEng_via H HS] at h1 h2
  rw [← h2]
  rcases hx : collect (getOrbEng H HS) a s.cells with ⟨p, r⟩
  rw [hx] at h1
  cases r <;> exact ⟨h1, rfl⟩

theorem initPos_run (hst : SteadySample hp s) (hs : SyncedHeap HS hp a) (hc : t.cells = s.cells) (f : Bool)
    (hf : f = true ∨ t.pos = none) :
    SyncedHeap HS hp (initPos H HS a t f).1 ∧
    (initPos H HS a t f).2 = match (collect (getOrbPos H HS) hp s.cells).2 with
      | .ok l => ({ t with pos := some l.flatten }, .ok ())
      | .error e => (t, .error e) := by
  unfold initPos
  rw [if_pos (by simpa using hf), hc]
  obtain ⟨h1, h2⟩ := collect_det (HS := HS) (ids := s.cells) (_ha := hs) (_hb := SyncedHeap.refl HS hp) (_hst := hst.cells)
    (g := fun s' => .ok (s'.orbPos H))
  rw [← getOrbPos_via H HS] at h1 h2
  rw [← h2]
  rcases hx : collect (getOrbPos H HS) a s.cells with ⟨p, r⟩
  rw [hx] at h1
  cases r <;> exact ⟨h1, rfl⟩

theorem initHop_run (hst : SteadySample hp s) (hs : SyncedHeap HS hp a) (hc : t.cells = s.cells)
    (hi : t.inters = s.inters) (f : Bool) (hf : f = true ∨ t.hop = none) :
    SyncedHeap HS hp (initHop H HS a t f).1 ∧
    (initHop H HS a t f).2 = match hopVal H HS hp s with
      | .ok o => ({ t with hop := some o, rescale := 1 }, .ok ())
      | .error e => (t, .error e) := by
  unfold initHop
  rw [if_pos (by simpa using hf)]
  simp only
  obtain ⟨s1, s2⟩ := startOf_synced hs hst.cells hc
  rw [s1, s2, hc, hi]
  obtain ⟨h1, h2⟩ := collect_det (HS := HS) (ids := s.cells) (_ha := hs) (_hb := SyncedHeap.refl HS hp) (_hst := hst.cells) (g := getHopSynced H)
  rw [← getHop_via H HS] at h1 h2
  unfold hopVal
  rw [← h2]
  rcases hx : collect (getHop H HS) a s.cells with ⟨p, r⟩
  rw [hx] at h1
  cases r with
  | error e => exact ⟨h1, rfl⟩
  | ok outs =>
    obtain ⟨h3, h4⟩ := collectInter_det (H := H) s.inters h1 (SyncedHeap.refl HS hp) hst.inters
    simp only
    rw [← h4]
    rcases hy : collectInter H HS p s.inters with ⟨q, r2⟩
    rw [hy] at h3
    cases r2 <;> exact ⟨h3, rfl⟩

/-- The terms with energies multiplied by a number. -/
def scaleTerms {E : Type*} [Mul E] (c : E) (l : List (SCHop F E)) : List (SCHop F E) :=
  l.map fun h => { h with v := h.v * c }

theorem scaleTerms_mul {E : Type*} [Semigroup E] (c d : E) (l : List (SCHop F E)) :
    scaleTerms d (scaleTerms c l) = scaleTerms (c * d) l := by
  unfold scaleTerms
  rw [List.map_map]
  apply List.map_congr_left
  intro h _
  simp [mul_assoc]

theorem scaleTerms_one {E : Type*} [MulOneClass E] (l : List (SCHop F E)) : scaleTerms (1 : E) l = l := by
  unfold scaleTerms
  conv_rhs => rw [← List.map_id l]
  apply List.map_congr_left
  intro h _
  simp

end Sample

namespace Sample

variable {F E Λ : Type*} [Field F] [DecidableEq F] [CommRing E] [StarRing E]

/-- Invariant of rescaling: stored arrays times recorded factor are the original ones. -/
structure RInv (ι : F →+* E) (H : HashFns F E Λ) (HS : SCHash F E Λ) (hp0 : SCHeap F E Λ) (s0 : Sample F E)
    (st : SCHeap F E Λ × Sample F E) : Prop where
  heap : SyncedHeap HS hp0 st.1
  cells : st.2.cells = s0.cells
  inters : st.2.inters = s0.inters
  eng : ∀ e, st.2.eng = some e → ∃ l, (collect (getOrbEng H HS) hp0 s0.cells).2 = .ok l ∧
    e.map (· * st.2.rescale) = l.flatten
  pos : st.2.pos ≠ none → ∃ l, (collect (getOrbPos H HS) hp0 s0.cells).2 = .ok l
  hop : ∀ o, st.2.hop = some o → ∃ o0, hopVal H HS hp0 s0 = .ok o0 ∧ o.idxFloat = o0.idxFloat ∧
    scaleTerms (ι st.2.rescale) o.terms = o0.terms
  one : st.2.eng = none ∨ st.2.hop = none → st.2.rescale = 1

variable {ι : F →+* E} {H : HashFns F E Λ} {HS : SCHash F E Λ} {hp0 : SCHeap F E Λ} {s0 : Sample F E}

theorem map_mul_one (l : List F) : l.map (· * (1 : F)) = l := by simp

theorem RInv.initEng {st : SCHeap F E Λ × Sample F E} (hst : SteadySample hp0 s0)
    (h : RInv ι H HS hp0 s0 st) (f : Bool) (hf : f = false ∨ st.2.rescale = 1) :
    RInv ι H HS hp0 s0 ((Sample.initEng H HS st.1 st.2 f).1, (Sample.initEng H HS st.1 st.2 f).2.1) ∧
    ((Sample.initEng H HS st.1 st.2 f).2.2 = .ok () →
      (Sample.initEng H HS st.1 st.2 f).2.1.eng ≠ none) := by
  by_cases hc : f = true ∨ st.2.eng = none
  · obtain ⟨h1, h2⟩ := initEng_run (H := H) hst h.heap h.cells f hc
    have hr : st.2.rescale = 1 := by
      rcases hf with rfl | hf
      · rcases hc with hc | hc
        · simp at hc
        · exact h.one (Or.inl hc)
      · exact hf
    rw [h2]
    cases hv : (collect (getOrbEng H HS) hp0 s0.cells).2 with
    | error e => exact ⟨⟨h1, h.cells, h.inters, h.eng, h.pos, h.hop, h.one⟩, by simp⟩
    | ok l =>
      refine ⟨⟨h1, h.cells, h.inters, ?_, h.pos, h.hop, fun _ => hr⟩, by simp⟩
      intro e he
      simp only [Option.some.injEq] at he
      exact ⟨l, hv, by rw [← he]; simp only; rw [hr, map_mul_one]⟩
  · push Not at hc
    unfold Sample.initEng
    rw [if_neg (by simpa [Option.isNone_iff_eq_none] using hc)]
    exact ⟨h, fun _ => hc.2⟩

theorem RInv.initPos {st : SCHeap F E Λ × Sample F E} (hst : SteadySample hp0 s0)
    (h : RInv ι H HS hp0 s0 st) (f : Bool) :
    RInv ι H HS hp0 s0 ((Sample.initPos H HS st.1 st.2 f).1, (Sample.initPos H HS st.1 st.2 f).2.1) := by
  by_cases hc : f = true ∨ st.2.pos = none
  · obtain ⟨h1, h2⟩ := initPos_run (H := H) hst h.heap h.cells f hc
    rw [h2]
    cases hv : (collect (getOrbPos H HS) hp0 s0.cells).2 with
    | error e => exact ⟨h1, h.cells, h.inters, h.eng, h.pos, h.hop, h.one⟩
    | ok l => exact ⟨h1, h.cells, h.inters, h.eng, fun _ => ⟨l, hv⟩, h.hop, h.one⟩
  · push Not at hc
    unfold Sample.initPos
    rw [if_neg (by simpa [Option.isNone_iff_eq_none] using hc)]
    exact h

theorem RInv.initHop {st : SCHeap F E Λ × Sample F E} (hst : SteadySample hp0 s0)
    (h : RInv ι H HS hp0 s0 st) (f : Bool) (hf : f = false ∨ st.2.rescale = 1) :
    RInv ι H HS hp0 s0 ((Sample.initHop H HS st.1 st.2 f).1, (Sample.initHop H HS st.1 st.2 f).2.1) ∧
    ((Sample.initHop H HS st.1 st.2 f).2.2 = .ok () →
      (Sample.initHop H HS st.1 st.2 f).2.1.hop ≠ none) := by
  by_cases hc : f = true ∨ st.2.hop = none
  · obtain ⟨h1, h2⟩ := initHop_run (H := H) hst h.heap h.cells h.inters f hc
    have hr : st.2.rescale = 1 := by
      rcases hf with rfl | hf
      · rcases hc with hc | hc
        · simp at hc
        · exact h.one (Or.inr hc)
      · exact hf
    rw [h2]
    cases hv : hopVal H HS hp0 s0 with
    | error e => exact ⟨⟨h1, h.cells, h.inters, h.eng, h.pos, h.hop, h.one⟩, by simp⟩
    | ok o =>
      refine ⟨⟨h1, h.cells, h.inters, ?_, h.pos, ?_, fun _ => rfl⟩, by simp⟩
      · intro e he
        obtain ⟨l, hl, hl'⟩ := h.eng e he
        exact ⟨l, hl, by simp only; rw [← hl', hr]⟩
      · intro o' ho
        simp only [Option.some.injEq] at ho
        exact ⟨o, hv, by rw [← ho], by rw [← ho]; simp only; rw [map_one, scaleTerms_one]⟩
  · push Not at hc
    unfold Sample.initHop
    rw [if_neg (by simpa [Option.isNone_iff_eq_none] using hc)]
    exact ⟨h, fun _ => hc.2⟩

theorem RInv.rescale {st : SCHeap F E Λ × Sample F E} (hst : SteadySample hp0 s0)
    (h : RInv ι H HS hp0 s0 st) (auto : List F → List (SCHop F E) → F) (f : Option F)
    (hnz : (rescaleHam auto ι H HS st.1 st.2 f).2.1.rescale ≠ 0) :
    RInv ι H HS hp0 s0 ((rescaleHam auto ι H HS st.1 st.2 f).1, (rescaleHam auto ι H HS st.1 st.2 f).2.1) := by
  unfold rescaleHam at hnz ⊢
  have h1 := (h.initEng hst false (Or.inl rfl)).1
  rcases hx : Sample.initEng H HS st.1 st.2 false with ⟨hp1, s1, r1⟩
  rw [hx] at h1 hnz
  cases r1 with
  | error e => exact h1
  | ok u =>
    simp only at hnz h1 ⊢
    have h2 := (h1.initHop hst false (Or.inl rfl)).1
    rcases hy : Sample.initHop H HS hp1 s1 false with ⟨hp2, s2, r2⟩
    rw [hy] at h2 hnz
    cases r2 with
    | error e => exact h2
    | ok u =>
      simp only at hnz h2 ⊢
      cases he : s2.eng with
      | none => simp only; exact h2
      | some eng =>
        cases ho : s2.hop with
        | none => simp only; exact h2
        | some o =>
          rw [he, ho] at hnz
          simp only at hnz ⊢
          split_ifs at hnz ⊢ with hc
          · exact h2
          · simp only at hnz
            obtain ⟨l, hl1, hl2⟩ := h2.eng eng he
            obtain ⟨o0, ho1, ho2, ho3⟩ := h2.hop o ho
            simp only at hl2 ho3
            refine ⟨h2.heap, h2.cells, h2.inters, ?_, h2.pos, ?_, by simp⟩
            · intro e hee
              simp only [Option.some.injEq] at hee
              refine ⟨l, hl1, ?_⟩
              rw [← hee, ← hl2, List.map_map]
              apply List.map_congr_left
              intro x _
              simp only [Function.comp]
              field_simp
            · intro o' hoo
              simp only [Option.some.injEq] at hoo
              refine ⟨o0, ho1, by rw [← hoo, ← ho2], ?_⟩
              rw [← hoo, ← ho3]
              simp only
              have : ∀ c : E, (o.terms.map fun h => ({ h with v := h.v * c } : SCHop F E)) = scaleTerms c o.terms :=
                fun _ => rfl
              rw [this, scaleTerms_mul, ← map_mul, div_mul_cancel₀ _ hnz]

theorem sync_locked (HS : SCHash F E Λ) (s : SCell F E Λ) (f : Bool) : (syncArray HS s f).1.locked = s.locked := by
  unfold syncArray
  split
  · rfl
  · simp only; split_ifs <;> rfl

theorem RInv.reset {st : SCHeap F E Λ × Sample F E} (hst : SteadySample hp0 s0)
    (hlc : ∀ id ∈ s0.cells, (hp0 id).locked = true) (hli : ∀ x ∈ s0.inters, x.hop.locked = true)
    (h : RInv ι H HS hp0 s0 st) :
    RInv ι H HS hp0 s0 ((Sample.reset H HS st.1 st.2).1, (Sample.reset H HS st.1 st.2).2.1) := by
  have key : ∀ (a : SCHeap F E Λ) (t : Sample F E), SyncedHeap HS hp0 a → t.cells = s0.cells → t.inters = s0.inters →
      lockAll a t = (a, t) := by
    intro a t ha hc hi
    unfold lockAll
    have e1 : (fun k => if k ∈ t.cells then { a k with locked := true } else a k) = a := by
      funext k
      split_ifs with hk
      · have : (a k).locked = true := by
          rw [hc] at hk
          rcases ha k with e | e
          · rw [e]; exact hlc k hk
          · rw [e, sync_locked]; exact hlc k hk
        cases hak : a k
        rw [hak] at this
        simp only at this
        rw [this]
      · rfl
    have e2 : (t.inters.map fun h => { h with hop := { h.hop with locked := true } }) = t.inters := by
      conv_rhs => rw [← List.map_id t.inters]
      apply List.map_congr_left
      intro x hx
      have := hli x (hi ▸ hx)
      rcases x with ⟨⟨l, hh⟩, b, k⟩
      simp only at this
      rw [this]; rfl
    rw [e1, e2]
  -- orbital energies
  obtain ⟨hp1, s1, he1, hs1, hc1, hi1, hen1, hpo1, hho1, hre1⟩ : ∃ hp1 s1,
      (if st.2.eng.isSome then Sample.initEng H HS st.1 st.2 true else (st.1, st.2, .ok ())) = (hp1, s1, .ok ()) ∧
      SyncedHeap HS hp0 hp1 ∧ s1.cells = s0.cells ∧ s1.inters = s0.inters ∧
      (∀ e, s1.eng = some e → ∃ l, (collect (getOrbEng H HS) hp0 s0.cells).2 = .ok l ∧ e = l.flatten) ∧
      s1.pos = st.2.pos ∧ s1.hop = st.2.hop ∧ s1.rescale = st.2.rescale := by
    cases hen : st.2.eng with
    | none => exact ⟨st.1, st.2, rfl, h.heap, h.cells, h.inters, by simp [hen], rfl, rfl, rfl⟩
    | some e =>
      obtain ⟨l, hl, -⟩ := h.eng e hen
      obtain ⟨h1, h2⟩ := initEng_run (H := H) hst h.heap h.cells true (Or.inl rfl)
      rw [hl] at h2
      refine ⟨_, { st.2 with eng := some l.flatten }, ?_, h1, h.cells, h.inters, ?_, rfl, rfl, rfl⟩
      · rw [if_pos (by simp)]; exact Prod.ext rfl h2
      · intro e' he'
        simp only [Option.some.injEq] at he'
        exact ⟨l, hl, he'.symm⟩
  obtain ⟨hp2, s2, he2, hs2, hc2, hi2, hen2, hpo2, hho2, hre2⟩ : ∃ hp2 s2,
      (if s1.pos.isSome then Sample.initPos H HS hp1 s1 true else (hp1, s1, .ok ())) = (hp2, s2, .ok ()) ∧
      SyncedHeap HS hp0 hp2 ∧ s2.cells = s0.cells ∧ s2.inters = s0.inters ∧ s2.eng = s1.eng ∧
      (s2.pos ≠ none → ∃ l, (collect (getOrbPos H HS) hp0 s0.cells).2 = .ok l) ∧
      s2.hop = st.2.hop ∧ s2.rescale = st.2.rescale := by
    cases hpo : s1.pos with
    | none => exact ⟨hp1, s1, rfl, hs1, hc1, hi1, rfl, by simp [hpo], hho1, hre1⟩
    | some q =>
      obtain ⟨l, hl⟩ := h.pos (by rw [← hpo1, hpo]; simp)
      obtain ⟨h1, h2⟩ := initPos_run (H := H) hst hs1 hc1 true (Or.inl rfl)
      rw [hl] at h2
      exact ⟨_, { s1 with pos := some l.flatten }, by rw [if_pos (by simp)]; exact Prod.ext rfl h2, h1, hc1, hi1, rfl,
        fun _ => ⟨l, hl⟩, hho1, hre1⟩
  obtain ⟨hp3, s3, he3, hs3, hc3, hi3, hen3, hpo3, hho3, hre3⟩ : ∃ hp3 s3,
      (if s2.hop.isSome then Sample.initHop H HS hp2 s2 true else (hp2, s2, .ok ())) = (hp3, s3, .ok ()) ∧
      SyncedHeap HS hp0 hp3 ∧ s3.cells = s0.cells ∧ s3.inters = s0.inters ∧ s3.eng = s1.eng ∧ s3.pos = s2.pos ∧
      (∀ o, s3.hop = some o → hopVal H HS hp0 s0 = .ok o) ∧ s3.rescale = 1 := by
    cases hho : s2.hop with
    | none =>
      exact ⟨hp2, s2, rfl, hs2, hc2, hi2, hen2, rfl, by simp [hho], by
        rw [hre2]; exact h.one (Or.inr (by rw [← hho2, hho]))⟩
    | some o =>
      obtain ⟨o0, ho, -⟩ := h.hop o (by rw [← hho2, hho])
      obtain ⟨h1, h2⟩ := initHop_run (H := H) hst hs2 hc2 hi2 true (Or.inl rfl)
      rw [ho] at h2
      refine ⟨_, { s2 with hop := some o0, rescale := 1 }, by rw [if_pos (by simp)]; exact Prod.ext rfl h2, h1, hc2, hi2, hen2,
        rfl, ?_, rfl⟩
      intro o' ho'
      simp only [Option.some.injEq] at ho'
      rw [← ho']; exact ho
  have hfin : Sample.reset H HS st.1 st.2 = (hp3, s3, .ok ()) := by
    unfold Sample.reset
    rw [he1]; simp only
    rw [he2]; simp only
    rw [he3]; simp only
    rw [key hp3 s3 hs3 hc3 hi3]
  rw [hfin]
  refine ⟨hs3, hc3, hi3, ?_, ?_, ?_, fun _ => hre3⟩
  · intro e he
    simp only at he
    obtain ⟨l, hl, hl'⟩ := hen1 e (by rw [← hen3, he])
    exact ⟨l, hl, by simp only; rw [hre3, hl', map_mul_one]⟩
  · intro hn
    simp only at hn
    exact hpo2 (by rw [← hpo3]; exact hn)
  · intro o ho
    exact ⟨o, hho3 o ho, rfl, by simp only; rw [hre3, map_one, scaleTerms_one]⟩

end Sample
end Verif

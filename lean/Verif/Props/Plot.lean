import Verif.Proof.Plot
import Verif.Props.Super

/-!
# C115: pictures of models
-/

namespace Verif.Props

open Plot PlotSpec

variable {Λ : Type*}

theorem zip3_map {A B C D E' : Type*} (l : List A) (f : A → B) (g : A → C) (h : A → D) (k : B × C → D → E') :
    List.zipWith k (List.zip (l.map f) (l.map g)) (l.map h) = l.map fun a => k (f a, g a) (h a) := by
  induction l with
  | nil => rfl
  | cons a l ih => simp [ih]

/-- The bond vector of a term in nanometres, from the fractional positions. -/
theorem bond_end (s : PrimCell ℝ ℂ Λ) (R : Cell) (i j : ℕ) :
    sitePos s 0 i + frac2cartRow s.lat 0 (s.orbs[j]?.elim 0 Orbital.position + ![(R.1 : ℝ), (R.2.1 : ℝ), (R.2.2 : ℝ)] - s.orbs[i]?.elim 0 Orbital.position) =
      sitePos s R j ∧
    sitePos s 0 j - frac2cartRow s.lat 0 (s.orbs[j]?.elim 0 Orbital.position + ![(R.1 : ℝ), (R.2.1 : ℝ), (R.2.2 : ℝ)] - s.orbs[i]?.elim 0 Orbital.position) =
      sitePos s (-R) i := by
  have h0 : cellVec ℝ 0 = 0 := by
    funext x
    fin_cases x <;> simp [cellVec]
  have hR : (![(R.1 : ℝ), (R.2.1 : ℝ), (R.2.2 : ℝ)] : Vec3 ℝ) = cellVec ℝ R := rfl
  have hn : cellVec ℝ (-R) = -cellVec ℝ R := by
    funext x
    fin_cases x <;> simp [cellVec]
  unfold sitePos frac2cartRow
  rw [hR, hn, h0]
  simp only [Matrix.mulVec_add, Matrix.mulVec_sub, Matrix.mulVec_neg, add_zero]
  constructor <;> abel

/-- **C115** `PrimitiveCell.plot` of a cell reached by any history of calls, for every view and choice of options: the hopping terms with an energy of at
least the cutoff are seen as segments from orbital `i` of cell 0 to orbital `j` of cell `R`, each with its conjugate if asked for, and no others; the
dots are the orbitals, coloured by their energies, of the cells within the reach of the hopping terms; the lines are the borders of these cells and the
two lattice vectors of the view. -/
theorem C115_cell (H : HashFns ℝ ℂ Λ) (s : PrimCell ℝ ℂ Λ) (hs : PrimCell.Reach H s) (o : Opts) (x y : Fin 3) (hv : Shows o.view x y) :
    ∃ fig, (plotCell H s o).2 = .ok fig ∧
      segs .hop fig = (s.hops.toList.flatMap (bonds s o)).map (fun b => (seen x y b.1, seen x y b.2)) ∧
      (∀ p e, (p, e) ∈ dots fig ↔ o.withOrb = true ∧ ∃ R, Shown s o R ∧ ∃ (i : ℕ) (orb : Orbital ℝ Λ), s.orbs[i]? = some orb ∧
        p = seen x y (sitePos s R i) ∧ e = orb.energy) ∧
      ∃ lo hi : Fin 3 → ℤ, (∀ R, Shown s o R ↔ ∀ c, lo c ≤ along c R ∧ along c R ≤ hi c) ∧
        ∀ l, l ∈ segs .cell fig ↔ o.withCells = true ∧ IsCellLine s.lat s.origin x y lo hi l := by
  obtain ⟨hwf, hsync⟩ := hs.good
  have hrange := (PrimCell.WF_reduced hwf).2
  have hr0 := PrimCell.syncOrb_rest H s false
  have hsync0 : PrimCell.SyncOK H (s.syncOrb H false) := by
    constructor
    · intro _
      rw [hr0.2.2.2.1]
      exact PrimCell.syncOrb_fresh hsync false
    · rw [hr0.2.2.2.2.1, hr0.2.2.2.2.2.1, hr0.2.2.2.2.2.2.1, hr0.2.2.2.2.2.2.2.1]
      exact hsync.hop
  have hr1 := PrimCell.syncHop_rest H (s.syncOrb H false) false
  have hf1 := PrimCell.syncHop_fresh hsync0 false
  have hf0 := PrimCell.syncOrb_fresh hsync false
  unfold plotCell
  generalize hs1 : (s.syncOrb H false).syncHop H false = s1 at hr1 hf1
  have elat : s1.lat = s.lat := hr1.2.1.trans hr0.2.1
  have eorg : s1.origin = s.origin := hr1.2.2.1.trans hr0.2.2.1
  have eorb : s1.orbs = s.orbs := hr1.2.2.2.1.trans hr0.2.2.2.1
  have epos : s1.arrPos = s.orbs.map Orbital.position := hr1.2.2.2.2.2.2.1.trans hf0.1
  have eeng : s1.arrEng = s.orbs.map Orbital.energy := hr1.2.2.2.2.2.2.2.1.trans hf0.2
  have eind : s1.arrInd = s.hops.toList.map (fun t => (t.1, t.2.1)) := by rw [hf1.1, hr0.2.2.2.2.1]
  have ehop : s1.arrHop = s.hops.toList.map (fun t => t.2.2) := by rw [hf1.2, hr0.2.2.2.2.1]
  have enum : s1.hops.numHop = s.hops.toList.length := by
    rw [hr1.2.2.2.2.1, hr0.2.2.2.2.1, ← IntraHop.length_toList, PrimCell.toList_purge]
  have enorb : s1.numOrb = s.orbs.length := by rw [PrimCell.numOrb, eorb]
  obtain ⟨r, hr, hshown⟩ := rnRange_ok s o
  have edr : drNm s1 = .ok (s.hops.toList.map fun t => frac2cartRow s.lat 0 (s.orbs[t.2.1.2.toNat]?.elim 0 Orbital.position +
      ![(t.1.1 : ℝ), (t.1.2.1 : ℝ), (t.1.2.2 : ℝ)] - s.orbs[t.2.1.1.toNat]?.elim 0 Orbital.position)) := by
    unfold drNm dr
    rw [eind, List.mapM_map, mapM_all_ok _ (fun t => s.orbs[t.2.1.2.toNat]?.elim 0 Orbital.position +
      ![(t.1.1 : ℝ), (t.1.2.1 : ℝ), (t.1.2.2 : ℝ)] - s.orbs[t.2.1.1.toNat]?.elim 0 Orbital.position), elat]
    · simp [bind, Except.bind, frac2cart]
    · intro t ht
      obtain ⟨⟨h1, h2⟩, h3, h4⟩ := hrange t ht
      rw [epos]
      dsimp only [Function.comp]
      have hg : ∀ k : ℕ, (s.orbs.map Orbital.position).getD k 0 = s.orbs[k]?.elim 0 Orbital.position := by
        intro k
        rw [List.getD_eq_getElem?_getD, List.getElem?_map]
        cases s.orbs[k]? <;> rfl
      rw [row_ok h3 (by simpa [PrimCell.numOrb] using h4), row_ok h1 (by simpa [PrimCell.numOrb] using h2), hg, hg]
      rfl
  have hsite : ∀ k : ℕ, k < s.orbs.length → (frac2cart s.lat (s.orbs.map Orbital.position) s.origin).getD k 0 = sitePos s 0 k := by
    intro k hk
    unfold sitePos frac2cart
    rw [List.getD_eq_getElem?_getD, List.getElem?_map, List.getElem?_map, List.getElem?_eq_getElem hk]
    have h0 : cellVec ℝ 0 = 0 := by
      funext x
      fin_cases x <;> simp [cellVec]
    simp [h0]
  -- the hopping terms
  have hhop : ∃ cs, cellHops ⟨x, y, third x y, s.lat, s.origin⟩ o (frac2cart s.lat (s.orbs.map Orbital.position) s.origin) s1 = .ok cs ∧
      segs .hop cs = (s.hops.toList.flatMap (bonds s o)).map (fun b => (seen x y b.1, seen x y b.2)) ∧ dots cs = [] ∧ segs .cell cs = [] := by
    unfold cellHops
    rw [enum]
    by_cases h : s.hops.toList = []
    · rw [h]
      exact ⟨[], rfl, rfl, rfl, rfl⟩
    · rw [if_pos (List.length_pos_iff.2 h), edr, eind, ehop]
      dsimp only [bind, Except.bind]
      rw [zip3_map]
      have hlen : (frac2cart s.lat (s.orbs.map Orbital.position) s.origin).length = s.numOrb := by simp [frac2cart, PrimCell.numOrb]
      obtain ⟨cs, h1, h2, h3, h4⟩ := hopCmds_ok (⟨x, y, third x y, s.lat, s.origin⟩ : Viewer) o
        (pb := frac2cart s.lat (s.orbs.map Orbital.position) s.origin) (pk := frac2cart s.lat (s.orbs.map Orbital.position) s.origin)
        (ts := s.hops.toList.map fun t => ⟨t.2.1.1, t.2.1.2, t.2.2, frac2cartRow s.lat 0 (s.orbs[t.2.1.2.toNat]?.elim 0 Orbital.position +
          ![(t.1.1 : ℝ), (t.1.2.1 : ℝ), (t.1.2.2 : ℝ)] - s.orbs[t.2.1.1.toNat]?.elim 0 Orbital.position)⟩)
        (by
          intro t ht
          obtain ⟨u, hu, rfl⟩ := List.mem_map.1 ht
          rw [hlen]
          exact (hrange u hu).1)
        (by
          intro _ t ht
          obtain ⟨u, hu, rfl⟩ := List.mem_map.1 ht
          rw [hlen]
          exact (hrange u hu).2)
      refine ⟨cs, h1, ?_, h3, h4⟩
      rw [h2, List.flatMap_map]
      congr 1
      refine List.flatMap_congr fun t ht => ?_
      obtain ⟨⟨g1, g2⟩, g3, g4⟩ := hrange t ht
      unfold PrimCell.numOrb at g2 g4
      have hb := bond_end s t.1 t.2.1.1.toNat t.2.1.2.toNat
      unfold endsOf bonds
      dsimp only
      rw [hsite _ (by omega), hsite _ (by omega), hb.1, hb.2]
  obtain ⟨cs, hcs, hseg, hdot, hcell⟩ := hhop
  obtain ⟨c1, c2, c3⟩ := cellCmds_spec s.lat s.origin hv (fun c => (r c).1) (fun c => (r c).2)
  dsimp only
  rw [elat, eorg, newViewer_ok s.lat s.origin hv]
  rw [show s1.arrInd.map Prod.fst = s.hops.toList.map Prod.fst by rw [eind, List.map_map]; rfl]
  rw [epos]
  simp only [bind, Except.bind]
  rw [show Plot.rnRange o.withConj s1.hops.numHop (s.hops.toList.map Prod.fst) = .ok r by rw [enum]; exact hr]
  dsimp only
  rw [hcs]
  refine ⟨_, rfl, ?_, ?_, fun c => (r c).1, fun c => (r c).2, hshown, ?_⟩
  · rw [segs_append, segs_append, hseg]
    have h1 : ∀ (b : Bool) (L : List Cmd), segs .hop L = [] → segs .hop (if b = true then L else []) = [] := by
      intro b L hL
      cases b
      · rfl
      · exact hL
    rw [h1 o.withCells _ c2, List.append_nil]
    split
    · unfold segs
      rw [List.flatMap_map, List.flatMap_eq_nil_iff.2 fun _ _ => rfl, List.nil_append]
    · rfl
  · intro p e
    rw [dots_append, dots_append, hdot]
    have h1 : ∀ (b : Bool) (L : List Cmd), dots L = [] → dots (if b = true then L else []) = [] := by
      intro b L hL
      cases b
      · rfl
      · exact hL
    rw [h1 o.withCells _ c1, List.append_nil, List.append_nil, enorb]
    by_cases hb : s.orbs.length > 0 ∧ o.withOrb = true
    · rw [if_pos hb]
      unfold dots
      rw [List.flatMap_map, List.mem_flatMap]
      dsimp only
      simp only [mem_cellsIn, ← hshown, hb.2, true_and]
      refine exists_congr fun R => and_congr_right fun _ => ?_
      rw [eeng, List.mem_iff_getElem?]
      refine exists_congr fun i => ?_
      rw [List.getElem?_zip_eq_some, frac2cart, List.map_map, List.map_map, List.getElem?_map, List.getElem?_map]
      cases ho : s.orbs[i]? with
      | none => simp
      | some orb =>
        have hi : i < s.orbs.length := (List.getElem?_eq_some_iff.1 ho).1
        have hp : frac2cartRow s.lat s.origin orb.position = sitePos s 0 i := by
          rw [← hsite i hi, frac2cart, List.getD_eq_getElem?_getD, List.map_map, List.getElem?_map, ho]
          rfl
        simp only [Option.map_some, Option.some.injEq, Function.comp, hp, exists_eq_left', sitePos_eq s R i]
        constructor
        · rintro ⟨h1, h2⟩
          exact ⟨h1.symm, h2.symm⟩
        · rintro ⟨h1, h2⟩
          exact ⟨h1.symm, h2.symm⟩
    · rw [if_neg hb]
      simp only [dots, List.flatMap_nil, List.not_mem_nil, false_iff]
      rintro ⟨h1, R, -, i, orb, ho, -⟩
      exact hb ⟨by have := (List.getElem?_eq_some_iff.1 ho).1; omega, h1⟩
  · intro l
    rw [segs_append, segs_append, hcell, List.append_nil]
    have h1 : segs .cell (if s1.numOrb > 0 ∧ o.withOrb = true then (cellsIn r).map fun R => Cmd.scatter ((frac2cart s.lat (s.orbs.map Orbital.position) s.origin).map
        fun p => Viewer.proj ⟨x, y, third x y, s.lat, s.origin⟩ (p + Viewer.cellPos s.lat R)) s1.arrEng else []) = [] := by
      split
      · unfold segs
        rw [List.flatMap_map]
        exact List.flatMap_eq_nil_iff.2 fun _ _ => rfl
      · rfl
    rw [h1, List.nil_append]
    cases o.withCells
    · simp [segs]
    · simpa using c3 l

/-- **C115 (ends, partial)** With conjugates and orbitals, both ends of every hopping term that is drawn are dots.  Missing: plots
without conjugates, see `C115_dangling`. -/
theorem C115_ends_partial (H : HashFns ℝ ℂ Λ) (s : PrimCell ℝ ℂ Λ) (hs : PrimCell.Reach H s) (o : Opts) (x y : Fin 3) (hv : Shows o.view x y)
    (hc : o.withConj = true) (ho : o.withOrb = true) :
    ∃ fig, (plotCell H s o).2 = .ok fig ∧ ∀ l ∈ segs .hop fig, (∃ e, (l.1, e) ∈ dots fig) ∧ ∃ e, (l.2, e) ∈ dots fig := by
  obtain ⟨fig, h1, h2, h3, -⟩ := C115_cell H s hs o x y hv
  refine ⟨fig, h1, ?_⟩
  intro l hl
  have hrange := (PrimCell.WF_reduced hs.good.1).2
  rw [h2] at hl
  obtain ⟨b, hb, rfl⟩ := List.mem_map.1 hl
  obtain ⟨t, ht, hb⟩ := List.mem_flatMap.1 hb
  obtain ⟨⟨g1, g2⟩, g3, g4⟩ := hrange t ht
  unfold PrimCell.numOrb at g2 g4
  have hi : t.2.1.1.toNat < s.orbs.length := by omega
  have hj : t.2.1.2.toNat < s.orbs.length := by omega
  have hdot : ∀ (R : Cell) (i : ℕ), i < s.orbs.length → Shown s o R → ∃ e, (seen x y (sitePos s R i), e) ∈ dots fig := by
    intro R i hi hR
    exact ⟨_, (h3 _ _).2 ⟨ho, R, hR, i, _, List.getElem?_eq_getElem hi, rfl, rfl⟩⟩
  have hz : Shown s o 0 := by
    unfold Shown
    rw [if_pos (Or.inl hc)]
    intro c
    left
    fin_cases c <;> rfl
  have hR : Shown s o t.1 := by
    unfold Shown
    rw [if_pos (Or.inl hc)]
    exact fun c => Or.inr ⟨t, ht, le_refl _⟩
  have hn : Shown s o (-t.1) := by
    unfold Shown
    rw [if_pos (Or.inl hc)]
    refine fun c => Or.inr ⟨t, ht, ?_⟩
    have : along c (-t.1) = -along c t.1 := by fin_cases c <;> rfl
    rw [this, abs_neg]
  unfold bonds at hb
  rw [hc] at hb
  split at hb
  · rcases List.mem_cons.1 hb with rfl | hb
    · exact ⟨hdot _ _ hi hz, hdot _ _ hj hR⟩
    · rw [if_pos rfl, List.mem_singleton] at hb
      rw [hb]
      exact ⟨hdot _ _ hj hz, hdot _ _ hi hn⟩
  · simp at hb

/-- Any other view is refused. -/
theorem C115_view (H : HashFns ℝ ℂ Λ) (HS : SCHash ℝ ℂ Λ) (o : Opts) (hv : ∀ x y, ¬ Shows o.view x y) :
    (∀ s : PrimCell ℝ ℂ Λ, (plotCell H s o).2 = .error .value) ∧ (∀ s : SCell ℝ ℂ Λ, plotSC H HS s o = (s, .error .value)) ∧
      ∀ (hp : SCHeap ℝ ℂ Λ) (h : InterSC ℂ), plotInter H HS hp h o = (hp, .error .value) := by
  refine ⟨fun s => ?_, fun s => ?_, fun hp h => ?_⟩
  · unfold plotCell
    dsimp only
    rw [newViewer_err _ _ hv]
    rfl
  · unfold plotSC
    rw [newViewer_err _ _ hv]
  · unfold plotInter
    rw [newViewer_err _ _ hv]

/-- The synchronisations made by a plot. -/
theorem plotSC_sync {H : HashFns ℝ ℂ Λ} {HS : SCHash ℝ ℂ Λ} {s s1 : SCell ℝ ℂ Λ} {o : Opts} {v : Viewer} {out : SCell.HopOut ℝ ℂ}
    (h0 : newViewer s.pc.lat s.pc.origin o.view = .ok v) (h1 : SCell.syncArray HS s false = (s1, .ok ()))
    (h2 : SCell.syncArray HS s1 false = (s1, .ok ())) (h3 : SCell.getHopSynced H s1 = .ok out) :
    plotSC H HS s o = (s1, do
      let hops ← hopCmds v o out.idxFloat (s1.orbPos H) (s1.orbPos H) out.terms
      .ok ((if o.withOrb then [Cmd.scatter ((s1.orbPos H).map v.proj)
          (buildOrbEng (fun i => (PrimCell.syncOrb H s1.pc false).arrEng.getD i.toNat 0) s1.orbId)] else []) ++ hops ++
        if o.withCells then cellCmds v o.view ![(0, (s1.dim.a : ℤ)), (0, (s1.dim.b : ℤ)), (0, (s1.dim.c : ℤ))] else [])) := by
  unfold plotSC SCell.getOrbPos SCell.getOrbEng SCell.getHop
  simp only [h0, h1, h2, h3]

theorem orbPosRow_site (pc : PrimCell ℝ ℂ Λ) (q : IdPc) (h : 0 ≤ q.2.2.2 ∧ q.2.2.2 < pc.numOrb) :
    orbPosRow pc.lat pc.origin (rowAt (pc.orbs.map Orbital.position)) q = siteOf pc q := by
  have hi : q.2.2.2.toNat < pc.orbs.length := by
    have := h.2
    unfold PrimCell.numOrb at this
    omega
  funext x
  unfold siteOf sitePos orbPosRow rowAt
  rw [List.getD_eq_getElem?_getD, List.getElem?_map, List.getElem?_eq_getElem hi]
  simp only [Option.map_some, Option.getD_some, Option.elim_some, frac2cartRow, Matrix.mulVec, dotProduct, Fin.sum_univ_three,
    Matrix.transpose_apply, Pi.add_apply, cellVec, cellOf, Matrix.cons_val_zero, Matrix.cons_val_one, Matrix.cons_val_two, Matrix.tail_cons, Matrix.head_cons]
  ring

theorem bondVec_site (pc : PrimCell ℝ ℂ Λ) (R : Cell) (t : Cell × Pair × ℂ) (h : (0 ≤ t.2.1.1 ∧ t.2.1.1 < pc.numOrb) ∧ (0 ≤ t.2.1.2 ∧ t.2.1.2 < pc.numOrb)) :
    sitePos pc R t.2.1.1.toNat + bondVec pc.lat (rowAt (pc.orbs.map Orbital.position)) t = sitePos pc (R + t.1) t.2.1.2.toNat ∧
    sitePos pc R t.2.1.2.toNat - bondVec pc.lat (rowAt (pc.orbs.map Orbital.position)) t = sitePos pc (R - t.1) t.2.1.1.toNat := by
  have hrow : ∀ z : ℤ, 0 ≤ z ∧ z < pc.numOrb → rowAt (pc.orbs.map Orbital.position) z = pc.orbs[z.toNat]?.elim 0 Orbital.position := by
    intro z hz
    rw [rowAt, List.getD_eq_getElem?_getD, List.getElem?_map]
    cases pc.orbs[z.toNat]? <;> rfl
  have hb : bondVec pc.lat (rowAt (pc.orbs.map Orbital.position)) t = frac2cartRow pc.lat 0
      (cellVec ℝ t.1 + pc.orbs[t.2.1.2.toNat]?.elim 0 Orbital.position - pc.orbs[t.2.1.1.toNat]?.elim 0 Orbital.position) := by
    unfold bondVec
    rw [hrow _ h.1, hrow _ h.2]
    rfl
  have hp : cellVec ℝ (R + t.1) = cellVec ℝ R + cellVec ℝ t.1 := by
    funext x
    fin_cases x <;> simp [cellVec]
  have hm : cellVec ℝ (R - t.1) = cellVec ℝ R - cellVec ℝ t.1 := by
    funext x
    fin_cases x <;> simp [cellVec]
  rw [hb]
  unfold sitePos frac2cartRow
  rw [hp, hm]
  simp only [Matrix.mulVec_add, Matrix.mulVec_sub, add_zero]
  constructor <;> abel

/-- **C115 (supercells, partial)** `SuperCell.plot` of a supercell reached by any history, without hopping and position modifiers, for every view and choice of
options: the dots are the orbitals of all cells of the supercell but for the vacancies, at their positions and coloured by their energies; the segments
are the images of the hopping terms of the primitive cell with an energy of at least the cutoff; the lines are the borders of the cells and the two
lattice vectors of the view.  Missing: modifiers, see `C115_modifier_fails`. -/
theorem C115_super_partial {H : HashFns ℝ ℂ Λ} {HS : SCHash ℝ ℂ Λ} {pc0 : PrimCell ℝ ℂ Λ} {s : SCell ℝ ℂ Λ} (hp : PrimCell.Reach H pc0)
    (h : SCell.Reach H HS pc0 s) (hm : s.modi.numHop = 0) (hpm : s.posMod = id) (hok : (SCell.syncArray HS s false).2 = .ok ())
    (o : Opts) (x y : Fin 3) (hv : Shows o.view x y) :
    ∃ fig, (plotSC H HS s o).2 = .ok fig ∧
      (∀ l, l ∈ segs .hop fig ↔ ∃ b, IsBond s pc0 o b ∧ l = (seen x y b.1, seen x y b.2)) ∧
      (∀ p e, (p, e) ∈ dots fig ↔ o.withOrb = true ∧ ∃ q, Present s pc0 q ∧ ∃ orb, pc0.orbs[q.2.2.2.toNat]? = some orb ∧
        p = seen x y (siteOf pc0 q) ∧ e = orb.energy) ∧
      ∀ l, l ∈ segs .cell fig ↔ o.withCells = true ∧
        IsCellLine pc0.lat pc0.origin x y 0 ![(s.dim.a : ℤ) - 1, (s.dim.b : ℤ) - 1, (s.dim.c : ℤ) - 1] l := by
  obtain ⟨V, hV, hs, hG⟩ := SCell.Reach.good hp h
  obtain ⟨g1, g2, g3, g4, g5, g6, -, g8, g9⟩ := SCell.good_sync hV hG hs false
  have hidem := SCell.sync_idem (HS := HS) (s := s) ⟨hG.locked, hG.legal⟩
  have hfr := g9 hok
  have e1 : SCell.syncArray HS s false = ((SCell.syncArray HS s false).1, .ok ()) := by rw [← hok]
  rw [hok] at hidem
  generalize (SCell.syncArray HS s false).1 = s1 at *
  have hn : s1.pc.numOrb = pc0.numOrb := by unfold PrimCell.numOrb; rw [g1.same.orbs]
  have hr := (PrimCell.WF_reduced hp.good.1).2
  have hl : LegalVacs s1.dim pc0.numOrb s1.vacs := hn ▸ g1.legal
  have hd : s1.dim.Pos := g1.pos
  have hpres : ∀ q, q ∈ buildOrbIdPc s1.dim pc0.numOrb (vacIdSc s1.dim pc0.numOrb s1.vacs) ↔ Present s pc0 q := by
    intro q
    rw [mem_buildOrbIdPc hl, Present, g4, g2]
  have hpos : s1.orbPos H = buildOrbPos pc0.lat pc0.origin (rowAt (pc0.orbs.map Orbital.position))
      (buildOrbIdPc s1.dim pc0.numOrb (vacIdSc s1.dim pc0.numOrb s1.vacs)) := by
    unfold SCell.orbPos
    rw [g6, hpm, id, (PrimCell.syncOrb_fresh g1.sync false).1, g1.same.orbs, g1.same.lat, g1.same.origin, hfr.orb, hfr.vac, hn]
  have hout : SCell.getHopSynced H s1 = .ok ⟨SCell.initHop H s1, false⟩ := by
    unfold SCell.getHopSynced
    rw [if_neg (by simp [g3, hm])]
  have hperm : ∀ t, t ∈ SCell.initHop H s1 ↔ ∃ z ∈ triples s1.dim s1.pbc s1.vacs (buildOrbIdPc s1.dim pc0.numOrb (vacIdSc s1.dim pc0.numOrb s1.vacs))
      pc0.hops.toList, mkTerm s1.dim pc0.numOrb s1.vacs (scLatVec pc0.lat s1.dim) (rowAt (s1.orbPos H)) z = t := by
    intro t
    rw [(SCell.initHop_perm g1 hfr hr).mem_iff, buildHopGen_triples hd hl s1.pbc _ _ _ hr, List.mem_map]
  have hsat : ∀ {z : ℤ} {q : IdPc}, siteAt (buildOrbIdPc s1.dim pc0.numOrb (vacIdSc s1.dim pc0.numOrb s1.vacs)) z = some q →
      (0 ≤ z ∧ z < (s1.orbPos H).length) ∧ (Present s pc0 q → (s1.orbPos H).getD z.toNat 0 = siteOf pc0 q) := by
    intro z q hz
    have hz' := hz
    unfold siteAt at hz'
    split_ifs at hz' with h0
    have hlt := (List.getElem?_eq_some_iff.1 hz').1
    refine ⟨⟨h0, ?_⟩, ?_⟩
    · rw [hpos, buildOrbPos, List.length_map]
      omega
    · intro hq
      rw [← orbPosRow_site pc0 q hq.1.2.2.2, ← siteAt_row (pcLat := pc0.lat) (origin := pc0.origin) (pcPos := rowAt (pc0.orbs.map Orbital.position)) hz, hpos]
      rfl
  -- what is known of a term
  have hz : ∀ q k u, (q, k, u) ∈ triples s1.dim s1.pbc s1.vacs (buildOrbIdPc s1.dim pc0.numOrb (vacIdSc s1.dim pc0.numOrb s1.vacs)) pc0.hops.toList ↔
      u ∈ pc0.hops.toList ∧ Present s pc0 q ∧ Present s pc0 k ∧ q.2.2.2 = u.2.1.1 ∧ ketImage s.dim s.pbc q u = some k := by
    intro q k u
    rw [mem_triples, hpres, g4, g5]
    constructor
    · rintro ⟨a1, a2, a3, a4, a5⟩
      refine ⟨a2, a1, ⟨?_, by rwa [← g2]⟩, a3, a4⟩
      rw [← g4]
      exact ketImage_legal hd (hr u a2).2 (by rw [g4]; exact a4)
    · rintro ⟨a1, a2, a3, a4, a5⟩
      exact ⟨a2, a1, a4, a5, by rw [g2]; exact a3.2⟩
  have hmk : ∀ q k u, u ∈ pc0.hops.toList → Present s pc0 q → Present s pc0 k → q.2.2.2 = u.2.1.1 → ketImage s.dim s.pbc q u = some k →
      let t := mkTerm s1.dim pc0.numOrb s1.vacs (scLatVec pc0.lat s1.dim) (rowAt (s1.orbPos H)) (q, k, u)
      (0 ≤ t.i ∧ t.i < (s1.orbPos H).length) ∧ (0 ≤ t.j ∧ t.j < (s1.orbPos H).length) ∧
      endsOf o (s1.orbPos H) (s1.orbPos H) t = if o.cutoff ≤ ‖u.2.2‖ then
        (siteOf pc0 q, sitePos pc0 (cellOf q + u.1) u.2.1.2.toNat) ::
          (if o.withConj then [(siteOf pc0 k, sitePos pc0 (cellOf k - u.1) u.2.1.1.toNat)] else []) else [] := by
    intro q k u hu hq hk ho hki t
    have hq' : LegalId s1.dim pc0.numOrb q ∧ q ∉ s1.vacs := by rw [g4, g2]; exact hq
    have hk' : LegalId s1.dim pc0.numOrb k ∧ k ∉ s1.vacs := by rw [g4, g2]; exact hk
    have hki' : ketImage s1.dim s1.pbc q u = some k := by rw [g4, g5]; exact hki
    have hi := hsat (siteAt_ket hl hq'.1 hq'.2)
    have hj := hsat (siteAt_ket hl hk'.1 hk'.2)
    have hdr : t.dr = bondVec pc0.lat (rowAt (pc0.orbs.map Orbital.position)) u := by
      simp only [t]
      rw [hpos]
      exact mkTerm_dr hd hl hq'.1 hq'.2 hk'.1 hk'.2 ho hki'
    refine ⟨hi.1, hj.1, ?_⟩
    have hbv := fun R => bondVec_site pc0 R u (hr u hu)
    have hko : k.2.2.2 = u.2.1.2 := (ketImage_mod hd hki').2.2.2
    unfold endsOf
    rw [hdr]
    show (if o.cutoff ≤ ‖u.2.2‖ then _ else _) = _
    rw [show (s1.orbPos H).getD t.i.toNat 0 = siteOf pc0 q from hi.2 hq, show (s1.orbPos H).getD t.j.toNat 0 = siteOf pc0 k from hj.2 hk]
    unfold siteOf
    rw [ho, hko, (hbv _).1, (hbv _).2]
  obtain ⟨cs, hc1, hc2, hc3, hc4⟩ := hopCmds_ok (⟨x, y, third x y, pc0.lat, pc0.origin⟩ : Viewer) o (pb := s1.orbPos H) (pk := s1.orbPos H)
    (ts := SCell.initHop H s1)
    (by
      intro t ht
      obtain ⟨⟨q, k, u⟩, hq, rfl⟩ := (hperm t).1 ht
      obtain ⟨a1, a2, a3, a4, a5⟩ := (hz q k u).1 hq
      exact (hmk q k u a1 a2 a3 a4 a5).1)
    (by
      intro _ t ht
      obtain ⟨⟨q, k, u⟩, hq, rfl⟩ := (hperm t).1 ht
      obtain ⟨a1, a2, a3, a4, a5⟩ := (hz q k u).1 hq
      exact (hmk q k u a1 a2 a3 a4 a5).2.1)
  obtain ⟨c1, c2, c3⟩ := cellCmds_spec pc0.lat pc0.origin hv 0 ![(s.dim.a : ℤ) - 1, (s.dim.b : ℤ) - 1, (s.dim.c : ℤ) - 1]
  have hbox : (fun c : Fin 3 => ((0 : Fin 3 → ℤ) c, (![(s.dim.a : ℤ) - 1, (s.dim.b : ℤ) - 1, (s.dim.c : ℤ) - 1] : Fin 3 → ℤ) c + 1)) =
      ![(0, (s1.dim.a : ℤ)), (0, (s1.dim.b : ℤ)), (0, (s1.dim.c : ℤ))] := by
    rw [g4]
    funext c
    fin_cases c <;> simp
  rw [hbox] at c1 c2 c3
  have hview : newViewer s.pc.lat s.pc.origin o.view = .ok ⟨x, y, third x y, pc0.lat, pc0.origin⟩ := by
    rw [← g8, g1.same.lat, g1.same.origin]
    exact newViewer_ok _ _ hv
  rw [plotSC_sync hview e1 hidem hout]
  simp only [bind, Except.bind, hc1]
  refine ⟨_, rfl, ?_, ?_, ?_⟩
  · intro l
    rw [segs_append, segs_append, hc2]
    have h1 : segs .hop (if o.withCells = true then cellCmds ⟨x, y, third x y, pc0.lat, pc0.origin⟩ o.view
        ![(0, (s1.dim.a : ℤ)), (0, (s1.dim.b : ℤ)), (0, (s1.dim.c : ℤ))] else []) = [] := by
      split
      · exact c2
      · rfl
    rw [h1, List.append_nil]
    have h2 : ∀ pts es, segs .hop (if o.withOrb = true then [Cmd.scatter pts es] else []) = [] := by
      intro pts es
      cases o.withOrb <;> rfl
    rw [h2, List.nil_append, List.mem_map]
    constructor
    · rintro ⟨b, hb, rfl⟩
      refine ⟨b, ?_, rfl⟩
      obtain ⟨t, ht, hb⟩ := List.mem_flatMap.1 hb
      obtain ⟨⟨q, k, u⟩, hq, rfl⟩ := (hperm t).1 ht
      obtain ⟨a1, a2, a3, a4, a5⟩ := (hz q k u).1 hq
      rw [(hmk q k u a1 a2 a3 a4 a5).2.2] at hb
      split_ifs at hb with i1 i2
      · refine ⟨u, a1, i1, q, k, a2, a3, a4, a5, ?_⟩
        rcases List.mem_cons.1 hb with hb | hb
        · exact Or.inl hb
        · exact Or.inr ⟨i2, List.mem_singleton.1 hb⟩
      · exact ⟨u, a1, i1, q, k, a2, a3, a4, a5, Or.inl (List.mem_singleton.1 hb)⟩
      · simp at hb
    · rintro ⟨b, ⟨u, a1, i1, q, k, a2, a3, a4, a5, hb⟩, rfl⟩
      refine ⟨b, List.mem_flatMap.2 ⟨_, (hperm _).2 ⟨(q, k, u), (hz q k u).2 ⟨a1, a2, a3, a4, a5⟩, rfl⟩, ?_⟩, rfl⟩
      rw [(hmk q k u a1 a2 a3 a4 a5).2.2, if_pos i1]
      rcases hb with hb | ⟨i2, hb⟩
      · exact List.mem_cons.2 (Or.inl hb)
      · rw [if_pos i2]
        exact List.mem_cons.2 (Or.inr (List.mem_singleton.2 hb))
  · intro p e
    rw [dots_append, dots_append, hc3]
    have h1 : dots (if o.withCells = true then cellCmds ⟨x, y, third x y, pc0.lat, pc0.origin⟩ o.view
        ![(0, (s1.dim.a : ℤ)), (0, (s1.dim.b : ℤ)), (0, (s1.dim.c : ℤ))] else []) = [] := by
      split
      · exact c1
      · rfl
    rw [h1, List.append_nil, List.append_nil, hpos, hfr.orb, hfr.vac, hn, (PrimCell.syncOrb_fresh g1.sync false).2, g1.same.orbs]
    cases o.withOrb with
    | false => simp [dots]
    | true =>
      simp only [if_true, true_and, dots, List.flatMap_cons, List.flatMap_nil, List.append_nil, buildOrbPos, buildOrbEng, List.map_map, List.zip_map']
      rw [List.mem_map]
      constructor
      · rintro ⟨q, hq, he⟩
        have hq' := (hpres q).1 hq
        have hlt : q.2.2.2.toNat < pc0.orbs.length := by
          have := hq'.1.2.2.2
          unfold PrimCell.numOrb at this
          omega
        simp only [Prod.mk.injEq, Function.comp, orbPosRow_site pc0 q hq'.1.2.2.2, List.getD_eq_getElem?_getD, List.getElem?_map,
          List.getElem?_eq_getElem hlt, Option.map_some, Option.getD_some] at he
        exact ⟨q, hq', _, List.getElem?_eq_getElem hlt, he.1.symm, he.2.symm⟩
      · rintro ⟨q, hq, orb, ho, rfl, rfl⟩
        refine ⟨q, (hpres q).2 hq, ?_⟩
        simp only [Prod.mk.injEq, Function.comp, orbPosRow_site pc0 q hq.1.2.2.2, List.getD_eq_getElem?_getD, List.getElem?_map, ho,
          Option.map_some, Option.getD_some, and_true]
        rfl
  · intro l
    rw [segs_append, segs_append, hc4, List.append_nil]
    have h2 : ∀ pts es, segs .cell (if o.withOrb = true then [Cmd.scatter pts es] else []) = [] := by
      intro pts es
      cases o.withOrb <;> rfl
    rw [h2, List.nil_append]
    cases o.withCells
    · simp [segs]
    · simpa using c3 l

/-- What a plot of a supercell shows does not depend on whether it has been synchronised before. -/
theorem plotSC_steady {H : HashFns ℝ ℂ Λ} {HS : SCHash ℝ ℂ Λ} {hp hp' : SCHeap ℝ ℂ Λ} (hs : SyncedHeap HS hp hp') {id : ℕ}
    (hst : SCell.Steady (hp id)) (hok : (SCell.syncArray HS (hp id) false).2 = .ok ()) {o : Opts} {fig : List Cmd}
    (hf : (plotSC H HS (hp id) o).2 = .ok fig) :
    plotSC H HS (hp' id) o = ((SCell.syncArray HS (hp id) false).1, .ok fig) := by
  have hidem := SCell.sync_idem (HS := HS) hst
  have hpc : (SCell.syncArray HS (hp id) false).1.pc = (hp id).pc := by
    rcases SCell.sync_cases (HS := HS) hst with ⟨h1, h2⟩ | ⟨-, -, -, -, h, -⟩
    · rw [h2]
    · exact h
  rw [hok] at hidem
  have e1 : SCell.syncArray HS (hp id) false = ((SCell.syncArray HS (hp id) false).1, .ok ()) := by rw [← hok]
  have hx := hs id
  generalize (SCell.syncArray HS (hp id) false).1 = s1 at *
  cases hv : newViewer (hp id).pc.lat (hp id).pc.origin o.view with
  | error e =>
    exfalso
    unfold plotSC at hf
    rw [hv] at hf
    simp at hf
  | ok v =>
    cases hg : SCell.getHopSynced H s1 with
    | error e =>
      exfalso
      unfold plotSC SCell.getOrbPos SCell.getOrbEng SCell.getHop at hf
      simp only [hv, e1, hidem, hg] at hf
      simp at hf
    | ok out =>
      have h1 := plotSC_sync (H := H) hv e1 hidem hg
      have h2 := plotSC_sync (H := H) (s := s1) (by rw [hpc]; exact hv) hidem hidem hg
      rw [h1] at hf
      dsimp only at hf
      rcases hx with hx | hx
      · rw [hx, h1, hf]
      · rw [hx, h2, hf]

/-- `SCInterHopping.plot`, after any earlier synchronisations, for a container with terms, all between existing orbitals. -/
theorem plotInter_spec {H : HashFns ℝ ℂ Λ} {HS : SCHash ℝ ℂ Λ} {hp hp' : SCHeap ℝ ℂ Λ} (hs : SyncedHeap HS hp hp') {h : InterSC ℂ}
    (hb : SCell.Steady (hp h.bra)) (hk : SCell.Steady (hp h.ket)) {pb pk : List (Vec3 ℝ)} (hpb : ((hp h.bra).getOrbPos H HS).2 = .ok pb)
    (hpk : ((hp h.ket).getOrbPos H HS).2 = .ok pk) (hne : h.hop.toList ≠ [])
    (hin : ∀ t ∈ h.hop.toList, (0 ≤ t.2.1.1 ∧ t.2.1.1 < pb.length) ∧ (0 ≤ t.2.1.2 ∧ t.2.1.2 < pk.length))
    (o : Opts) {x y : Fin 3} (hv : Shows o.view x y) :
    ∃ hp'' fig, plotInter H HS hp' h o = (hp'', .ok fig) ∧ SyncedHeap HS hp hp'' ∧
      segs .hop fig = (h.hop.toList.flatMap (interBonds (hp h.ket) pb pk o)).map (fun b => (seen x y b.1, seen x y b.2)) ∧
      dots fig = [] ∧ segs .cell fig = [] := by
  unfold plotInter
  rw [newViewer_ok _ _ hv]
  dsimp only
  have hv1 := hs.val hb (fun s' => (.ok (s'.orbPos H) : Except SCErr _))
  rw [← SCell.getOrbPos_via] at hv1
  rw [hpb] at hv1
  rcases hx : (hp' h.bra).getOrbPos H HS with ⟨s1, r1⟩
  rw [hx] at hv1
  dsimp only at hv1
  obtain ⟨rfl, rfl⟩ := hv1
  dsimp only
  have hs1 := hs.set h.bra
  generalize heapSet hp' h.bra (SCell.syncArray HS (hp h.bra) false).1 = hp1 at hs1 ⊢
  have hk2 : ∃ hp2 pk', (if o.withConj = true then ((hp1 h.ket).getOrbPos H HS).map (heapSet hp1 h.ket) id else (hp1, .ok [])) = (hp2, .ok pk') ∧
      SyncedHeap HS hp hp2 ∧ (o.withConj = true → pk' = pk) := by
    cases o.withConj with
    | false => exact ⟨hp1, [], rfl, hs1, by simp⟩
    | true =>
      have hv2 := hs1.val hk (fun s' => (.ok (s'.orbPos H) : Except SCErr _))
      rw [← SCell.getOrbPos_via] at hv2
      rw [hpk] at hv2
      rcases hy : (hp1 h.ket).getOrbPos H HS with ⟨s2, r2⟩
      rw [hy] at hv2
      dsimp only at hv2
      obtain ⟨rfl, rfl⟩ := hv2
      exact ⟨_, pk, rfl, hs1.set h.ket, fun _ => rfl⟩
  obtain ⟨hp2, pk', e2, hs2, hpk'⟩ := hk2
  rw [e2]
  dsimp only
  have hgh : ∃ hp3, interGetHop H HS hp2 h = (hp3, .ok (h.hop.toList.map fun t =>
      ⟨t.2.1.1, t.2.1.2, t.2.2, interDr (scLatVec (hp h.ket).pc.lat (hp h.ket).dim) (rowAt pb) (rowAt pk) t⟩)) ∧ SyncedHeap HS hp hp3 := by
    have : ∃ hp3 ts, interGetHop H HS hp2 h = (hp3, .ok ts) := by
      unfold interGetHop
      rw [if_neg (by simpa using hne)]
      have hv1 := hs2.val hb (fun s' => (.ok (s'.orbPos H) : Except SCErr _))
      rw [← SCell.getOrbPos_via] at hv1
      rw [hpb] at hv1
      rcases hx : (hp2 h.bra).getOrbPos H HS with ⟨s1, r1⟩
      rw [hx] at hv1
      dsimp only at hv1
      obtain ⟨rfl, rfl⟩ := hv1
      dsimp only
      have hv2 := (hs2.set h.bra).val hk (fun s' => (.ok (s'.orbPos H) : Except SCErr _))
      rw [← SCell.getOrbPos_via] at hv2
      rw [hpk] at hv2
      rcases hy : (heapSet hp2 h.bra (SCell.syncArray HS (hp h.bra) false).1 h.ket).getOrbPos H HS with ⟨s2, r2⟩
      rw [hy] at hv2
      dsimp only at hv2
      obtain ⟨rfl, rfl⟩ := hv2
      exact ⟨_, _, rfl⟩
    obtain ⟨hp3, ts, e3⟩ := this
    obtain ⟨g1, pb', pk'', g2, g3, g4⟩ := interGetHop_ok hs2 hb hk e3
    rw [hpb] at g2
    rw [hpk] at g3
    cases g2
    cases g3
    exact ⟨hp3, by rw [e3, g4], g1⟩
  obtain ⟨hp3, e3, hs3⟩ := hgh
  rw [e3]
  dsimp only
  obtain ⟨cs, c1, c2, c3, c4⟩ := hopCmds_ok (⟨x, y, third x y, (hp' h.bra).pc.lat, (hp' h.bra).pc.origin⟩ : Viewer) o (pb := pb) (pk := pk')
    (ts := h.hop.toList.map fun t =>
      ⟨t.2.1.1, t.2.1.2, t.2.2, interDr (scLatVec (hp h.ket).pc.lat (hp h.ket).dim) (rowAt pb) (rowAt pk) t⟩)
    (by
      intro t ht
      obtain ⟨u, hu, rfl⟩ := List.mem_map.1 ht
      exact (hin u hu).1)
    (by
      intro hw t ht
      obtain ⟨u, hu, rfl⟩ := List.mem_map.1 ht
      rw [hpk' hw]
      exact (hin u hu).2)
  refine ⟨hp3, cs, by rw [c1], hs3, ?_, c3, c4⟩
  rw [c2, List.flatMap_map]
  congr 1
  refine List.flatMap_congr fun t ht => ?_
  have hd : interDr (scLatVec (hp h.ket).pc.lat (hp h.ket).dim) (rowAt pb) (rowAt pk) t = pk.getD t.2.1.2.toNat 0 - pb.getD t.2.1.1.toNat 0 +
      (((t.1.1 * (hp h.ket).dim.a : ℤ) : ℝ) • (hp h.ket).pc.lat 0 + ((t.1.2.1 * (hp h.ket).dim.b : ℤ) : ℝ) • (hp h.ket).pc.lat 1 +
        ((t.1.2.2 * (hp h.ket).dim.c : ℤ) : ℝ) • (hp h.ket).pc.lat 2) := by
    funext c
    simp only [interDr, rowAt, scLatVec, Pi.add_apply, Pi.sub_apply, Pi.smul_apply, smul_eq_mul]
    push_cast
    ring
  unfold endsOf interBonds
  dsimp only
  rw [hd]
  by_cases hc : o.withConj = true
  · rw [hpk' hc]
    have ea : ∀ a b d : Vec3 ℝ, a + (b - a + d) = b + d := by intros; abel
    have eb : ∀ a b d : Vec3 ℝ, b - (b - a + d) = a - d := by intros; abel
    rw [ea, eb]
  · have ea : ∀ a b d : Vec3 ℝ, a + (b - a + d) = b + d := by intros; abel
    rw [if_neg hc, if_neg hc, ea]

/-- A plot is made of a synchronised supercell. -/
theorem plotSC_synced {H : HashFns ℝ ℂ Λ} {HS : SCHash ℝ ℂ Λ} {s : SCell ℝ ℂ Λ} {o : Opts} {fig : List Cmd} (hf : (plotSC H HS s o).2 = .ok fig) :
    (SCell.syncArray HS s false).2 = .ok () := by
  rcases hx : SCell.syncArray HS s false with ⟨s1, r⟩
  cases r with
  | ok u => rfl
  | error e =>
    exfalso
    unfold plotSC SCell.getOrbPos at hf
    rw [hx] at hf
    cases hv : newViewer s.pc.lat s.pc.origin o.view with
    | error e => rw [hv] at hf; simp at hf
    | ok v => rw [hv] at hf; simp at hf

theorem plotSCs_spec {H : HashFns ℝ ℂ Λ} {HS : SCHash ℝ ℂ Λ} {hp : SCHeap ℝ ℂ Λ} {o : Opts} {figs : ℕ → List Cmd} : ∀ (ids : List ℕ) {hp' : SCHeap ℝ ℂ Λ},
    SyncedHeap HS hp hp' → (∀ id ∈ ids, SCell.Steady (hp id) ∧ (plotSC H HS (hp id) o).2 = .ok (figs id)) →
    ∃ hp'', plotSCs H HS o hp' ids = (hp'', .ok (ids.flatMap figs)) ∧ SyncedHeap HS hp hp''
  | [], hp', hs, _ => ⟨hp', rfl, hs⟩
  | id :: ids, hp', hs, h => by
    obtain ⟨h1, h2⟩ := h id (List.mem_cons_self ..)
    obtain ⟨hp'', h3, h4⟩ := plotSCs_spec ids (hs.set id) fun k hk => h k (List.mem_cons_of_mem _ hk)
    refine ⟨hp'', ?_, h4⟩
    rw [plotSCs, plotSC_steady hs h1 (plotSC_synced h2) h2]
    dsimp only
    rw [h3]
    rfl

theorem plotInters_spec {H : HashFns ℝ ℂ Λ} {HS : SCHash ℝ ℂ Λ} {hp : SCHeap ℝ ℂ Λ} {o : Opts} {x y : Fin 3} (hv : Shows o.view x y)
    {pos : ℕ → List (Vec3 ℝ)} : ∀ (hs : List (InterSC ℂ)) {hp' : SCHeap ℝ ℂ Λ}, SyncedHeap HS hp hp' →
    (∀ h ∈ hs, (SCell.Steady (hp h.bra) ∧ ((hp h.bra).getOrbPos H HS).2 = .ok (pos h.bra)) ∧
      (SCell.Steady (hp h.ket) ∧ ((hp h.ket).getOrbPos H HS).2 = .ok (pos h.ket)) ∧ h.hop.toList ≠ [] ∧
      ∀ t ∈ h.hop.toList, (0 ≤ t.2.1.1 ∧ t.2.1.1 < (pos h.bra).length) ∧ (0 ≤ t.2.1.2 ∧ t.2.1.2 < (pos h.ket).length)) →
    ∃ hp'' fig, plotInters H HS o hp' hs = (hp'', .ok fig) ∧
      segs .hop fig = (hs.flatMap fun h => h.hop.toList.flatMap (interBonds (hp h.ket) (pos h.bra) (pos h.ket) o)).map
        (fun b => (seen x y b.1, seen x y b.2)) ∧ dots fig = [] ∧ segs .cell fig = []
  | [], hp', _, _ => ⟨hp', [], rfl, rfl, rfl, rfl⟩
  | h :: hs, hp', hsy, hh => by
    obtain ⟨⟨a1, a2⟩, ⟨b1, b2⟩, c, d⟩ := hh h (List.mem_cons_self ..)
    obtain ⟨hp1, f1, e1, e2, e3, e4, e5⟩ := plotInter_spec hsy a1 b1 a2 b2 c d o hv
    obtain ⟨hp2, f2, g1, g2, g3, g4⟩ := plotInters_spec hv hs e2 fun k hk => hh k (List.mem_cons_of_mem _ hk)
    refine ⟨hp2, f1 ++ f2, ?_, ?_, ?_, ?_⟩
    · rw [plotInters, e1]
      dsimp only
      rw [g1]
    · rw [segs_append, e3, g2, List.flatMap_cons, List.map_append]
    · rw [dots_append, e4, g3]
      rfl
    · rw [segs_append, e5, g4]
      rfl

/-- **C115 (samples)** `Sample.plot`, for supercells reached by any history whose own plots succeed and inter-hoppings with terms between existing
orbitals: the figure shows what the plots of the supercells show, and the hopping terms between the supercells, and nothing else. -/
theorem C115_sample {H : HashFns ℝ ℂ Λ} {HS : SCHash ℝ ℂ Λ} {hp : SCHeap ℝ ℂ Λ} {s : Sample ℝ ℂ} {o : Opts} {x y : Fin 3} (hv : Shows o.view x y)
    {figs : ℕ → List Cmd} (hc : ∀ id ∈ s.cells, (∃ pc0, PrimCell.Reach H pc0 ∧ SCell.Reach H HS pc0 (hp id)) ∧ (plotSC H HS (hp id) o).2 = .ok (figs id))
    {pos : ℕ → List (Vec3 ℝ)} (hpos : ∀ id ∈ s.cells, ((hp id).getOrbPos H HS).2 = .ok (pos id))
    (hi : ∀ h ∈ s.inters, h.bra ∈ s.cells ∧ h.ket ∈ s.cells ∧ h.hop.toList ≠ [] ∧
      ∀ t ∈ h.hop.toList, (0 ≤ t.2.1.1 ∧ t.2.1.1 < (pos h.bra).length) ∧ (0 ≤ t.2.1.2 ∧ t.2.1.2 < (pos h.ket).length)) :
    ∃ fig, (plotSample H HS hp s o).2 = .ok fig ∧
      segs .hop fig = (s.cells.flatMap fun id => segs .hop (figs id)) ++
        (s.inters.flatMap fun h => h.hop.toList.flatMap (interBonds (hp h.ket) (pos h.bra) (pos h.ket) o)).map (fun b => (seen x y b.1, seen x y b.2)) ∧
      dots fig = (s.cells.flatMap fun id => dots (figs id)) ∧ segs .cell fig = s.cells.flatMap fun id => segs .cell (figs id) := by
  have hst : ∀ id ∈ s.cells, SCell.Steady (hp id) := by
    intro id hid
    obtain ⟨⟨pc0, h1, h2⟩, -⟩ := hc id hid
    obtain ⟨V, -, -, hG⟩ := SCell.Reach.good h1 h2
    exact hG.steady
  obtain ⟨hp1, h1, h2⟩ := plotSCs_spec (o := o) (figs := figs) s.cells (SyncedHeap.refl HS hp) fun id hid => ⟨hst id hid, (hc id hid).2⟩
  obtain ⟨hp2, f2, g1, g2, g3, g4⟩ := plotInters_spec hv (pos := pos) s.inters h2 fun h hh => by
    obtain ⟨a, b, c, d⟩ := hi h hh
    exact ⟨⟨hst _ a, hpos _ a⟩, ⟨hst _ b, hpos _ b⟩, c, d⟩
  refine ⟨s.cells.flatMap figs ++ f2, ?_, ?_, ?_, ?_⟩
  · unfold plotSample
    rw [h1]
    dsimp only
    rw [g1]
  · rw [segs_append, g2]
    congr 1
    unfold segs
    rw [List.flatMap_assoc]
  · rw [dots_append, g3, List.append_nil]
    unfold dots
    rw [List.flatMap_assoc]
  · rw [segs_append, g4, List.append_nil]
    unfold segs
    rw [List.flatMap_assoc]

/-- **C115 fails with modifiers.** If `get_hop` returns indices of type float, as it does when the modifier only overrides existing terms (see
`C21_float_indices`), and any term is to be drawn, `SuperCell.plot` raises `IndexError`. -/
theorem C115_modifier_fails {H : HashFns ℝ ℂ Λ} {HS : SCHash ℝ ℂ Λ} {pc0 : PrimCell ℝ ℂ Λ} {s s1 : SCell ℝ ℂ Λ} (hp : PrimCell.Reach H pc0)
    (h : SCell.Reach H HS pc0 s) {out : SCell.HopOut ℝ ℂ} (hg : SCell.getHop H HS s = (s1, .ok out)) (hfl : out.idxFloat = true) (o : Opts) (x y : Fin 3)
    (hv : Shows o.view x y) (ht : ∃ t ∈ out.terms, o.cutoff ≤ ‖t.v‖) :
    (plotSC H HS s o).2 = .error .index := by
  obtain ⟨V, hV, hs, hG⟩ := SCell.Reach.good hp h
  have hidem := SCell.sync_idem (HS := HS) (s := s) ⟨hG.locked, hG.legal⟩
  rcases hx : SCell.syncArray HS s false with ⟨s2, r⟩
  rw [hx] at hidem
  unfold SCell.getHop at hg
  rw [hx] at hg
  cases r with
  | error e => simp at hg
  | ok u =>
    simp only [Prod.mk.injEq] at hg
    obtain ⟨rfl, hg⟩ := hg
    rw [plotSC_sync (newViewer_ok _ _ hv) hx hidem hg, hfl]
    have hm : ∀ (pos : List (Vec3 ℝ)) (ts : List (SCHop ℝ ℂ)), (∃ t ∈ ts, o.cutoff ≤ ‖t.v‖) → ts.mapM (termEnds o true pos pos) = .error .index := by
      intro pos ts
      induction ts with
      | nil => rintro ⟨t, ht, -⟩; simp at ht
      | cons a ts ih =>
        intro hex
        rw [List.mapM_cons]
        by_cases ha : o.cutoff ≤ ‖a.v‖
        · unfold termEnds
          rw [if_pos ha]
          rfl
        · have h1 : termEnds o true pos pos a = .ok [] := by
            unfold termEnds
            rw [if_neg (by simpa using ha)]
          rw [h1]
          obtain ⟨t, ht, htc⟩ := hex
          rcases List.mem_cons.1 ht with rfl | ht
          · exact absurd htc ha
          · simp only [bind, Except.bind]
            rw [ih ⟨t, ht, htc⟩]
    simp only [hopCmds, bind, Except.bind, hm _ _ ht]

/-- Hash functions for the concrete cases: the number of entries. -/
def lenHashR : HashFns ℝ ℂ Unit := ⟨fun l => l.length, fun l => l.length⟩

/-- The calls making a chain with one orbital per cell. -/
noncomputable def chainCalls : List (PrimCell.Call ℝ ℂ Unit) := [.inl (.addOrbital [0, 0] 3 ()), .inl (.addHopping [1, 0, 0] 0 0 2)]

/-- A chain with one orbital per cell. -/
noncomputable def chainR : PrimCell ℝ ℂ Unit := PrimCell.run lenHashR (PrimCell.init lenHashR 1 0) chainCalls

theorem chainR_one (cs : List (PrimCell.Call ℝ ℂ Unit)) (h : cs = [.inl (.addOrbital [0, 0] 3 ())] ∨ cs = chainCalls) :
    (PrimCell.run lenHashR (PrimCell.init lenHashR 1 0) cs).orbs = [⟨0, 3, ()⟩] := by
  have hz : (PrimCell.vec3 ((0 : ℝ), (0 : ℝ), (0 : ℝ)) : Vec3 ℝ) = 0 := by
    funext x
    fin_cases x <;> rfl
  rcases h with rfl | rfl <;>
    simp [chainCalls, PrimCell.run, PrimCell.call, PrimCell.step, PrimCell.addOrbital, PrimCell.addHopping, PrimCell.init, checkLen, PrimCell.numOrb,
      PrimCell.checkHopIndex, hz]

theorem chainR_hops : chainR.hops.toList = [((1, 0, 0), (0, 0), 2)] := by
  simp [chainR, chainCalls, PrimCell.run, PrimCell.call, PrimCell.step, PrimCell.addOrbital, PrimCell.addHopping, PrimCell.init, checkLen, PrimCell.numOrb]
  rfl

theorem chainR_reach : PrimCell.Reach lenHashR chainR := by
  have hpre : ∀ pre : List (PrimCell.Call ℝ ℂ Unit), pre <+: chainCalls →
      pre = [] ∨ pre = [.inl (.addOrbital [0, 0] 3 ())] ∨ pre = chainCalls := by
    rintro pre ⟨post, h⟩
    unfold chainCalls at h ⊢
    rcases pre with _ | ⟨a, _ | ⟨b, _ | ⟨c, pre⟩⟩⟩ <;> simp_all
  refine ⟨1, 0, chainCalls, rfl, ?_, ?_, ?_⟩
  · intro pre op post h
    unfold chainCalls at h
    rcases pre with _ | ⟨a, _ | ⟨b, pre⟩⟩ <;> simp at h
    · rw [← h.1]; trivial
    · rw [← h.2.1]; trivial
  · have o0 : (PrimCell.run lenHashR (PrimCell.init lenHashR 1 0) []).orbs = [] := rfl
    have o1 := chainR_one _ (Or.inl rfl)
    have o2 := chainR_one _ (Or.inr rfl)
    rintro l ⟨p, hp, rfl⟩ l' ⟨p', hp', rfl⟩ he
    change ((List.length _ : ℕ) : ℤ) = ((List.length _ : ℕ) : ℤ) at he
    rcases hpre p hp with rfl | rfl | rfl <;> rcases hpre p' hp' with rfl | rfl | rfl <;>
      simp_all
  · have o0 : (PrimCell.run lenHashR (PrimCell.init lenHashR 1 0) []).hops.toList = [] := rfl
    have o1 : (PrimCell.run lenHashR (PrimCell.init lenHashR 1 0) [.inl (.addOrbital [0, 0] 3 ())]).hops.toList = [] := by
      simp [PrimCell.run, PrimCell.call, PrimCell.step, PrimCell.addOrbital, PrimCell.init, checkLen]
      rfl
    have o2 : (PrimCell.run lenHashR (PrimCell.init lenHashR 1 0) chainCalls).hops.toList = [((1, 0, 0), (0, 0), 2)] := chainR_hops
    rintro l ⟨p, hp, rfl⟩ l' ⟨p', hp', rfl⟩ he
    change ((List.length _ : ℕ) : ℤ) = ((List.length _ : ℕ) : ℤ) at he
    rcases hpre p hp with rfl | rfl | rfl <;> rcases hpre p' hp' with rfl | rfl | rfl <;>
      simp_all

/-- Default options, with and without conjugate terms. -/
noncomputable def defaultOpts (conj : Bool) : Opts := ⟨true, true, conj, true, 1 / 10 ^ 5, "ab"⟩

theorem shows_ab : Shows "ab" 0 1 := ⟨by decide, rfl⟩

theorem chainR_site (R : Cell) : sitePos chainR R 0 = cellVec ℝ R := by
  have hl : chainR.lat = 1 ∧ chainR.origin = 0 := by
    constructor <;>
    simp [chainR, chainCalls, PrimCell.run, PrimCell.call, PrimCell.step, PrimCell.addOrbital, PrimCell.addHopping, PrimCell.init, checkLen, PrimCell.numOrb,
      PrimCell.checkHopIndex]
  rw [sitePos, hl.1, hl.2, show chainR.orbs = [⟨0, 3, ()⟩] from chainR_one _ (Or.inr rfl)]
  simp [frac2cartRow]

/-- A concrete case of C115: the chain, with the options left to their defaults, is seen as an arrow to the right and an arrow to the left between three
dots. -/
example : ∃ fig, (plotCell lenHashR chainR (defaultOpts true)).2 = .ok fig ∧ segs .hop fig = [((0, 0), (1, 0)), ((0, 0), (-1, 0))] ∧
    ((-1, 0), 3) ∈ dots fig := by
  obtain ⟨fig, h1, h2, h3, -⟩ := C115_cell lenHashR chainR chainR_reach (defaultOpts true) 0 1 shows_ab
  refine ⟨fig, h1, ?_, ?_⟩
  · rw [h2, chainR_hops]
    simp [bonds, chainR_site, defaultOpts, seen, cellVec]
    norm_num
  · rw [h3]
    refine ⟨rfl, (-1, 0, 0), ?_, 0, ⟨0, 3, ()⟩, by rw [show chainR.orbs = [⟨0, 3, ()⟩] from chainR_one _ (Or.inr rfl)]; rfl, ?_, rfl⟩
    · unfold Shown
      rw [if_pos (show (defaultOpts true).withConj = true ∨ _ from Or.inl rfl), chainR_hops]
      intro c
      fin_cases c
      · right; exact ⟨_, List.mem_singleton_self _, by simp [along]⟩
      · left; rfl
      · left; rfl
    · rw [chainR_site]
      simp [seen, cellVec]

/-- **C115 fails without conjugates**: the only arrow of the chain starts where there is no dot, because the cells plotted are those between the smallest
and the largest cell index of the hopping terms, which need not include the cell the hopping terms start from. -/
theorem C115_dangling : ∃ fig, (plotCell lenHashR chainR (defaultOpts false)).2 = .ok fig ∧
    segs .hop fig = [((0, 0), (1, 0))] ∧ ∀ e, ((0, 0), e) ∉ dots fig := by
  obtain ⟨fig, h1, h2, h3, -⟩ := C115_cell lenHashR chainR chainR_reach (defaultOpts false) 0 1 shows_ab
  refine ⟨fig, h1, ?_, ?_⟩
  · rw [h2, chainR_hops]
    simp [bonds, chainR_site, defaultOpts, seen, cellVec]
    norm_num
    exact ⟨_, _, ⟨rfl, rfl⟩, ⟨rfl, rfl⟩, rfl, rfl⟩
  · intro e he
    obtain ⟨-, R, hR, i, orb, ho, hp, -⟩ := (h3 _ _).1 he
    rw [show chainR.orbs = [⟨0, 3, ()⟩] from chainR_one _ (Or.inr rfl)] at ho
    have hi : i = 0 := by
      have := (List.getElem?_eq_some_iff.1 ho).1
      simpa using this
    subst hi
    rw [chainR_site] at hp
    unfold Shown at hR
    rw [if_neg (by rw [chainR_hops]; simp [defaultOpts]), chainR_hops] at hR
    obtain ⟨t, ht, u, -, hle, -⟩ := hR 0
    rw [List.mem_singleton] at ht
    rw [ht] at hle
    have h0 : (0 : ℝ) = (R.1 : ℝ) := congrArg Prod.fst hp
    have : R.1 = 0 := by exact_mod_cast h0.symm
    simp [along, this] at hle

end Verif.Props

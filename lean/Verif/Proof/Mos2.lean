import Verif.Props.SkCells
import Verif.Props.Merge
import Verif.Props.Soc
import Verif.Spec.Mos2

/-! # `make_mos2_soc` -/

namespace Verif.Materials

open PrimCell SK Mos2

/-- One orbital with its energy. -/
noncomputable def moTriple (q : List ℝ × List String) : List ℝ × ℝ × List String :=
  (q.1, (PyDict.get? mosEnergy (mosLm q.2)).getD 0, q.2)

/-- The eleven orbitals. -/
noncomputable def moOrbs : List (Orbital ℝ (List String)) :=
  (mosSites.map moTriple).map fun q => ⟨vec3 ((checkLen 0 q.1).getD 0), q.2.1, q.2.2⟩

/-- What a label means. -/
def moLm (l : List String) : OrbLabel := skLabel (mosLm l)

theorem mo_lat : mosLat = lattice := by
  unfold mosLat lattice
  ext x y
  fin_cases x <;> fin_cases y <;> simp <;> norm_num

theorem mo_orb (i : ℕ) (hi : i < 11) : ∃ o, moOrbs[i]? = some o ∧ o.position = Mos2.position (atom i) ∧
    o.label = [(names.getD i ("", "")).1, (names.getD i ("", "")).2] ∧ o.energy = Mos2.energy i ∧ moLm o.label = kind i := by
  interval_cases i <;> refine ⟨_, rfl, ?_, rfl, ?_, rfl⟩ <;>
    first
    | (funext x; fin_cases x <;> simp [vec3, checkLen, moTriple, Mos2.position, atom] <;> norm_num; done)
    | (simp [moTriple, mosEnergy, mosLm, PyDict.get?, Mos2.energy]; done)

theorem mo_length : moOrbs.length = 11 := by simp [moOrbs, mosSites]

theorem mo_kind_legal (i : ℕ) (hi : i < 11) : tens (kind i) ≠ none := by
  interval_cases i <;> simp [kind, tens]

theorem mo_ops : mosSites.mapM mosOp = .ok ((mosSites.map moTriple).map fun q => .addOrbital q.1 q.2.1 q.2.2) := by
  rw [List.map_map]
  have : ∀ q ∈ mosSites, mosOp q =
      .ok (((fun q : List ℝ × ℝ × List String => (.addOrbital q.1 q.2.1 q.2.2 : Op ℝ ℂ (List String))) ∘ moTriple) q) := by
    intro q hq
    have : PyDict.get? mosEnergy (mosLm q.2) ≠ none := by
      simp only [mosSites, List.map_cons, List.map_nil, List.cons_append, List.nil_append, List.mem_cons, List.not_mem_nil, or_false] at hq
      rcases hq with rfl | rfl | rfl | rfl | rfl | rfl | rfl | rfl | rfl | rfl | rfl <;> simp [mosLm, mosEnergy, PyDict.get?]
    obtain ⟨e, he⟩ := Option.ne_none_iff_exists'.1 this
    simp only [mosOp, he, Function.comp, moTriple, Option.getD_some]
  generalize mosSites = l at this
  induction l with
  | nil => rfl
  | cons q l ih =>
    rw [List.mapM_cons, this q (by simp), ih fun q' hq' => this q' (by simp [hq'])]
    rfl

/-- The square of the length of a bond, in nanometer, as a rational number. -/
def moQ (R : ℤ × ℤ) (p q : ℕ) : ℚ :=
  let x : ℕ → ℚ := fun p => if p = 0 then 0.66667 else 0
  let y : ℕ → ℚ := fun p => if p = 0 then 0.33333 else 0
  let z : ℕ → ℚ := fun p => if p = 0 then 1 / 2 else if p = 1 then 0 else 1
  let f := R.1 + x q - x p
  let g := R.2 + y q - y p
  let h := z q - z p
  (0.316 * f - 0.1579999 * g) ^ 2 + (0.2736640276 * g) ^ 2 + (0.3172 * h) ^ 2

/-- One case of `moQ_bonds`. -/
def moCheck (p q : ℕ) (a b : ℤ) : Bool :=
  (decide (0 < moQ (a, b) p q ∧ moQ (a, b) p q ≤ 0.1024) == decide ((a, b) ∈ bonds p q)) &&
    (decide ((a, b) ∉ bonds p q) || decide (0.01 < moQ (a, b) p q))

set_option maxRecDepth 100000 in
theorem moCheck_all : ((List.range 3).all fun p => (List.range 3).all fun q => [-2, -1, 0, 1, 2].all fun a => [-2, -1, 0, 1, 2].all fun b =>
    moCheck p q a b) = true := by decide +kernel

theorem moQ_bonds (p : ℕ) (hp : p < 3) (q : ℕ) (hq : q < 3) (a : ℤ) (ha : a ∈ Finset.Icc (-2 : ℤ) 2) (b : ℤ)
    (hb : b ∈ Finset.Icc (-2 : ℤ) 2) :
    ((0 < moQ (a, b) p q ∧ moQ (a, b) p q ≤ 0.1024) ↔ (a, b) ∈ bonds p q) ∧ ((a, b) ∈ bonds p q → 0.01 < moQ (a, b) p q) := by
  have hm : ∀ a ∈ Finset.Icc (-2 : ℤ) 2, a ∈ [-2, -1, 0, 1, 2] := by decide
  have h := moCheck_all
  simp only [List.all_eq_true] at h
  have := h p (List.mem_range.2 hp) q (List.mem_range.2 hq) a (hm a ha) b (hm b hb)
  simp only [moCheck, Bool.and_eq_true, beq_iff_eq, Bool.or_eq_true, decide_eq_true_eq, decide_eq_decide] at this
  exact ⟨this.1, fun hc => this.2.resolve_left (not_not.2 hc)⟩

/-- The cell has the eleven orbitals, `m` times. -/
def MoCell (s : PrimCell ℝ ℂ (List String)) (m : ℕ) : Prop :=
  s.lat = lattice ∧ s.origin = 0 ∧ s.numOrb = 11 * m ∧
    ∀ x < s.numOrb, ∃ o, s.orbs[x]? = some o ∧ o.position = Mos2.position (atom (x % 11)) ∧ moLm o.label = kind (x % 11) ∧
      o.energy = Mos2.energy (x % 11)

theorem mo_norm {s : PrimCell ℝ ℂ (List String)} {m : ℕ} (h : MoCell s m) (R : Cell) (x y : ℕ) (hx : x < s.numOrb) (hy : y < s.numOrb)
    (hR : R.2.2 = 0) : norm3 (skVec s R x y) = Real.sqrt (moQ (R.1, R.2.1) (atom (x % 11)) (atom (y % 11))) := by
  obtain ⟨h1, h2, h3, h4⟩ := h
  obtain ⟨ox, ex, px, -⟩ := h4 x hx
  obtain ⟨oy, ey, py, -⟩ := h4 y hy
  have hp : ∀ i < 11, atom i = 0 ∨ atom i = 1 ∨ atom i = 2 := by decide
  unfold norm3 skVec sitePos
  rw [ex, ey]
  simp only [Option.elim_some, px, py, h1, h2]
  congr 1
  rcases hp (x % 11) (Nat.mod_lt _ (by omega)) with e | e | e <;> rcases hp (y % 11) (Nat.mod_lt _ (by omega)) with e' | e' | e' <;>
    rw [e, e'] <;>
    simp [moQ, Mos2.position, frac2cartRow, lattice, cellVec, Matrix.mulVec, dotProduct, Fin.sum_univ_three, hR, Matrix.vecHead, Matrix.vecTail] <;>
    push_cast <;> ring

theorem mo_bond {s : PrimCell ℝ ℂ (List String)} {m : ℕ} (h : MoCell s m) (R : Cell) (x y : ℕ) (hx : x < s.numOrb) (hy : y < s.numOrb) :
    (SkBond s 2 2 0 0.32 R x y ↔ R.2.2 = 0 ∧ (R.1, R.2.1) ∈ bonds (atom (x % 11)) (atom (y % 11))) ∧
      (SkBond s 2 2 0 0.32 R x y → 0.1 < norm3 (skVec s R x y)) := by
  have hp : ∀ i < 11, atom i < 3 := by decide
  have hpx := hp (x % 11) (Nat.mod_lt _ (by omega))
  have hpy := hp (y % 11) (Nat.mod_lt _ (by omega))
  have hbox : ∀ p < 3, ∀ q < 3, ∀ r ∈ bonds p q, r.1 ∈ Finset.Icc (-2 : ℤ) 2 ∧ r.2 ∈ Finset.Icc (-2 : ℤ) 2 := by decide
  have key : ∀ N : ℚ, (0 < Real.sqrt N ∧ Real.sqrt N ≤ 0.32) ↔ (0 < N ∧ N ≤ 0.1024) := by
    intro N
    rw [Real.sqrt_pos, Real.sqrt_le_left (by norm_num)]
    refine and_congr (by exact_mod_cast Iff.rfl) ?_
    rw [show ((0.32 : ℝ) ^ 2) = ((0.1024 : ℚ) : ℝ) by norm_num]
    exact_mod_cast Iff.rfl
  by_cases hR : R.2.2 = 0
  · rw [SkBond, mo_norm h R x y hx hy hR, key]
    have hin : (|R.1| ≤ 2 ∧ |R.2.1| ≤ 2) ↔ (R.1 ∈ Finset.Icc (-2 : ℤ) 2 ∧ R.2.1 ∈ Finset.Icc (-2 : ℤ) 2) := by
      simp [abs_le]
    constructor
    · constructor
      · rintro ⟨⟨a, b, -⟩, c⟩
        obtain ⟨a, b⟩ := hin.1 ⟨a, b⟩
        exact ⟨hR, (moQ_bonds _ hpx _ hpy _ a _ b).1.1 c⟩
      · rintro ⟨-, c⟩
        obtain ⟨a, b⟩ := hbox _ hpx _ hpy _ c
        obtain ⟨a', b'⟩ := hin.2 ⟨a, b⟩
        exact ⟨⟨a', b', by rw [hR]; simp⟩, (moQ_bonds _ hpx _ hpy _ a _ b).1.2 c⟩
    · rintro ⟨⟨a, b, -⟩, c⟩
      obtain ⟨a, b⟩ := hin.1 ⟨a, b⟩
      have := (moQ_bonds _ hpx _ hpy _ a _ b).2 ((moQ_bonds _ hpx _ hpy _ a _ b).1.1 c)
      rw [Real.lt_sqrt (by norm_num), show ((0.1 : ℝ) ^ 2) = ((0.01 : ℚ) : ℝ) by norm_num]
      exact_mod_cast this
  · have hno : ¬ SkBond s 2 2 0 0.32 R x y := by
      rintro ⟨⟨-, -, h⟩, -⟩
      exact hR (abs_eq_zero.1 (le_antisymm h (abs_nonneg _)))
    exact ⟨⟨fun h => absurd h hno, fun h => absurd h.1 hR⟩, fun h => absurd h hno⟩

/-- The spinless cell. -/
theorem mo_stage1 (H : HashFns ℝ ℂ (List String)) (HS : SCHash ℝ ℂ (List String)) (hO : ∀ l, l ≠ [] → H.orb l ≠ H.orb [])
    {tree : DistMatrix} (ht : IsDistMatrix tree) :
    ∃ s0 s1, runOk H (init H mosLat 0) ((mosSites.map moTriple).map fun q => .addOrbital q.1 q.2.1 q.2.2) = .ok s0 ∧
      skHoppings H HS tree moLm (fun _ => some mosPar) 2 2 0 0.32 s0 = .ok s1 ∧ s1.orbs = moOrbs ∧ MoCell s1 1 ∧ WF s1 ∧
      s1.locked = false ∧ (syncOrb H s1 false).arrPos = s1.orbs.map Orbital.position ∧
      ∀ R (i j : ℕ), i < 11 → j < 11 → open Classical in
        s1.hops.get R i j = if SkBond s1 2 2 0 0.32 R i j then some (skHop moLm (fun _ => some mosPar) s1 R i j) else none := by
  classical
  obtain ⟨s0, hs0⟩ : ∃ s0 : PrimCell ℝ ℂ (List String), s0 = { init H mosLat 0 with orbs := moOrbs } := ⟨_, rfl⟩
  have hne : moOrbs ≠ [] := by
    intro h
    have := mo_length
    rw [h] at this
    simp at this
  obtain ⟨g1, g2, g3, g4, g5, g6, g7⟩ := orbs_cell H hO mosLat moOrbs hne s0 hs0
  have hn : s0.numOrb = 11 := by rw [numOrb, g3]; exact mo_length
  have hrun : runOk H (init H mosLat 0) ((mosSites.map moTriple).map fun q => .addOrbital q.1 q.2.1 q.2.2) = .ok s0 := by
    rw [runOk_orbs H _ (init H mosLat 0) rfl (by
      intro q hq
      simp only [mosSites, List.map_cons, List.map_nil, List.cons_append, List.nil_append, List.mem_cons, List.not_mem_nil, or_false] at hq
      rcases hq with rfl | rfl | rfl | rfl | rfl | rfl | rfl | rfl | rfl | rfl | rfl <;> simp [moTriple, checkLen]), hs0]
    rfl
  have hm0 : MoCell s0 1 := by
    refine ⟨by rw [g4, mo_lat], g5, hn, ?_⟩
    intro x hx
    rw [hn] at hx
    obtain ⟨o, h1, h2, -, h4, h5⟩ := mo_orb x hx
    rw [Nat.mod_eq_of_lt hx]
    exact ⟨o, by rw [g3]; exact h1, h2, h5, h4⟩
  obtain ⟨s, e1, e2, e3, e4, e5, e6, e7⟩ := Props.C111_hoppings H HS ht moLm (fun _ => some mosPar) 2 2 0 0.32 s0 g1 g2 (by rw [g3]; exact hne)
    (by rw [g7]) g6 (by
      intro o ho
      obtain ⟨i, hi, rfl⟩ := List.getElem_of_mem ho
      have hi' : i < 11 := by rw [← hn]; exact hi
      obtain ⟨o', e, -, -, -, h⟩ := mo_orb i hi'
      have : s0.orbs[i]? = some o' := by rw [g3]; exact e
      rw [List.getElem?_eq_getElem hi] at this
      rw [Option.some.inj this, h]
      exact mo_kind_legal i hi') (by
      intro R i j hi hj hb
      have := (mo_bond hm0 R i j hi hj).2 hb
      exact ⟨by norm_num at this ⊢; linarith, _, rfl, by simp [mosPar, Par.real]⟩)
  have hn' : s.numOrb = s0.numOrb := by rw [numOrb, e4]; rfl
  refine ⟨s0, s, hrun, e1, e4.trans g3, ⟨e2.trans hm0.1, e3.trans g5, hn'.trans hn, ?_⟩, e6, ?_, ?_, ?_⟩
  · intro x hx
    rw [e4]
    exact hm0.2.2.2 x (hn' ▸ hx)
  · rw [e5, g7]; exact g2
  · have h1 : s.hashOrb = H.orb s.orbs := by rw [e5, g7]
    have h2 : s.arrPos = s.orbs.map Orbital.position := by rw [e5, g7]
    unfold syncOrb
    rw [h1]
    simp [h2]
  · intro R i j hi hj
    have a : ∀ R, skVec s R i j = skVec s0 R i j := fun R => by simp only [skVec, sitePos, e4, e2, e3]
    rw [e7 R i j (by omega) (by omega)]
    have b : SkBond s 2 2 0 0.32 R i j ↔ SkBond s0 2 2 0 0.32 R i j := by simp only [SkBond, a]
    have c : skHop moLm (fun _ => some mosPar) s R i j = skHop moLm (fun _ => some mosPar) s0 R i j := by
      simp only [skHop, a, orbLab, e4]
    by_cases h : SkBond s0 2 2 0 0.32 R i j
    · rw [if_pos h, if_pos (b.2 h), c]
    · rw [if_neg h, if_neg (mt b.1 h)]

/-- Adding the spin to labels. -/
theorem spin_loop (H : HashFns ℝ ℂ (List String)) (spin : String) (l : List ℕ) (hnd : l.Nodup) (s : PrimCell ℝ ℂ (List String))
    (hl : s.locked = false) (hlt : ∀ i ∈ l, i < s.numOrb) :
    l.foldlM (mosSpin H spin) s = .ok { s with orbs := s.orbs.mapIdx fun i o => if i ∈ l then { o with label := o.label ++ [spin] } else o } := by
  induction l generalizing s with
  | nil =>
    have : (s.orbs.mapIdx fun i o => if i ∈ ([] : List ℕ) then { o with label := o.label ++ [spin] } else o) = s.orbs := by
      apply List.ext_getElem <;> simp
    rw [this]
    rfl
  | cons i l ih =>
    obtain ⟨h1, h2⟩ := List.nodup_cons.1 hnd
    have hi : i < s.orbs.length := hlt i (by simp)
    have hg := get_orbital_nat s i s.orbs[i] (List.getElem?_eq_getElem hi)
    have hi' : i < s.numOrb := hi
    have hs : mosSpin H spin s i = .ok { s with orbs := s.orbs.modify i fun o => { o with label := s.orbs[i].label ++ [spin] } } := by
      unfold mosSpin
      rw [hg]
      simp [step, setOrbital, hl, setOrbitalAt, pyIndex, hi']
      rfl
    rw [List.foldlM_cons, hs]
    simp only [bind, Except.bind]
    refine (ih h2 _ ?_ ?_).trans ?_
    · exact hl
    · exact fun j hj => by simpa [numOrb] using hlt j (by simp [hj])
    congr 2
    refine List.ext_getElem (by simp) fun k k1 k2 => ?_
    simp only [List.getElem_mapIdx, List.getElem_modify, List.mem_cons]
    by_cases hk : i = k
    · subst hk
      simp [h1]
      rfl
    · simp [hk, Ne.symm hk]

theorem spin_both (H : HashFns ℝ ℂ (List String)) (s : PrimCell ℝ ℂ (List String)) (hl : s.locked = false) (hn : s.numOrb = 22) :
    ∃ s3, (List.range (s.numOrb / 2)).foldlM (mosSpin H "up") s = .ok s3 ∧
      ((List.range s.numOrb).filter fun i => s.numOrb / 2 ≤ i).foldlM (mosSpin H "down") s3 =
        .ok { s with orbs := s.orbs.mapIdx fun i o => { o with label := o.label ++ [if i < 11 then "up" else "down"] } } := by
  refine ⟨_, spin_loop H "up" _ List.nodup_range s hl (fun i hi => by rw [List.mem_range] at hi; omega), ?_⟩
  refine (spin_loop H "down" _ (List.Nodup.filter _ List.nodup_range) _ ?_ ?_).trans ?_
  · exact hl
  · intro i hi
    simp only [List.mem_filter, List.mem_range] at hi
    simpa [numOrb] using hi.1
  congr 2
  refine List.ext_getElem (by simp) fun k k1 k2 => ?_
  have hk : k < s.numOrb := by simpa [numOrb] using k2
  simp only [List.getElem_mapIdx, List.mem_range, List.mem_filter, hn, decide_eq_true_eq]
  by_cases h : k < 11
  · simp [h, show ¬ (11 ≤ k) by omega]
  · simp [h, show 11 ≤ k by omega, show k < 22 by omega]

theorem mo_det : lattice.det ≠ 0 := by
  rw [lattice, Matrix.det_fin_three]
  simp
  norm_num

/-- The merged cell. -/
theorem mo_stage2 (H : HashFns ℝ ℂ (List String)) (s1 : PrimCell ℝ ℂ (List String)) (ho : s1.orbs = moOrbs) (hm : MoCell s1 1) (hw : WF s1)
    (hl : s1.locked = false) (hf : (syncOrb H s1 false).arrPos = s1.orbs.map Orbital.position) :
    ∃ t, (mergePrimCell H (fun _ => ⟨s1, 1⟩) ([.pc 0, .pc 0] : List (MergeArg ℂ))).2 = .ok t ∧
      t.cell.lat = lattice ∧ t.cell.origin = 0 ∧ t.cell.numOrb = 22 ∧ t.cell.locked = false ∧ WF t.cell ∧
      t.cell.hashOrb = H.orb [] ∧ t.cell.hashHop = H.hop [] ∧
      (∀ x, x < 22 → ∃ o, t.cell.orbs[x]? = some o ∧ o.position = Mos2.position (atom (x % 11)) ∧
        o.label = [(names.getD (x % 11) ("", "")).1, (names.getD (x % 11) ("", "")).2] ∧ o.energy = Mos2.energy (x % 11)) ∧
      ∀ R (x y : ℕ), x < 22 → y < 22 → t.cell.hops.get R x y = if x / 11 = y / 11 then s1.hops.get R (x % 11 : ℕ) (y % 11 : ℕ) else none := by
  have hn : s1.numOrb = 11 := hm.2.2.1
  have hsz : Props.sizes (fun _ => (⟨s1, 1⟩ : PCObj ℝ ℂ (List String))) [0, 0] = [11, 11] := by simp [Props.sizes, hn]
  have hst : ∀ p : ℕ, p < 2 → mergeStart [11, 11] p = 11 * p := by
    intro p hp
    interval_cases p <;> rfl
  have key : ∀ R x y e, MergedHop (Props.sizes (fun _ => (⟨s1, 1⟩ : PCObj ℝ ℂ (List String))) [0, 0])
      (Props.intraSpec (fun _ => (⟨s1, 1⟩ : PCObj ℝ ℂ (List String))) [0, 0]) (Props.interSpec [0, 0] []) R x y e ↔
      ∃ (p : ℕ) (i j : ℤ), p < 2 ∧ x = 11 * p + i ∧ y = 11 * p + j ∧ s1.hops.get R i j = some e := by
    intro R x y e
    constructor
    · intro h
      rw [hsz] at h
      cases h with
      | @intra p m R i j e h1 h2 =>
        have hp : p < 2 := by
          have := (List.getElem?_eq_some_iff.1 h1).1
          simpa [Props.intraSpec] using this
        refine ⟨p, i, j, hp, by rw [hst p hp], by rw [hst p hp], ?_⟩
        simp only [Props.intraSpec, List.getElem?_map, Option.map_eq_some_iff] at h1
        obtain ⟨r, -, rfl⟩ := h1
        exact h2
      | inter h1 h2 => simp [Props.interSpec] at h1
      | conj h1 h2 => simp [Props.interSpec] at h1
    · rintro ⟨p, i, j, hp, rfl, rfl, h⟩
      rw [hsz, ← hst p hp]
      refine MergedHop.intra (m := s1.hops.get) ?_ h
      interval_cases p <;> rfl
  have rng := fun R i j e => rng_of_get hw (R := R) (i := i) (j := j) (e := e)
  obtain ⟨t, h1, h2, h3, h4, h5, h6, h7, -, -, ⟨hh, h8⟩, h9⟩ := Props.merge_core (H := H) (hp := fun _ => (⟨s1, 1⟩ : PCObj ℝ ℂ (List String)))
    (args := [.pc 0, .pc 0]) (r0 := 0) (rs := [0]) (hops := []) ⟨rfl, rfl, by simp⟩ (.inr fun r _ => ⟨rfl, rfl⟩) (fun _ _ => hl)
    (fun _ _ => hw) (fun _ _ => hf) (by show s1.lat.det ≠ 0; rw [hm.1]; exact mo_det) (by simp) (by simp) (by
      intro R x y e e' a b
      rw [key] at a b
      obtain ⟨p, i, j, hp, rfl, rfl, a⟩ := a
      obtain ⟨p', i', j', hp', e1, e2, b⟩ := b
      have ra := rng _ _ _ _ a
      have rb := rng _ _ _ _ b
      rw [hn] at ra rb
      obtain rfl : p = p' := by omega
      obtain rfl : i = i' := by omega
      obtain rfl : j = j' := by omega
      exact ⟨Option.some.inj (a.symm.trans b), fun h => ra.2.2 ⟨h.1, by omega⟩⟩)
  have h2' : t.cell.lat = lattice := h2.trans hm.1
  have h3' : t.cell.origin = 0 := h3.trans hm.2.1
  refine ⟨t, h1, h2', h3', ?_, h7, h9, by rw [h8]; rfl, by rw [h8]; rfl, ?_, ?_⟩
  · rw [h4, hsz]; rfl
  · intro x hx
    have hx' : x % 11 < 11 := Nat.mod_lt _ (by norm_num)
    obtain ⟨o, e1, e2, e3, e4, -⟩ := mo_orb (x % 11) hx'
    have hp : x / 11 < 2 := by omega
    obtain ⟨o', f1, f2, f3, f4⟩ := h5 (x / 11) 0 (x % 11) o (by interval_cases (x / 11) <;> rfl) (by show s1.orbs[x % 11]? = _; rw [ho]; exact e1)
    rw [hsz, hst _ hp] at f1
    rw [show (11 * ((x / 11 : ℕ) : ℤ)).toNat + x % 11 = x by omega] at f1
    refine ⟨o', f1, ?_, f3.trans e3, f2.trans e4⟩
    rw [← e2]
    have f5 : frac2cartRow lattice 0 o'.position = frac2cartRow lattice 0 o.position := by
      rw [h2', h3'] at f4
      rw [f4, ← hm.1, ← hm.2.1]
    have a0 := congrFun f5 0
    have a1 := congrFun f5 1
    have a2 := congrFun f5 2
    simp [frac2cartRow, lattice, Fin.sum_univ_three, Matrix.mulVec, Matrix.transpose, dotProduct, -mul_eq_mul_left_iff] at a0 a1 a2
    have a1' : o'.position 1 = o.position 1 := by norm_num at a1; linarith
    ext k
    fin_cases k
    · simp only [Fin.zero_eta, Fin.mk_one, Fin.reduceFinMk]; linarith
    · simp only [Fin.zero_eta, Fin.mk_one, Fin.reduceFinMk]; linarith
    · simp only [Fin.zero_eta, Fin.mk_one, Fin.reduceFinMk]; linarith
  · intro R x y hx hy
    have h6' := fun e => (h6 R x y e).trans (key R x y e)
    rcases hc : t.cell.hops.get R x y with _ | e
    · split_ifs with hxy
      · rcases hd : s1.hops.get R (x % 11 : ℕ) (y % 11 : ℕ) with _ | e
        · rfl
        · have := (h6' e).2 ⟨x / 11, _, _, by omega, by omega, by omega, hd⟩
          rw [hc] at this
          exact absurd this (by simp)
      · rfl
    · obtain ⟨p, i, j, hp, e1, e2, e3⟩ := (h6' e).1 hc
      have ra := rng _ _ _ _ e3
      rw [hn] at ra
      rw [if_pos (by omega), ← e3]
      congr 1 <;> omega

theorem so_p (x y : Fin 3) (σ τ : Fin 2) : Soc.spinOrbit (Soc.pTens x) σ (Soc.pTens y) τ = 0 ∨
    1 / 2 ≤ ‖Soc.spinOrbit (Soc.pTens x) σ (Soc.pTens y) τ‖ := by
  fin_cases x <;> fin_cases y <;> fin_cases σ <;> fin_cases τ <;>
    simp [Soc.spinOrbit, Fin.sum_univ_three, Soc.pTens, Soc.angMom_p, Soc.pauli]

theorem so_d (x y : Fin 5) (σ τ : Fin 2) : Soc.spinOrbit (Soc.dTens x) σ (Soc.dTens y) τ = 0 ∨
    1 / 2 ≤ ‖Soc.spinOrbit (Soc.dTens x) σ (Soc.dTens y) τ‖ := by
  have h3 : (1 : ℝ) ≤ Real.sqrt 3 := by rw [Real.one_le_sqrt]; norm_num
  have h2 : (1 : ℝ) ≤ |Real.sqrt 3| := by rw [abs_of_nonneg (by positivity)]; exact h3
  simp only [Soc.spinOrbit, Fin.sum_univ_three, Soc.lx_d, Soc.ly_d, Soc.lz_d]
  fin_cases x <;> fin_cases y <;> fin_cases σ <;> fin_cases τ <;>
    first
    | (left; simp [Soc.pauli]; done)
    | (right; simp [Soc.pauli]; done)
    | (right; simp [Soc.pauli, neg_div]; norm_num; done)
    | (right; simp [Soc.pauli]; linarith)

theorem kind_p (i : ℕ) (h1 : 5 ≤ i) (h2 : i < 11) : ∃ x, tensD (kind i) = Soc.pTens x := by
  interval_cases i <;> first | exact ⟨0, rfl⟩ | exact ⟨1, rfl⟩ | exact ⟨2, rfl⟩

theorem kind_d (i : ℕ) (h : i < 5) : ∃ x, tensD (kind i) = Soc.dTens x := by
  interval_cases i <;> first | exact ⟨0, rfl⟩ | exact ⟨1, rfl⟩ | exact ⟨2, rfl⟩ | exact ⟨3, rfl⟩ | exact ⟨4, rfl⟩

theorem ls_large (x y : ℕ) (h : atom (x % 11) = atom (y % 11)) : ls x y = 0 ∨ 1 / 2 ≤ ‖ls x y‖ := by
  have hx : x % 11 < 11 := Nat.mod_lt _ (by norm_num)
  have hy : y % 11 < 11 := Nat.mod_lt _ (by norm_num)
  unfold ls
  by_cases h1 : x % 11 < 5
  · have h2 : y % 11 < 5 := by
      by_contra h2
      simp only [atom, h1, h2, if_true, if_false] at h
      split_ifs at h
    obtain ⟨a, ha⟩ := kind_d _ h1
    obtain ⟨b, hb⟩ := kind_d _ h2
    rw [ha, hb]
    exact so_d a b _ _
  · have h2 : ¬ y % 11 < 5 := by
      intro h2
      simp only [atom, h1, h2, if_true, if_false] at h
      split_ifs at h
    obtain ⟨a, ha⟩ := kind_p _ (by omega) hx
    obtain ⟨b, hb⟩ := kind_p _ (by omega) hy
    rw [ha, hb]
    exact so_p a b _ _

theorem name_atom : ∀ i : ℕ, i < 11 → ∀ j : ℕ, j < 11 → ((names.getD j ("", "")).1 = (names.getD i ("", "")).1 ↔ atom i = atom j) := by
  decide +kernel

theorem name_lambda (i : ℕ) (h : i < 11) : PyDict.get? mosLambda (names.getD i ("", "")).1 = some (lambda (atom i)) := by
  interval_cases i <;> simp [mosLambda, PyDict.get?, names, lambda, atom]

theorem name_kind : ∀ i : ℕ, i < 11 → skLabel (names.getD i ("", "")).2 = kind i := by
  intro i hi
  interval_cases i <;> rfl

open Classical in
/-- What the loops add for one pair. -/
noncomputable def moTerm (i j : ℕ) : List (Cell × Pair × ℂ) :=
  if atom (i % 11) = atom (j % 11) ∧ ls i j ≠ 0 then [(0, ((i : ℤ), (j : ℤ)), lambda (atom (i % 11)) * ls i j)] else []

/-- The labels of the finished cell. -/
def MoLabels (os : List (Orbital ℝ (List String))) : Prop :=
  ∀ x, x < 22 → ∃ o, os[x]? = some o ∧
    o.label = [(names.getD (x % 11) ("", "")).1, (names.getD (x % 11) ("", "")).2, if x < 11 then "up" else "down"]

theorem lambda_pos (p : ℕ) : 0.05 ≤ lambda p := by
  unfold lambda
  split_ifs <;> norm_num

theorem soc_step (H : HashFns ℝ ℂ (List String)) (c : PrimCell ℝ ℂ (List String)) (hL : MoLabels c.orbs) (i j : ℕ) (hi : i < 22) (hj : j < 22) 
    (c' : PrimCell ℝ ℂ (List String)) (h : (moTerm i j).foldlM addTerm c = .ok c') : mosSocStep H i c j = .ok c' := by
  classical
  obtain ⟨oi, a1, a2⟩ := hL i hi
  obtain ⟨oj, b1, b2⟩ := hL j hj
  have hi' : i % 11 < 11 := Nat.mod_lt _ (by norm_num)
  have hj' : j % 11 < 11 := Nat.mod_lt _ (by norm_num)
  have hs : ∀ x : ℕ, Soc.spinIndex (spinLabel (if x < 11 then "up" else "down")) = some (Mos2.spin x) := by
    intro x
    by_cases hx : x < 11 <;> simp [hx, spinLabel, Soc.spinIndex, Mos2.spin]
  have ht : ∀ x : ℕ, x < 11 → tens (kind x) = some (tensD (kind x)) := by
    intro x hx
    obtain ⟨v, hv⟩ := Option.ne_none_iff_exists'.1 (mo_kind_legal x hx)
    rw [tensD, hv]
    rfl
  have hsoc : Soc.eval (skLabel (names.getD (i % 11) ("", "")).2) (spinLabel (if i < 11 then "up" else "down"))
      (skLabel (names.getD (j % 11) ("", "")).2) (spinLabel (if j < 11 then "up" else "down")) = .ok (ls i j) := by
    rw [name_kind _ hi', name_kind _ hj']
    exact Props.C42_soc _ _ _ _ _ _ _ _ (ht _ hi') (ht _ hj') (hs i) (hs j)
  unfold mosSocStep
  rw [get_orbital_nat c i oi a1, get_orbital_nat c j oj b1]
  dsimp only
  rw [a2, b2]
  dsimp only
  by_cases hat : atom (i % 11) = atom (j % 11)
  · rw [if_pos ((name_atom _ hi' _ hj').2 hat), hsoc]
    dsimp only
    rw [name_lambda _ hj', ← hat]
    dsimp only
    have hlam := lambda_pos (atom (i % 11))
    have hlam' : (0 : ℝ) < lambda (atom (i % 11)) := by linarith
    by_cases h0 : ls i j = 0
    · simp only [moTerm, h0, ne_eq, not_true_eq_false, and_false, if_false, List.foldlM_nil] at h
      rw [if_neg (by rw [h0]; simp; norm_num)]
      exact congrArg _ (Except.ok.inj h)
    · have hlarge : 1 / 2 ≤ ‖ls i j‖ := (ls_large i j hat).resolve_left h0
      have hbig : ‖ls i j * (lambda (atom (i % 11)) : ℂ)‖ ≥ 1.0e-15 := by
        rw [norm_mul, Complex.norm_real, Real.norm_eq_abs, abs_of_pos hlam']
        have : (1 / 2 : ℝ) * 0.05 ≤ ‖ls i j‖ * lambda (atom (i % 11)) := mul_le_mul hlarge hlam (by norm_num) (norm_nonneg _)
        norm_num at this ⊢
        linarith
      rw [if_pos hbig]
      simp only [moTerm, hat, h0, ne_eq, not_false_eq_true, and_self, if_true, List.foldlM_cons, List.foldlM_nil, bind, Except.bind] at h
      rw [mul_comm (ls i j), hat]
      revert h
      unfold addTerm propagate
      simp only [step]
      rcases hr : c.addHopping [0, 0, 0] (i : ℤ) (j : ℤ) ((lambda (atom (j % 11)) : ℂ) * ls i j) with ⟨c1, e | u⟩
      · simp [hr]
      · simp [hr, pure, Except.pure]
  · rw [if_neg (fun h => hat ((name_atom _ hi' _ hj').1 h))]
    simp only [moTerm, hat, false_and, if_false, List.foldlM_nil] at h
    exact congrArg _ (Except.ok.inj h)

theorem term_orbs {c c' : PrimCell ℝ ℂ (List String)} {q : Cell × Pair × ℂ} (h : addTerm c q = .ok c') : c'.orbs = c.orbs := by
  have key : (c.addHopping [q.1.1, q.1.2.1, q.1.2.2] q.2.1.1 q.2.1.2 q.2.2).1.orbs = c.orbs := by
    unfold addHopping
    split_ifs
    · rfl
    · split <;> rfl
  unfold addTerm propagate at h
  split at h
  · rw [← Except.ok.inj h, key]
  · simp at h

theorem terms_orbs (l : List (Cell × Pair × ℂ)) (c c' : PrimCell ℝ ℂ (List String)) (h : l.foldlM addTerm c = .ok c') : c'.orbs = c.orbs := by
  induction l generalizing c with
  | nil => rw [Except.ok.inj h]
  | cons q l ih =>
    rw [List.foldlM_cons] at h
    rcases hq : addTerm c q with e | c1
    · simp [hq, bind, Except.bind] at h
    · simp only [hq, bind, Except.bind] at h
      rw [ih c1 h, term_orbs hq]

theorem foldlM_split {ε α β : Type*} (f : β → α → Except ε β) (l l' : List α) (c c' : β) (h : (l ++ l').foldlM f c = .ok c') :
    ∃ c1, l.foldlM f c = .ok c1 ∧ l'.foldlM f c1 = .ok c' := by
  rw [List.foldlM_append] at h
  rcases hq : l.foldlM f c with e | c1
  · simp [hq, bind, Except.bind] at h
  · simp only [hq, bind, Except.bind] at h
    exact ⟨c1, rfl, h⟩

theorem soc_inner (H : HashFns ℝ ℂ (List String)) (i : ℕ) (hi : i < 22) (L : List ℕ) (hL : ∀ j ∈ L, j < 22) (c c' : PrimCell ℝ ℂ (List String))
    (hc : MoLabels c.orbs) (h : (L.flatMap (moTerm i)).foldlM addTerm c = .ok c') : L.foldlM (mosSocStep H i) c = .ok c' := by
  induction L generalizing c with
  | nil => exact congrArg _ (Except.ok.inj h)
  | cons j L ih =>
    rw [List.flatMap_cons] at h
    obtain ⟨c1, h1, h2⟩ := foldlM_split _ _ _ _ _ h
    rw [List.foldlM_cons, soc_step H c hc i j hi (hL j (by simp)) c1 h1]
    exact ih (fun j hj => hL j (by simp [hj])) c1 (by rw [terms_orbs _ _ _ h1]; exact hc) h2

/-- All terms. -/
noncomputable def moTerms (L : List ℕ) : List (Cell × Pair × ℂ) :=
  L.flatMap fun i => ((List.range 22).filter fun j => i < j).flatMap (moTerm i)

theorem soc_outer (H : HashFns ℝ ℂ (List String)) (L : List ℕ) (hL : ∀ j ∈ L, j < 22) (c c' : PrimCell ℝ ℂ (List String))
    (hc : MoLabels c.orbs) (h : (moTerms L).foldlM addTerm c = .ok c') :
    L.foldlM (fun s i => ((List.range 22).filter fun j => i < j).foldlM (mosSocStep H i) s) c = .ok c' := by
  induction L generalizing c with
  | nil => exact congrArg _ (Except.ok.inj h)
  | cons i L ih =>
    rw [moTerms, List.flatMap_cons] at h
    obtain ⟨c1, h1, h2⟩ := foldlM_split _ _ _ _ _ h
    rw [List.foldlM_cons, soc_inner H i (hL i (by simp)) _ (fun j hj => List.mem_range.1 (List.mem_filter.1 hj).1) c c1 hc h1]
    exact ih (fun j hj => hL j (by simp [hj])) c1 (by rw [terms_orbs _ _ _ h1]; exact hc) h2

theorem ls_star (x y : ℕ) : ls y x = star (ls x y) := Soc.spinOrbit_star _ _ _ _

theorem ls_self (x : ℕ) : ls x x = 0 := by
  have h : ∀ k a, Soc.angMom k a a = 0 := by
    intro k a
    have h := Soc.angMom_star k a a
    unfold Soc.angMom at h ⊢
    have h2 := congrArg Complex.im h
    simp at h2
    have : a.inner (Soc.turn k a) = 0 := by linarith
    simp [this]
  simp [ls, Soc.spinOrbit, h]

theorem mem_terms (R : Cell) (x y : ℤ) (e : ℂ) : (R, (x, y), e) ∈ moTerms (List.range 22) ↔
    ∃ i j : ℕ, i < j ∧ j < 22 ∧ R = 0 ∧ x = i ∧ y = j ∧ atom (i % 11) = atom (j % 11) ∧ ls i j ≠ 0 ∧ e = lambda (atom (i % 11)) * ls i j := by
  simp only [moTerms, List.mem_flatMap, List.mem_range, List.mem_filter, decide_eq_true_eq, moTerm]
  constructor
  · rintro ⟨i, hi, j, ⟨hj, hij⟩, h⟩
    split_ifs at h with hc
    · simp only [List.mem_singleton, Prod.mk.injEq] at h
      exact ⟨i, j, hij, hj, h.1, h.2.1.1, h.2.1.2, hc.1, hc.2, h.2.2⟩
    · simp at h
  · rintro ⟨i, j, hij, hj, rfl, rfl, rfl, h1, h2, rfl⟩
    exact ⟨i, by omega, j, ⟨hj, hij⟩, by rw [if_pos ⟨h1, h2⟩]; simp⟩

theorem mo_par : mosPar = par := by
  simp [mosPar, par]

theorem mo_vec {s : PrimCell ℝ ℂ (List String)} {m : ℕ} (h : MoCell s m) (R : Cell) (x y : ℕ) (hx : x < s.numOrb) (hy : y < s.numOrb) :
    skVec s R x y = displacement R x y := by
  obtain ⟨h1, h2, -, h4⟩ := h
  obtain ⟨ox, ex, px, -⟩ := h4 x hx
  obtain ⟨oy, ey, py, -⟩ := h4 y hy
  unfold skVec sitePos displacement
  rw [ex, ey]
  simp only [Option.elim_some, px, py, h1, h2]
  funext k
  simp only [frac2cartRow, Matrix.mulVec, dotProduct, Fin.sum_univ_three, cellVec, Matrix.transpose_apply, Pi.sub_apply, Pi.add_apply, Pi.zero_apply]
  simp
  ring

theorem mo_hop {s : PrimCell ℝ ℂ (List String)} {m : ℕ} (h : MoCell s m) (R : Cell) (x y : ℕ) (hx : x < s.numOrb) (hy : y < s.numOrb) :
    skHop moLm (fun _ => some mosPar) s R x y = twoCentreHop R x y := by
  obtain ⟨ox, ex, -, lx, -⟩ := h.2.2.2 x hx
  obtain ⟨oy, ey, -, ly, -⟩ := h.2.2.2 y hy
  simp only [skHop, mo_vec h R x y hx hy, orbLab, ex, ey, Option.elim_some, lx, ly, mo_par, twoCentreHop]

theorem not_bond_zero : ∀ i : ℕ, i < 11 → ∀ j : ℕ, j < 11 → atom i = atom j → ((0 : ℤ), (0 : ℤ)) ∉ bonds (atom i) (atom j) := by
  intro i _ j _ h
  simp [bonds, h]

set_option maxHeartbeats 1600000 in
/-- The finished cell. -/
theorem mo_build (H : HashFns ℝ ℂ (List String)) (HS : SCHash ℝ ℂ (List String)) (hO : ∀ l, l ≠ [] → H.orb l ≠ H.orb [])
    {tree : DistMatrix} (ht : IsDistMatrix tree) :
    ∃ s, mos2Soc H HS tree = .ok s ∧ s.lat = lattice ∧ s.origin = 0 ∧ s.locked = false ∧ s.numOrb = 22 ∧ WF s ∧
      s.hashOrb = H.orb [] ∧ s.hashHop = H.hop [] ∧
      (∀ x, x < 22 → s.orbs[x]? = some ⟨Mos2.position (atom (x % 11)), Mos2.energy (x % 11),
        [(names.getD (x % 11) ("", "")).1, (names.getD (x % 11) ("", "")).2, if x < 11 then "up" else "down"]⟩) ∧
      ∀ R (x y : ℕ), x < 22 → y < 22 → s.hops.get R x y = hopping R x y := by
  classical
  obtain ⟨s0, s1, a1, a2, a3, a4, a5, a6, a7, a8⟩ := mo_stage1 H HS hO ht
  obtain ⟨t, b1, b2, b3, b4, b5, b6, b7, b8, b9, b10⟩ := mo_stage2 H s1 a3 a4 a5 a6 a7
  obtain ⟨s3, c1, c2⟩ := spin_both H t.cell b5 b4
  have hn1 : s1.numOrb = 11 := a4.2.2.1
  set c : PrimCell ℝ ℂ (List String) :=
    { t.cell with orbs := t.cell.orbs.mapIdx fun i o => { o with label := o.label ++ [if i < 11 then "up" else "down"] } } with hc
  have hcn : c.numOrb = 22 := by rw [← b4]; simp [hc, numOrb]
  have horb : ∀ x, x < 22 → c.orbs[x]? = some ⟨Mos2.position (atom (x % 11)), Mos2.energy (x % 11),
        [(names.getD (x % 11) ("", "")).1, (names.getD (x % 11) ("", "")).2, if x < 11 then "up" else "down"]⟩ := by
    intro x hx
    obtain ⟨o, e1, e2, e3, e4⟩ := b9 x hx
    rw [hc]
    simp only [List.getElem?_mapIdx, e1, Option.map_some, e2, e3, e4, List.cons_append, List.nil_append]
  have hlab : MoLabels c.orbs := fun x hx => ⟨_, horb x hx, rfl⟩
  have hwf : WF c := ⟨b6.inv, fun R i j e h => by
    rw [hcn, ← b4]
    exact b6.rng R i j e h⟩
  have hget : ∀ R (x y : ℕ), x < 22 → y < 22 → c.hops.get R x y =
      if Mos2.spin x = Mos2.spin y ∧ R.2.2 = 0 ∧ (R.1, R.2.1) ∈ bonds (atom (x % 11)) (atom (y % 11)) then some (twoCentreHop R x y) else none := by
    intro R x y hx hy
    have hx' : x % 11 < 11 := Nat.mod_lt _ (by norm_num)
    have hy' : y % 11 < 11 := Nat.mod_lt _ (by norm_num)
    have hsp : Mos2.spin x = Mos2.spin y ↔ x / 11 = y / 11 := by
      unfold Mos2.spin
      constructor
      · intro h
        split_ifs at h <;> first | omega | simp at h
      · intro h
        split_ifs <;> first | rfl | omega
    have e := b10 R x y hx hy
    rw [show c.hops = t.cell.hops from rfl, e, a8 R _ _ hx' hy', (mo_bond a4 R _ _ (by omega) (by omega)).1, mo_hop a4 R _ _ (by omega) (by omega)]
    have hmod : twoCentreHop R (x % 11) (y % 11) = twoCentreHop R x y := by
      have hd : displacement R (x % 11) (y % 11) = displacement R x y := by
        funext k
        simp [displacement]
      simp only [twoCentreHop, Nat.mod_mod, hd]
    rw [hmod]
    simp only [Nat.mod_mod, hsp]
    by_cases h1 : x / 11 = y / 11
    · simp [h1]
    · simp [h1]
  have hnone : ∀ (x y : ℕ), x < 22 → y < 22 → atom (x % 11) = atom (y % 11) → c.hops.get 0 x y = none := by
    intro x y hx hy h
    rw [hget 0 x y hx hy, if_neg]
    rintro ⟨-, -, hb⟩
    exact not_bond_zero _ (Nat.mod_lt _ (by norm_num)) _ (Nat.mod_lt _ (by norm_num)) h hb
  let T : Cell → ℤ → ℤ → ℂ → Prop := fun R x y e => c.hops.get R x y = some e ∨
    ∃ i j : ℕ, i ≠ j ∧ i < 22 ∧ j < 22 ∧ R = 0 ∧ x = i ∧ y = j ∧ atom (i % 11) = atom (j % 11) ∧ ls i j ≠ 0 ∧ e = lambda (atom (i % 11)) * ls i j
  obtain ⟨h', d1, d2, d3⟩ := addTerms_spec (n := 22) (T := T) (by
      rintro R x y e e' (h | ⟨i, j, h0, hi, hj, rfl, rfl, rfl, h1, h2, rfl⟩) (h3 | ⟨i', j', h0', hi', hj', h4, h5, h6, h7, h8, rfl⟩)
      · exact Option.some.inj (h.symm.trans h3)
      · subst h4 h5 h6
        rw [hnone _ _ hi' hj' h7] at h
        simp at h
      · rw [hnone _ _ hi hj h1] at h3
        simp at h3
      · obtain rfl : i = i' := by exact_mod_cast h5
        obtain rfl : j = j' := by exact_mod_cast h6
        rfl) (by
      rintro R x y e (h | ⟨i, j, h0, hi, hj, rfl, rfl, rfl, h1, h2, rfl⟩)
      · left
        have := rng_of_get hwf h
        rw [IntraHop.get_conjSymm _ R x y this.2.2, h]
        rfl
      · right
        refine ⟨j, i, h0.symm, hj, hi, by simp, rfl, rfl, h1.symm, ?_, ?_⟩
        · rw [ls_star]
          simpa using h2
        · rw [ls_star i j, ← h1]
          simp) (by
      rintro R x y e (h | ⟨i, j, h0, hi, hj, rfl, rfl, rfl, h1, h2, rfl⟩)
      · rw [← hcn]; exact rng_of_get hwf h
      · refine ⟨by omega, by omega, ?_⟩
        rintro ⟨-, h⟩
        exact h0 (by exact_mod_cast h)) (moTerms (List.range 22)) c b5 hcn hwf.inv (fun R x y e h => .inl h) (by
      intro R x y e h
      obtain ⟨i, j, hij, hj, rfl, rfl, rfl, h1, h2, rfl⟩ := (mem_terms _ _ _ _).1 h
      exact .inr ⟨i, j, by omega, by omega, hj, rfl, rfl, rfl, h1, h2, rfl⟩)
  have hsoc : mosSoc H 22 c = .ok { c with hops := h' } := soc_outer H _ (fun j hj => List.mem_range.1 hj) c _ hlab d1
  have hall : ∀ R x y e, IntraHop.get h' R x y = some e ↔ T R x y e := by
    intro R x y e
    rw [d3, mem_terms]
    constructor
    · rintro (h | ⟨i, j, hij, hj, rfl, rfl, rfl, h1, h2, rfl⟩ | ⟨e', h, rfl⟩)
      · exact .inl h
      · exact .inr ⟨i, j, by omega, by omega, hj, rfl, rfl, rfl, h1, h2, rfl⟩
      · obtain ⟨i, j, hij, hj, hR, rfl, rfl, h1, h2, rfl⟩ := (mem_terms _ _ _ _).1 h
        refine .inr ⟨j, i, by omega, hj, by omega, by rw [← neg_neg R, hR]; simp, rfl, rfl, h1.symm, ?_, ?_⟩
        · rw [ls_star]; simpa using h2
        · rw [ls_star i j, ← h1]; simp
    · rintro (h | ⟨i, j, h0, hi, hj, rfl, rfl, rfl, h1, h2, rfl⟩)
      · exact .inl h
      · rcases Nat.lt_or_ge i j with hij | hij
        · exact .inr (.inl ⟨i, j, hij, hj, rfl, rfl, rfl, h1, h2, rfl⟩)
        · refine .inr (.inr ⟨star (lambda (atom (i % 11)) * ls i j), ?_, by simp⟩)
          rw [mem_terms]
          refine ⟨j, i, by omega, hi, by simp, rfl, rfl, h1.symm, ?_, ?_⟩
          · rw [ls_star]; simpa using h2
          · rw [ls_star i j, ← h1]; simp
  refine ⟨{ c with hops := h' }, ?_, b2, b3, b5, hcn, ?_, b7, b8, horb, ?_⟩
  · unfold mos2Soc
    rw [mo_ops]
    simp only [bind, Except.bind]
    have a1' := a1
    rw [a1']
    dsimp only
    have a2' : skHoppings H HS tree (fun l => skLabel (mosLm l)) (fun _ => some mosPar) 2 2 0 0.32 s0 = .ok s1 := a2
    rw [a2']
    dsimp only
    rw [b1]
    dsimp only
    rw [c1]
    dsimp only
    rw [c2]
    dsimp only
    rw [b4]
    exact hsoc
  · refine ⟨d2, fun R i j e h => ?_⟩
    have h := (hall R i j e).1 (get_of_look d2 h)
    rcases h with h | ⟨i, j, h0, hi, hj, rfl, rfl, rfl, h1, h2, rfl⟩
    · exact rng_of_get hwf h
    · have : ({ c with hops := h' } : PrimCell ℝ ℂ (List String)).numOrb = 22 := hcn
      rw [this]
      refine ⟨by omega, by omega, ?_⟩
      rintro ⟨-, h⟩
      exact h0 (by exact_mod_cast h)
  · intro R x y hx hy
    have h0 := hget R x y hx hy
    unfold hopping
    rcases hg : IntraHop.get h' R x y with _ | e
    · have hno : ∀ e, ¬ T R x y e := fun e h => by
        rw [(hall R x y e).2 h] at hg
        simp at hg
      split_ifs at h0 ⊢ with h1 h2
      · exact absurd (.inl h0) (hno _)
      · refine absurd (.inr ⟨x, y, ?_, hx, hy, h2.1, rfl, rfl, h2.2.1, h2.2.2, rfl⟩) (hno _)
        rintro rfl
        exact h2.2.2 (ls_self x)
      · rfl
    · rcases (hall R x y e).1 hg with h | ⟨i, j, h1, hi, hj, rfl, h5, h6, h2, h3, rfl⟩
      · rw [h0] at h
        split_ifs at h ⊢ with h1
        · exact h.symm
      · obtain rfl : x = i := by exact_mod_cast h5
        obtain rfl : y = j := by exact_mod_cast h6
        rw [if_neg, if_pos ⟨rfl, h2, h3⟩]
        rintro ⟨-, -, hb⟩
        exact not_bond_zero _ (Nat.mod_lt _ (by norm_num)) _ (Nat.mod_lt _ (by norm_num)) h2 hb

end Verif.Materials
